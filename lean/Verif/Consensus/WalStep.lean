import Verif.Consensus.WalInv

/-! # Every step keeps the invariant of the write-ahead log -/

namespace Verif.Wal

section
variable {crc : Bytes → UInt32} {cfg : Config}

theorem write_up (U : Up crc s h older t tf buf) {p : Bytes} (hp : p.length < 2 ^ 32) (e : s.write crc p = some s') :
    Up crc s' h older (t ++ [p]) tf (buf ++ frame crc p) := by
  simp only [State.write, U.writer, Option.some.injEq] at e
  subst e
  obtain ⟨m, hm, h1, h2⟩ := U.syn
  refine ⟨⟨U.disk, ?_, ?_, ?_, U.full, U.data, ?_, ⟨m, ?_, ?_, ?_⟩, U.old⟩, rfl, ?_, U.seen⟩
  · show (s.log ++ [p]).drop s.gone = _
    rw [List.drop_append_of_le_length U.gone, U.log, List.append_assoc]
  · show s.gone ≤ (s.log ++ [p]).length
    have := U.gone; simp; omega
  · intro q hq
    rcases List.mem_append.mp hq with e | e
    · exact U.short q e
    · simp at e; rw [e]; exact hp
  · exact U.pre.trans (by rw [frames_append]; exact List.prefix_append _ _)
  · simp; omega
  · rw [List.take_append_of_le_length hm]; exact h1
  · show s.synced + (t ++ [p]).length ≤ (s.log ++ [p]).length + m
    simp; omega
  · rw [← List.append_assoc, U.buf, frames_append]; simp [frames]

theorem spill_up (U : Up crc s h older t tf buf) {k : ℕ} (e : s.spill k = some s') :
    Up crc s' h older t ⟨tf.data ++ buf.take k, tf.synced⟩ (buf.drop k) := by
  simp only [State.spill, U.writer, Option.some.injEq] at e
  subst e
  have hb : (tf.data ++ buf.take k) ++ buf.drop k = frames crc t := by
    rw [List.append_assoc, List.take_append_drop, U.buf]
  refine ⟨⟨?_, U.log, U.gone, U.short, U.full, ?_, ?_, U.syn, U.old⟩, rfl, hb, ?_⟩
  · dsimp only
    rw [U.disk]
    have := modify_last (older.map (whole crc)) tf (fun f => { f with data := f.data ++ buf.take k }) h
    rw [List.length_map] at this
    exact this
  · have := U.data
    show tf.synced ≤ (tf.data ++ buf.take k).length
    simp; omega
  · exact ⟨_, hb⟩
  · intro i hi
    obtain ⟨a, b, c⟩ := U.seen i hi
    refine ⟨a, b, ?_⟩
    show _ ≤ (tf.data ++ buf.take k).length
    simp; omega

theorem sync_up (U : Up crc s h older t tf buf) (e : s.sync = some s') :
    Up crc s' h older t (whole crc t) [] ∧ s'.synced = s'.log.length ∧ s'.log = s.log ∧ s'.gone = s.gone ∧
      s'.seen = s.seen := by
  simp only [State.sync, U.writer, Option.some.injEq] at e
  subst e
  have hl : tf.data.length + buf.length = (frames crc t).length := by rw [← U.buf, List.length_append]
  have hlen := log_length U.toFiles
  refine ⟨⟨⟨?_, U.log, U.gone, U.short, U.full, le_refl _, List.prefix_refl _, ⟨t.length, le_refl _, ?_, ?_⟩,
    (by show s.gone + older.flatten.length ≤ s.log.length; omega)⟩, rfl, by simp [whole], ?_⟩, rfl, rfl, rfl, rfl⟩
  · dsimp only
    rw [U.disk]
    have := modify_last (older.map (whole crc)) tf (fun f => ⟨f.data ++ buf, f.data.length + buf.length⟩) h
    rw [List.length_map] at this
    rw [this, U.buf, hl]; rfl
  · rw [List.take_length]; exact le_refl _
  · show s.log.length + t.length ≤ s.log.length + t.length
    exact le_refl _
  · intro i hi
    obtain ⟨a, b, c⟩ := U.seen i hi
    refine ⟨a, b, ?_⟩
    show _ ≤ (frames crc t).length
    omega

theorem sync_some (U : Up crc s h older t tf buf) : ∃ s', s.sync = some s' := by
  simp [State.sync, U.writer]

theorem shift_up (U : Up crc s h older t tf buf) (ht : t ≠ []) (e : s.shift = some s') (hs : s'.seen = none ∨ True) :
    Up crc { s' with seen := none } h (older ++ [t]) [] ⟨[], 0⟩ [] ∧ s'.synced = s'.log.length ∧ s'.log = s.log ∧
      s'.gone = s.gone := by
  unfold State.shift at e
  obtain ⟨s1, e1⟩ := sync_some U
  obtain ⟨U1, hy, hl, hg, -⟩ := sync_up U e1
  rw [e1] at e
  dsimp only at e
  rw [U1.writer] at e
  dsimp only at e
  rw [Option.some.injEq] at e
  subst e
  refine ⟨⟨⟨?_, ?_, U1.gone, U1.short, ?_, le_refl _, List.nil_prefix, ⟨0, le_refl _, by simp, ?_⟩, ?_⟩,
    ?_, rfl, ?_⟩, hy, hl, hg⟩
  · show create s1.disk _ = _
    rw [U1.disk]
    have := create_new (older.map (whole crc) ++ [whole crc t]) h
    rw [show h + (older.map (whole crc) ++ [whole crc t]).length = h + older.length + 1 by simp; omega] at this
    rw [this]; simp
  · show s1.log.drop s1.gone = _
    rw [U1.log]; simp
  · intro rs hrs
    rcases List.mem_append.mp hrs with e | e
    · exact U1.full rs e
    · simp at e; rw [e]; exact ht
  · show s1.synced + 0 ≤ s1.log.length + 0
    omega
  · show s1.gone + (older ++ [t]).flatten.length ≤ s1.synced
    have := log_length U1.toFiles
    have e0 : (older ++ [t]).flatten = older.flatten ++ t := by simp
    rw [e0, List.length_append]; omega
  · show some _ = some _
    simp; omega
  · intro i hi; cases hi

theorem look_up (U : Up crc s h older t tf buf) (e : s.look = some s') : Up crc s' h older t tf buf := by
  simp only [State.look, U.writer, Option.some.injEq] at e
  subst e
  refine ⟨⟨U.disk, U.log, U.gone, U.short, U.full, U.data, U.pre, U.syn, U.old⟩, rfl, U.buf, ?_⟩
  intro i hi
  have hi' : readInfo s.disk = i := by simpa using hi
  rw [U.disk, readInfo_number] at hi'
  subst hi'
  refine ⟨rfl, ?_, le_refl _⟩
  dsimp only
  rw [List.map_append, List.sum_append, sum_sizes]; simp

/-- The oldest files are removed as long as the limit is exceeded; the last one never is. -/
theorem purge_up (limit : ℕ) : ∀ (older : List (List Bytes)) (n : ℕ) (total : ℤ) (h : ℕ) (s : State),
    Up crc s h older t tf buf → s.seen = none → older.length < n →
    total ≤ (frames crc older.flatten).length + limit → total ≤ (frames crc (s.log.drop s.gone)).length →
    ∃ s' h' older', State.purge crc n limit total h s = some s' ∧ Up crc s' h' older' t tf buf ∧ s'.log = s.log ∧
      s'.synced = s.synced ∧ s.gone ≤ s'.gone ∧
      (s'.gone = s.gone ∨ ∃ j, s.gone ≤ j ∧ j < s'.gone ∧ limit < (frames crc (s.log.drop j)).length) := by
  intro older
  induction older with
  | nil =>
    intro n total h s U hs hn ht ht2
    refine ⟨s, h, [], ?_, U, rfl, rfl, le_refl _, Or.inl rfl⟩
    obtain ⟨n, rfl⟩ : ∃ k, n = k + 1 := ⟨n - 1, by omega⟩
    simp only [List.flatten_nil, frames_nil, List.length_nil] at ht
    rw [State.purge, if_neg (by push_cast at ht; omega)]
  | cons rs older ih =>
    intro n total h s U hs hn ht ht2
    obtain ⟨n, rfl⟩ : ∃ k, n = k + 1 := ⟨n - 1, by omega⟩
    rw [State.purge]
    by_cases hover : (limit : ℤ) < total
    · rw [if_pos hover]
      have hf : find s.disk h = some (whole crc rs) := by
        rw [U.disk]
        have := find_number (List.map (whole crc) (rs :: older) ++ [tf]) h 0
        simpa using this
      rw [hf]
      dsimp only
      have hcount : (readAll crc (whole crc rs).data).1 = rs := by
        have := readAll_frames (crc := crc) rs (short_old U.toFiles (by simp)) torn_nil
        rw [List.append_nil] at this
        show (readAll crc (frames crc rs)).1 = rs
        rw [this]
      rw [hcount]
      have hrs := U.full rs (by simp)
      have hpos := List.length_pos_iff.mpr hrs
      have hlog : s.log.drop s.gone = rs ++ (older.flatten ++ t) := by rw [U.log]; simp
      have hlog2 : s.log.drop (s.gone + rs.length) = older.flatten ++ t := by
        rw [← List.drop_drop, hlog, List.drop_left' rfl]
      have hg2 : s.gone + rs.length ≤ s.log.length := by
        have := log_length U.toFiles
        simp at this; omega
      have U2 : Up crc { s with disk := remove s.disk h, gone := s.gone + rs.length } (h + 1) older t tf buf := by
        refine ⟨⟨?_, hlog2, hg2, U.short, fun r hr => U.full r (List.mem_cons_of_mem _ hr), U.data, U.pre, U.syn,
          (by
            have := U.old
            rw [List.flatten_cons, List.length_append] at this
            show s.gone + rs.length + older.flatten.length ≤ s.synced
            omega)⟩, ?_, U.buf, ?_⟩
        · show remove s.disk h = _
          rw [U.disk, List.map_cons, List.cons_append, remove_head]
        · show s.writer = _
          rw [U.writer]; simp; omega
        · intro i hi
          have : s.seen = some i := hi
          rw [hs] at this; cases this
      have hfl : (whole crc rs).data.length = (frames crc rs).length := rfl
      obtain ⟨s', h', older', e, U', l1, l2, l3, l4⟩ := ih n (total - ((whole crc rs).data.length : ℕ)) (h + 1) _ U2 hs
        (by simp at hn; omega)
        (by
          rw [hfl]
          rw [List.flatten_cons, frames_append, List.length_append] at ht
          push_cast at ht; omega)
        (by
          show _ ≤ ((frames crc (s.log.drop (s.gone + rs.length))).length : ℤ)
          rw [hfl, hlog2]
          rw [hlog, frames_append, List.length_append] at ht2
          push_cast at ht2; omega)
      refine ⟨s', h', older', e, U', l1, l2, ?_, Or.inr ?_⟩
      · have : s.gone + rs.length ≤ s'.gone := l3
        omega
      · have l3' : s.gone + rs.length ≤ s'.gone := l3
        rcases l4 with e4 | ⟨j, j1, j2, j3⟩
        · exact ⟨s.gone, le_refl _, by omega, by omega⟩
        · have j1' : s.gone + rs.length ≤ j := j1
          exact ⟨j, by omega, j2, j3⟩
    · rw [if_neg hover]
      exact ⟨s, h, rs :: older, rfl, U, rfl, rfl, le_refl _, Or.inl rfl⟩

theorem clear_seen (U : Up crc s h older t tf buf) : Up crc { s with seen := none } h older t tf buf :=
  ⟨⟨U.disk, U.log, U.gone, U.short, U.full, U.data, U.pre, U.syn, U.old⟩, U.writer, U.buf, fun i hi => by cases hi⟩

/-- The housekeeper never fails, and loses records only if there are too many bytes. -/
theorem house_up (hc : cfg.fileLimit ≤ cfg.totalLimit) (U : Up crc s h older t tf buf) (hseen : s.seen ≠ none) (due : Bool) :
    ∃ s' h' older' t' tf' buf', s.house crc cfg due = some s' ∧ Up crc s' h' older' t' tf' buf' ∧ s'.log = s.log ∧
      s.synced ≤ s'.synced ∧ s.gone ≤ s'.gone ∧
      (s'.gone = s.gone ∨ ∃ j, s.gone ≤ j ∧ j < s'.gone ∧ cfg.totalLimit < (frames crc (s.log.drop j)).length) := by
  obtain ⟨i, hi⟩ := Option.ne_none_iff_exists'.mp hseen
  obtain ⟨i1, i2, i3⟩ := U.seen i hi
  have hsyn : s.synced ≤ s.log.length := by
    obtain ⟨m, hm, h1, h2⟩ := U.syn; omega
  have hdata : tf.data.length ≤ (frames crc t).length := by rw [← U.buf]; simp
  have htot : (i.total : ℤ) ≤ (frames crc (s.log.drop s.gone)).length := by
    rw [U.log, frames_append, List.length_append, i2]; push_cast; omega
  unfold State.house
  rw [hi]
  dsimp only
  rw [i1]
  by_cases hov : cfg.fileLimit < i.tailSize
  · rw [if_pos hov]
    obtain ⟨s1, e1⟩ : ∃ s1, s.shift = some s1 := by
      obtain ⟨s0, e0⟩ := sync_some U
      have := (sync_up U e0).1.writer
      unfold State.shift
      rw [e0]; dsimp only; rw [this]; exact ⟨_, rfl⟩
    have ht : t ≠ [] := by
      rintro rfl
      rw [frames_nil, List.length_nil] at hdata; omega
    obtain ⟨U1, l1, l2, l3⟩ := shift_up U ht e1 (Or.inr trivial)
    rw [e1]
    dsimp only
    have hlen : s1.disk.length = older.length + 2 := by
      have : s1.disk = number h ((older ++ [t]).map (whole crc) ++ [⟨[], 0⟩]) := U1.disk
      rw [this, number_length]; simp
    obtain ⟨s', h', older', e, U', k1, k2, k3, k4⟩ := purge_up cfg.totalLimit (older ++ [t]) s1.disk.length i.total h _ U1 rfl
      (by rw [hlen]; simp)
      (by
        have e0 : (older ++ [t]).flatten = older.flatten ++ t := by simp
        rw [e0, frames_append, List.length_append, i2]; push_cast; omega)
      (by show _ ≤ ((frames crc (s1.log.drop s1.gone)).length : ℤ); rw [l2, l3]; exact htot)
    refine ⟨s', h', older', _, _, _, e, U', ?_, ?_, ?_, ?_⟩
    · rw [k1]; exact l2
    · rw [k2]; show s.synced ≤ s1.synced; rw [l1, l2]; exact hsyn
    · have : s1.gone ≤ s'.gone := k3
      omega
    · have k4' : s'.gone = s1.gone ∨ ∃ j, s1.gone ≤ j ∧ j < s'.gone ∧
        cfg.totalLimit < (frames crc (s1.log.drop j)).length := k4
      rw [l2, l3] at k4'
      exact k4'
  · rw [if_neg hov]
    have common : ∀ (s1 : State) (tf1 : File) (buf1 : Bytes), Up crc s1 h older t tf1 buf1 → s1.log = s.log → s1.gone = s.gone →
        s.synced ≤ s1.synced →
        ∃ s' h' older' t' tf' buf', State.purge crc s1.disk.length cfg.totalLimit i.total ((some h).getD 0)
            { s1 with seen := none } = some s' ∧ Up crc s' h' older' t' tf' buf' ∧ s'.log = s.log ∧
          s.synced ≤ s'.synced ∧ s.gone ≤ s'.gone ∧
          (s'.gone = s.gone ∨ ∃ j, s.gone ≤ j ∧ j < s'.gone ∧
            cfg.totalLimit < (frames crc (s.log.drop j)).length) := by
      intro s1 tf1 buf1 U1 l2 l3 l4
      have hlen : s1.disk.length = older.length + 1 := by rw [U1.disk, number_length]; simp
      obtain ⟨s', h', older', e, U', k1, k2, k3, k4⟩ := purge_up cfg.totalLimit older s1.disk.length i.total h _
        (clear_seen U1) rfl (by rw [hlen]; omega) (by rw [i2]; push_cast; omega)
        (by show _ ≤ ((frames crc (s1.log.drop s1.gone)).length : ℤ); rw [l2, l3]; exact htot)
      refine ⟨s', h', older', _, _, _, e, U', ?_, ?_, ?_, ?_⟩
      · rw [k1]; exact l2
      · rw [k2]; exact l4
      · have : s1.gone ≤ s'.gone := k3
        omega
      · have k4' : s'.gone = s1.gone ∨ ∃ j, s1.gone ≤ j ∧ j < s'.gone ∧
          cfg.totalLimit < (frames crc (s1.log.drop j)).length := k4
        rw [l2, l3] at k4'
        exact k4'
    by_cases hdue : due = true
    · rw [if_pos hdue]
      obtain ⟨s1, e1⟩ := sync_some U
      obtain ⟨U1, l1, l2, l3, -⟩ := sync_up U e1
      rw [e1]
      exact common s1 _ _ U1 l2 l3 (by rw [l1, l2]; exact hsyn)
    · rw [if_neg hdue]
      exact common s _ _ U rfl rfl (le_refl _)

theorem close_down (U : Up crc s h older t tf buf) (e : s.close = some s') :
    Down crc s' h older t (whole crc t) ∧ s'.log = s.log ∧ s'.gone = s.gone ∧ s'.synced = s'.log.length := by
  obtain ⟨s1, e1⟩ := sync_some U
  obtain ⟨U1, l1, l2, l3, -⟩ := sync_up U e1
  simp only [State.close, e1, Option.some.injEq] at e
  subst e
  exact ⟨⟨⟨U1.disk, U1.log, U1.gone, U1.short, U1.full, U1.data, U1.pre, U1.syn, U1.old⟩, rfl, rfl⟩, l2, l3, l1⟩

theorem crash_down (F : Files crc s h older t tf) {keep : ℕ → ℕ} (hk : s.Keeps keep) :
    Down crc (s.crash keep) h older t ⟨tf.data.take (keep (h + older.length)), tf.synced⟩ := by
  have hlast : tf.synced ≤ keep (h + older.length) := by
    have := hk (h + older.length, tf) (by
      rw [F.disk, number_append]
      apply List.mem_append_right
      rw [List.length_map]; simp [number])
    exact this
  have hd := F.data
  refine ⟨⟨?_, F.log, F.gone, F.short, F.full, ?_, (List.take_prefix _ _).trans F.pre, F.syn, F.old⟩, rfl, rfl⟩
  · show s.disk.map _ = _
    have key : ∀ (a : List (List Bytes)) (h : ℕ), (∀ x ∈ number h (a.map (whole crc) ++ [tf]), x.2.synced ≤ keep x.1) →
        (number h (a.map (whole crc) ++ [tf])).map (fun x => (x.1, (⟨x.2.data.take (keep x.1), x.2.synced⟩ : File))) =
          number h (a.map (whole crc) ++ [⟨tf.data.take (keep (h + a.length)), tf.synced⟩]) := by
      intro a
      induction a with
      | nil => intro h _; simp [number]
      | cons rs a ih =>
        intro h hx
        have h0 : (frames crc rs).length ≤ keep h := hx (h, whole crc rs) (by simp [number])
        have := ih (h + 1) (fun x hx' => hx x (by
          rw [List.map_cons, List.cons_append, number]; exact List.mem_cons_of_mem _ hx'))
        rw [List.map_cons, List.cons_append, number, List.map_cons, this, List.cons_append, number]
        rw [show h + 1 + a.length = h + (rs :: a).length by simp; omega]
        congr 2
        show (⟨(frames crc rs).take (keep h), (frames crc rs).length⟩ : File) = whole crc rs
        rw [List.take_of_length_le h0]; rfl
    rw [F.disk]
    apply key
    rw [← F.disk]; exact hk
  · show tf.synced ≤ (tf.data.take (keep (h + older.length))).length
    rw [List.length_take]; omega

theorem start_fresh (hf : Fresh s) (e : s.start crc = some s') :
    Up crc s' 0 [] [] ⟨[], 0⟩ [] ∧ s'.log = [] ∧ s'.synced = 0 := by
  obtain ⟨h1, h2, h3, h4, h5, h6⟩ := hf
  have hr : recover crc [] = ([], none) := by
    simp [recover, openRead, readInfo]
  simp only [State.start, h2, h1, h4, h5, h6, hr, Option.some.injEq] at e
  subst e
  refine ⟨⟨⟨?_, rfl, le_refl _, ?_, by simp, le_refl _, List.nil_prefix, ⟨0, le_refl _, by simp, by simp⟩, by simp⟩,
    ?_, rfl, ?_⟩, rfl, rfl⟩
  · simp [openWrite, create, readInfo, find, number]
  · intro p hp; simp at hp
  · simp [openWrite, readInfo]
  · intro i hi; cases hi

theorem lucky_last (F : Files crc s h older t tf) (hl : Lucky crc s.disk) {k : ℕ} {tt : Bytes}
    (hd : tf.data = frames crc (t.take k) ++ tt) (ht : Torn crc tt) :
    tt = [] ∨ (tt.length ≠ 8 ∧ (t.take k = [] → older = [])) := by
  have hmem : (h + older.length, tf) ∈ s.disk := by
    rw [F.disk, number_append]
    apply List.mem_append_right
    rw [List.length_map]; simp [number]
  have := hl _ hmem (by
    intro y hy
    rw [F.disk] at hy
    have := number_idx hy
    simp at this ⊢; omega) (t.take k) tt (fun p hp => short_t F p (List.mem_of_mem_take hp)) hd ht
  rcases this with e | ⟨e1, e2⟩
  · exact Or.inl e
  · refine Or.inr ⟨e1, fun h0 => ?_⟩
    have := e2 h0
    rw [F.disk, number_length] at this
    simp at this
    exact this

theorem start_down (D : Down crc s h older t tf) (hl : Lucky crc s.disk) (e : s.start crc = some s') :
    ∃ k tf', k ≤ t.length ∧ Up crc s' h older (t.take k) tf' [] ∧ s'.log = s.log.take s.gone ++ older.flatten ++ t.take k ∧
      s'.gone = s.gone ∧ s'.synced = s.synced ∧ s.synced ≤ s'.log.length ∧
      (tf.data = frames crc t → k = t.length) := by
  obtain ⟨k, tt, hk, hd, ht, hm, r1, r2, r3, r4⟩ := recover_files D.toFiles
  have hlk := lucky_last D.toFiles hl hd ht
  obtain ⟨m, hmt, m1, m2⟩ := D.syn
  have hmk : m ≤ k := hm m hmt (le_trans m1 D.data)
  have hdisk : ∃ tf', (recover crc s.disk).1 = number h (older.map (whole crc) ++ [tf']) ∧
      tf'.data = frames crc (t.take k) ∧ tf'.synced ≤ tf'.data.length ∧ (frames crc (t.take m)).length ≤ tf'.synced := by
    rcases hlk with e0 | ⟨e1, e2⟩
    · refine ⟨tf, by rw [r2 (Or.inl e0), D.disk], by rw [hd, e0, List.append_nil], D.data, m1⟩
    · by_cases e0 : tt = []
      · refine ⟨tf, by rw [r2 (Or.inl e0), D.disk], by rw [hd, e0, List.append_nil], D.data, m1⟩
      · have hg : t.take k ≠ [] ∨ older = [] := by
          by_cases h0 : t.take k = []
          · exact Or.inr (e2 h0)
          · exact Or.inl h0
        refine ⟨_, r3 e0 e1 hg, rfl, Nat.min_le_right _ _, ?_⟩
        show _ ≤ min tf.synced _
        refine le_min m1 ?_
        have : (t.take m) <+: (t.take k) := List.take_prefix_take_left hmk
        obtain ⟨u, hu⟩ := this
        rw [← hu, frames_append]; simp
  obtain ⟨tf', d1, d2, d3, d4⟩ := hdisk
  have hlen := log_length D.toFiles
  have hlg : (s.log.take s.gone ++ older.flatten ++ t.take k).length = s.gone + older.flatten.length + k := by
    have := D.gone
    simp only [List.length_append, List.length_take]; omega
  simp only [State.start, D.writer, r1, d1, openWrite_number, Option.some.injEq, Option.getD_some] at e
  subst e
  refine ⟨k, tf', hk, ⟨⟨rfl, ?_, ?_, ?_, D.full, d3, ?_, ⟨m, ?_, ?_, ?_⟩, D.old⟩, ?_, ?_, ?_⟩, ?_, rfl, rfl, ?_, ?_⟩
  · show (s.log.take s.gone ++ (older.flatten ++ t.take k)).drop s.gone = _
    rw [List.drop_left' (by have := D.gone; simp; omega)]
  · show s.gone ≤ (s.log.take s.gone ++ (older.flatten ++ t.take k)).length
    rw [← List.append_assoc, hlg]; omega
  · intro p hp
    have hp' : p ∈ s.log.take s.gone ++ (older.flatten ++ t.take k) := hp
    rcases List.mem_append.mp hp' with e | e
    · exact D.short p (List.mem_of_mem_take e)
    · apply short_of D.toFiles p
      rcases List.mem_append.mp e with e | e
      · exact List.mem_append_left _ e
      · exact List.mem_append_right _ (List.mem_of_mem_take e)
  · rw [d2]; exact List.prefix_refl _
  · simp; omega
  · rw [List.take_take, Nat.min_eq_left hmk]; exact d4
  · show s.synced + (t.take k).length ≤ (s.log.take s.gone ++ (older.flatten ++ t.take k)).length + m
    rw [← List.append_assoc, hlg, List.length_take]; omega
  · show some _ = some _
    simp
  · rw [d2]; simp
  · intro i hi; cases hi
  · show s.log.take s.gone ++ (older.flatten ++ t.take k) = _
    rw [List.append_assoc]
  · show s.synced ≤ (s.log.take s.gone ++ (older.flatten ++ t.take k)).length
    rw [← List.append_assoc, hlg]; omega
  · intro hw
    have := hm t.length (le_refl _) (by rw [List.take_length, hw])
    omega

/-- The records a step cannot take away: those that were synced. -/
def Keeps' (s s' : State) : Prop :=
  s.synced ≤ s'.synced ∧ s.log.take s.synced <+: s'.log ∧ s.gone ≤ s'.gone

theorem keeps_same {s s' : State} (h1 : s.synced ≤ s'.synced) (h2 : s'.log = s.log) (h3 : s.gone ≤ s'.gone) : Keeps' s s' :=
  ⟨h1, by rw [h2]; exact List.take_prefix _ _, h3⟩

theorem synced_le (F : Files crc s h older t tf) : s.synced ≤ s.log.length := by
  obtain ⟨m, hm, h1, h2⟩ := F.syn; omega

theorem step_inv (hc : cfg.fileLimit ≤ cfg.totalLimit) (hi : Inv crc s) (e : Step crc cfg s s') :
    Inv crc s' ∧ Keeps' s s' := by
  have noWriter : ∀ {s : State}, Inv crc s → s.writer ≠ none → ∃ h older t tf buf, Up crc s h older t tf buf := by
    intro s hi hw
    rcases hi with hf | hu | ⟨h, older, t, tf, D, -⟩
    · exact absurd hf.2.1 hw
    · exact hu
    · exact absurd D.writer hw
  cases e with
  | write p hp e =>
    obtain ⟨h, older, t, tf, buf, U⟩ := noWriter hi (by intro hw; simp [State.write, hw] at e)
    refine ⟨Or.inr (Or.inl ⟨_, _, _, _, _, write_up U hp e⟩), ?_⟩
    simp only [State.write, U.writer, Option.some.injEq] at e
    subst e
    exact ⟨le_refl _, (List.take_prefix _ _).trans (List.prefix_append _ _), le_refl _⟩
  | spill k e =>
    obtain ⟨h, older, t, tf, buf, U⟩ := noWriter hi (by intro hw; simp [State.spill, hw] at e)
    refine ⟨Or.inr (Or.inl ⟨_, _, _, _, _, spill_up U e⟩), ?_⟩
    simp only [State.spill, U.writer, Option.some.injEq] at e
    subst e
    exact keeps_same (le_refl _) rfl (le_refl _)
  | sync e =>
    obtain ⟨h, older, t, tf, buf, U⟩ := noWriter hi (by intro hw; simp [State.sync, hw] at e)
    obtain ⟨U1, l1, l2, l3, -⟩ := sync_up U e
    refine ⟨Or.inr (Or.inl ⟨_, _, _, _, _, U1⟩), keeps_same ?_ l2 (by omega)⟩
    rw [l1, l2]; exact synced_le U.toFiles
  | look e =>
    obtain ⟨h, older, t, tf, buf, U⟩ := noWriter hi (by intro hw; simp [State.look, hw] at e)
    refine ⟨Or.inr (Or.inl ⟨_, _, _, _, _, look_up U e⟩), ?_⟩
    simp only [State.look, U.writer, Option.some.injEq] at e
    subst e
    exact keeps_same (le_refl _) rfl (le_refl _)
  | house due e =>
    have hs : s.seen ≠ none := by intro hn; simp [State.house, hn] at e
    obtain ⟨h, older, t, tf, buf, U⟩ : ∃ h older t tf buf, Up crc s h older t tf buf := by
      rcases hi with hf | hu | ⟨h, older, t, tf, D, -⟩
      · exact absurd hf.2.2.1 hs
      · exact hu
      · exact absurd D.seen hs
    obtain ⟨s1, h', older', t', tf', buf', e1, U1, l1, l2, l3, -⟩ := house_up hc U hs due
    rw [e] at e1
    cases e1
    exact ⟨Or.inr (Or.inl ⟨_, _, _, _, _, U1⟩), keeps_same l2 l1 l3⟩
  | close e =>
    obtain ⟨h, older, t, tf, buf, U⟩ := noWriter hi (by intro hw; simp [State.close, State.sync, hw] at e)
    obtain ⟨D, l1, l2, l3⟩ := close_down U e
    refine ⟨Or.inr (Or.inr ⟨_, _, _, _, D, ?_⟩), keeps_same ?_ l1 (by omega)⟩
    · intro x hx hmax rs tt hrs hd ht
      left
      -- the last file is whole
      have hmem : (h + older.length, whole crc t) ∈ s'.disk := by
        rw [D.disk, number_append]
        apply List.mem_append_right
        rw [List.length_map]; simp [number]
      have hxi : x = (h + older.length, whole crc t) := by
        have hle := hmax _ hmem
        rw [D.disk, number_append] at hx
        rcases List.mem_append.mp hx with e | e
        · have := number_idx e
          simp at this hle; omega
        · rw [List.length_map] at e
          simpa [number] using e
      subst hxi
      have hd' : frames crc t = frames crc rs ++ tt := hd
      have r1 := readAll_frames (crc := crc) t (short_t D.toFiles) torn_nil
      have r2 := readAll_frames (crc := crc) rs hrs ht
      rw [List.append_nil, hd', r2] at r1
      have : (frames crc rs).length = (frames crc t).length := by
        have := congrArg (fun x => x.2.2) r1
        rw [hd']
        simpa using this
      have h3 := congrArg List.length hd'
      rw [List.length_append] at h3
      exact List.length_eq_zero_iff.mp (by omega)
    · rw [l3, l1]; exact synced_le U.toFiles
  | crash keep hk hl =>
    rcases hi with hf | ⟨h, older, t, tf, buf, U⟩ | ⟨h, older, t, tf, D, -⟩
    · refine ⟨Or.inl ?_, keeps_same (le_refl _) rfl (le_refl _)⟩
      obtain ⟨h1, h2, h3, h4, h5, h6⟩ := hf
      exact ⟨by simp [State.crash, h1], rfl, rfl, h4, h5, h6⟩
    · exact ⟨Or.inr (Or.inr ⟨_, _, _, _, crash_down U.toFiles hk, hl⟩), keeps_same (le_refl _) rfl (le_refl _)⟩
    · exact ⟨Or.inr (Or.inr ⟨_, _, _, _, crash_down D.toFiles hk, hl⟩), keeps_same (le_refl _) rfl (le_refl _)⟩
  | start e =>
    rcases hi with hf | ⟨h, older, t, tf, buf, U⟩ | ⟨h, older, t, tf, D, hl⟩
    · obtain ⟨U1, l1, l2⟩ := start_fresh hf e
      obtain ⟨h1, h2, h3, h4, h5, h6⟩ := hf
      exact ⟨Or.inr (Or.inl ⟨_, _, _, _, _, U1⟩), by rw [h6]; omega, by rw [h4]; simp, by rw [h5]; omega⟩
    · simp [State.start, U.writer] at e
    · obtain ⟨k, tf', hk, U1, l1, l2, l3, l4, -⟩ := start_down D hl e
      refine ⟨Or.inr (Or.inl ⟨_, _, _, _, _, U1⟩), by omega, ?_, by omega⟩
      have hpre : s'.log <+: s.log := by
        rw [l1]
        have e0 : s.log = s.log.take s.gone ++ older.flatten ++ t := by
          rw [List.append_assoc, ← D.log, List.take_append_drop]
        conv_rhs => rw [e0]
        apply List.prefix_append_right_inj _ |>.mpr
        exact List.take_prefix _ _
      exact List.prefix_of_prefix_length_le (List.take_prefix _ _) hpre (by rw [List.length_take]; omega)

theorem steps_inv (hc : cfg.fileLimit ≤ cfg.totalLimit) (hi : Inv crc s) (e : Steps crc cfg s s') : Inv crc s' ∧ Keeps' s s' := by
  induction e with
  | refl => exact ⟨hi, keeps_same (le_refl _) rfl (le_refl _)⟩
  | @tail s1 s2 _ e ih =>
    obtain ⟨h1, h2, h3, h4⟩ := ih
    obtain ⟨k1, k2, k3, k4⟩ := step_inv hc h1 e
    refine ⟨k1, by omega, ?_, by omega⟩
    -- the synced records of `s` are synced records of `s1`
    have : s.log.take s.synced <+: s1.log.take s1.synced := by
      apply List.prefix_of_prefix_length_le h3 (List.take_prefix _ _)
      rw [List.length_take, List.length_take]
      have := h3.length_le
      rw [List.length_take] at this
      omega
    exact this.trans k3

theorem reach_inv (hc : cfg.fileLimit ≤ cfg.totalLimit) (h : Reach crc cfg s) : Inv crc s :=
  (steps_inv hc (Or.inl ⟨rfl, rfl, rfl, rfl, rfl, rfl⟩) h).1

end

end Verif.Wal
