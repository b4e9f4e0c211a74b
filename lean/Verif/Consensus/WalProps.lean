import Verif.Consensus.WalStep

/-!
# C59, C60: what the write-ahead log keeps over crashes

`Reach` and `Steps` are all histories of a log: writing, the buffer going to the file in pieces, `Sync`, the housekeeper, `Close`, crashes
that leave of every file any prefix with what was synced, and starts of the node.  `log` are the records written and not
lost in a crash, `gone` of them were in files removed by the housekeeper, `synced` of them are covered by a `Sync`.
-/

namespace Verif.Wal

section
variable {crc : Bytes → UInt32} {cfg : Config} {s s' : State}

theorem not_fresh (h : s.disk ≠ []) (hi : Inv crc s) : ∃ h older t tf, Files crc s h older t tf := by
  rcases hi with hf | ⟨h, older, t, tf, buf, U⟩ | ⟨h, older, t, tf, D, -⟩
  · exact absurd hf.1 h
  · exact ⟨_, _, _, _, U.toFiles⟩
  · exact ⟨_, _, _, _, D.toFiles⟩

theorem recover_crash (F : Files crc s h older t tf) {keep : ℕ → ℕ} (hk : s.Keeps keep) :
    ∃ n, s.synced ≤ n ∧ n ≤ s.log.length ∧
      (recover crc (s.crash keep).disk).2 = some ((s.log.take n).drop s.gone) := by
  have D := crash_down F hk
  obtain ⟨k, tt, hk1, hd, ht, hm, r1, -⟩ := recover_files D.toFiles
  obtain ⟨m, hmt, m1, m2⟩ := D.syn
  have hmk : m ≤ k := hm m hmt (le_trans m1 D.data)
  have hlen := log_length F
  refine ⟨s.gone + older.flatten.length + k, ?_, by omega, ?_⟩
  · have : s.synced + t.length ≤ s.log.length + m := m2
    omega
  · rw [r1]
    congr 1
    rw [List.drop_take, F.log]
    rw [show s.gone + older.flatten.length + k - s.gone = older.flatten.length + k by omega, List.take_append]
    rw [List.take_of_length_le (l := older.flatten) (by omega)]
    simp

/-- **C59.** At the start after any crash, wherever it has cut the log, the node reads a prefix of the records written, in
the order of writing and without a gap, with every record that was synced; only those in removed files are missing at the
beginning. -/
theorem C59_synced_survive (hc : cfg.fileLimit ≤ cfg.totalLimit) (h : Reach crc cfg s) (h0 : s.disk ≠ []) (keep : ℕ → ℕ)
    (hk : s.Keeps keep) :
    ∃ n, s.synced ≤ n ∧ n ≤ s.log.length ∧
      (recover crc (s.crash keep).disk).2 = some ((s.log.take n).drop s.gone) := by
  obtain ⟨_, _, _, _, F⟩ := not_fresh h0 (reach_inv hc h)
  exact recover_crash F hk

/-- **C59.** What is synced at one time is read at the start after any later crash, whatever has happened in
between. -/
theorem C59_forever (hc : cfg.fileLimit ≤ cfg.totalLimit) (h : Reach crc cfg s) (hs : Steps crc cfg s s') (h0 : s'.disk ≠ [])
    (keep : ℕ → ℕ) (hk : s'.Keeps keep) :
    ∃ all, s.log.take s.synced <+: all ∧ all <+: s'.log ∧
      (recover crc (s'.crash keep).disk).2 = some (all.drop s'.gone) := by
  obtain ⟨i1, i2, i3, i4⟩ := steps_inv hc (reach_inv hc h) hs
  obtain ⟨_, _, _, _, F⟩ := not_fresh h0 i1
  obtain ⟨n, n1, n2, n3⟩ := recover_crash F hk
  refine ⟨s'.log.take n, ?_, List.take_prefix _ _, n3⟩
  apply List.prefix_of_prefix_length_le i3 (List.take_prefix _ _)
  rw [List.length_take, List.length_take]; omega

/-- **C59.** After `Close` all records are read. -/
theorem C59_closed (hc : cfg.fileLimit ≤ cfg.totalLimit) (h : Reach crc cfg s) (e : s.close = some s') :
    (recover crc s'.disk).2 = some (s.log.drop s.gone) ∧ (recover crc s'.disk).1 = s'.disk := by
  obtain ⟨h, older, t, tf, buf, U⟩ : ∃ h older t tf buf, Up crc s h older t tf buf := by
    rcases reach_inv hc h with hf | hu | ⟨h, older, t, tf, D, -⟩
    · simp [State.close, State.sync, hf.2.1] at e
    · exact hu
    · simp [State.close, State.sync, D.writer] at e
  obtain ⟨D, l1, l2, l3⟩ := close_down U e
  obtain ⟨k, tt, hk1, hd, ht, hm, r1, r2, -⟩ := recover_files D.toFiles
  have hkt : k = t.length := by
    have := hm t.length (le_refl _) (by rw [List.take_length]; exact le_refl _)
    omega
  have htt : tt = [] := by
    rw [hkt, List.take_length] at hd
    have := congrArg List.length hd
    rw [List.length_append] at this
    exact List.length_eq_zero_iff.mp (by
      have h2 : (whole crc t).data.length = (frames crc t).length := rfl
      omega)
  refine ⟨?_, r2 (Or.inl htt)⟩
  rw [r1, hkt, List.take_length, U.log]

/-- **C59.** The recovery leaves a log that can be written on: after the start, a `Sync` covers all records, those read and those written
since. -/
theorem C59_start_keeps (hc : cfg.fileLimit ≤ cfg.totalLimit) (h : Reach crc cfg s) (e : s.start crc = some s') :
    ∃ rs, (recover crc s.disk).2.getD [] = rs ∧ s'.log = s.log.take s.gone ++ rs ∧ s'.log <+: s.log ∧
      s.synced ≤ s'.log.length ∧
      ∀ keep, s'.Keeps keep → ∃ n, s'.synced ≤ n ∧ n ≤ s'.log.length ∧
        (recover crc (s'.crash keep).disk).2 = some ((s'.log.take n).drop s'.gone) := by
  rcases reach_inv hc h with hf | ⟨h, older, t, tf, buf, U⟩ | ⟨h, older, t, tf, D, hl⟩
  · obtain ⟨U1, l1, l2⟩ := start_fresh hf e
    obtain ⟨h1, h2, h3, h4, h5, h6⟩ := hf
    refine ⟨_, rfl, ?_, by rw [l1]; exact List.nil_prefix, by rw [h6]; omega, fun keep hk => recover_crash U1.toFiles hk⟩
    have hr : recover crc s.disk = ([], none) := by rw [h1]; simp [recover, openRead, readInfo]
    rw [l1, h4, hr]; simp
  · simp [State.start, U.writer] at e
  · obtain ⟨k, tf', hk, U1, l1, l2, l3, l4, -⟩ := start_down D hl e
    have hlog : s'.log = s.log.take s.gone ++ (recover crc s.disk).2.getD [] := by
      simp only [State.start, D.writer, Option.some.injEq] at e
      subst e; rfl
    refine ⟨_, rfl, hlog, ?_, l4, fun keep hk => recover_crash U1.toFiles hk⟩
    rw [l1]
    have e0 : s.log = s.log.take s.gone ++ older.flatten ++ t := by
      rw [List.append_assoc, ← D.log, List.take_append_drop]
    conv_rhs => rw [e0]
    apply List.prefix_append_right_inj _ |>.mpr
    exact List.take_prefix _ _

/-- **C60.** The housekeeper never panics; it never takes a record that is not synced, and takes records only if from one of those it
takes on there are more bytes in the log than the limit. -/
theorem C60_housekeeping (hc : cfg.fileLimit ≤ cfg.totalLimit) (h : Reach crc cfg s) (hs : s.seen ≠ none) (due : Bool) :
    ∃ s', s.house crc cfg due = some s' ∧ s'.log = s.log ∧ s'.gone ≤ s'.synced ∧
      s.gone ≤ s'.gone ∧
      (s'.gone = s.gone ∨ ∃ j, s.gone ≤ j ∧ j < s'.gone ∧ cfg.totalLimit < (frames crc (s.log.drop j)).length) := by
  obtain ⟨h, older, t, tf, buf, U⟩ : ∃ h older t tf buf, Up crc s h older t tf buf := by
    rcases reach_inv hc h with hf | hu | ⟨h, older, t, tf, D, -⟩
    · exact absurd hf.2.2.1 hs
    · exact hu
    · exact absurd D.seen hs
  obtain ⟨s', h', older', t', tf', buf', e1, U1, l1, l2, l3, l4⟩ := house_up hc U hs due
  refine ⟨s', e1, l1, ?_, l3, l4⟩
  have := U1.old
  omega

theorem last_of (F : Files crc s h older t tf) {x : ℕ × File} (hx : x ∈ s.disk) (hmax : ∀ y ∈ s.disk, y.1 ≤ x.1) :
    x = (h + older.length, tf) := by
  have hmem : (h + older.length, tf) ∈ s.disk := by
    rw [F.disk, number_append]
    apply List.mem_append_right
    rw [List.length_map]; simp [number]
  have hle := hmax _ hmem
  rw [F.disk, number_append] at hx
  rcases List.mem_append.mp hx with e | e
  · have := number_idx e
    simp at this hle; omega
  · rw [List.length_map] at e
    simpa [number] using e

theorem find_remove (d : Disk) (i : ℕ) : find (remove d i) i = none := by
  unfold find remove
  rw [Option.map_eq_none_iff, List.find?_eq_none]
  intro x hx
  have := (List.mem_filter.mp hx).2
  simp at this ⊢
  exact this

/-- **C60** (a defect).  A crash just after the housekeeper has started a new file, with less than a header in it: the repair removes the file
before it, whose records are all synced, and keeps the torn one; the next start finds no record at all. -/
theorem C60_repair_removes_synced (hc : cfg.fileLimit ≤ cfg.totalLimit) (h : Reach crc cfg s) (keep : ℕ → ℕ)
    (hk : s.Keeps keep) (x : ℕ × File) (hx : x ∈ (s.crash keep).disk) (hmax : ∀ y ∈ (s.crash keep).disk, y.1 ≤ x.1)
    (h1 : x.2.data ≠ []) (h8 : x.2.data.length < 8) (h2 : 2 ≤ (s.crash keep).disk.length) :
    (∃ f, find s.disk (x.1 - 1) = some f ∧ f.synced = f.data.length ∧ f.data ≠ []) ∧
      find (recover crc (s.crash keep).disk).1 (x.1 - 1) = none ∧
      (recover crc (recover crc (s.crash keep).disk).1).2.getD [] = [] := by
  have hdl : (s.crash keep).disk.length = s.disk.length := by simp [State.crash]
  obtain ⟨h, older, t, tf, F⟩ := not_fresh (by
    intro e; rw [hdl, e] at h2; simp at h2) (reach_inv hc h)
  have D := crash_down F hk
  have hxe := last_of D.toFiles hx hmax
  generalize (⟨tf.data.take (keep (h + older.length)), tf.synced⟩ : File) = tf2 at D hxe
  subst hxe
  dsimp only at h1 h8 ⊢
  obtain ⟨k, tt, hk1, hd, ht, hm, r1, r2, r3, r4⟩ := recover_files D.toFiles
  have hk0 : t.take k = [] := by
    by_contra hne
    have : 8 ≤ (frames crc (t.take k)).length := by
      obtain ⟨p, l, e⟩ := List.exists_cons_of_ne_nil hne
      rw [e, frames_cons, List.length_append, frame_length]; omega
    have := congrArg List.length hd
    rw [List.length_append] at this
    omega
  rw [hk0, frames_nil, List.nil_append] at hd
  have ho : older ≠ [] := by
    rintro rfl
    rw [D.disk, number_length] at h2
    simp at h2
  have hrec := r4 (by rw [← hd]; exact h1) (by rw [← hd]; omega) hk0 ho
  obtain ⟨a, b, rfl⟩ : ∃ a b, older = a ++ [b] := ⟨_, _, (List.dropLast_concat_getLast ho).symm⟩
  have hi : h + (a ++ [b]).length - 1 = h + a.length := by simp
  rw [hi] at hrec ⊢
  refine ⟨⟨whole crc b, ?_, rfl, ?_⟩, ?_, ?_⟩
  · rw [F.disk, find_number]; simp
  · have hb := F.full b (by simp)
    obtain ⟨p, l, e⟩ := List.exists_cons_of_ne_nil hb
    intro h0
    have h0' : frames crc b = [] := h0
    have := congrArg List.length h0'
    rw [e, frames_cons, List.length_append, frame_length] at this
    simp at this
  · rw [hrec, find_remove]
  · -- the next start
    have hdisk : (recover crc (s.crash keep).disk).1 = number h (a.map (whole crc)) ++ [(h + a.length + 1, tf2)] := by
      rw [hrec, D.disk]
      rw [List.map_append, List.append_assoc, number_append]
      unfold remove
      rw [List.filter_append, List.filter_eq_self.mpr (by
        intro x hx
        have := number_idx hx
        rw [List.length_map] at this
        simp; omega)]
      congr 1
      simp [number]
    cases a with
    | nil =>
      have he : (recover crc (s.crash keep).disk).1 = number (h + 1) ([] ++ [tf2]) := by
        rw [hdisk]; simp [number]
      have ho2 : openRead (recover crc (s.crash keep).disk).1 = some (readInfo (recover crc (s.crash keep).disk).1, tt) := by
        rw [he, openRead_number]; simp [hd]
      have hr : readAll crc tt = ([], tornErr tt, 0) := by
        have := readAll_frames (crc := crc) [] (by simp) ht
        simpa using this
      generalize (recover crc (s.crash keep).disk).1 = d1 at ho2
      unfold recover
      rw [ho2]
      dsimp only
      rw [hr]
      split
      · rfl
      · dsimp only; split <;> rfl
    | cons c a =>
      have ho2 : openRead (recover crc (s.crash keep).disk).1 = none := by
        have hh : (recover crc (s.crash keep).disk).1.foldl minStep none = some h := by
          rw [hdisk, List.map_cons, number, List.cons_append, List.foldl_cons, List.foldl_append]
          show List.foldl minStep (List.foldl minStep (some h) _) _ = some h
          rw [minStep_number _ _ _ (by omega)]
          simp [minStep]; omega
        have hm2 : ((recover crc (s.crash keep).disk).1.foldl maxStep (0, 0)).1 = h + (c :: a).length + 1 := by
          rw [hdisk, List.foldl_append]
          obtain ⟨u, v, e⟩ : ∃ u v, List.map (whole crc) (c :: a) = u ++ [v] :=
            ⟨_, _, (List.dropLast_concat_getLast (by simp)).symm⟩
          have hlu : u.length = a.length := by
            have := congrArg List.length e
            simp at this; omega
          rw [e, maxStep_number _ _ _ _ (Or.inl rfl)]
          simp [maxStep]
          rw [if_pos (by omega)]
        have hi1 : (readInfo (recover crc (s.crash keep).disk).1).head = some h := hh
        have hi2 : (readInfo (recover crc (s.crash keep).disk).1).tail = h + (c :: a).length + 1 := hm2
        unfold openRead
        rw [hi1, hi2]
        dsimp only
        rw [if_neg (by omega)]
        have key : ∀ (n i : ℕ), i ≤ h + (c :: a).length → h + (c :: a).length < i + n →
            concat (recover crc (s.crash keep).disk).1 i n = none := by
          intro n
          induction n with
          | zero => intro i h1 h2; omega
          | succ n ih =>
            intro i h1 h2
            rw [concat]
            by_cases hie : i = h + (c :: a).length
            · rw [hie, hrec, find_remove]
            · cases find (recover crc (s.crash keep).disk).1 i with
              | none => rfl
              | some f => dsimp only; rw [ih (i + 1) (by omega) (by omega)]; rfl
        rw [key _ _ (by omega) (by omega)]; rfl
      generalize (recover crc (s.crash keep).disk).1 = d1 at ho2
      unfold recover
      rw [ho2]; rfl

end

/-! ## CRC-32C -/

/-- One bit of the checksum (`crc32.MakeTable(crc32.Castagnoli)`, `wal.go:36`). -/
def crcBit (c : UInt32) : UInt32 := if c &&& 1 = 1 then (c >>> 1) ^^^ 0x82F63B78 else c >>> 1

/-- One byte. -/
def crcByte (c : UInt32) (b : UInt8) : UInt32 :=
  crcBit (crcBit (crcBit (crcBit (crcBit (crcBit (crcBit (crcBit (c ^^^ b.toUInt32))))))))

/-- `crc32.Checksum(payload, crc32c)`. -/
def crc32c (p : Bytes) : UInt32 := p.foldl crcByte 0xFFFFFFFF ^^^ 0xFFFFFFFF

/-- The check value of CRC-32C, of the bytes `123456789`. -/
theorem crc32c_check : crc32c [0x31, 0x32, 0x33, 0x34, 0x35, 0x36, 0x37, 0x38, 0x39] = 0xE3069283 := by decide +kernel

/-- **C60** (a defect).  Eight bytes zero, as a file system may leave them after a crash, are read as an empty record: the checksum
of nothing is zero.  The engine refuses to start with one (`consensus.go:1376-1378`). -/
theorem C60_zeros_are_a_record (r : Bytes) : readBytes crc32c (List.replicate 8 0 ++ r) = .ok ([], r) := by
  have := readBytes_frame (crc := crc32c) [] r (by simp)
  have e : frame crc32c [] = List.replicate 8 0 := by decide +kernel
  rw [e] at this
  exact this

/-! ## Histories -/

/-- A step, as data. -/
inductive Op
  | write (p : Bytes)
  | spill (k : ℕ)
  | sync
  | look
  | house (due : Bool)
  | close
  | crash (i n : ℕ)
  | start

/-- A crash that cuts the file `i` to `n` bytes and leaves the others. -/
def cutAt (i n : ℕ) (j : ℕ) : ℕ := if j = i then n else 2 ^ 40

/-- Decides `Lucky`. -/
def luckyB (crc : Bytes → UInt32) (d : Disk) : Bool :=
  d.all (fun x => !(d.all (fun y => decide (y.1 ≤ x.1))) || ((readAll crc x.2.data).2.2 == x.2.data.length ||
    (decide ((readAll crc x.2.data).2.1 = .unexpectedEOF) && (!(readAll crc x.2.data).1.isEmpty || d.length == 1))))

theorem luckyB_imp {crc : Bytes → UInt32} {d : Disk} (h : luckyB crc d = true) : Lucky crc d := by
  intro x hx hmax rs t hrs hd ht
  have h1 := List.all_eq_true.mp h x hx
  have h2 : (d.all (fun y => decide (y.1 ≤ x.1))) = true := by
    rw [List.all_eq_true]; intro y hy; simpa using hmax y hy
  rw [h2] at h1
  have hr := readAll_frames (crc := crc) rs hrs ht
  rw [← hd] at hr
  rw [hr] at h1
  simp only [Bool.not_true, Bool.false_or, Bool.or_eq_true, Bool.and_eq_true, beq_iff_eq, decide_eq_true_eq] at h1
  rcases h1 with e | ⟨e1, e2⟩
  · left
    rw [hd, List.length_append] at e
    exact List.length_eq_zero_iff.mp (by omega)
  · right
    unfold tornErr at e1
    by_cases hc : t = [] ∨ t.length = 8
    · rw [if_pos hc] at e1; cases e1
    · push Not at hc
      refine ⟨hc.2, fun h0 => ?_⟩
      rcases e2 with e2 | e2
      · subst h0; simp at e2
      · exact e2

/-- Does a step; a crash only if it is a lucky one or `all` is set. -/
def runOp (crc : Bytes → UInt32) (cfg : Config) (all : Bool) (s : State) : Op → Option State
  | .write p => if p.length < 2 ^ 32 then s.write crc p else none
  | .spill k => s.spill k
  | .sync => s.sync
  | .look => s.look
  | .house due => s.house crc cfg due
  | .close => s.close
  | .crash i n =>
    if s.disk.all (fun x => decide (x.2.synced ≤ cutAt i n x.1)) && (all || luckyB crc (s.crash (cutAt i n)).disk) then
      some (s.crash (cutAt i n)) else none
  | .start => s.start crc

/-- Does some steps. -/
def runOps (crc : Bytes → UInt32) (cfg : Config) (all : Bool) : State → List Op → Option State
  | s, [] => some s
  | s, o :: os => (runOp crc cfg all s o).bind (fun s => runOps crc cfg all s os)

theorem runOps_reach {crc : Bytes → UInt32} {cfg : Config} : ∀ (os : List Op) (s s' : State), Reach crc cfg s →
    runOps crc cfg false s os = some s' → Reach crc cfg s' := by
  intro os
  induction os with
  | nil => intro s s' h e; rw [runOps, Option.some.injEq] at e; subst e; exact h
  | cons o os ih =>
    intro s s' h e
    rw [runOps, Option.bind_eq_some_iff] at e
    obtain ⟨s1, e1, e2⟩ := e
    refine ih s1 s' (Steps.tail h ?_) e2
    cases o with
    | write p =>
      simp only [runOp] at e1
      by_cases hp : p.length < 2 ^ 32
      · rw [if_pos hp] at e1; exact Step.write p hp e1
      · rw [if_neg hp] at e1; cases e1
    | spill k => exact Step.spill k e1
    | sync => exact Step.sync e1
    | look => exact Step.look e1
    | house due => exact Step.house due e1
    | close => exact Step.close e1
    | crash i n =>
      simp only [runOp] at e1
      split at e1
      · rename_i hc
        rw [Option.some.injEq] at e1
        subst e1
        rw [Bool.and_eq_true, Bool.false_or, List.all_eq_true] at hc
        refine Step.crash _ (fun x hx => by simpa using hc.1 x hx) (luckyB_imp hc.2)
      · cases e1
    | start => exact Step.start e1

namespace Example

/-- Limits of a small log. -/
def cfg : Config := ⟨15, 45⟩

/-- Two records, a new file, a torn record, a repair, and records after it. -/
def good : List Op :=
  [.start, .write [1, 2, 3], .write [4, 5], .sync, .look, .house false, .write [6, 7, 8], .sync, .write [9, 9], .spill 6,
    .crash 1 16, .start, .write [10, 11], .sync, .crash 1 21]

/-- A torn record cut just after its header. -/
def header : List Op :=
  [.start, .write [1, 2, 3], .sync, .write [4, 5], .spill 8, .crash 0 19, .start, .write [6, 7, 8], .sync, .crash 0 30]

/-- A torn record at the beginning of a new file. -/
def rotated : List Op :=
  [.start, .write [1, 2, 3], .write [4, 5], .sync, .look, .house false, .write [6, 7, 8], .spill 6, .crash 1 6, .start,
    .write [6, 7, 8], .sync, .crash 1 17]

/-- What the statements speak of. -/
def view (s : State) : List Bytes × ℕ × ℕ × Option (List Bytes) :=
  (s.log, s.gone, s.synced, (recover crc32c s.disk).2)

theorem good_run : (runOps crc32c cfg false State.empty good).map view =
    some ([[1, 2, 3], [4, 5], [6, 7, 8], [10, 11]], 0, 4, some [[1, 2, 3], [4, 5], [6, 7, 8], [10, 11]]) := by
  decide +kernel

theorem header_run : (runOps crc32c cfg true State.empty header).map view =
    some ([[1, 2, 3], [6, 7, 8]], 0, 2, some [[1, 2, 3]]) := by
  decide +kernel

theorem rotated_run : (runOps crc32c cfg true State.empty rotated).map view =
    some ([[1, 2, 3], [4, 5], [6, 7, 8]], 0, 3, some []) := by
  decide +kernel

end Example

/-- A history with a new file, a torn record and a repair: the records synced before and after the crash are read. -/
theorem C59_example : ∃ s, Reach crc32c Example.cfg s ∧ s.log = [[1, 2, 3], [4, 5], [6, 7, 8], [10, 11]] ∧ s.synced = 4 ∧
    (recover crc32c s.disk).2 = some s.log ∧ s.disk ≠ [] := by
  obtain ⟨s, e, hv⟩ := Option.map_eq_some_iff.mp Example.good_run
  simp only [Example.view, Prod.mk.injEq] at hv
  obtain ⟨h1, h2, h3, h4⟩ := hv
  refine ⟨s, runOps_reach _ _ _ (Steps.refl _) e, h1, h3, by rw [h4, h1], ?_⟩
  intro h0
  rw [h0] at h4
  simp [recover, openRead, readInfo] at h4

/-- **C60** (a defect).  A crash that leaves exactly the header of a record is taken for the end of the log, nothing is repaired, and the record
written and synced after the start is not read at the next one. -/
theorem C60_header_only_loses : ∃ s, runOps crc32c Example.cfg true State.empty Example.header = some s ∧
    s.log = [[1, 2, 3], [6, 7, 8]] ∧ s.synced = 2 ∧ (recover crc32c s.disk).2 = some [[1, 2, 3]] := by
  obtain ⟨s, e, hv⟩ := Option.map_eq_some_iff.mp Example.header_run
  simp only [Example.view, Prod.mk.injEq] at hv
  exact ⟨s, e, hv.1, hv.2.2.1, hv.2.2.2⟩

/-- **C60** (a defect).  With the record written again after such a repair, three synced records are lost. -/
theorem C60_rotated_loses : ∃ s, runOps crc32c Example.cfg true State.empty Example.rotated = some s ∧
    s.log = [[1, 2, 3], [4, 5], [6, 7, 8]] ∧ s.synced = 3 ∧ (recover crc32c s.disk).2 = some [] := by
  obtain ⟨s, e, hv⟩ := Option.map_eq_some_iff.mp Example.rotated_run
  simp only [Example.view, Prod.mk.injEq] at hv
  exact ⟨s, e, hv.1, hv.2.2.1, hv.2.2.2⟩

end Verif.Wal
