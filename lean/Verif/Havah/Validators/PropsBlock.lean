import Verif.Havah.Validators.PropsActive

/-! # C34, continued: blocks, term starts and the order of map iteration -/
namespace Verif.Havah.Val
open Verif.Havah Spec

/-! ### Penalised voters -/

theorem onBlockVote_some {s s1 : St} {n o : Addr} {v p : Bool}
    (h : onBlockVote s n v = some (s1, p, o)) :
    s.nodeOwner n = some o ∧ ∃ vi st, s.info o = some vi ∧ s.status o = some st ∧
      ((st.enabled = true ∧ p = (voteStatus st vi.grade s.net.allowance v).2 ∧
        s1 = { s with status := (Function.update s.status o
          (some (voteStatus st vi.grade s.net.allowance v).1)) }) ∨
       (st.enabled = false ∧ p = false ∧ s1 = s)) := by
  unfold onBlockVote at h
  split at h
  · cases h
  rename_i ow how
  split at h
  · cases h
  rename_i vi hvi
  split at h
  · cases h
  rename_i st hst
  split_ifs at h with hen
  · cases h; exact ⟨how, vi, st, hvi, hst, .inl ⟨hen, rfl, rfl⟩⟩
  · cases h; exact ⟨how, vi, st, hvi, hst, .inr ⟨by simpa using hen, rfl, rfl⟩⟩

theorem voteStatus_pen (st : VStatus) (g : Grade) (al : ℤ) (v : Bool) (hd : st.disabled = false) :
    (voteStatus st g al v).2 = true ↔ (voteStatus st g al v).1.disabled = true := by
  unfold voteStatus
  dsimp only
  split_ifs <;> simp [hd]

theorem enabled_of_step {s t : St} (h : VoteRel s t) {o : Addr} (he : Enabled t o) :
    Enabled s o := by
  obtain ⟨f, rfl, h1, h2⟩ := h
  obtain ⟨st', hst', hen⟩ := enabled_iff.mp he
  cases hs : s.status o with
  | none => have := h1 o hs; change f o = _ at hst'; rw [this] at hst'; cases hst'
  | some st =>
    obtain ⟨st'', h3, h4⟩ := h2 o st hs
    change f o = _ at hst'
    rw [h3] at hst'; cases hst'
    rw [enabled_iff]
    by_contra hc
    have hoff : st.enabled = false := by
      by_contra h5; exact hc ⟨st, hs, by simpa using h5⟩
    rw [h4.off hoff, hoff] at hen; cases hen

theorem disabled_step {s t : St} (h : VoteRel s t) {o : Addr} (hd : Disabled s o) :
    Disabled t o := by
  obtain ⟨f, rfl, h1, h2⟩ := h
  obtain ⟨st, hs, hdis⟩ := hd
  obtain ⟨st', h3, h4⟩ := h2 o st hs
  have : st' = st := h4.off (by unfold VStatus.enabled; rw [hdis]; rfl)
  subst this
  exact ⟨st', h3, hdis⟩

theorem checkVotes_pen : ∀ (votes : List (Addr × Bool)) (s : St) {n : Addr},
    n ∈ (checkVotes s votes).2 → ∃ o, s.nodeOwner n = some o ∧ (∃ v, (n, v) ∈ votes) ∧
      Enabled s o ∧ Disabled (checkVotes s votes).1 o
  | [], s, n, h => by simp [checkVotes] at h
  | (m, v) :: rest, s, n, h => by
      unfold checkVotes at h ⊢
      split at h
      · obtain ⟨o, h1, ⟨w, h2⟩, h3, h4⟩ := checkVotes_pen rest s h
        exact ⟨o, h1, ⟨w, by simp [h2]⟩, h3, h4⟩
      · rename_i s1 p o hv
        have hrel := onBlockVote_rel hv
        have hown : s1.nodeOwner = s.nodeOwner := (votes_same hrel).nodeOwner
        dsimp only at h ⊢
        have tail : n ∈ (checkVotes s1 rest).2 → ∃ o, s.nodeOwner n = some o ∧
            (∃ w, (n, w) ∈ (m, v) :: rest) ∧ Enabled s o ∧
            Disabled (checkVotes s1 rest).1 o := by
          intro h
          obtain ⟨o', h1, ⟨w, h2⟩, h3, h4⟩ := checkVotes_pen rest s1 h
          rw [hown] at h1
          exact ⟨o', h1, ⟨w, by simp [h2]⟩, enabled_of_step hrel h3, h4⟩
        cases p with
        | false => exact tail (by simpa using h)
        | true =>
          simp only [if_true, List.mem_cons] at h
          rcases h with rfl | h
          · obtain ⟨h1, vi, st, hvi, hst, ⟨hen, hp, rfl⟩ | ⟨_, hp, _⟩⟩ := onBlockVote_some hv
            · have hd : st.disabled = false := by
                unfold VStatus.enabled at hen; simp at hen; exact hen.1
              refine ⟨o, h1, ⟨v, by simp⟩, enabled_iff.mpr ⟨st, hst, hen⟩, ?_⟩
              refine disabled_step (checkVotes_rel rest _) ⟨_, Function.update_self .., ?_⟩
              exact (voteStatus_pen _ _ _ _ hd).mp hp.symm
            · cases hp
          · exact tail h

theorem checkVotes_pen_of : ∀ (votes : List (Addr × Bool)) (s : St) {o : Addr},
    Enabled s o → Disabled (checkVotes s votes).1 o →
    ∃ n ∈ (checkVotes s votes).2, s.nodeOwner n = some o ∧ ∃ v, (n, v) ∈ votes
  | [], s, o, he, hd => by
      obtain ⟨st, h1, h2, _⟩ := he
      obtain ⟨st', h3, h4⟩ := hd
      rw [checkVotes, h1] at h3; cases h3; rw [h2] at h4; cases h4
  | (m, v) :: rest, s, o, he, hd => by
      unfold checkVotes at hd ⊢
      split at hd
      · obtain ⟨n, h1, h2, w, h3⟩ := checkVotes_pen_of rest s he hd
        exact ⟨n, h1, h2, w, by simp [h3]⟩
      · rename_i s1 p ow hv
        dsimp only at hd ⊢
        have hrel := onBlockVote_rel hv
        have hown : s1.nodeOwner = s.nodeOwner := (votes_same hrel).nodeOwner
        by_cases hs1 : Disabled s1 o
        · -- this very vote disabled it
          obtain ⟨h1, vi, st, hvi, hst, ⟨hen, hp, rfl⟩ | ⟨_, _, rfl⟩⟩ := onBlockVote_some hv
          · have how : o = ow := by
              by_contra hne
              obtain ⟨st', h3, h4⟩ := hs1
              obtain ⟨st0, h5, h6, _⟩ := he
              simp only [Function.update_of_ne hne] at h3
              rw [h5] at h3; cases h3; rw [h6] at h4; cases h4
            subst how
            have hd0 : st.disabled = false := by
              unfold VStatus.enabled at hen; simp at hen; exact hen.1
            obtain ⟨st', h3, h4⟩ := hs1
            simp only [Function.update_self, Option.some.injEq] at h3
            subst h3
            have hpt : p = true := by rw [hp]; exact (voteStatus_pen _ _ _ _ hd0).mpr h4
            subst hpt
            exact ⟨m, by simp, h1, v, by simp⟩
          · obtain ⟨st', h3, h4⟩ := hs1
            obtain ⟨st0, h5, h6, _⟩ := he
            rw [h5] at h3; cases h3; rw [h6] at h4; cases h4
        · have he1 : Enabled s1 o := by
            obtain ⟨st, h1, h2, h3⟩ := he
            obtain ⟨f, rfl, _, h5⟩ := hrel
            obtain ⟨st', h6, h7⟩ := h5 o st h1
            refine ⟨st', h6, ?_, h7.disq.trans h3⟩
            by_contra h8; exact hs1 ⟨st', h6, by simpa using h8⟩
          obtain ⟨n, h1, h2, w, h3⟩ := checkVotes_pen_of rest s1 he1 hd
          refine ⟨n, ?_, by rw [← hown]; exact h2, w, by simp [h3]⟩
          cases p <;> simp [h1]

/-! ### The vote check of a block -/

/-- The outcome of the vote check, for every iteration order of the Go map. -/
theorem handle_members {s : St} (hr : Reg s) (hasKey : Addr → Bool)
    (votes : List (Addr × Bool)) :
    (∃ e, ∀ io, handleBlockVote s hasKey io votes = .error e) ∨
    ∃ (idx : ℕ) (adds : List Addr), adds.Nodup ∧
      (∀ x ∈ adds, Eligible (checkVotes s votes).1 hasKey s.active x) ∧
      adds.length ≤ (s.active.filter (· ∈ (checkVotes s votes).2)).length ∧
      (adds.length < (s.active.filter (· ∈ (checkVotes s votes).2)).length →
        ∀ x, Eligible (checkVotes s votes).1 hasKey s.active x → x ∈ adds) ∧
      ∀ io, ∃ a, handleBlockVote s hasKey io votes =
          .ok { (checkVotes s votes).1 with svIndex := idx, active := a } ∧ a.Nodup ∧
        a.Perm (s.active.filter (· ∉ (checkVotes s votes).2) ++ adds) ∧
        (adds.length = (s.active.filter (· ∈ (checkVotes s votes).2)).length →
          ∀ (i : ℕ) n, s.active[i]? = some n → n ∉ (checkVotes s votes).2 →
            a[i]? = some n) := by
  have hrel := checkVotes_rel votes s
  have hr1 : Reg (checkVotes s votes).1 := hr.vote hrel
  have hact : (checkVotes s votes).1.active = s.active := by
    obtain ⟨f, hf, _⟩ := hrel; rw [hf]
  unfold handleBlockVote
  dsimp only
  generalize checkVotes s votes = r at *
  by_cases hp : ∃ n ∈ r.2, n ∈ r.1.active
  · have hlen : ¬ r.2.length = 0 := by
      obtain ⟨n, h1, _⟩ := hp
      exact Nat.pos_iff_ne_zero.mp (List.length_pos_of_mem h1)
    simp only [if_neg hlen]
    have := C34_replacement hr1 hasKey r.2 hp
    rw [hact] at this
    exact this
  · have hno : ∀ n ∈ s.active, n ∉ r.2 := by
      intro n h1 h2; rw [← hact] at h1; exact hp ⟨n, h2, h1⟩
    have hf1 : s.active.filter (· ∉ r.2) = s.active :=
      List.filter_eq_self.mpr fun n h => by simpa using hno n h
    have hf2 : s.active.filter (· ∈ r.2) = [] :=
      List.filter_eq_nil_iff.mpr fun n h => by simpa using hno n h
    have hm : penalizedMap r.1.active r.2 = [] := by
      rw [List.eq_nil_iff_forall_not_mem]
      rintro ⟨i, n⟩ h
      obtain ⟨h1, h2⟩ := ((penalizedMap_spec hr1.activeNodup r.2).1 i n).mp h
      exact hp ⟨n, h1, List.mem_of_getElem? h2⟩
    refine .inr ⟨r.1.svIndex, [], List.nodup_nil, by simp, by simp, by simp [hf2],
      fun io => ⟨r.1.active, ?_, hr1.activeNodup, ?_, ?_⟩⟩
    · split_ifs
      · rfl
      · unfold replacePenalized
        dsimp only
        rw [hm]; rfl
    · rw [hf1, hact]; simp
    · intro _ i n hi _; rw [hact]; exact hi

theorem eligible_congr {s t : St} {k : Addr → Bool} {act : List Addr} {n : Addr}
    (hi : t.info = s.info) (hs : t.status = s.status) :
    Eligible t k act n ↔ Eligible s k act n := by
  unfold Eligible Enabled; rw [hi, hs]

/-- **C34 (blocks within a term).** A block that does not start a term takes a validator out
of the active set only if it is a voter whose validator this very block disabled; every node
it puts in belongs to an enabled sub validator that has its key and was not active; the set
never has repetitions, never grows, and shrinks only if no eligible validator is left out. -/
theorem C34_block {c : Config} {s t : St} (hr : Reachable c s) {b : Block} (hb : b.index ≠ 0)
    (h : exec c s (.block b) = .ok t) :
    t.active.Nodup ∧ t.active.length ≤ s.active.length ∧
    (∀ n ∈ s.active, n ∉ t.active → (∃ v, (n, v) ∈ b.votes) ∧
      ∃ o, s.nodeOwner n = some o ∧ Enabled s o ∧ Disabled t o) ∧
    (∀ n ∈ t.active, n ∉ s.active → Eligible t b.hasKey s.active n) ∧
    (t.active.length < s.active.length →
      ∀ n, Eligible t b.hasKey s.active n → n ∈ t.active) ∧
    (∀ n ∈ s.active, ∀ o, s.nodeOwner n = some o → Enabled s o → Disabled t o →
      (∀ m v, (m, v) ∈ b.votes → s.nodeOwner m = some o → m = n) → n ∉ t.active) := by
  have hreg := hr.reg
  have h' : baseTx s b = .ok t := h
  unfold baseTx at h'
  rw [if_neg hb] at h'
  obtain ⟨s1, hs1, h'⟩ := bind_ok.mp h'
  cases hs1
  by_cases hc : (s.net.decentralized && timeToCheck b.index s.net.period) = true
  swap
  · rw [if_neg hc] at h'
    cases h'
    refine ⟨hreg.activeNodup, le_rfl, fun n h1 h2 => absurd h1 h2, fun n h1 h2 => absurd h1 h2,
      fun h => absurd h (lt_irrefl _), ?_⟩
    intro n hn o ho he hd
    obtain ⟨st, h1, h2, _⟩ := he
    obtain ⟨st', h3, h4⟩ := hd
    rw [h1] at h3; cases h3; rw [h2] at h4; cases h4
  rw [if_pos hc] at h'
  rcases handle_members hreg b.hasKey b.votes with ⟨e, he⟩ | ⟨idx, adds, a1, a2, a3, a4, hall⟩
  · rw [he] at h'; cases h'
  obtain ⟨a, h1, hnd, hperm, _⟩ := hall b.order
  rw [h1] at h'
  have ht := (Except.ok.inj h').symm
  have htact : t.active = a := by rw [ht]
  have htst : t.status = (checkVotes s b.votes).1.status := by rw [ht]
  have htin : t.info = (checkVotes s b.votes).1.info := by rw [ht]
  have hdis : ∀ o, Disabled (checkVotes s b.votes).1 o ↔ Disabled t o := by
    intro o; unfold Disabled; rw [htst]
  have hlen : (s.active.filter (· ∈ (checkVotes s b.votes).2)).length +
      (s.active.filter (· ∉ (checkVotes s b.votes).2)).length = s.active.length := by
    rw [← List.countP_eq_length_filter, ← List.countP_eq_length_filter,
      List.length_eq_countP_add_countP (fun x => decide (x ∈ (checkVotes s b.votes).2))]
    congr 1
    apply List.countP_congr; intro x _; simp
  have hla : a.length = (s.active.filter (· ∉ (checkVotes s b.votes).2)).length + adds.length := by
    rw [hperm.length_eq, List.length_append]
  have hmem : ∀ x, x ∈ a ↔ (x ∈ s.active ∧ x ∉ (checkVotes s b.votes).2) ∨ x ∈ adds := by
    intro x; rw [hperm.mem_iff, List.mem_append, List.mem_filter]; simp
  have hadd : ∀ x ∈ adds, x ∉ s.active := by
    intro x hx; obtain ⟨_, _, _, _, _, _, _, hna⟩ := a2 x hx; exact hna
  rw [htact]
  refine ⟨hnd, by omega, ?_, ?_, ?_, ?_⟩
  · intro n h2 h3
    have hp : n ∈ (checkVotes s b.votes).2 := by
      by_contra hp; exact h3 ((hmem n).mpr (.inl ⟨h2, hp⟩))
    obtain ⟨o, e1, e2, e3, e4⟩ := checkVotes_pen b.votes s hp
    exact ⟨e2, o, e1, e3, (hdis o).mp e4⟩
  · intro n h2 h3
    rcases (hmem n).mp h2 with h4 | h4
    · exact absurd h4.1 h3
    · exact (eligible_congr htin htst).mpr (a2 n h4)
  · intro hlt n hn
    exact (hmem n).mpr (.inr (a4 (by omega) n ((eligible_congr htin htst).mp hn)))
  · intro n hn o ho he hd honly hna
    obtain ⟨m, e1, e2, v, e3⟩ := checkVotes_pen_of b.votes s he ((hdis o).mpr hd)
    have := honly m v e3 e2
    subst this
    rcases (hmem m).mp hna with h4 | h4
    · exact h4.2 e1
    · exact hadd m h4 hn

/-! ### Independence of the iteration order -/

/-- **C34 (iteration order).** Two executions of the same block that differ only in the order
in which the runtime iterates over the map of penalised validators either both fail with the
same error, or both succeed with the same registry, statuses, index and parameters and with
active sets that have the same members. The positions are not claimed (see
`C34_order_not_deterministic`). -/
theorem C34_order {c : Config} {s : St} (hr : Reachable c s) (b : Block) (io : IterOrder) :
    (∃ e, exec c s (.block b) = .error e ∧ exec c s (.block { b with order := io }) = .error e) ∨
    ∃ t a, exec c s (.block b) = .ok t ∧
      exec c s (.block { b with order := io }) = .ok { t with active := a } ∧
      a.Perm t.active := by
  have hreg := hr.reg
  show (∃ e, baseTx s b = .error e ∧ baseTx s { b with order := io } = .error e) ∨
    ∃ t a, baseTx s b = .ok t ∧ baseTx s { b with order := io } = .ok { t with active := a } ∧
      a.Perm t.active
  have hts : termStart s { b with order := io } = termStart s b := rfl
  unfold baseTx
  dsimp only
  rw [hts]
  cases hs1 : (if b.index = 0 then termStart s b else .ok s) with
  | error e => exact .inl ⟨e, rfl, rfl⟩
  | ok s1 =>
    have hr1 : Reg s1 := by
      split_ifs at hs1
      · exact hreg.termStart hs1
      · cases hs1; exact hreg
    simp only [show ∀ (f : St → M St), (Except.ok s1 >>= f) = f s1 from fun _ => rfl]
    by_cases hc : (s1.net.decentralized && timeToCheck b.index s.net.period) = true
    swap
    · simp only [if_neg hc]
      exact .inr ⟨s1, s1.active, rfl, rfl, List.Perm.refl _⟩
    · simp only [if_pos hc]
      rcases handle_members hr1 b.hasKey b.votes with ⟨e, he⟩ | ⟨idx, adds, _, _, _, _, hall⟩
      · exact .inl ⟨e, he _, he _⟩
      · obtain ⟨a, h1, _, h2, _⟩ := hall b.order
        obtain ⟨a', h1', _, h2', _⟩ := hall io
        exact .inr ⟨_, a', h1, h1', h2'.trans h2.symm⟩

/-! ### Term starts -/

theorem mainNodes_spec {s : St} (hr : Reg s) (k : Addr → Bool) : ∀ (l : List Addr) (n : ℕ)
    {r : List Addr}, (∀ o ∈ l, o ∈ s.main) → mainNodes s k l n = .ok r →
    r = ((l.filterMap fun o => (s.info o).map (·.node)).filter k).take n
  | [], n, r, _, h => by
      simp only [mainNodes] at h; cases h; simp
  | o :: l, 0, r, _, h => by simp only [mainNodes] at h; cases h; simp
  | o :: l, n + 1, r, hl, h => by
      obtain ⟨vi, st, hvi, _⟩ := (hr.mainIff o).mp (hl o (by simp))
      have hl' : ∀ o ∈ l, o ∈ s.main := fun x hx => hl x (by simp [hx])
      unfold mainNodes at h
      simp only [hvi] at h
      rw [List.filterMap_cons_some (f := fun o => (s.info o).map (·.node)) (b := vi.node)
        (by simp [hvi])]
      by_cases hk : k vi.node = true
      · rw [if_pos hk] at h
        obtain ⟨r', h1, h⟩ := bind_ok.mp h
        cases h
        rw [List.filter_cons_of_pos hk, List.take_succ_cons,
          ← mainNodes_spec hr k l n hl' h1]
      · rw [if_neg hk] at h
        rw [List.filter_cons_of_neg hk]
        exact mainNodes_spec hr k l (n + 1) hl' h

theorem main_nodes_nodup {s : St} (hr : Reg s) {l : List Addr} (hl : l.Nodup) :
    (l.filterMap fun o => (s.info o).map (·.node)).Nodup := by
  refine List.Nodup.filterMap ?_ hl
  intro a a' n h1 h2
  simp only [Option.mem_def, Option.map_eq_some_iff] at h1 h2
  obtain ⟨v1, hv1, rfl⟩ := h1
  obtain ⟨v2, hv2, hn⟩ := h2
  have e1 := hr.nodeOwner a v1 hv1
  have e2 := hr.nodeOwner a' v2 hv2
  rw [hn, e1] at e2
  exact Option.some.inj e2

/-- The active set made at a term start. -/
theorem initActive_spec {s t : St} (hr : Reg s) {k : Addr → Bool} (h : initActive s k = .ok t) :
    ∃ mains subs, t.active = mains ++ subs ∧
      mains = (((s.main.filterMap fun o => (s.info o).map (·.node)).filter k).take s.count.toNat) ∧
      subs.Nodup ∧ (∀ x ∈ subs, Eligible s k [] x) ∧
      ((mains.length : ℤ) + subs.length ≤ s.count) ∧
      ((mains.length : ℤ) + subs.length < s.count → ∀ x, Eligible s k [] x → x ∈ subs) := by
  unfold initActive at h
  obtain ⟨nodes, hnodes, h⟩ := bind_ok.mp h
  obtain ⟨⟨s1, subs⟩, h1, h⟩ := bind_ok.mp h
  dsimp only at h
  have hcount := hr.params.2.2.1
  unfold getMainValidators at hnodes
  rw [if_neg (by omega)] at hnodes
  have hm := mainNodes_spec hr k s.main s.count.toNat (fun _ h => h) hnodes
  split_ifs at h
  obtain ⟨a, ha, h⟩ := bind_ok.mp h
  have hn1 : s1.active.Nodup := by
    split_ifs at h1
    · obtain ⟨i, rfl⟩ := getNextActive_state h1; exact hr.activeNodup
    · cases h1; exact hr.activeNodup
  obtain ⟨rfl, _⟩ := vsSet_nodup ha hn1
  cases h
  refine ⟨nodes, subs, rfl, hm, ?_⟩
  have hlen : nodes.length ≤ s.count.toNat := by
    rw [hm]; exact (List.length_take_le _ _)
  split_ifs at h1 with hc
  · obtain ⟨g1, g2, g3, g4⟩ := getNextActive_spec hr (act := []) (fun _ => by simp) h1
    exact ⟨g1, g3, by omega, fun hlt => g4 (by omega)⟩
  · cases h1
    refine ⟨List.nodup_nil, by simp, ?_, fun hlt => ?_⟩
    · simp; omega
    · simp at hlt; omega

end Verif.Havah.Val
