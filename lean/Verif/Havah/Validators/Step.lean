import Verif.Havah.Validators.Inv

/-! # The invariants hold in every reachable state -/
namespace Verif.Havah.Val
open Verif.Havah

theorem bind_ok {α β : Type} {x : M α} {f : α → M β} {y : β} :
    (x >>= f) = .ok y ↔ ∃ a, x = .ok a ∧ f a = .ok y := by
  cases x with
  | error e => exact ⟨fun h => (nomatch h), fun ⟨_, h, _⟩ => (nomatch h)⟩
  | ok a => exact ⟨fun h => ⟨a, rfl, h⟩, fun ⟨_, h, h'⟩ => by cases h; exact h'⟩

theorem getInfo_ok {s : St} {o : Addr} {v : VInfo} : getInfo s o = .ok v ↔ s.info o = some v := by
  unfold getInfo; cases s.info o <;> simp

theorem getStatus_ok {s : St} {o : Addr} {v : VStatus} :
    getStatus s o = .ok v ↔ s.status o = some v := by
  unfold getStatus; cases s.status o <;> simp

theorem getOwner_ok {s : St} {o v : Addr} :
    getOwnerByNode s o = .ok v ↔ s.nodeOwner o = some v := by
  unfold getOwnerByNode; cases s.nodeOwner o <;> simp

/-! ### Active-set updates only touch the active list and the round-robin index -/

theorem getNextActive_ok {s t : St} {k a : Addr → Bool} {n : ℤ} {l : List Addr}
    (h : getNextActive s k a n = .ok (t, l)) :
    (l = [] ∧ t = s ∧ (n = 0 ∨ s.sub = [])) ∨
    (0 < n ∧ s.sub ≠ [] ∧ ∃ idx err,
      scan s k a (min n.toNat s.sub.length) s.sub.length
        (if s.svIndex ≥ s.sub.length then 0 else s.svIndex) [] false = .ok (l, idx, err) ∧
      t = { s with svIndex := idx } ∧ (s.svIndex = idx → err = false)) := by
  unfold getNextActive at h
  by_cases h1 : n < 0
  · rw [if_pos h1] at h; cases h
  rw [if_neg h1] at h
  by_cases h2 : n = 0
  · rw [if_pos h2] at h; cases h; exact .inl ⟨rfl, rfl, .inl h2⟩
  rw [if_neg h2] at h
  by_cases h3 : s.sub.length = 0
  · simp only [h3, if_true] at h; cases h
    exact .inl ⟨rfl, rfl, .inr (List.length_eq_zero_iff.mp h3)⟩
  simp only [h3, if_false] at h
  obtain ⟨⟨nodes, idx, err⟩, hs, h⟩ := bind_ok.mp h
  refine .inr ⟨by omega, fun e => h3 (by rw [e]; rfl), idx, err, ?_⟩
  dsimp only at h
  by_cases h4 : s.svIndex = idx
  · simp only [h4, ne_eq, not_true, if_false] at h
    cases err
    · simp only [Bool.false_eq_true, if_false] at h; cases h
      refine ⟨hs, ?_, fun _ => rfl⟩
      subst h4; rfl
    · simp at h
  · simp only [ne_eq, h4, not_false_eq_true, if_true] at h; cases h
    exact ⟨hs, rfl, fun e => absurd e h4⟩

theorem getNextActive_state {s t : St} {k a : Addr → Bool} {n : ℤ} {l : List Addr}
    (h : getNextActive s k a n = .ok (t, l)) : ∃ i, t = { s with svIndex := i } := by
  rcases getNextActive_ok h with ⟨_, rfl, _⟩ | ⟨_, _, idx, _, _, ht, _⟩
  · exact ⟨_, rfl⟩
  · exact ⟨idx, ht⟩

theorem vsSet_nodup {l l' r : List Addr} (h : vsSet l l' = .ok r) (hn : l.Nodup) :
    r = l' ∧ r.Nodup := by
  unfold vsSet at h
  split_ifs at h with h1 h2
  · cases h; exact ⟨h1, hn⟩
  · cases h; exact ⟨rfl, h2⟩

theorem initActive_state {s t : St} {k : Addr → Bool} (h : initActive s k = .ok t)
    (hn : s.active.Nodup) : ∃ i a, t = { s with svIndex := i, active := a } ∧ a.Nodup := by
  unfold initActive at h
  obtain ⟨nodes, _, h⟩ := bind_ok.mp h
  obtain ⟨⟨s1, subs⟩, h1, h⟩ := bind_ok.mp h
  have hs1 : ∃ i, s1 = { s with svIndex := i } := by
    split_ifs at h1
    · exact getNextActive_state h1
    · cases h1; exact ⟨_, rfl⟩
  obtain ⟨i, rfl⟩ := hs1
  dsimp only at h
  split_ifs at h
  obtain ⟨a, ha, h⟩ := bind_ok.mp h
  cases h
  exact ⟨i, a, rfl, (vsSet_nodup ha hn).2⟩

theorem replaceLoop_nodup {s : St} : ∀ {m : List (ℕ × Addr)} {adds active r : List Addr},
    replaceLoop s m adds active = .ok r → active.Nodup → r.Nodup
  | [], _, _, _, h, hn => by
      unfold replaceLoop at h; cases h; exact hn
  | (i, n) :: rest, a :: adds, active, r, h, hn => by
      unfold replaceLoop at h
      obtain ⟨_, _, h⟩ := bind_ok.mp h
      obtain ⟨a1, h1, h⟩ := bind_ok.mp h
      exact replaceLoop_nodup h (vsSetAt_nodup h1 hn)
  | (i, n) :: rest, [], active, r, h, hn => by
      unfold replaceLoop at h
      exact replaceLoop_nodup h (hn.erase n)

theorem replacePenalized_state {s t : St} {k : Addr → Bool} {io : IterOrder} {pen : List Addr}
    (h : replacePenalized s k io pen = .ok t) (hn : s.active.Nodup) :
    ∃ i a, t = { s with svIndex := i, active := a } ∧ a.Nodup := by
  unfold replacePenalized at h
  dsimp only at h
  split_ifs at h
  · cases h; exact ⟨_, _, rfl, hn⟩
  · obtain ⟨⟨s1, adds⟩, h1, h⟩ := bind_ok.mp h
    obtain ⟨i, rfl⟩ := getNextActive_state h1
    obtain ⟨a, ha, h⟩ := bind_ok.mp h
    cases h
    exact ⟨i, a, rfl, replaceLoop_nodup ha hn⟩

/-! ### Votes only touch statuses -/

/-- What votes may do to the status of one validator. -/
structure VoteStep (g : Option VInfo) (st st' : VStatus) : Prop where
  disq : st'.disqualified = st.disqualified
  cnt : st'.enabledCount = st.enabledCount
  off : st.enabled = false → st' = st
  main : ∀ vi, g = some vi → vi.grade = .main → st'.disabled = st.disabled

theorem VoteStep.refl (g : Option VInfo) (st : VStatus) : VoteStep g st st :=
  ⟨rfl, rfl, fun _ => rfl, fun _ _ _ => rfl⟩

theorem VoteStep.trans {g : Option VInfo} {a b c : VStatus} (h1 : VoteStep g a b)
    (h2 : VoteStep g b c) : VoteStep g a c := by
  refine ⟨h2.disq.trans h1.disq, h2.cnt.trans h1.cnt, fun h => ?_, fun vi hv hm =>
    (h2.main vi hv hm).trans (h1.main vi hv hm)⟩
  have e := h1.off h
  subst e
  exact h2.off h

/-- What votes may do to the state. -/
def VoteRel (s t : St) : Prop :=
  ∃ f, t = { s with status := f } ∧ (∀ o, s.status o = none → f o = none) ∧
    ∀ o st, s.status o = some st → ∃ st', f o = some st' ∧ VoteStep (s.info o) st st'

theorem VoteRel.refl (s : St) : VoteRel s s :=
  ⟨s.status, rfl, fun _ h => h, fun _ st h => ⟨st, h, .refl _ _⟩⟩

theorem VoteRel.trans {s t u : St} (h1 : VoteRel s t) (h2 : VoteRel t u) : VoteRel s u := by
  obtain ⟨f, rfl, a1, b1⟩ := h1
  obtain ⟨g, rfl, a2, b2⟩ := h2
  refine ⟨g, rfl, fun o h => a2 o (a1 o h), fun o st h => ?_⟩
  obtain ⟨st', h', r⟩ := b1 o st h
  obtain ⟨st'', h'', r'⟩ := b2 o st' h'
  exact ⟨st'', h'', r.trans r'⟩

theorem voteStatus_step {st : VStatus} {g : Grade} {al : ℤ} {v : Bool} {vi : VInfo}
    (hen : st.enabled = true) (hg : vi.grade = g) :
    VoteStep (some vi) st (voteStatus st g al v).1 := by
  unfold voteStatus
  refine ⟨?_, ?_, fun h => ?_, fun vi' hv hm => ?_⟩
  · dsimp only; split_ifs <;> rfl
  · dsimp only; split_ifs <;> rfl
  · rw [hen] at h; cases h
  · cases hv
    dsimp only
    rw [← hg, hm]
    simp only [ne_eq, not_true, false_and, if_false]
    split_ifs <;> rfl

theorem onBlockVote_rel {s t : St} {n : Addr} {v p : Bool} {o : Addr}
    (h : onBlockVote s n v = some (t, p, o)) : VoteRel s t := by
  unfold onBlockVote at h
  split at h
  · cases h
  rename_i ow ho
  split at h
  · cases h
  rename_i vi hvi
  split at h
  · cases h
  rename_i st hst
  split_ifs at h with hen
  · cases h
    refine ⟨_, rfl, fun x hx => ?_, fun x stx hx => ?_⟩
    · have : x ≠ o := by rintro rfl; rw [hst] at hx; cases hx
      simpa [Function.update_of_ne this] using hx
    · by_cases e : x = o
      · subst e
        rw [hst] at hx; cases hx
        refine ⟨_, Function.update_self .., ?_⟩
        rw [hvi]
        exact voteStatus_step hen rfl
      · exact ⟨stx, by simpa [Function.update_of_ne e] using hx, .refl _ _⟩
  · cases h; exact .refl s

theorem checkVotes_rel : ∀ (l : List (Addr × Bool)) (s : St), VoteRel s (checkVotes s l).1
  | [], s => by unfold checkVotes; exact .refl s
  | (n, v) :: rest, s => by
      unfold checkVotes
      split
      · exact checkVotes_rel rest s
      · rename_i s1 p o h
        exact (onBlockVote_rel h).trans (checkVotes_rel rest s1)

/-! ### Preservation of the registry invariant -/

theorem Reg.setActive {s : St} (h : Reg s) {a : List Addr} (ha : a.Nodup) (i : ℕ) :
    Reg { s with svIndex := i, active := a } :=
  { h with activeNodup := ha }

theorem Reg.vote {s t : St} (h : Reg s) (hv : VoteRel s t) : Reg t := by
  obtain ⟨f, rfl, hnone, hsome⟩ := hv
  have hback : ∀ o st', f o = some st' → ∃ st, s.status o = some st ∧ VoteStep (s.info o) st st' := by
    intro o st' ho
    cases hs : s.status o with
    | none => rw [hnone o hs] at ho; cases ho
    | some st =>
      obtain ⟨st'', h'', r⟩ := hsome o st hs
      rw [h''] at ho; cases ho
      exact ⟨st, rfl, r⟩
  have hdq : ∀ o b, (∃ st', f o = some st' ∧ st'.disqualified = b) ↔
      ∃ st, s.status o = some st ∧ st.disqualified = b := by
    intro o b
    constructor
    · rintro ⟨st', h1, h2⟩
      obtain ⟨st, h3, r⟩ := hback o st' h1
      exact ⟨st, h3, r.disq ▸ h2⟩
    · rintro ⟨st, h1, h2⟩
      obtain ⟨st', h3, r⟩ := hsome o st h1
      exact ⟨st', h3, r.disq.trans h2⟩
  have hlist : ∀ (o : Addr) (g : Grade), (∃ vi st, s.info o = some vi ∧ f o = some st ∧
      vi.grade = g ∧ st.disqualified = false) ↔ ∃ vi st, s.info o = some vi ∧
      s.status o = some st ∧ vi.grade = g ∧ st.disqualified = false := by
    intro o g
    constructor
    · rintro ⟨vi, st', h1, h2, h3, h4⟩
      obtain ⟨st, h5, h6⟩ := (hdq o false).mp ⟨st', h2, h4⟩
      exact ⟨vi, st, h1, h5, h3, h6⟩
    · rintro ⟨vi, st', h1, h2, h3, h4⟩
      obtain ⟨st, h5, h6⟩ := (hdq o false).mpr ⟨st', h2, h4⟩
      exact ⟨vi, st, h1, h5, h3, h6⟩
  refine { h with
    infoStatus := fun o => ?_
    mainIff := fun o => (h.mainIff o).trans (hlist o .main).symm
    subIff := fun o => (h.subIff o).trans (hlist o .sub).symm
    disqIff := fun o => (h.disqIff o).trans (hdq o true).symm
    count := fun o st' ho => ?_
    mainEnabled := fun o vi st' hi ho hm => ?_ }
  · refine (h.infoStatus o).trans ?_
    show (s.status o).isSome ↔ (f o).isSome
    cases hs : s.status o with
    | none => rw [hnone o hs]
    | some st => obtain ⟨st', h', _⟩ := hsome o st hs; rw [h']; simp
  · obtain ⟨st, h3, r⟩ := hback o st' ho
    rw [r.cnt]; exact h.count o st h3
  · obtain ⟨st, h3, r⟩ := hback o st' ho
    rw [r.main vi hi hm]; exact h.mainEnabled o vi st hi h3 hm

theorem Reg.handleBlockVote {s t : St} {k : Addr → Bool} {io : IterOrder}
    {votes : List (Addr × Bool)} (h : Reg s) (he : handleBlockVote s k io votes = .ok t) :
    Reg t := by
  have hr := h.vote (checkVotes_rel votes s)
  unfold Val.handleBlockVote at he
  dsimp only at he
  split_ifs at he
  · cases he; exact hr
  · obtain ⟨i, a, rfl, ha⟩ := replacePenalized_state he hr.activeNodup
    exact hr.setActive ha i

theorem renew_state {s t : St} (h : renewNetworkStatus s = .ok t) :
    t = s ∧ s.net.decentralized = false ∨ s.net.decentralized = true ∧ t = { s with
      net := ⟨true, s.period, s.allowance, s.count⟩ } := by
  unfold renewNetworkStatus at h
  split_ifs at h with h1
  · cases h; left; simpa using h1
  · cases h
    have : s.net.decentralized = true := by simpa using h1
    right
    refine ⟨this, ?_⟩
    simp only [this]

/-- Shape of a successful term start. -/
theorem termStart_state {s t : St} {b : Block} (h : termStart s b = .ok t)
    (hn : s.active.Nodup) :
    (t = s ∧ s.net.decentralized = false) ∨
    ∃ i a, t = { s with net := ⟨true, s.period, s.allowance, s.count⟩, svIndex := i, active := a } ∧
      a.Nodup ∧ (s.net.decentralized = true ∨ isDecentralizationPossible s b.rev = true) := by
  unfold termStart at h
  dsimp only at h
  by_cases hd : s.net.decentralized = true
  · simp only [hd, Bool.not_true, Bool.false_and, Bool.false_eq_true, if_false, if_true] at h
    obtain ⟨s2, h2, h⟩ := bind_ok.mp h
    rcases renew_state h2 with ⟨_, h3⟩ | ⟨_, rfl⟩
    · rw [hd] at h3; cases h3
    · obtain ⟨i, a, rfl, ha⟩ := initActive_state h hn
      exact .inr ⟨i, a, rfl, ha, .inl hd⟩
  · have hd' : s.net.decentralized = false := by simpa using hd
    by_cases hp : isDecentralizationPossible s b.rev = true
    · simp only [hd', hp, Bool.not_false, Bool.true_and, if_true] at h
      obtain ⟨s2, h2, h⟩ := bind_ok.mp h
      rcases renew_state h2 with ⟨_, h3⟩ | ⟨_, rfl⟩
      · cases h3
      · obtain ⟨i, a, rfl, ha⟩ := initActive_state h hn
        exact .inr ⟨i, a, rfl, ha, .inr hp⟩
    · have hp' : isDecentralizationPossible s b.rev = false := by simpa using hp
      simp only [hd', hp', Bool.not_false, Bool.true_and] at h
      left
      refine ⟨?_, hd'⟩
      simpa [hd'] using h.symm

theorem Reg.termStart {s t : St} {b : Block} (h : Reg s) (he : termStart s b = .ok t) :
    Reg t := by
  rcases termStart_state he h.activeNodup with ⟨rfl, _⟩ | ⟨i, a, rfl, ha, hd⟩
  · exact h
  · refine { h with activeNodup := ha, params := ?_, decCount := fun _ => ?_ }
    · obtain ⟨a1, a2, a3, _, _⟩ := h.params
      exact ⟨a1, a2, a3, a1, a2⟩
    · rcases hd with hd | hd
      · exact h.decCount hd
      · unfold isDecentralizationPossible at hd
        simp only [Bool.and_eq_true, decide_eq_true_eq] at hd
        exact hd.1.2

theorem Reg.baseTx {s t : St} {b : Block} (h : Reg s) (he : baseTx s b = .ok t) : Reg t := by
  unfold Val.baseTx at he
  obtain ⟨s1, h1, he⟩ := bind_ok.mp he
  have hr : Reg s1 := by
    split_ifs at h1
    · exact h.termStart h1
    · cases h1; exact h
  split_ifs at he
  · exact hr.handleBlockVote he
  · cases he; exact hr

end Verif.Havah.Val
