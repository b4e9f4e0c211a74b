import Verif.Havah.Economy.Step

/-! Every reachable chain satisfies the invariants. -/
namespace Verif.Havah

theorem guard_ok {c : M Unit} {k : M EState} {s' : EState}
    (h : (do c; k) = .ok s') : c = .ok () ∧ k = .ok s' := by
  cases c with
  | error e => cases h
  | ok u => exact ⟨rfl, h⟩

theorem Inv.exec {c : Ctx} {s s' : EState} {k : Call} (i : Inv ⟨c.height, s⟩)
    (hk : c.caller.id ≠ publicTreasury.id) (he : exec c s k = .ok s') : Inv ⟨c.height, s'⟩ := by
  have hc : Core s := i.core
  cases k with
  | setUSDTPrice price =>
    obtain ⟨_, he⟩ := guard_ok he
    unfold setUSDTPrice at he
    split at he
    · cases he
    cases he
    exact i.frame (hc.frame rfl rfl hc.issue hc.start rfl rfl rfl rfl rfl) rfl (fun _ => rfl) rfl rfl
      rfl rfl rfl rfl rfl rfl i.mgr
  | startRewardIssue h =>
    obtain ⟨_, he⟩ := guard_ok he
    split at he
    · cases he
    unfold setIssueStart at he
    split at he
    · cases he
    rename_i h1
    split at he
    · cases he
    rename_i h2
    cases he
    have ht : Term c.height s := i.term
    have hns : isIssueStarted c.height (int64 h) = false := not_started_iff.mpr (by omega)
    refine ⟨hc.frame rfl rfl hc.issue (by simp only; omega) rfl rfl rfl rfl rfl, i.reg.frame rfl rfl,
      ⟨fun _ => ht.before (by simpa using h2), ?_, ?_, ?_⟩, i.mgr⟩
    · intro h3; simp only at h3; rw [hns] at h3; cases h3
    · intro h3; simp only at h3; rw [hns] at h3; cases h3
    · intro h3; simp only at h3; rw [hns] at h3; cases h3
  | addPlanetManager a =>
    obtain ⟨_, he⟩ := guard_ok he
    unfold addPlanetManager at he
    split at he
    · cases he
    rename_i h1
    cases he
    refine i.frame (hc.frame rfl rfl hc.issue hc.start rfl rfl rfl rfl rfl) rfl (fun _ => rfl) rfl rfl
      rfl rfl rfl rfl rfl rfl ?_
    have hn : s.managers.Nodup := i.mgr
    simp only
    rw [List.nodup_append]
    refine ⟨hn, by simp, ?_⟩
    intro x hx y hy e
    apply h1
    unfold isPlanetManager
    rw [List.any_eq_true]
    refine ⟨x, hx, ?_⟩
    simp only [List.mem_singleton] at hy
    rw [e, hy]; simp
  | removePlanetManager a =>
    obtain ⟨_, he⟩ := guard_ok he
    obtain ⟨l, rfl, h1, _⟩ := remove_ok he
    exact i.frame (hc.frame rfl rfl hc.issue hc.start rfl rfl rfl rfl rfl) rfl (fun _ => rfl) rfl rfl
      rfl rfl rfl rfl rfl rfl (h1 i.mgr).1
  | registerPlanet id pv co owner usdt price =>
    obtain ⟨_, he⟩ := guard_ok he
    exact i.register rfl he
  | unregisterPlanet id =>
    obtain ⟨_, he⟩ := guard_ok he
    exact i.unregister he
  | setPlanetOwner id owner =>
    obtain ⟨_, he⟩ := guard_ok he
    exact i.setOwner he
  | reportPlanetWork id =>
    simp only [Havah.exec] at he
    split at he
    · exact i.report he
    · cases he
  | claimPlanetReward ids =>
    simp only [Havah.exec, claimPlanetReward] at he
    split at he
    · cases he
    split at he
    · cases he
    cases he
    exact i.claim _ _
  | fallback value =>
    simp only [Havah.exec] at he
    simp only [bind, Except.bind] at he
    split at he
    · cases he
    rename_i s1 h1
    exact (i.transfer hk h1).burn he
  | setPrivateClaimableRate n d =>
    obtain ⟨_, he⟩ := guard_ok he
    unfold setPrivateClaimableRate at he
    split at he
    · cases he
      exact i.frame (hc.frame rfl rfl hc.issue hc.start rfl rfl rfl rfl rfl) rfl (fun _ => rfl) rfl rfl
        rfl rfl rfl rfl rfl rfl i.mgr
    · cases he
  | withdrawLostTo dst =>
    obtain ⟨_, he⟩ := guard_ok he
    exact (i.withdrawLost he).1
  | transfer dst amount => exact i.transfer hk he
  | fee amount => exact i.transfer hk he

theorem Inv.apply {c : Ctx} {s : EState} (k : Call) (i : Inv ⟨c.height, s⟩)
    (hk : c.caller.id ≠ publicTreasury.id) : Inv ⟨c.height, apply c s k⟩ := by
  unfold Havah.apply
  split
  · rename_i s' h; exact i.exec hk h
  · exact i

/-! ### Blocks -/

/-- In a running term the reward of absent planets is covered by the remainder. -/
theorem Running.missed {h : Int} {s : EState} {A W : Finset Int} (hc : Core s)
    (r : Running h s A W) : 0 ≤ missedReward s ∧ missedReward s ≤ s.rewardRemain := by
  have hcard := Finset.card_le_card r.sub
  have h1 := r.active
  have h2 := r.working
  have h3 := r.remain
  have h4 := hc.total
  unfold missedReward
  unfold rewardPerActivePlanet at h3
  split
  · rename_i ha
    rw [if_pos ha] at h3
    have hd := Int.ediv_nonneg h4 (Int.le_of_lt ha)
    have hm := Int.ediv_mul_le s.rewardTotal (Int.ne_of_gt ha)
    have hw : 0 ≤ s.active - s.working := by omega
    refine ⟨mul_nonneg hd hw, ?_⟩
    rw [h3]; nlinarith
  · rename_i ha
    rw [if_neg ha] at h3
    omega

/-- Facts about the previous block when a term starts at `h + 1`. -/
theorem prev_term {h : Int} {s : EState} (hs : isIssueStarted (h + 1) s.issueStart = true)
    (h0 : (h + 1 - s.issueStart) % s.termPeriod = 0) (hp : 0 < termSeq s (h + 1)) :
    isIssueStarted h s.issueStart = true ∧ termSeq s h = termSeq s (h + 1) - 1 := by
  have hd := div_prev_zero (termPeriod_pos s) h0
  have h1 := started_iff.mp hs
  have e : h + 1 - s.issueStart - 1 = h - s.issueStart := by omega
  rw [e] at hd
  refine ⟨started_iff.mpr ⟨h1.1, ?_⟩, hd⟩
  by_contra hlt
  have : h + 1 - s.issueStart = 0 := by omega
  unfold termSeq at hp
  rw [this] at hp
  simp at hp

theorem same_term {h : Int} {s : EState} (hs : isIssueStarted (h + 1) s.issueStart = true)
    (h0 : (h + 1 - s.issueStart) % s.termPeriod ≠ 0) :
    isIssueStarted h s.issueStart = true ∧ termSeq s h = termSeq s (h + 1) := by
  have hd := div_prev_same (termPeriod_pos s) h0
  have h1 := started_iff.mp hs
  have e : h + 1 - s.issueStart - 1 = h - s.issueStart := by omega
  rw [e] at hd
  refine ⟨started_iff.mpr ⟨h1.1, ?_⟩, hd⟩
  by_contra hlt
  have : h + 1 - s.issueStart = 0 := by omega
  rw [this] at h0
  simp at h0

theorem Reg.next {h : Int} {s : EState} (r : Reg h s) : Reg (h + 1) s :=
  ⟨r.fin, r.le, r.nonneg, fun i p hp => by have := r.height i p hp; omega⟩

theorem termSeqIdx_started {h : Int} {s : EState} (hs : isIssueStarted h s.issueStart = true) :
    termSequenceAndBlockIndex h s.issueStart s.termPeriod =
      (termSeq s h, (h - s.issueStart) % s.termPeriod) := by
  have h1 := started_iff.mp hs
  unfold termSequenceAndBlockIndex termSeq
  rw [if_neg (by omega)]

theorem termSeqIdx_not {h : Int} {s : EState} (h0 : 0 ≤ s.issueStart)
    (hs : isIssueStarted h s.issueStart = false) :
    termSequenceAndBlockIndex h s.issueStart s.termPeriod = (-1, -1) := by
  have h1 := not_started_iff.mp hs
  unfold termSequenceAndBlockIndex
  rw [if_pos (by omega)]

theorem termSeq_nonneg {h : Int} {s : EState} (hs : isIssueStarted h s.issueStart = true) :
    0 ≤ termSeq s h := by
  have h1 := started_iff.mp hs
  exact Int.ediv_nonneg (by omega) (Int.le_of_lt (termPeriod_pos s))

/-- The state in which a term starts, after the work for the end of the previous one. -/
def closed (s : EState) (h : Int) : EState :=
  if 0 < termSeq s h ∧ termSeq s h ≤ s.issueLimit then ended s else s

/-- State after the base transaction at the first block `h` of a term. -/
def opened (s : EState) (h : Int) : EState :=
  if termSeq s h < s.issueLimit then
    begun (closed s h) (issueAmountByTS (closed s h) (termSeq s h)).1
  else closed s h

theorem ended_limit (s : EState) : (ended s).issueLimit = s.issueLimit := rfl
theorem closed_limit (s : EState) (h : Int) : (closed s h).issueLimit = s.issueLimit := by
  unfold closed; split <;> rfl

/-- The end-of-term work at the first block `h+1` of a term is covered. -/
theorem Inv.missed {h : Int} {s : EState} (i : Inv ⟨h, s⟩)
    (hs : isIssueStarted (h + 1) s.issueStart = true)
    (h0 : (h + 1 - s.issueStart) % s.termPeriod = 0)
    (hp : 0 < termSeq s (h + 1) ∧ termSeq s (h + 1) ≤ s.issueLimit) :
    0 ≤ missedReward s ∧ missedReward s ≤ s.rewardRemain := by
  obtain ⟨hs', he⟩ := prev_term hs h0 hp.1
  have ht : Term h s := i.term
  obtain ⟨A, W, r⟩ := ht.running hs' (by omega)
  exact r.missed i.core

theorem Inv.closed_core {h : Int} {s : EState} (i : Inv ⟨h, s⟩)
    (hs : isIssueStarted (h + 1) s.issueStart = true)
    (h0 : (h + 1 - s.issueStart) % s.termPeriod = 0) : Core (closed s (h + 1)) := by
  have hc : Core s := i.core
  unfold closed
  split
  · rename_i hp
    obtain ⟨h1, h2⟩ := i.missed hs h0 hp
    exact hc.ended h1 h2
  · exact hc

/-- The base transaction of a term's first block either carries the right amount and leads to
`opened`, or fails because of a wrong amount. -/
theorem Inv.base {h : Int} {s : EState} (i : Inv ⟨h, s⟩)
    (hs : isIssueStarted (h + 1) s.issueStart = true)
    (h0 : (h + 1 - s.issueStart) % s.termPeriod = 0) (x : Int) :
    beginBlock s (h + 1) x =
      if termSeq s (h + 1) < s.issueLimit ∧
        x ≠ (issueAmountByTS (closed s (h + 1)) (termSeq s (h + 1))).1
      then .error .invalidTxValue else .ok (opened s (h + 1)) := by
  have hc : Core s := i.core
  have hcc := i.closed_core hs h0
  have hlim := issueLimit_pos s
  unfold beginBlock
  rw [termSeqIdx_started hs]
  simp only [h0]
  rw [if_pos ⟨termSeq_nonneg hs, trivial⟩]
  unfold onBaseTx
  rw [if_neg (by simpa using hs), termSeqIdx_started hs]
  simp only [h0, if_true, bind, Except.bind, pure, Except.pure]
  have fin : (if s.issueLimit = 0 ∨ termSeq s (h + 1) < s.issueLimit then
      onTermStart (closed s (h + 1)) (termSeq s (h + 1)) x else Except.ok (closed s (h + 1))) =
      if termSeq s (h + 1) < s.issueLimit ∧
        x ≠ (issueAmountByTS (closed s (h + 1)) (termSeq s (h + 1))).1
      then .error .invalidTxValue else .ok (opened s (h + 1)) := by
    by_cases hl : termSeq s (h + 1) < s.issueLimit
    · rw [if_pos (Or.inr hl)]
      unfold opened
      rw [if_pos hl]
      by_cases hx : x = (issueAmountByTS (closed s (h + 1)) (termSeq s (h + 1))).1
      · rw [if_neg (by simp [hx]), hx]
        exact termStart_total hcc _
      · rw [if_pos ⟨hl, hx⟩]
        unfold onTermStart
        simp only
        rw [if_pos hx]
    · rw [if_neg (by omega), if_neg (by omega)]
      unfold opened
      rw [if_neg hl]
  rw [← fin]
  by_cases hp : 0 < termSeq s (h + 1) ∧ termSeq s (h + 1) ≤ s.issueLimit
  · obtain ⟨h1, h2⟩ := i.missed hs h0 hp
    have hcl : closed s (h + 1) = ended s := by unfold closed; rw [if_pos hp]
    rw [if_pos (by omega), termEnd_total hc h1 h2, hcl]
  · have hcl : closed s (h + 1) = s := by unfold closed; rw [if_neg hp]
    rw [if_neg (by omega), hcl]

/-- Fields a term change leaves alone. -/
theorem opened_frame (s : EState) (h : Int) :
    (opened s h).planets = s.planets ∧ (opened s h).rewards = s.rewards ∧
    (opened s h).issueStart = s.issueStart ∧ (opened s h).termPeriodRaw = s.termPeriodRaw ∧
    (opened s h).issueLimitRaw = s.issueLimitRaw ∧ (opened s h).allPlanet = s.allPlanet ∧
    (opened s h).managers = s.managers ∧ (opened s h).lost = s.lost ∧
    (opened s h).reductionCycleRaw = s.reductionCycleRaw ∧
    (opened s h).claimRateRaw = s.claimRateRaw ∧ (opened s h).usdtPrice = s.usdtPrice ∧
    (opened s h).hooverBudget = s.hooverBudget := by
  unfold opened closed
  split_ifs <;> refine ⟨rfl, rfl, rfl, rfl, rfl, rfl, rfl, rfl, rfl, rfl, rfl, rfl⟩

theorem Inv.opened {h : Int} {s : EState} (i : Inv ⟨h, s⟩)
    (hs : isIssueStarted (h + 1) s.issueStart = true)
    (h0 : (h + 1 - s.issueStart) % s.termPeriod = 0) : Inv ⟨h + 1, opened s (h + 1)⟩ := by
  have hc : Core s := i.core
  have hcc := i.closed_core hs h0
  have ht : Term h s := i.term
  have hr : Reg h s := i.reg
  have hlim := issueLimit_pos s
  have hnn := termSeq_nonneg hs
  obtain ⟨e1, e2, e3, e4, e5, e6, e7, _, _⟩ := opened_frame s (h + 1)
  have hget : ∀ j, getPlanetReward (Havah.opened s (h + 1)) j = getPlanetReward s j := by
    intro j; unfold getPlanetReward; rw [e2]
  have k1 : termStart (Havah.opened s (h + 1)) (h + 1) = termStart s (h + 1) := by
    unfold termStart EState.termPeriod; rw [e3, e4]
  have k2 : termSeq (Havah.opened s (h + 1)) (h + 1) = termSeq s (h + 1) := by
    unfold termSeq EState.termPeriod; rw [e3, e4]
  have k5 : (Havah.opened s (h + 1)).issueLimit = s.issueLimit := by unfold EState.issueLimit; rw [e5]
  have hlast : ∀ j, (getPlanetReward s j).lastTN ≤ termSeq s (h + 1) := by
    intro j
    by_cases hp : 0 < termSeq s (h + 1)
    · obtain ⟨hs', he⟩ := prev_term hs h0 hp
      have := ht.last hs' j
      omega
    · by_cases hs' : isIssueStarted h s.issueStart = true
      · exfalso
        have h1 := started_iff.mp hs
        have h2 := started_iff.mp hs'
        have h3 : termSeq s (h + 1) = 0 := by omega
        unfold termSeq at h3
        have h4 := Int.mul_ediv_add_emod (h + 1 - s.issueStart) s.termPeriod
        rw [h0, h3] at h4
        simp at h4; omega
      · have := (ht.before (by simpa using hs')).2.2.2.2 j
        omega
  have hcore : Core (Havah.opened s (h + 1)) := by
    unfold Havah.opened
    split
    · exact hcc.begun (issueAmountByTS_nonneg hcc.issue _)
    · exact hcc
  refine ⟨hcore, hr.next.frame e1 e6, ⟨?_, ?_, ?_, ?_⟩, by rw [e7]; exact i.mgr⟩
  · simp only; rw [e3]; intro hf; rw [hf] at hs; cases hs
  · simp only; intro _ j; rw [hget, k2]; have := hlast j; omega
  · simp only; intro _ hl
    rw [k2, k5] at hl
    have hop : Havah.opened s (h + 1) =
        begun (closed s (h + 1)) (issueAmountByTS (closed s (h + 1)) (termSeq s (h + 1))).1 := by
      unfold Havah.opened; rw [if_pos hl]
    have hw : (closed s (h + 1)).working = 0 := by
      unfold closed
      split
      · rfl
      · rename_i hp
        by_cases hs' : isIssueStarted h s.issueStart = true
        · exfalso
          have h1 := started_iff.mp hs
          have h2 := started_iff.mp hs'
          have h3 : termSeq s (h + 1) = 0 := by omega
          unfold termSeq at h3
          have h4 := Int.mul_ediv_add_emod (h + 1 - s.issueStart) s.termPeriod
          rw [h0, h3] at h4
          simp at h4; omega
        · exact (ht.before (by simpa using hs')).2.1
    obtain ⟨P, hP, hcard⟩ := hr.fin
    have hap : (closed s (h + 1)).allPlanet = s.allPlanet := by unfold closed; split <;> rfl
    refine ⟨P, ∅, ?_, ?_, by simp, ?_, by simp, ?_⟩
    · rw [hop]; change _ = (closed s (h + 1)).allPlanet; rw [hap]; exact hcard
    · rw [hop]; change _ = (closed s (h + 1)).working; rw [hw]; rfl
    · intro j q hj _; rw [e1] at hj; rw [hP, hj]; rfl
    · rw [hop]
      change _ = _ - _ * (closed s (h + 1)).working
      rw [hw]; simp only [begun]; ring
  · simp only; intro _ hl
    rw [k2, k5] at hl
    by_cases hl' : termSeq s (h + 1) = s.issueLimit
    · unfold Havah.opened closed
      rw [if_neg (by omega), if_pos (by omega)]
      rfl
    · have hp : 0 < termSeq s (h + 1) := by omega
      obtain ⟨hs', he⟩ := prev_term hs h0 hp
      unfold Havah.opened closed
      rw [if_neg (by omega), if_neg (by omega)]
      exact ht.after hs' (by omega)

/-- What a successful block start does. -/
theorem Inv.begin_ok {h : Int} {s s' : EState} (i : Inv ⟨h, s⟩) {x : Int}
    (hb : beginBlock s (h + 1) x = .ok s') :
    (isIssueStarted (h + 1) s.issueStart = true ∧ (h + 1 - s.issueStart) % s.termPeriod = 0 ∧
      s' = Havah.opened s (h + 1) ∧ (termSeq s (h + 1) < s.issueLimit →
        x = (issueAmountByTS (closed s (h + 1)) (termSeq s (h + 1))).1)) ∨
    ((isIssueStarted (h + 1) s.issueStart = true → (h + 1 - s.issueStart) % s.termPeriod ≠ 0) ∧
      s' = s) := by
  have hc : Core s := i.core
  by_cases hs : isIssueStarted (h + 1) s.issueStart = true
  · by_cases h0 : (h + 1 - s.issueStart) % s.termPeriod = 0
    · left
      rw [i.base hs h0] at hb
      split at hb
      · cases hb
      rename_i hx
      cases hb
      refine ⟨hs, h0, rfl, fun hl => ?_⟩
      by_contra hne
      exact hx ⟨hl, hne⟩
    · right
      unfold beginBlock at hb
      rw [termSeqIdx_started hs] at hb
      rw [if_neg (by simp [h0])] at hb
      cases hb
      exact ⟨fun _ => h0, rfl⟩
  · right
    have hs' : isIssueStarted (h + 1) s.issueStart = false := by simpa using hs
    unfold beginBlock at hb
    rw [termSeqIdx_not hc.start hs'] at hb
    rw [if_neg (by simp)] at hb
    cases hb
    exact ⟨fun h => absurd h hs, rfl⟩

theorem Inv.block {h : Int} {s s' : EState} (i : Inv ⟨h, s⟩) {x : Int}
    (hb : beginBlock s (h + 1) x = .ok s') : Inv ⟨h + 1, s'⟩ := by
  rcases i.begin_ok hb with ⟨hs, h0, rfl, _⟩ | ⟨hn, rfl⟩
  · exact i.opened hs h0
  · have ht : Term h s' := i.term
    have hc : Core s' := i.core
    refine ⟨hc, i.reg.next, ?_, i.mgr⟩
    by_cases hs : isIssueStarted (h + 1) s'.issueStart = true
    · obtain ⟨hs', he⟩ := same_term hs (hn hs)
      have k1 : termStart s' (h + 1) = termStart s' h := by
        unfold termStart; unfold termSeq at he; rw [he]
      refine ⟨fun hf => (by simp only at hf; rw [hf] at hs; cases hs), ?_, ?_, ?_⟩
      · intro _ j; simp only; rw [← he]; exact ht.last hs' j
      · intro _ hl
        simp only at hl; rw [← he] at hl
        obtain ⟨A, W, r⟩ := ht.running hs' hl
        refine ⟨A, W, r.active, r.working, r.sub, ?_, ?_, r.remain⟩
        · simp only; rw [k1]; exact r.old
        · simp only; rw [k1, ← he]; exact r.done
      · intro _ hl; simp only at hl; rw [← he] at hl; exact ht.after hs' hl
    · have hs' : isIssueStarted h s'.issueStart = false := by
        have h1 := not_started_iff.mp (by simpa using hs : isIssueStarted (h + 1) s'.issueStart = false)
        exact not_started_iff.mpr (by omega)
      refine ⟨fun _ => ht.before hs', ?_, ?_, ?_⟩
      · intro h1; exact absurd h1 hs
      · intro h1; exact absurd h1 hs
      · intro h1; exact absurd h1 hs

theorem Inv.step {c c' : Chain} (i : Inv c) (st : Step c c') : Inv c' := by
  cases st with
  | call h s ctx k hh hk => subst hh; exact Inv.apply k i hk
  | block h s s' x hb => exact Inv.block i hb

theorem Inv.steps {c c' : Chain} (i : Inv c) (st : Steps c c') : Inv c' := by
  induction st with
  | refl => exact i
  | tail _ hst ih => exact ih.step hst

theorem Genesis.inv {s : EState} (g : Genesis s) : Inv ⟨0, s⟩ := by
  have hget : ∀ j, getPlanetReward s j = Reward.empty := by
    intro j; unfold getPlanetReward; rw [g.rewards]; rfl
  have hns : isIssueStarted 0 s.issueStart = false := by rw [g.issueStart]; rfl
  refine ⟨⟨g.bal_nonneg, g.supply, g.issueAmount, by simp only; rw [g.issueStart], by simp only; rw [g.rewardRemain],
    by simp only; rw [g.rewardTotal], by simp only; rw [g.eco], by simp only; rw [g.lost], ?_, ?_⟩, ⟨?_, ?_, ?_, ?_⟩,
    ⟨?_, ?_, ?_, ?_⟩, ?_⟩
  · intro j; simp only; rw [hget]; simp [Reward.empty]
  · intro S
    have : ∀ j, cur s j = 0 := fun j => by unfold cur; rw [hget]; rfl
    simp only [this, Finset.sum_const_zero, g.rewardRemain, g.eco, g.lost]
    have := g.bal_nonneg publicTreasury.id; omega
  · refine ⟨∅, ?_, ?_⟩
    · intro j; simp [g.planets]
    · simp [g.allPlanet]
  · simp only; rw [g.allPlanet]; decide
  · intro j p hp; simp only at hp; rw [g.planets] at hp; cases hp
  · intro j p hp; simp only at hp; rw [g.planets] at hp; cases hp
  · intro _
    refine ⟨g.active, g.working, g.rewardTotal, g.rewardRemain, fun j => ?_⟩
    simp only; rw [hget]; simp [Reward.empty]
  · intro h; simp only at h; rw [hns] at h; cases h
  · intro h; simp only at h; rw [hns] at h; cases h
  · intro h; simp only at h; rw [hns] at h; cases h
  · simp only; rw [g.managers]; exact List.nodup_nil

theorem Reachable.inv {g : EState} {c : Chain} (r : Reachable g c) : Inv c := r.1.inv.steps r.2

end Verif.Havah
