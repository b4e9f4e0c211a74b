import Verif.Havah.Economy.Reach
import Verif.Havah.Economy.Spec

/-! What single calls do to the pieces of state used in trace properties. -/
namespace Verif.Havah

theorem claimed_fields (s : EState) (id : Int) (o : Addr) (c : Int) :
    claimed s id o c = { s with rewards := (claimed s id o c).rewards, bal := (claimed s id o c).bal } := rfl

/-- A claim call changes rewards (current only) and balances only. -/
theorem claimLoop_frame {s : EState} (h : Core s) (owner : Addr) (ids : List Int) :
    (∃ b r, claimLoop owner ids s = { s with bal := b, rewards := r }) ∧
    (∀ i, (getPlanetReward (claimLoop owner ids s) i).lastTN = (getPlanetReward s i).lastTN ∧
      (getPlanetReward (claimLoop owner ids s) i).total = (getPlanetReward s i).total ∧
      (getPlanetReward (claimLoop owner ids s) i).current ≤ (getPlanetReward s i).current) := by
  have := claimLoop_induct (P := fun t => (∃ b r, t = { s with bal := b, rewards := r }) ∧
    (∀ i, (getPlanetReward t i).lastTN = (getPlanetReward s i).lastTN ∧
      (getPlanetReward t i).total = (getPlanetReward s i).total ∧
      (getPlanetReward t i).current ≤ (getPlanetReward s i).current)) owner ?_ ids s h
      ⟨⟨s.bal, s.rewards, rfl⟩, fun i => ⟨rfl, rfl, le_refl _⟩⟩
  · exact this.2
  · rintro t id p c _ ⟨⟨b, r, e⟩, hP⟩ _ _ hpos hle
    constructor
    · refine ⟨(claimed t id owner c).bal, (claimed t id owner c).rewards, ?_⟩
      rw [claimed_fields t id owner c]
      rw [e]
    · intro i
      rw [getReward_update t id _ i (claimed t id owner c) rfl]
      split
      · rename_i e'
        subst e'
        obtain ⟨h1, h2, h3⟩ := hP i
        simp only [Option.getD_some]
        exact ⟨h1, h2, by omega⟩
      · exact hP i

/-- What a successful call may change. -/
structure Effect (c : Ctx) (s s' : EState) : Prop where
  start : isIssueStarted c.height s.issueStart = true → s'.issueStart = s.issueStart
  raw : s'.termPeriodRaw = s.termPeriodRaw ∧ s'.issueLimitRaw = s.issueLimitRaw ∧
    s'.reductionCycleRaw = s.reductionCycleRaw ∧ s'.issueAmount = s.issueAmount ∧
    s'.hooverBudget = s.hooverBudget ∧ s'.active = s.active ∧ s'.activeUSDT = s.activeUSDT ∧
    s'.rewardTotal = s.rewardTotal
  planet : ∀ i p', s'.planets i = some p' → p'.height = c.height ∨
    ∃ p, s.planets i = some p ∧ p.height = p'.height ∧
      (getPlanetReward s i).lastTN ≤ (getPlanetReward s' i).lastTN
  supply : s'.supply ≤ s.supply

theorem exec_effect {c : Ctx} {s s' : EState} {k : Call} (i : Inv ⟨c.height, s⟩)
    (he : exec c s k = .ok s') : Effect c s s' := by
  have hc : Core s := i.core
  have same : ∀ j p', s.planets j = some p' → p'.height = c.height ∨
    ∃ p, s.planets j = some p ∧ p.height = p'.height ∧
      (getPlanetReward s j).lastTN ≤ (getPlanetReward s j).lastTN :=
    fun j p' h => Or.inr ⟨p', h, rfl, le_refl _⟩
  have raw0 : s.termPeriodRaw = s.termPeriodRaw ∧ s.issueLimitRaw = s.issueLimitRaw ∧
    s.reductionCycleRaw = s.reductionCycleRaw ∧ s.issueAmount = s.issueAmount ∧
    s.hooverBudget = s.hooverBudget ∧ s.active = s.active ∧ s.activeUSDT = s.activeUSDT ∧
    s.rewardTotal = s.rewardTotal := ⟨rfl, rfl, rfl, rfl, rfl, rfl, rfl, rfl⟩
  cases k with
  | setUSDTPrice price =>
    obtain ⟨_, he⟩ := guard_ok he
    unfold setUSDTPrice at he
    split at he
    · cases he
    cases he
    exact ⟨fun _ => rfl, raw0, same, le_refl _⟩
  | startRewardIssue h =>
    obtain ⟨_, he⟩ := guard_ok he
    split at he
    · cases he
    unfold setIssueStart at he
    split at he
    · cases he
    split at he
    · cases he
    rename_i h2
    cases he
    exact ⟨fun h => absurd h h2, raw0, same, le_refl _⟩
  | addPlanetManager a =>
    obtain ⟨_, he⟩ := guard_ok he
    unfold addPlanetManager at he
    split at he
    · cases he
    cases he
    exact ⟨fun _ => rfl, raw0, same, le_refl _⟩
  | removePlanetManager a =>
    obtain ⟨_, he⟩ := guard_ok he
    obtain ⟨l, rfl, _, _⟩ := remove_ok he
    exact ⟨fun _ => rfl, raw0, same, le_refl _⟩
  | registerPlanet id pv co owner usdt price =>
    obtain ⟨_, he⟩ := guard_ok he
    obtain ⟨_, _, _, rfl⟩ := register_ok he
    refine ⟨fun _ => rfl, raw0, ?_, le_refl _⟩
    intro j p' hj
    simp only [Function.update_apply] at hj
    split at hj
    · cases hj; exact Or.inl rfl
    · exact Or.inr ⟨p', hj, rfl, le_refl _⟩
  | unregisterPlanet id =>
    obtain ⟨_, he⟩ := guard_ok he
    obtain ⟨_, _, _, _, e⟩ := unregister_ok he
    refine ⟨fun _ => by rw [e], by rw [e]; exact raw0, ?_, by rw [e]⟩
    intro j p' hj
    have hne : j ≠ int64 id ∧ s.planets j = some p' := by
      rw [e] at hj
      simp only [Function.update_apply] at hj
      split at hj
      · cases hj
      · exact ⟨by assumption, hj⟩
    refine Or.inr ⟨p', hne.2, rfl, ?_⟩
    by_cases hrev : 2 ≤ c.rev
    · have hrw : s'.rewards = Function.update s.rewards (int64 id) none := by rw [e]; simp [hrev]
      rw [getReward_update s (int64 id) none j s' hrw, if_neg hne.1]
    · have : s'.rewards = s.rewards := by rw [e]; simp [hrev]
      unfold getPlanetReward; rw [this]
  | setPlanetOwner id owner =>
    obtain ⟨_, he⟩ := guard_ok he
    obtain ⟨p, _, hp, rfl⟩ := setOwner_ok he
    refine ⟨fun _ => rfl, raw0, ?_, le_refl _⟩
    intro j p' hj
    simp only [Function.update_apply] at hj
    split at hj
    · rename_i e; subst e; cases hj; exact Or.inr ⟨p, hp, rfl, le_refl _⟩
    · exact Or.inr ⟨p', hj, rfl, le_refl _⟩
  | reportPlanetWork id =>
    simp only [exec] at he
    split at he
    · obtain ⟨p, H, rfl⟩ := report_ok he
      refine ⟨fun _ => rfl, raw0, ?_, le_refl _⟩
      intro j p' hj
      refine Or.inr ⟨p', hj, rfl, ?_⟩
      rw [getReward_update s (int64 id) _ j (reported s c.height (int64 id) p) rfl]
      split
      · rename_i e; rw [e]; have := H.fresh; simp only [Option.getD_some]; omega
      · exact le_refl _
    · cases he
  | claimPlanetReward ids =>
    simp only [exec, claimPlanetReward] at he
    split at he
    · cases he
    split at he
    · cases he
    cases he
    obtain ⟨⟨b, r, e⟩, hl⟩ := claimLoop_frame hc c.caller (ids.map int64)
    refine ⟨fun _ => by rw [e], by rw [e]; exact raw0, ?_, by rw [e]⟩
    intro j p' hj
    refine Or.inr ⟨p', by rw [e] at hj; exact hj, rfl, ?_⟩
    rw [(hl j).1]
  | fallback value =>
    simp only [exec, bind, Except.bind] at he
    split at he
    · cases he
    rename_i s1 h1
    obtain ⟨_, _, rfl⟩ := transfer_ok h1
    obtain ⟨h0, _, rfl⟩ := burn_ok' he
    exact ⟨fun _ => rfl, raw0, same, by simp only; omega⟩
  | setPrivateClaimableRate n d =>
    obtain ⟨_, he⟩ := guard_ok he
    unfold setPrivateClaimableRate at he
    split at he
    · cases he
      exact ⟨fun _ => rfl, raw0, same, le_refl _⟩
    · cases he
  | withdrawLostTo dst =>
    obtain ⟨_, he⟩ := guard_ok he
    obtain ⟨_, _, rfl⟩ := i.withdrawLost he
    exact ⟨fun _ => rfl, raw0, same, le_refl _⟩
  | transfer dst amount =>
    obtain ⟨_, _, rfl⟩ := transfer_ok (show transfer s c.caller dst amount = .ok s' from he)
    exact ⟨fun _ => rfl, raw0, same, le_refl _⟩
  | fee amount =>
    obtain ⟨_, _, rfl⟩ := transfer_ok (show transfer s c.caller treasury amount = .ok s' from he)
    exact ⟨fun _ => rfl, raw0, same, le_refl _⟩

theorem apply_effect {c : Ctx} {s : EState} (k : Call) (i : Inv ⟨c.height, s⟩) :
    Effect c s (apply c s k) := by
  unfold apply
  split
  · rename_i s' h; exact exec_effect i h
  · exact ⟨fun _ => rfl, ⟨rfl, rfl, rfl, rfl, rfl, rfl, rfl, rfl⟩,
      fun j p' h => Or.inr ⟨p', h, rfl, le_refl _⟩, le_refl _⟩

/-! ### Bridges between the specification vocabulary and the model -/

theorem spec_period (s : EState) : Spec.period s = s.termPeriod := rfl
theorem spec_limit (s : EState) : Spec.limit s = s.issueLimit := rfl
theorem spec_cycle (s : EState) : Spec.cycle s = s.reductionCycle := rfl
theorem spec_term (s : EState) (h : Int) : Spec.term s h = termSeq s h := rfl
theorem spec_share (s : EState) : Spec.share s = rewardPerActivePlanet s := rfl
theorem spec_termFirst (s : EState) (h : Int) : Spec.termFirst s h = termStart s h := by
  unfold Spec.termFirst termStart; rw [add_comm]; rfl
theorem spec_started (s : EState) (h : Int) :
    Spec.Started s h ↔ isIssueStarted h s.issueStart = true := started_iff.symm
theorem spec_current (s : EState) (i : Int) : Spec.current s i = (getPlanetReward s i).current := by
  unfold Spec.current getPlanetReward; cases s.rewards i <;> rfl
theorem spec_total (s : EState) (i : Int) : Spec.total s i = (getPlanetReward s i).total := by
  unfold Spec.total getPlanetReward; cases s.rewards i <;> rfl
theorem spec_last (s : EState) (i : Int) : Spec.lastTerm s i = (getPlanetReward s i).lastTN := by
  unfold Spec.lastTerm getPlanetReward; cases s.rewards i <;> rfl

end Verif.Havah
