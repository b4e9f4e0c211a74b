import Verif.Havah.Economy.Track

/-! Which call can change which part of the state. -/
namespace Verif.Havah

/-- Each part of the state is unchanged unless the call is one of those that concern it. -/
structure Frame (s s' : EState) (k : Call) : Prop where
  rate : s'.claimRateRaw = s.claimRateRaw ∨ ∃ n d, k = .setPrivateClaimableRate n d
  managers : s'.managers = s.managers ∨ (∃ a, k = .addPlanetManager a) ∨ ∃ a, k = .removePlanetManager a
  start : s'.issueStart = s.issueStart ∨ ∃ h, k = .startRewardIssue h
  price : s'.usdtPrice = s.usdtPrice ∨ ∃ p, k = .setUSDTPrice p
  lost : s'.lost = s.lost ∨ (∃ i, k = .unregisterPlanet i) ∨ ∃ a, k = .withdrawLostTo a
  planets : (s'.planets = s.planets ∧ s'.allPlanet = s.allPlanet) ∨
    (∃ i pv co o u p, k = .registerPlanet i pv co o u p) ∨ (∃ i, k = .unregisterPlanet i) ∨
    ∃ i o, k = .setPlanetOwner i o
  rewards : s'.rewards = s.rewards ∨ (∃ i, k = .reportPlanetWork i) ∨ (∃ i, k = .unregisterPlanet i) ∨
    ∃ l, k = .claimPlanetReward l
  work : (s'.working = s.working ∧ s'.rewardRemain = s.rewardRemain ∧ s'.eco = s.eco) ∨
    ∃ i, k = .reportPlanetWork i
  bal : s'.bal = s.bal ∨ (∃ i, k = .reportPlanetWork i) ∨ (∃ l, k = .claimPlanetReward l) ∨
    (∃ v, k = .fallback v) ∨ (∃ a, k = .withdrawLostTo a) ∨ (∃ d v, k = .transfer d v) ∨ ∃ v, k = .fee v
  counters : s'.sfTxFee = s.sfTxFee ∧ s'.sfServiceFee = s.sfServiceFee ∧ s'.sfMissing = s.sfMissing ∧
    s'.sfHooverRefill = s.sfHooverRefill

theorem exec_frame {c : Ctx} {s s' : EState} {k : Call} (i : Inv ⟨c.height, s⟩)
    (he : exec c s k = .ok s') : Frame s s' k := by
  have hc : Core s := i.core
  cases k with
  | setUSDTPrice price =>
    obtain ⟨_, he⟩ := guard_ok he
    unfold setUSDTPrice at he
    split at he
    · cases he
    cases he
    constructor <;> simp
  | startRewardIssue h =>
    obtain ⟨_, he⟩ := guard_ok he
    split at he
    · cases he
    unfold setIssueStart at he
    split at he
    · cases he
    split at he
    · cases he
    cases he
    constructor <;> simp
  | addPlanetManager a =>
    obtain ⟨_, he⟩ := guard_ok he
    unfold addPlanetManager at he
    split at he
    · cases he
    cases he
    constructor <;> simp
  | removePlanetManager a =>
    obtain ⟨_, he⟩ := guard_ok he
    obtain ⟨l, rfl, _, _⟩ := remove_ok he
    constructor <;> simp
  | registerPlanet id pv co owner usdt price =>
    obtain ⟨_, he⟩ := guard_ok he
    obtain ⟨_, _, _, rfl⟩ := register_ok he
    constructor <;> simp
  | unregisterPlanet id =>
    obtain ⟨_, he⟩ := guard_ok he
    obtain ⟨_, _, _, _, e⟩ := unregister_ok he
    subst e
    constructor <;> simp
  | setPlanetOwner id owner =>
    obtain ⟨_, he⟩ := guard_ok he
    obtain ⟨p, _, hp, rfl⟩ := setOwner_ok he
    constructor <;> simp
  | reportPlanetWork id =>
    simp only [exec] at he
    split at he
    · obtain ⟨p, H, rfl⟩ := report_ok he
      constructor <;> simp [reported]
    · cases he
  | claimPlanetReward ids =>
    simp only [exec, claimPlanetReward] at he
    split at he
    · cases he
    split at he
    · cases he
    cases he
    obtain ⟨⟨b, r, e⟩, hl⟩ := claimLoop_frame hc c.caller (ids.map int64)
    rw [e]
    constructor <;> simp
  | fallback value =>
    simp only [exec, bind, Except.bind] at he
    split at he
    · cases he
    rename_i s1 h1
    obtain ⟨_, _, rfl⟩ := transfer_ok h1
    obtain ⟨h0, _, rfl⟩ := burn_ok' he
    constructor <;> simp
  | setPrivateClaimableRate n d =>
    obtain ⟨_, he⟩ := guard_ok he
    unfold setPrivateClaimableRate at he
    split at he
    · cases he
      constructor <;> simp
    · cases he
  | withdrawLostTo dst =>
    obtain ⟨_, he⟩ := guard_ok he
    obtain ⟨_, _, rfl⟩ := i.withdrawLost he
    constructor <;> simp
  | transfer dst amount =>
    obtain ⟨_, _, rfl⟩ := transfer_ok (show transfer s c.caller dst amount = .ok s' from he)
    constructor <;> simp
  | fee amount =>
    obtain ⟨_, _, rfl⟩ := transfer_ok (show transfer s c.caller treasury amount = .ok s' from he)
    constructor <;> simp

/-- The stored release rate is absent or a valid pair. -/
def RateOk (s : EState) : Prop :=
  s.claimRateRaw = 0 ∨ ∃ n d : Int, 0 ≤ n ∧ n ≤ d ∧ 0 < d ∧ d ≤ 10000 ∧ s.claimRateRaw = n * 65536 + d

theorem setRate_ok {s s' : EState} {n d : Int} (h : setPrivateClaimableRate s n d = .ok s') :
    0 ≤ n ∧ n ≤ d ∧ 0 < d ∧ d ≤ 10000 ∧ s' = { s with claimRateRaw := n * 65536 + d } := by
  unfold setPrivateClaimableRate at h
  split at h
  · rename_i hv
    simp only [validClaimRate, decide_eq_true_eq] at hv
    cases h
    exact ⟨by omega, by omega, by omega, by omega, rfl⟩
  · cases h

theorem RateOk.step {c c' : Chain} (i : Inv c) (ro : RateOk c.st) (st : Step c c') :
    RateOk c'.st := by
  cases st with
  | call h s x k hh hk =>
    subst hh
    simp only [apply]
    split
    · rename_i s' he
      rcases (exec_frame i he).rate with e | ⟨n, d, rfl⟩
      · unfold RateOk; rw [e]; exact ro
      · obtain ⟨_, he⟩ := guard_ok he
        obtain ⟨h1, h2, h3, h4, rfl⟩ := setRate_ok he
        exact Or.inr ⟨_, _, h1, h2, h3, h4, rfl⟩
    · exact ro
  | block h s s' prop hb =>
    rcases i.begin_ok hb with ⟨_, _, rfl, _⟩ | ⟨_, rfl⟩
    · obtain ⟨_, _, _, _, _, _, _, _, _, e, _⟩ := opened_frame s (h + 1)
      unfold RateOk; rw [e]; exact ro
    · exact ro

theorem Reachable.rateOk {g : EState} {c : Chain} (r : Reachable g c) : RateOk c.st := by
  obtain ⟨g0, st⟩ := r
  have i0 := g0.inv
  have h0 : RateOk g := Or.inl g0.claimRateRaw
  induction st with
  | refl => exact h0
  | tail h1 h2 ih => exact RateOk.step (i0.steps h1) ih h2

end Verif.Havah
