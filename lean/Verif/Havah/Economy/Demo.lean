import Verif.Havah.Economy.Model

/-! A concrete history of the chain: the non-trivial case that meets the hypotheses of the theorems
of `Props*`. Three planets (private, company, public), two terms, reports, claims, fees, an
unregistration and a withdrawal. -/
namespace Verif.Havah.Demo

/-- One thing that happens to the chain. -/
inductive Action
  | call (rev : Int) (caller : Addr) (k : Call)
  | block (proposed : Int)

/-- Governance SCORE, manager, two owners, an outsider. -/
def gov : Addr := ⟨true, 1⟩
def mgr : Addr := ⟨false, 77⟩
def alice : Addr := ⟨false, 100⟩
def bob : Addr := ⟨false, 200⟩
def eve : Addr := ⟨false, 300⟩

/-- Perform one action; a call by the treasury or a block that is invalid does not happen. -/
def act (c : Chain) : Action → Chain
  | .call rev a k => if a.id ≠ publicTreasury.id then ⟨c.height, apply ⟨c.height, rev, a, gov⟩ c.st k⟩ else c
  | .block x => match beginBlock c.st (c.height + 1) x with
    | .ok s => ⟨c.height + 1, s⟩
    | .error _ => c

theorem act_steps {a c : Chain} (h : Steps a c) (x : Action) : Steps a (act c x) := by
  cases x with
  | call rev who k =>
    simp only [act]
    split
    · exact .tail h (.call _ _ _ _ rfl ‹_›)
    · exact h
  | block x =>
    simp only [act]
    split
    · exact .tail h (.block _ _ _ x ‹_›)
    · exact h

theorem run_steps (acts : List Action) : ∀ {a c : Chain}, Steps a c → Steps a (acts.foldl act c) := by
  induction acts with
  | nil => exact fun h => h
  | cons x xs ih => exact fun h => ih (act_steps h x)

/-- 10 blocks per term, 4 terms of issue, reduction every 2 terms, 1000 coins per term. -/
def genesis : EState where
  bal := fun a => if a = hooverFund.id then 500 else if a = sustainableFund.id then 5000
    else if a = alice.id then 1000 else if a = bob.id then 1000 else 0
  supply := 7500
  usdtPrice := 1200000
  activeUSDT := 0
  issueStart := 0
  termPeriodRaw := 10
  reductionCycleRaw := 2
  issueLimitRaw := 4
  issueAmount := 1000
  hooverBudget := 700
  managers := []
  planets := fun _ => none
  rewards := fun _ => none
  allPlanet := 0
  active := 0
  working := 0
  rewardTotal := 0
  rewardRemain := 0
  eco := 0
  lost := 0
  claimRateRaw := 0
  sfTxFee := 0
  sfServiceFee := 0
  sfMissing := 0
  sfHooverRefill := 0

theorem genesis_ok : Genesis genesis where
  bal_nonneg a := by unfold genesis; simp only; repeat (split; · decide)
                     decide
  supply := ⟨{hooverFund.id, sustainableFund.id, alice.id, bob.id}, by
    intro a h
    simp only [Finset.mem_insert, Finset.mem_singleton, not_or] at h
    simp [genesis, h], by decide⟩
  issueAmount := by decide
  issueStart := rfl
  managers := rfl
  planets := rfl
  rewards := rfl
  allPlanet := rfl
  active := rfl
  working := rfl
  rewardTotal := rfl
  rewardRemain := rfl
  eco := rfl
  lost := rfl
  claimRateRaw := rfl

/-- `n` blocks that need no base transaction. -/
def skip (n : ℕ) : List Action := List.replicate n (.block 0)

/-- Height 1: configuration; the issue starts at height 5. (10 actions) -/
def setup : List Action :=
  [.block 0,
   .call 4 gov (.addPlanetManager mgr), .call 4 gov (.addPlanetManager eve),
   .call 4 gov (.startRewardIssue 5), .call 4 gov (.setPrivateClaimableRate 1 2),
   .call 4 planetNFT (.registerPlanet 1 true false alice 1200000 10000),
   .call 4 planetNFT (.registerPlanet 2 false true bob 1200000 10000),
   .call 4 planetNFT (.registerPlanet 3 false false alice 1200000 10000),
   .call 4 gov (.removePlanetManager eve)] ++ skip 3
/-- Height 5: term 0 begins. -/
def term0 : List Action := setup ++ [.block 1000]
/-- Planets 1 and 2 have reported, fees were paid. -/
def worked : List Action := term0 ++
  [.call 4 mgr (.reportPlanetWork 1), .call 4 mgr (.reportPlanetWork 2),
   .call 4 alice (.fee 101), .call 4 bob (.transfer serviceTreasury 11)]
/-- Height 14: last block of term 0; alice has claimed. -/
def last0 : List Action := worked ++ [.call 4 alice (.claimPlanetReward [1, 2, 3, 1])] ++ skip 9
/-- Height 15: term 1 begins. -/
def term1 : List Action := last0 ++ [.block 1000]
/-- Planet 1 is unregistered. -/
def gone : List Action := term1 ++ [.call 4 mgr (.reportPlanetWork 2),
   .call 4 planetNFT (.unregisterPlanet 1)]
/-- Height 25: term 2 begins, with the reduced issue. -/
def term2 : List Action := gone ++ skip 9 ++ [.block 700]

/-- The chain after some actions. -/
def at' (acts : List Action) : Chain := acts.foldl act ⟨0, genesis⟩

theorem reachable (acts : List Action) : Reachable genesis (at' acts) :=
  ⟨genesis_ok, run_steps acts (.refl _)⟩

example : (at' setup).height = 4 ∧ (at' setup).st.allPlanet = 3 ∧ (at' setup).st.managers = [mgr] ∧
    (at' setup).st.issueStart = 5 := by decide +kernel
example : (at' term0).height = 5 ∧ (at' term0).st.supply = 8500 ∧ (at' term0).st.active = 3 ∧
    (at' term0).st.bal publicTreasury.id = 1000 ∧ (at' term0).st.rewardTotal = 1000 := by decide +kernel
example : (at' worked).st.rewards 1 = some ⟨400, 1, 400⟩ ∧
    (at' worked).st.rewards 2 = some ⟨400, 1, 160⟩ ∧ (at' worked).st.eco = 240 ∧
    (at' worked).st.rewardRemain = 334 ∧ (at' worked).st.working = 2 ∧
    (at' worked).st.bal hooverFund.id = 366 ∧ (at' worked).st.bal publicTreasury.id = 1134 := by decide +kernel
example : (at' last0).height = 14 ∧ (at' last0).st.rewards 1 = some ⟨400, 1, 200⟩ ∧
    (at' last0).st.bal alice.id = 1099 := by decide +kernel
example : (at' term1).height = 15 ∧ (at' term1).st.supply = 9500 ∧
    (at' term1).st.rewardTotal = 1001 ∧ (at' term1).st.bal treasury.id = 0 ∧
    (at' term1).st.bal ecoSystem.id = 240 + 20 + 2 ∧ (at' term1).st.bal hooverFund.id = 700 ∧
    (at' term1).st.bal sustainableFund.id = 5000 + 81 + 9 + 333 - 334 := by decide +kernel
example : (at' gone).st.lost = 200 ∧ (at' gone).st.rewards 1 = none ∧
    (at' gone).st.planets 1 = none ∧ (at' gone).st.allPlanet = 2 := by decide +kernel
example : (at' term2).height = 25 ∧ (at' term2).st.issueAmount = 700 ∧
    (at' term2).st.supply = 10200 := by decide +kernel

end Verif.Havah.Demo
