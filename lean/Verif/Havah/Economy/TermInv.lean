import Verif.Havah.Economy.Inv
import Mathlib.Data.Int.ModEq

/-! The term end / term start work of a base transaction: effect, invariants, and absence of
failures in states satisfying the invariants. -/
namespace Verif.Havah

/-- Reward of the planets that did not report (state.go:573-587). -/
def missedReward (s : EState) : Int :=
  if 0 < s.active then s.rewardTotal / s.active * (s.active - s.working) else s.rewardTotal

/-! ### Stages of `onTermEnd` -/

def afterEco (s : EState) : EState :=
  { s with eco := 0, bal := moved s.bal publicTreasury.id ecoSystem.id s.eco }

theorem eco_total {s : EState} (h : Core s) : transferEcoSystemReward s = .ok (afterEco s) := by
  have h1 := h.liab_nonneg
  have h2 := h.remain
  have h3 := h.lost
  have h4 := h.eco
  unfold transferEcoSystemReward claimEcoSystemReward
  rw [if_neg (by omega)]
  exact transfer_total h4 (by change s.eco ≤ s.bal publicTreasury.id; omega) (h.bal _)

theorem Core.afterEco {s : EState} (h : Core s) : Core (afterEco s) := by
  have h1 := h.liab_nonneg
  have h2 := h.remain
  have h3 := h.lost
  have h4 := h.eco
  refine h.pay (b := ecoSystem.id) (x := s.eco) h4 (by omega) rfl rfl rfl rfl rfl h.remain
    (le_refl _) h.lost h.rew ?_
  intro S
  have := h.solv S
  change ∑ i ∈ S, cur s i + s.rewardRemain + 0 + s.lost + s.eco ≤ _
  omega

/-- The ecosystem share of a fee account. -/
def feeEco (s : EState) (src : Addr) : Int := s.bal src.id / 5
/-- The sustainable-fund share of a fee account. -/
def feeSus (s : EState) (src : Addr) : Int := s.bal src.id - s.bal src.id / 5

def afterFee (s : EState) (src : Addr) : EState :=
  { s with
    bal := moved (moved s.bal src.id sustainableFund.id (feeSus s src)) src.id ecoSystem.id
      (feeEco s src) }

theorem fee_total {s : EState} (h : Core s) {src : Addr} (h1 : src.id ≠ sustainableFund.id)
    (h2 : src.id ≠ ecoSystem.id) : distributeFee s src = .ok (feeSus s src, afterFee s src) := by
  have hb := h.bal src.id
  unfold distributeFee
  by_cases hp : 0 < s.bal src.id
  · simp only [hp, if_true, mul_one, bind, Except.bind, pure, Except.pure]
    rw [transfer_total (by omega) (by omega) (h.bal _)]
    simp only
    rw [transfer_total (by omega)]
    · rfl
    · simp only [moved, if_pos, if_neg h1]; omega
    · simp only [moved]
      have := h.bal ecoSystem.id
      rw [if_neg (fun e => h2 e.symm)]
      split <;> omega
  · have h0 : s.bal src.id = 0 := by omega
    simp only [pure, Except.pure, afterFee, feeSus, feeEco, h0]
    norm_num [moved_zero]

theorem Core.afterFee {s : EState} (h : Core s) {src : Addr} (h1 : src.id ≠ sustainableFund.id)
    (hp : src.id ≠ publicTreasury.id) : Core (afterFee s src) := by
  have hb := h.bal src.id
  have c1 : Core { s with bal := moved s.bal src.id sustainableFund.id (feeSus s src) } :=
    h.move (by unfold feeSus; omega) (Or.inr (Or.inr (by unfold feeSus; omega))) hp rfl
  refine c1.move (a := src.id) (b := ecoSystem.id) (x := feeEco s src) (by unfold feeEco; omega) ?_ hp rfl
  refine Or.inr (Or.inr ?_)
  simp only [moved, feeSus, feeEco, if_neg h1, if_true]; omega

def afterMissed (s : EState) : EState :=
  { s with rewardRemain := s.rewardRemain - missedReward s,
           bal := moved s.bal publicTreasury.id sustainableFund.id (missedReward s),
           sfMissing := increaseCounter s.sfMissing (missedReward s) }

theorem missed_total {s : EState} (h : Core s) (h0 : 0 ≤ missedReward s)
    (h1 : missedReward s ≤ s.rewardRemain) : transferMissedReward s = .ok (afterMissed s) := by
  have h2 := h.liab_nonneg
  have h3 := h.lost
  have h4 := h.eco
  unfold transferMissedReward
  have hc : claimMissedReward s =
      .ok (missedReward s, { s with rewardRemain := s.rewardRemain - missedReward s }) := by
    unfold claimMissedReward
    change (if s.rewardRemain - missedReward s < 0 then _ else _) = _
    rw [if_neg (by omega)]; rfl
  rw [hc]
  simp only [bind, Except.bind, pure, Except.pure]
  rw [if_neg (by omega)]
  rw [transfer_total (s := { s with rewardRemain := s.rewardRemain - missedReward s }) h0
    (by change missedReward s ≤ s.bal publicTreasury.id; omega) (h.bal _)]
  rfl

theorem claimMissed_eq (s : EState) : claimMissedReward s =
    if s.rewardRemain - missedReward s < 0 then .error .invalidState
    else .ok (missedReward s, { s with rewardRemain := s.rewardRemain - missedReward s }) := rfl

theorem missed_ok {s s' : EState} (hm : transferMissedReward s = .ok s') :
    0 ≤ missedReward s ∧ missedReward s ≤ s.rewardRemain := by
  unfold transferMissedReward at hm
  rw [claimMissed_eq] at hm
  generalize missedReward s = m at hm ⊢
  by_cases h1 : s.rewardRemain - m < 0
  · rw [if_pos h1] at hm; cases hm
  rw [if_neg h1] at hm
  simp only [bind, Except.bind, pure, Except.pure] at hm
  by_cases h2 : s.bal publicTreasury.id < m
  · rw [if_pos h2] at hm; cases hm
  rw [if_neg h2] at hm
  split at hm
  · cases hm
  rename_i w hw
  exact ⟨(transfer_ok hw).1, by omega⟩

theorem Core.afterMissed {s : EState} (h : Core s) (h0 : 0 ≤ missedReward s)
    (h1 : missedReward s ≤ s.rewardRemain) : Core (afterMissed s) := by
  have h2 := h.liab_nonneg
  have h3 := h.lost
  have h4 := h.eco
  refine h.pay (b := sustainableFund.id) (x := missedReward s) h0 (by omega) rfl rfl rfl rfl rfl
    (by simp only [Havah.afterMissed]; omega) h.eco h.lost h.rew ?_
  intro S
  have := h.solv S
  change ∑ i ∈ S, cur s i + (s.rewardRemain - missedReward s) + s.eco + s.lost + missedReward s ≤ _
  omega

/-- The amount moved by `refillHooverFund`. -/
def refillAmount (s : EState) : Int :=
  if 0 < s.hooverBudget - s.bal hooverFund.id then
    (if s.bal sustainableFund.id < s.hooverBudget - s.bal hooverFund.id then
      s.bal sustainableFund.id else s.hooverBudget - s.bal hooverFund.id)
  else 0

theorem refillAmount_bounds {s : EState} (h : Core s) :
    0 ≤ refillAmount s ∧ refillAmount s ≤ s.bal sustainableFund.id := by
  have := h.bal sustainableFund.id
  unfold refillAmount; split_ifs <;> omega

def afterRefill (s : EState) : EState :=
  { s with bal := moved s.bal sustainableFund.id hooverFund.id (refillAmount s),
           sfHooverRefill := increaseCounter s.sfHooverRefill (refillAmount s) }

theorem refill_total {s : EState} (h : Core s) : refillHooverFund s = .ok (afterRefill s) := by
  have hb := refillAmount_bounds h
  unfold refillHooverFund afterRefill
  by_cases hp : 0 < s.hooverBudget - s.bal hooverFund.id
  · simp only [hp, if_true, bind, Except.bind, pure, Except.pure]
    have : refillAmount s = (if s.bal sustainableFund.id < s.hooverBudget - s.bal hooverFund.id then
        s.bal sustainableFund.id else s.hooverBudget - s.bal hooverFund.id) := by
      unfold refillAmount; rw [if_pos hp]
    rw [← this, transfer_total hb.1 hb.2 (h.bal _)]
  · have : refillAmount s = 0 := by unfold refillAmount; rw [if_neg hp]
    simp only [hp, if_false, pure, Except.pure, this, moved_zero, increaseCounter, le_refl, if_true]

theorem Core.afterRefill {s : EState} (h : Core s) : Core (afterRefill s) := by
  have hb := refillAmount_bounds h
  have c : Core { s with bal := moved s.bal sustainableFund.id hooverFund.id (refillAmount s) } :=
    h.move hb.1 (Or.inr (Or.inr hb.2)) ids_distinct.2.2.2.1 rfl
  exact c.frame rfl rfl c.issue c.start rfl rfl rfl rfl rfl

/-! ### `onTermEnd` -/

def endTx (s : EState) : EState :=
  { afterFee (afterEco s) treasury with
    sfTxFee := increaseCounter s.sfTxFee (feeSus (afterEco s) treasury) }
def endService (s : EState) : EState :=
  { afterFee (endTx s) serviceTreasury with
    sfServiceFee := increaseCounter s.sfServiceFee (feeSus (endTx s) serviceTreasury) }
/-- State after a successful term end. -/
def ended (s : EState) : EState := stateOnTermEnd (afterRefill (afterMissed (endService s)))

theorem missedReward_endService (s : EState) : missedReward (endService s) = missedReward s := rfl

theorem fee_ids : treasury.id ≠ sustainableFund.id ∧ treasury.id ≠ ecoSystem.id ∧
    serviceTreasury.id ≠ sustainableFund.id ∧ serviceTreasury.id ≠ ecoSystem.id := by decide

theorem Core.endTx {s : EState} (h : Core s) : Core (endTx s) := by
  have c := h.afterEco.afterFee fee_ids.1 ids_distinct.2.1
  exact c.frame rfl rfl c.issue c.start rfl rfl rfl rfl rfl

theorem Core.endService {s : EState} (h : Core s) : Core (endService s) := by
  have c := h.endTx.afterFee fee_ids.2.2.1 ids_distinct.2.2.1
  exact c.frame rfl rfl c.issue c.start rfl rfl rfl rfl rfl

theorem Core.ended {s : EState} (h : Core s) (h0 : 0 ≤ missedReward s)
    (h1 : missedReward s ≤ s.rewardRemain) : Core (ended s) := by
  have c := (h.endService.afterMissed h0 h1).afterRefill
  exact c.frame rfl rfl c.issue c.start rfl rfl rfl rfl rfl

theorem termEnd_total {s : EState} (h : Core s) (h0 : 0 ≤ missedReward s)
    (h1 : missedReward s ≤ s.rewardRemain) : onTermEnd s = .ok (ended s) := by
  unfold onTermEnd distributeTxFee distributeServiceFee
  rw [eco_total h]
  simp only [bind, Except.bind, pure, Except.pure]
  rw [fee_total h.afterEco fee_ids.1 fee_ids.2.1]
  simp only
  rw [show ({ afterFee (afterEco s) treasury with
        sfTxFee := increaseCounter (afterFee (afterEco s) treasury).sfTxFee
          (feeSus (afterEco s) treasury) } : EState) = endTx s from rfl]
  rw [fee_total h.endTx fee_ids.2.2.1 fee_ids.2.2.2]
  simp only
  rw [show ({ afterFee (endTx s) serviceTreasury with
        sfServiceFee := increaseCounter (afterFee (endTx s) serviceTreasury).sfServiceFee
          (feeSus (endTx s) serviceTreasury) } : EState) = endService s from rfl]
  rw [missed_total h.endService h0 h1]
  simp only
  rw [refill_total (h.endService.afterMissed h0 h1)]
  rfl

/-- A term end that succeeds has found the missed reward covered by the remainder. -/
theorem termEnd_ok {s s' : EState} (h : Core s) (he : onTermEnd s = .ok s') :
    0 ≤ missedReward s ∧ missedReward s ≤ s.rewardRemain ∧ s' = ended s := by
  have hm : 0 ≤ missedReward s ∧ missedReward s ≤ s.rewardRemain := by
    unfold onTermEnd distributeTxFee distributeServiceFee at he
    rw [eco_total h] at he
    simp only [bind, Except.bind, pure, Except.pure] at he
    rw [fee_total h.afterEco fee_ids.1 fee_ids.2.1] at he
    simp only at he
    rw [show ({ afterFee (afterEco s) treasury with
          sfTxFee := increaseCounter (afterFee (afterEco s) treasury).sfTxFee
            (feeSus (afterEco s) treasury) } : EState) = endTx s from rfl] at he
    rw [fee_total h.endTx fee_ids.2.2.1 fee_ids.2.2.2] at he
    simp only at he
    rw [show ({ afterFee (endTx s) serviceTreasury with
          sfServiceFee := increaseCounter (afterFee (endTx s) serviceTreasury).sfServiceFee
            (feeSus (endTx s) serviceTreasury) } : EState) = endService s from rfl] at he
    split at he
    · cases he
    rename_i v hv
    have := missed_ok hv
    rwa [missedReward_endService] at this
  have ht := termEnd_total h hm.1 hm.2
  rw [ht] at he
  cases he
  exact ⟨hm.1, hm.2, rfl⟩

/-! ### `onTermStart` -/

/-- State after a successful term start that issues `x`. -/
def begun (s : EState) (x : Int) : EState :=
  { s with issueAmount := x, supply := s.supply + x, bal := credited s.bal publicTreasury.id x,
           active := s.allPlanet, activeUSDT := s.usdtPrice,
           rewardRemain := s.rewardRemain + x, rewardTotal := s.rewardRemain + x }

theorem issueAmountByTS_update (s : EState) (t : Int) :
    (if (issueAmountByTS s t).2 then { s with issueAmount := (issueAmountByTS s t).1 } else s) =
      { s with issueAmount := (issueAmountByTS s t).1 } := by
  unfold issueAmountByTS
  by_cases h1 : 0 < t ∧ t % s.reductionCycle = 0
  · by_cases h2 : 0 < s.issueAmount * 3 / 10
    · rw [if_pos h1, if_pos h2]; rfl
    · simp only [h1, h2]; rfl
  · simp only [h1]; rfl

theorem issueAmountByTS_nonneg {s : EState} (h : 0 ≤ s.issueAmount) (t : Int) :
    0 ≤ (issueAmountByTS s t).1 := by
  unfold issueAmountByTS
  simp only
  split_ifs <;> simp only <;> omega

theorem termStart_ok {s s' : EState} {t x : Int} (h : onTermStart s t x = .ok s') :
    x = (issueAmountByTS s t).1 ∧ 0 ≤ x ∧ s' = begun s x := by
  unfold onTermStart at h
  simp only at h
  rw [issueAmountByTS_update] at h
  by_cases hx : x ≠ (issueAmountByTS s t).1
  · rw [if_pos hx] at h; cases h
  rw [if_neg hx] at h
  simp only [bind, Except.bind, pure, Except.pure] at h
  split at h
  · cases h
  rename_i v hv
  obtain ⟨h0, rfl⟩ := issue_ok hv
  cases h
  have hx' : x = (issueAmountByTS s t).1 := by simpa using hx
  rw [hx']
  exact ⟨rfl, h0, rfl⟩

theorem termStart_total {s : EState} (h : Core s) (t : Int) :
    onTermStart s t (issueAmountByTS s t).1 = .ok (begun s (issueAmountByTS s t).1) := by
  unfold onTermStart
  simp only
  rw [issueAmountByTS_update, if_neg (by simp)]
  simp only [bind, Except.bind, pure, Except.pure]
  rw [issue_total (s := { s with issueAmount := (issueAmountByTS s t).1 })
    (issueAmountByTS_nonneg h.issue t) (h.cons.supply_nonneg h.bal) (h.bal _)]
  rfl

theorem Core.begun {s : EState} (h : Core s) {x : Int} (hx : 0 ≤ x) : Core (begun s x) := by
  refine ⟨?_, h.cons.credited' publicTreasury.id x rfl rfl, hx, h.start, ?_, ?_, h.eco, h.lost,
    h.rew, ?_⟩
  · intro a; have := h.bal a; simp only [Havah.begun, credited]; split <;> omega
  · have := h.remain; simp only [Havah.begun]; omega
  · have := h.remain; simp only [Havah.begun]; omega
  · intro S
    have := h.solv S
    change ∑ i ∈ S, cur s i + (s.rewardRemain + x) + s.eco + s.lost ≤ _
    simp only [Havah.begun, credited, if_true]
    omega

/-! ### Term arithmetic -/

theorem div_prev_same {x p : Int} (hp : 0 < p) (h : x % p ≠ 0) : (x - 1) / p = x / p := by
  have h1 := Int.emod_nonneg x (by omega : p ≠ 0)
  have h2 := Int.emod_lt_of_pos x hp
  have h3 := Int.mul_ediv_add_emod x p
  have h4 : 1 ≤ x % p := by omega
  rw [Int.ediv_eq_iff_of_pos hp]
  constructor
  · nlinarith
  · nlinarith

theorem div_prev_zero {x p : Int} (hp : 0 < p) (h : x % p = 0) : (x - 1) / p = x / p - 1 := by
  have h3 := Int.mul_ediv_add_emod x p
  rw [Int.ediv_eq_iff_of_pos hp]
  constructor
  · nlinarith
  · nlinarith

end Verif.Havah
