import Verif.Codes.Model

/-! # C19: failure codes -/
namespace Verif.Codes

/-! ### Specification -/

/-- The status a receipt shows for `revert(msg, index)`: 32 + index, kept between 32 and the limit. -/
def revertStatus (expand : Bool) (index : ℤ) : ℤ := max 32 (min (32 + index) (if expand then 999 else 99))

/-- A contract that does not handle the failure of the call. -/
def Propagates (f : Caller) : Prop := ∀ e, f (some e) = .raise e

/-- Codes of failures that stop neither the other calls nor the block. -/
def Ordinary (c : ℤ) : Prop := 0 < c ∧ c < 2 ^ 24 ∧ c ≠ 1008 ∧ ¬ (7000 ≤ c ∧ c < 8000)

/-- Exceptions whose code the contract does not determine itself. -/
def Plain (e : Exc) : Prop := match e with
  | .score _ => True
  | .foreign => True
  | .system c => Ordinary c
  | .custom _ => False

/-- A contract that returns or raises plain exceptions, when it gets plain ones. -/
def PlainCaller (f : Caller) : Prop :=
  ∀ o, (∀ e, o = some e → Plain e) → f o = .ret ∨ ∃ e, f o = .raise e ∧ Plain e

/-! ### Proofs -/

theorem scoreCode_range (i : ℤ) : 32 ≤ scoreCode i ∧ scoreCode i ≤ 999 := by
  simp only [scoreCode, SCORE_ERROR, END]
  split_ifs <;> omega

theorem create_score {c : ℤ} (h : 32 ≤ c ∧ c ≤ 999) : create c = .score (c - 32) := by
  rw [create, if_pos (by simpa [SCORE_ERROR, END] using h)]; rfl

theorem scoreCode_sub {c : ℤ} (h : 32 ≤ c ∧ c ≤ 999) : scoreCode (c - 32) = c := by
  simp only [scoreCode, SCORE_ERROR, END]
  split_ifs <;> omega

theorem statusOf_id {c : ℤ} (h : 32 ≤ c ∧ c ≤ 999) : statusOf c = c := by
  rw [statusOf, if_neg (by omega)]

theorem validate_score {expand : Bool} {c : ℤ} (h : 32 ≤ c ∧ c ≤ 999) :
    validate expand c = min c (if expand then 999 else 99) := by
  rw [validate, statusOf_id h]
  cases expand
  · simp only [true_and, Bool.false_eq_true, if_false]
    split_ifs <;> omega
  · simp only [Bool.true_eq_false, false_and, if_false, if_true]
    omega

theorem deliver_score (expand : Bool) : ∀ (fs : List Caller) (i : ℤ), (∀ f ∈ fs, Propagates f) →
    deliver expand false (.raise (.score i)) fs = .receipt (revertStatus expand i) := by
  have key : ∀ i, validate expand (scoreCode i) = revertStatus expand i := by
    intro i
    rw [validate_score (scoreCode_range i), revertStatus, scoreCode]
    simp only [SCORE_ERROR, END]
    cases expand <;> simp only [if_true, Bool.false_eq_true, if_false] <;> split_ifs <;> omega
  have cf : ∀ i, codeAndFlag (scoreCode i) = (scoreCode i, 0) := by
    intro i
    have := scoreCode_range i
    rw [codeAndFlag]
    exact Prod.ext (by simp only []; omega) (by simp only []; omega)
  have hr : ∀ i, 32 ≤ revertStatus expand i ∧ revertStatus expand i ≤ 999 := by
    intro i
    rw [revertStatus]
    cases expand <;> simp only [if_true, Bool.false_eq_true, if_false] <;> omega
  have hidem : ∀ i, revertStatus expand (revertStatus expand i - 32) = revertStatus expand i := by
    intro i
    simp only [revertStatus]
    cases expand <;> simp only [if_true, Bool.false_eq_true, if_false] <;> omega
  have hcrit : ∀ i, ¬ (revertStatus expand i = timeout ∨ revertStatus expand i = executionFail ∨
      isCritical (revertStatus expand i) = true) := by
    intro i
    have := hr i
    simp only [timeout, executionFail, isCritical, decide_eq_true_eq]
    omega
  have hfin : ∀ i, finish false (revertStatus expand i) = .receipt (revertStatus expand i) := by
    intro i
    have := hr i
    have h1 := hcrit i
    rw [finish, if_neg (by tauto), if_neg (by decide), if_neg (by omega), statusOf_id this]
  intro fs
  induction fs with
  | nil =>
    intro i _
    rw [deliver]
    simp only [Exc.code, cf]
    rw [if_neg (by have := scoreCode_range i; omega), key, if_neg (hcrit i)]
    exact hfin i
  | cons f fs ih =>
    intro i hp
    rw [deliver]
    simp only [Exc.code, cf]
    rw [if_neg (by have := scoreCode_range i; omega), key, if_neg (hcrit i), create_score (hr i), hp f (by simp)]
    have := ih (revertStatus expand i - 32) (fun f hf => hp f (by simp [hf]))
    rw [hidem] at this
    exact this

/-- C19: a revert that no caller handles, through any number of calls, gives a receipt whose status is 32 plus the
contract's code, cut to the range reserved for contracts (at most 999, or 99 before codes were extended). -/
theorem C19_revert (expand : Bool) (index : ℤ) (callers : List Caller) (h : ∀ f ∈ callers, Propagates f) :
    deliver expand false (.raise (.score index)) callers = .receipt (revertStatus expand index) :=
  deliver_score expand callers index h

/-- C19: codes in the range are preserved. -/
theorem C19_preserved (index : ℤ) (h0 : 0 ≤ index) (h1 : index ≤ 967) (callers : List Caller)
    (h : ∀ f ∈ callers, Propagates f) :
    deliver true false (.raise (.score index)) callers = .receipt (32 + index) := by
  rw [C19_revert true index callers h, revertStatus]
  simp only [if_true]
  congr 1
  omega

/-- C19: a caller sees a contract's failure with the code the contract gave, cut to the range. -/
theorem C19_seen_by_caller (expand : Bool) (index : ℤ) (f : Caller) (fs : List Caller) :
    deliver expand false (.raise (.score index)) (f :: fs) =
      deliver expand false (f (some (.score (revertStatus expand index - 32)))) fs := by
  have hr : 32 ≤ revertStatus expand index ∧ revertStatus expand index ≤ 999 := by
    rw [revertStatus]
    cases expand <;> simp only [if_true, Bool.false_eq_true, if_false] <;> omega
  have hc := scoreCode_range index
  have cf : codeAndFlag (scoreCode index) = (scoreCode index, 0) := by
    rw [codeAndFlag]
    exact Prod.ext (by simp only []; omega) (by simp only []; omega)
  have key : validate expand (scoreCode index) = revertStatus expand index := by
    rw [validate_score hc, revertStatus, scoreCode]
    simp only [SCORE_ERROR, END]
    cases expand <;> simp only [if_true, Bool.false_eq_true, if_false] <;> split_ifs <;> omega
  rw [deliver]
  simp only [Exc.code, cf]
  rw [if_neg (by omega), key, if_neg (by simp only [timeout, executionFail, isCritical, decide_eq_true_eq]; omega),
    create_score hr]
  rfl

theorem plain_create {c : ℤ} (h : Ordinary c) : Plain (create c) := by
  rw [create]
  split_ifs
  · trivial
  · exact h

theorem ordinary_validate {expand : Bool} {c : ℤ} (h : Ordinary c) : Ordinary (validate expand c) := by
  rw [validate]
  split_ifs
  · exact ⟨by omega, by omega, by omega, by omega⟩
  · exact h

theorem plain_code {e : Exc} (h : Plain e) : Ordinary e.code := by
  cases e with
  | score i =>
    have := scoreCode_range i
    exact ⟨by rw [Exc.code]; omega, by rw [Exc.code]; omega, by rw [Exc.code]; omega, by rw [Exc.code]; omega⟩
  | system c => exact h
  | custom c => exact absurd h id
  | foreign => exact ⟨by decide, by decide, by decide, by decide⟩

theorem ordinary_codeAndFlag {c : ℤ} (h : Ordinary c) : codeAndFlag c = (c, 0) := by
  obtain ⟨h1, h2, _⟩ := h
  rw [codeAndFlag]
  exact Prod.ext (by simp only []; omega) (by simp only []; omega)

theorem finish_ordinary {c : ℤ} (h : Ordinary c) : ∃ s, finish false c = .receipt s ∧ 1 ≤ s ∧ s ≤ 999 := by
  obtain ⟨h1, h2, h3, h4⟩ := h
  refine ⟨statusOf c, ?_, ?_, ?_⟩
  · rw [finish, if_neg (by simp only [executionFail, isCritical, decide_eq_true_eq]; tauto), if_neg (by decide),
      if_neg (by omega)]
  all_goals
    rw [statusOf]
    split_ifs <;> omega

theorem deliver_plain (expand : Bool) : ∀ (fs : List Caller) (o : Outcome), (∀ f ∈ fs, PlainCaller f) →
    (o = .ret ∨ ∃ e, o = .raise e ∧ Plain e) → ∃ s, deliver expand false o fs = .receipt s ∧ 0 ≤ s ∧ s ≤ 999
  | [], .ret, _, _ => ⟨0, by rw [deliver]; rfl, by omega, by omega⟩
  | f :: fs, .ret, hf, _ => by
    rw [deliver]
    exact deliver_plain expand fs _ (fun g hg => hf g (by simp [hg])) (hf f (by simp) none (by simp))
  | fs, .raise e, hf, h => by
    rcases h with h | ⟨e', h, hp⟩
    · cases h
    cases h
    have ho := plain_code hp
    have ho' := ordinary_validate (expand := expand) ho
    cases fs with
    | nil =>
      rw [deliver]
      simp only [ordinary_codeAndFlag ho]
      rw [if_neg (by have := ho.1; omega)]
      simp only [ite_self]
      obtain ⟨s, h1, h2, h3⟩ := finish_ordinary ho'
      exact ⟨s, h1, by omega, h3⟩
    | cons f fs =>
      rw [deliver]
      simp only [ordinary_codeAndFlag ho]
      rw [if_neg (by have := ho.1; omega)]
      split
      · obtain ⟨s, h1, h2, h3⟩ := finish_ordinary ho'
        exact ⟨s, h1, by omega, h3⟩
      exact deliver_plain expand fs _ (fun g hg => hf g (by simp [hg]))
        (hf f (by simp) _ (fun x hx => by cases hx; exact plain_create ho'))

/-- C19: contracts that return or raise plain exceptions always leave the transaction with a receipt, whose status is
between 0 and 999. -/
theorem C19_always_receipt (expand : Bool) (o : Outcome) (callers : List Caller) (hc : ∀ f ∈ callers, PlainCaller f)
    (ho : o = .ret ∨ ∃ e, o = .raise e ∧ Plain e) :
    ∃ s, deliver expand false o callers = .receipt s ∧ 0 ≤ s ∧ s ≤ 999 :=
  deliver_plain expand callers o hc ho

/-- C19: a transaction whose contract raises a plain exception is never reported as a success, nor, for a revert or
another exception made for contracts, as a system failure. -/
theorem C19_failure_reported (expand : Bool) (e : Exc) (h : Plain e) :
    ∃ s, deliver expand false (.raise e) [] = .receipt s ∧ 1 ≤ s ∧ s ≤ 999 ∧ ((∃ i, e = .score i) → 32 ≤ s) := by
  have ho := plain_code h
  have ho' := ordinary_validate (expand := expand) ho
  obtain ⟨s, h1, h2, h3⟩ := finish_ordinary ho'
  refine ⟨s, ?_, h2, h3, ?_⟩
  · rw [deliver]
    simp only [ordinary_codeAndFlag ho]
    rw [if_neg (by have := ho.1; omega)]
    simp only [ite_self]
    exact h1
  · rintro ⟨i, rfl⟩
    have := C19_revert expand i [] (by simp)
    rw [deliver] at this
    simp only [ordinary_codeAndFlag ho] at this
    rw [if_neg (by have := ho.1; omega)] at this
    simp only [ite_self] at this
    have h1' : finish (false || (0 : ℤ) % 2 == 1) (validate expand (Exc.score i).code) = TxResult.receipt s := h1
    rw [h1'] at this
    cases this
    rw [revertStatus]
    cases expand <;> simp only [if_true, Bool.false_eq_true, if_false] <;> omega

/-- C19: the failure of a system operation a contract calls (codes below 32) is passed on unchanged by callers that do
not handle it, except for a timeout, which ends all of them. -/
theorem C19_system_codes (expand : Bool) (c : ℤ) (h1 : 1 ≤ c) (h2 : c < 32) (callers : List Caller)
    (h : ∀ f ∈ callers, Propagates f) :
    deliver expand false (.raise (.system c)) callers = .receipt c := by
  have ho : Ordinary c := ⟨by omega, by omega, by omega, by omega⟩
  have hs : statusOf c = c := by rw [statusOf, if_neg (by omega)]
  have hv : validate expand c = c := by rw [validate, hs, if_neg (by omega)]
  have hf : finish false c = .receipt c := by
    rw [finish, if_neg (by simp only [executionFail, isCritical, decide_eq_true_eq]; omega), if_neg (by decide),
      if_neg (by omega), hs]
  induction callers with
  | nil =>
    rw [deliver]
    simp only [Exc.code, ordinary_codeAndFlag ho, hv]
    rw [if_neg (by omega)]
    simp only [ite_self]
    exact hf
  | cons f fs ih =>
    rw [deliver]
    simp only [Exc.code, ordinary_codeAndFlag ho, hv]
    rw [if_neg (by omega)]
    split
    · exact hf
    · rw [create, if_neg (by simp only [SCORE_ERROR]; omega), h f (by simp)]
      exact ih (fun g hg => h g (by simp [hg]))

/-- C19, not prevented: a contract whose exception determines its own code can keep the transaction (and with it the block)
from being executed: whatever the calling contracts do, the code of an internal error is taken for one. -/
theorem C19_custom_critical (expand : Bool) (callers : List Caller) :
    deliver expand false (.raise (.custom 7001)) callers = .failed 7001 := by
  have : validate expand 7001 = 7001 := by cases expand <;> rfl
  cases callers <;>
  · rw [deliver]
    simp only [Exc.code, show codeAndFlag 7001 = (7001, 0) from rfl, this]
    rfl

/-- C19, not prevented: ... or be reported as a success. -/
theorem C19_custom_success (expand : Bool) : deliver expand false (.raise (.custom 0)) [] = .receipt 0 := by
  rw [deliver]
  rfl

/-! ### Non-vacuity -/

example : Propagates (fun | none => .ret | some e => .raise e) := fun _ => rfl
example : deliver false false (.raise (.score 500)) [(fun | none => .ret | some e => .raise e)] = .receipt 99 := by
  rw [C19_revert false 500 _ (by simp [Propagates])]; rfl
example : PlainCaller (fun _ => .raise (.score 3)) := fun _ _ => Or.inr ⟨_, rfl, trivial⟩

end Verif.Codes
