import Mathlib.Data.Int.Order.Basic
import Mathlib.Tactic.Common
import Mathlib.Logic.Function.Basic

/-!
# Which transactions a block accepts, and which of them can be executed

`Verify`, `PreValidate` and `GetHandler` of a version 3 transaction (`service/transaction/transaction_v3.go`, `transactionhandler.go`), the loop that
validates the transactions of a block and the loop that executes them (`service/transition.go`, `transition_se.go`).
-/

namespace Verif.Tx.Admit

/-- The values of `dataType` (`service/contract/contractmanager.go:60-89`). -/
def dtCall : String := "call"
/-- See `dtCall`. -/
def dtMessage : String := "message"
/-- See `dtCall`. -/
def dtDeploy : String := "deploy"
/-- See `dtCall`. -/
def dtDeposit : String := "deposit"
/-- See `dtCall`. -/
def dtPatch : String := "patch"

/-- What is read of the data of a transaction: the length of its compact form (`countBytesOfCompactJSON`, `transactionhandler.go:326-335`), the length
that is charged (`MeasureBytesOfData`, `:291-308`), and whether `ParseCallData`, `ParseDeployData` and `ParsePatchData` accept it.  The results of the JSON
parser are not determined further. -/
structure Data where
  compact : Option ℕ
  measure : Option ℕ
  callOk : Bool
  deployOk : Bool
  patchOk : Bool

variable {A : Type} [DecidableEq A]

/-- A version 3 transaction: the fields that are checked.  `sigOk` is `verifySignature` (`transaction_v3.go:115-125`), `netOk` is
`ValidateNetwork` (`:225-230`) and `tsOk` the check of the timestamp. -/
structure Tx (A : Type) where
  src : A
  dst : A
  value : Option ℤ
  stepLimit : ℤ
  dataType : Option String
  data : Option Data
  sigOk : Bool
  netOk : Bool
  tsOk : Bool

/-- `txMaxDataSize` (`transaction_v3.go:19`). -/
def maxDataSize : ℕ := 512 * 1024

/-- `countBytesOfCompactJSON` of the data; nil has no bytes. -/
def compactSize : Option Data → Option ℕ
  | none => some 0
  | some d => d.compact

/-- The data of a transaction that must have some. -/
def dataOk (f : Data → Bool) : Option Data → Bool
  | none => false
  | some d => f d

/-- The checks by the type of the data (`transaction_v3.go:178-216`). -/
def typeOk (t : Tx A) : Bool :=
  match t.dataType with
  | none => true
  | some dt =>
    if dt = dtCall then dataOk Data.callOk t.data
    else if dt = dtDeploy then dataOk Data.deployOk t.data && (t.value.getD 0 == 0)
    else if dt = dtPatch then dataOk Data.patchOk t.data
    else if dt = dtDeposit then dataOk (fun _ => true) t.data
    else true

/-- The size of the data is right (`transaction_v3.go:168-174`). -/
def sizeOk (t : Tx A) : Bool :=
  match compactSize t.data with
  | none => false
  | some n => n ≤ maxDataSize

/-- `Verify` (`transaction_v3.go:159-223`). -/
def verify (t : Tx A) : Bool :=
  decide (0 ≤ t.value.getD 0) && decide (0 ≤ t.stepLimit) && sizeOk t && typeOk t && t.sigOk

/-- The world as `PreValidate` sees it. -/
structure World (A : Type) where
  bal : A → ℤ
  blocked : A → Bool
  accept : A → Bool
  stepPrice : ℤ
  stepDefault : ℤ
  stepInput : ℤ

/-- `IsCallableDataType` (`service/contract/contractmanager.go:60-89`). -/
def callable : Option String → Bool
  | none => true
  | some dt => dt == dtCall || dt == dtMessage

/-- `MeasureBytesOfData`; nil has no bytes. -/
def measured : Option Data → Option ℕ
  | none => some 0
  | some d => d.measure

/-- The step limit is enough for the input (`transaction_v3.go:233-243`); patches are not checked. -/
def stepsOk (w : World A) (t : Tx A) : Bool :=
  if t.dataType = some dtPatch then true
  else
    match measured t.data with
    | none => false
    | some n => decide (w.stepDefault + w.stepInput * (n : ℤ) ≤ t.stepLimit)

/-- The fee and the value (`transaction_v3.go:246-251`). -/
def cost (w : World A) (t : Tx A) : ℤ := t.stepLimit * w.stepPrice + t.value.getD 0

/-- `PreValidate` with `update` (`transaction_v3.go:232-278`); `none` is an error. -/
def preValidate (w : World A) (t : Tx A) : Option (World A) :=
  if stepsOk w t = false then none
  else if w.bal t.src < cost w t then none
  else if w.blocked t.src then none
  else if callable t.dataType && !w.accept t.dst then none
  else
    let b1 := Function.update w.bal t.src (w.bal t.src - cost w t)
    some { w with bal := Function.update b1 t.dst (b1 t.dst + t.value.getD 0) }

/-- `validateTxs` (`service/transition.go:880-913`); all transactions have version 3. -/
def validate : World A → List (Tx A) → Option (World A)
  | w, [] => some w
  | w, t :: l =>
    if t.netOk = false then none
    else if verify t = false then none
    else if t.tsOk = false then none
    else
      match preValidate w t with
      | none => none
      | some w' => validate w' l

/-- The kinds of handlers. -/
inductive Handler
  | transfer | call | deploy | patch | deposit
deriving DecidableEq

/-- `GetHandler` (`transaction_v3.go:280-297`, `NewHandler` in `transactionhandler.go:42-78`, `contractmanager.go:178-206`); `none` is an error.
`json.Unmarshal` of nil data is an error. -/
def getHandler (t : Tx A) : Option Handler :=
  match t.dataType with
  | none => some .transfer
  | some dt =>
    if dt = dtMessage then some .transfer
    else if dt = dtDeploy then if dataOk Data.deployOk t.data then some .deploy else none
    else if dt = dtCall then if dataOk Data.callOk t.data then some .call else none
    else if dt = dtPatch then if dataOk Data.patchOk t.data then some .patch else none
    else if dt = dtDeposit then some .deposit
    else none

/-- `executeTxsSequential` (`service/transition_se.go:15-90`).  `run` is the execution by the handler with its retries, whatever it does; an
error of it is `none`.  `skip` is `SkipTransactionEnabled`; patches are not skipped. -/
def execute {S R : Type} (run : Handler → S → Tx A → Option (S × R)) (skipped : R) (skip : Bool) : S → List (Tx A) → Option (S × List R)
  | s, [] => some (s, [])
  | s, t :: l =>
    if skip && t.dataType != some dtPatch then
      (execute run skipped skip s l).map (fun p => (p.1, skipped :: p.2))
    else
      match getHandler t with
      | none => none
      | some h =>
        match run h s t with
        | none => none
        | some (s', r) => (execute run skipped skip s' l).map (fun p => (p.1, r :: p.2))

/-! ## Specification -/

/-- The types that are known. -/
def Known (t : Tx A) : Prop :=
  t.dataType = none ∨ t.dataType = some "call" ∨ t.dataType = some "message" ∨ t.dataType = some "deploy" ∨ t.dataType = some "deposit" ∨
    t.dataType = some "patch"

/-- What an account pays and gets by a transaction in the worst case. -/
def flow (w : World A) (a : A) (t : Tx A) : ℤ :=
  (if t.dst = a then t.value.getD 0 else 0) - (if t.src = a then t.stepLimit * w.stepPrice + t.value.getD 0 else 0)

/-- What an account has after some transactions if each one costs its full step limit. -/
def after (w : World A) (l : List (Tx A)) (a : A) : ℤ := w.bal a + (l.map (flow w a)).sum

/-! ## Proofs -/

/-- C64: a verified transaction has a handler exactly if its type is known. -/
theorem C64_handler {t : Tx A} (h : verify t = true) : (getHandler t).isSome ↔ Known t := by
  simp only [verify, Bool.and_eq_true] at h
  obtain ⟨⟨_, h⟩, _⟩ := h
  unfold typeOk at h
  unfold getHandler Known
  cases hd : t.dataType with
  | none => simp
  | some dt =>
    rw [hd] at h
    dsimp only at h ⊢
    simp only [reduceCtorEq, Option.some.injEq, false_or]
    by_cases h1 : dt = dtMessage
    · rw [if_pos h1]; simp [h1, dtMessage]
    rw [if_neg h1]
    by_cases h2 : dt = dtDeploy
    · rw [if_pos h2]
      rw [if_neg (by rw [h2]; decide), if_pos h2, Bool.and_eq_true] at h
      rw [if_pos h.1]
      simp [h2, dtDeploy]
    rw [if_neg h2]
    by_cases h3 : dt = dtCall
    · rw [if_pos h3]
      rw [if_pos h3] at h
      rw [if_pos h]
      simp [h3, dtCall]
    rw [if_neg h3]
    by_cases h4 : dt = dtPatch
    · rw [if_pos h4]
      rw [if_neg h3, if_neg h2, if_pos h4] at h
      rw [if_pos h]
      simp [h4, dtPatch]
    rw [if_neg h4]
    by_cases h5 : dt = dtDeposit
    · rw [if_pos h5]; simp [h5, dtDeposit]
    rw [if_neg h5]
    have e1 : ¬ dt = "message" := h1
    have e2 : ¬ dt = "deploy" := h2
    have e3 : ¬ dt = "call" := h3
    have e4 : ¬ dt = "patch" := h4
    have e5 : ¬ dt = "deposit" := h5
    simp [e1, e2, e3, e4, e5]

/-- The type is not looked at otherwise: with a type that is not known, a transaction is verified and prevalidated if the one of a transfer that
need not be accepted is. -/
theorem C64_unknown_admitted {t : Tx A} (h : ¬ Known t) (w : World A) :
    verify t = verify { t with dataType := some "message" } ∧
      (w.accept t.dst = true → preValidate w t = preValidate w { t with dataType := some "message" }) := by
  unfold Known at h
  push Not at h
  obtain ⟨h0, h1, h2, h3, h4, h5⟩ := h
  obtain ⟨dt, hd⟩ := Option.ne_none_iff_exists'.mp h0
  rw [hd] at h1 h2 h3 h4 h5
  have e1 : dt ≠ dtCall := fun e => h1 (by rw [e]; rfl)
  have e2 : dt ≠ dtMessage := fun e => h2 (by rw [e]; rfl)
  have e3 : dt ≠ dtDeploy := fun e => h3 (by rw [e]; rfl)
  have e4 : dt ≠ dtDeposit := fun e => h4 (by rw [e]; rfl)
  have e5 : dt ≠ dtPatch := fun e => h5 (by rw [e]; rfl)
  have m1 : "message" ≠ dtCall := by decide
  have m3 : "message" ≠ dtDeploy := by decide
  have m4 : "message" ≠ dtDeposit := by decide
  have m5 : "message" ≠ dtPatch := by decide
  constructor
  · have a : typeOk t = true := by
      unfold typeOk
      rw [hd]
      dsimp only
      rw [if_neg e1, if_neg e3, if_neg e5, if_neg e4]
    have b : typeOk { t with dataType := some "message" } = true := by
      unfold typeOk
      dsimp only
      rw [if_neg m1, if_neg m3, if_neg m5, if_neg m4]
    unfold verify
    rw [a, b]
    rfl
  · intro ha
    have a : stepsOk w t = stepsOk w { t with dataType := some "message" } := by
      unfold stepsOk
      rw [hd]
      rw [if_neg (fun e => e5 (Option.some.inj e)), if_neg (fun e => m5 (Option.some.inj e))]
    unfold preValidate
    rw [← a]
    dsimp only
    rw [ha]
    simp only [Bool.not_true, Bool.and_false]
    rfl

theorem validate_cons {w w' : World A} {t : Tx A} {l : List (Tx A)} (h : validate w (t :: l) = some w') :
    verify t = true ∧ ∃ w1, preValidate w t = some w1 ∧ validate w1 l = some w' := by
  rw [validate] at h
  by_cases h1 : t.netOk = false
  · rw [if_pos h1] at h; cases h
  rw [if_neg h1] at h
  by_cases h2 : verify t = false
  · rw [if_pos h2] at h; cases h
  rw [if_neg h2] at h
  by_cases h3 : t.tsOk = false
  · rw [if_pos h3] at h; cases h
  rw [if_neg h3] at h
  refine ⟨by simpa using h2, ?_⟩
  cases hp : preValidate w t with
  | none => rw [hp] at h; cases h
  | some w1 => rw [hp] at h; exact ⟨w1, rfl, h⟩

theorem validate_verify {l : List (Tx A)} : ∀ {w w' : World A}, validate w l = some w' → ∀ t ∈ l, verify t = true := by
  induction l with
  | nil => intro _ _ _ t ht; simp at ht
  | cons t l ih =>
    intro w w' h u hu
    obtain ⟨h1, w1, _, h2⟩ := validate_cons h
    rcases List.mem_cons.mp hu with rfl | hu
    · exact h1
    · exact ih h2 u hu

/-- C64 (finding): a block that passes the validation and has a transaction of an unknown type can never be executed, whatever the others do. -/
theorem C64_block_stuck {S R : Type} (run : Handler → S → Tx A → Option (S × R)) (skipped : R) {l : List (Tx A)} {w w' : World A}
    (hv : validate w l = some w') {t : Tx A} (ht : t ∈ l) (hk : ¬ Known t) (s : S) : execute run skipped false s l = none := by
  have hg : getHandler t = none := by
    have := (C64_handler (validate_verify hv t ht)).not.mpr hk
    simpa using this
  clear hv
  induction l generalizing s with
  | nil => simp at ht
  | cons u l ih =>
    rw [execute, Bool.false_and]
    rw [if_neg (by decide)]
    rcases List.mem_cons.mp ht with rfl | ht
    · rw [hg]
    · cases getHandler u with
      | none => rfl
      | some h =>
        dsimp only
        cases run h s u with
        | none => rfl
        | some p =>
          obtain ⟨s', r⟩ := p
          dsimp only
          rw [ih ht s']
          rfl

/-- C64: if all types are known, the execution of a validated block fails only if the execution of one of its transactions does, and there is a
receipt for every transaction. -/
theorem C64_block_runs {S R : Type} (run : Handler → S → Tx A → Option (S × R)) (skipped : R) (skip : Bool)
    (hr : ∀ h s t, (run h s t).isSome) {l : List (Tx A)} {w w' : World A} (hv : validate w l = some w') (hk : ∀ t ∈ l, Known t) (s : S) :
    ∃ s' rs, execute run skipped skip s l = some (s', rs) ∧ rs.length = l.length := by
  have hg : ∀ t ∈ l, (getHandler t).isSome := fun t ht => (C64_handler (validate_verify hv t ht)).mpr (hk t ht)
  clear hv hk
  induction l generalizing s with
  | nil => exact ⟨s, [], rfl, rfl⟩
  | cons u l ih =>
    have hg' : ∀ t ∈ l, (getHandler t).isSome := fun t ht => hg t (List.mem_cons_of_mem _ ht)
    rw [execute]
    by_cases hs : (skip && u.dataType != some dtPatch) = true
    · rw [if_pos hs]
      obtain ⟨s', rs, e, hl⟩ := ih s hg'
      exact ⟨s', skipped :: rs, by rw [e]; rfl, by simp [hl]⟩
    · rw [if_neg hs]
      obtain ⟨h, hh⟩ := Option.isSome_iff_exists.mp (hg u (List.mem_cons_self ..))
      rw [hh]
      dsimp only
      obtain ⟨p, hp⟩ := Option.isSome_iff_exists.mp (hr h s u)
      rw [hp]
      obtain ⟨s1, r⟩ := p
      dsimp only
      obtain ⟨s', rs, e, hl⟩ := ih s1 hg'
      exact ⟨s', r :: rs, by rw [e]; rfl, by simp [hl]⟩

theorem preValidate_spec {w w1 : World A} {t : Tx A} (h : preValidate w t = some w1) :
    cost w t ≤ w.bal t.src ∧ w.blocked t.src = false ∧ (callable t.dataType = true → w.accept t.dst = true) ∧ stepsOk w t = true ∧
      w1.stepPrice = w.stepPrice ∧ w1.stepDefault = w.stepDefault ∧ w1.stepInput = w.stepInput ∧ w1.blocked = w.blocked ∧ w1.accept = w.accept ∧
      ∀ a, w1.bal a = w.bal a + flow w a t := by
  unfold preValidate at h
  by_cases h1 : stepsOk w t = false
  · rw [if_pos h1] at h; cases h
  rw [if_neg h1] at h
  by_cases h2 : w.bal t.src < cost w t
  · rw [if_pos h2] at h; cases h
  rw [if_neg h2] at h
  by_cases h3 : w.blocked t.src = true
  · rw [if_pos h3] at h; cases h
  rw [if_neg h3] at h
  by_cases h4 : (callable t.dataType && !w.accept t.dst) = true
  · rw [if_pos h4] at h; cases h
  rw [if_neg h4] at h
  cases h
  refine ⟨Int.not_lt.mp h2, by simpa using h3, ?_, by simpa using h1, rfl, rfl, rfl, rfl, rfl, ?_⟩
  · intro hc
    rw [hc] at h4
    simpa using h4
  · intro a
    dsimp only
    unfold flow cost
    by_cases e1 : a = t.dst
    · subst e1
      by_cases e2 : t.dst = t.src
      · simp [e2]; omega
      · have e3 : ¬ t.src = t.dst := fun e => e2 e.symm
        simp [e2, e3]
    · have e1' : ¬ t.dst = a := fun e => e1 e.symm
      by_cases e2 : a = t.src
      · subst e2
        simp [e1, e1']; omega
      · have e2' : ¬ t.src = a := fun e => e2 e.symm
        simp [e1, e2, e1', e2']

/-- C64: in a validated block, every sender has the full step limit and the value of his transaction at its place, after all the
transactions before it took all they could; no sender is blocked, no called contract is unusable, and every step limit covers the input. -/
theorem C64_funds {l : List (Tx A)} : ∀ {w w' : World A}, validate w l = some w' → ∀ pre t post, l = pre ++ t :: post →
    t.stepLimit * w.stepPrice + t.value.getD 0 ≤ after w pre t.src ∧ w.blocked t.src = false ∧
    (t.dataType = none ∨ t.dataType = some "call" ∨ t.dataType = some "message" → w.accept t.dst = true) ∧
    (t.dataType ≠ some "patch" → ∃ n, measured t.data = some n ∧ w.stepDefault + w.stepInput * (n : ℤ) ≤ t.stepLimit) ∧
    0 ≤ t.stepLimit ∧ 0 ≤ t.value.getD 0 := by
  induction l with
  | nil => intro _ _ _ pre t post e; simp at e
  | cons u l ih =>
    intro w w' h pre t post e
    obtain ⟨hv, w1, hp, h2⟩ := validate_cons h
    obtain ⟨p1, p2, p3, p4, q1, q2, q3, q4, q5, q6⟩ := preValidate_spec hp
    cases pre with
    | nil =>
      cases e
      refine ⟨by simpa [after, cost] using p1, p2, ?_, ?_, ?_, ?_⟩
      · rintro (e | e | e) <;> refine p3 ?_ <;> rw [e] <;> rfl
      · intro hne
        unfold stepsOk at p4
        rw [if_neg (show ¬ u.dataType = some dtPatch from hne)] at p4
        cases hm : measured u.data with
        | none => rw [hm] at p4; cases p4
        | some n => rw [hm] at p4; exact ⟨n, rfl, by simpa using p4⟩
      · simp only [verify, Bool.and_eq_true, decide_eq_true_eq] at hv
        exact hv.1.1.1.2
      · simp only [verify, Bool.and_eq_true, decide_eq_true_eq] at hv
        exact hv.1.1.1.1
    | cons v pre =>
      cases e
      obtain ⟨r1, r2, r3, r4, r5⟩ := ih h2 pre t post rfl
      rw [q1] at r1
      rw [q4] at r2
      rw [q5] at r3
      rw [q2, q3] at r4
      refine ⟨?_, r2, r3, r4, r5⟩
      have hf : flow w1 t.src = flow w t.src := by funext x; simp only [flow, q1]
      have : after w1 pre t.src = after w (u :: pre) t.src := by
        simp only [after, q6, hf, List.map_cons, List.sum_cons, Int.add_assoc]
      rw [← this]
      exact r1

/-! ## The hypotheses are met -/

/-- A world with two rich accounts. -/
def exWorld : World Bool := ⟨fun _ => 1000, fun _ => false, fun _ => true, 1, 10, 1⟩
/-- A transfer. -/
def exTx : Tx Bool := ⟨false, true, some 5, 100, none, none, true, true, true⟩
/-- The same with data of a type nobody knows. -/
def exBad : Tx Bool := { exTx with dataType := some "nothing" }

example : (validate exWorld [exTx, exBad, exTx]).isSome = true := by decide +kernel
example : ¬ Known exBad := by
  unfold Known exBad
  simp
example : Known exTx := Or.inl rfl
example : (execute (fun _ (s : ℕ) _ => some (s + 1, s)) 0 false 0 [exTx, exTx]) = some (2, [0, 1]) := by decide +kernel

end Verif.Tx.Admit
