import Verif.NetQueue.Fair

/-!
# Cases that meet the hypotheses of the theorems on the queues of the network
-/

namespace Verif.NetQueue

/-- Many events. -/
def runs (q : Q) (a : Spec) : List Ev → Option (Q × Spec)
  | [] => some (q, a)
  | e :: es =>
    match step q e with
    | none => none
    | some (q', _) => runs q' (a.step e).1 es

theorem run_runs {kind : Kind} {size cnt : Nat} (es : List Ev) {q q' : Q} {a a' : Spec} (R : Run kind size cnt q a)
    (h : runs q a es = some (q', a')) : Run kind size cnt q' a' := by
  induction es generalizing q a with
  | nil =>
    simp only [runs, Option.some.injEq, Prod.mk.injEq] at h
    rw [← h.1, ← h.2]; exact R
  | cons e t ih =>
    unfold runs at h
    cases hs : step q e with
    | none => rw [hs] at h; simp at h
    | some p =>
      rw [hs] at h
      exact ih (R.step e hs) h

/-- Two places in each of three queues; the buffer of the first one wraps around, weights 2, 1 and 3. -/
def es0 : List Ev :=
  [.setWeight 0 2, .setWeight 2 3, .push 1 0, .push 2 0, .push 3 0, .pop, .push 4 0, .push 5 2, .push 6 1, .wait]

def st (kind : Kind) : Q × Spec := (runs (Q.new kind 2 3) (Spec.new kind 2 3) es0).getD (Q.new kind 2 3, Spec.new kind 2 3)

theorem run_st (kind : Kind) (h : (runs (Q.new kind 2 3) (Spec.new kind 2 3) es0).isSome = true) :
    Run kind 2 3 (st kind).1 (st kind).2 := by
  obtain ⟨p, hp⟩ := Option.isSome_iff_exists.1 h
  have := run_runs es0 (.init : Run kind 2 3 _ _) hp
  unfold st
  rw [hp]; exact this

theorem run_weight : Run .weight 2 3 (st .weight).1 (st .weight).2 := run_st _ (by decide +kernel)
theorem run_priority : Run .priority 2 3 (st .priority).1 (st .priority).2 := run_st _ (by decide +kernel)
theorem run_single : Run .single 2 3 (st .single).1 (st .single).2 := run_st _ (by decide +kernel)

/-- The third context was refused; the first is out. -/
example : (st .weight).2.qs = [[2, 4], [6], [5]] ∧ (st .weight).2.weights = [2, 1, 3] ∧ (st .weight).2.used = 1 ∧
    (st .single).2.qs = [[2, 4]] := by decide +kernel

/-- The hypotheses of `fair` for the queue 2: four calls of `Pop` with a push in between. -/
example : (st .weight).2.qs.getD 2 [] ≠ [] ∧
    (st .weight).2.weights.sum < pops [.pop, .pop, .push 9 0, .pop, .pop] + (st .weight).2.weights.getD 2 0 ∧
    (st .weight).2.served 2 [.pop, .pop, .push 9 0, .pop, .pop] = [5] ∧
    (st .weight).2.served 0 [.pop, .pop, .push 9 0, .pop, .pop] = [2, 4] := by decide +kernel

/-- One of priority 0 comes before the others. -/
example : ((pop (st .priority).1).map Prod.snd) = some (some 2) := by decide +kernel

/-- A turn from its start. -/
def st1 : Q × Spec := (runs (Q.new .weight 2 3) (Spec.new .weight 2 3)
  [.setWeight 0 2, .push 1 0, .push 2 0, .push 3 1]).getD (Q.new .weight 2 3, Spec.new .weight 2 3)

theorem run_st1 : Run .weight 2 3 st1.1 st1.2 := by
  have h : (runs (Q.new .weight 2 3) (Spec.new .weight 2 3) [.setWeight 0 2, .push 1 0, .push 2 0, .push 3 1]).isSome
      = true := by decide +kernel
  obtain ⟨p, hp⟩ := Option.isSome_iff_exists.1 h
  have := run_runs _ (.init : Run .weight 2 3 _ _) hp
  unfold st1
  rw [hp]; exact this

example : st1.2.used = 0 ∧ 2 ≤ st1.2.weights.getD st1.2.turn 0 ∧ 2 ≤ (st1.2.qs.getD st1.2.turn []).length := by
  decide +kernel

/-- A consumer that is awake, and one more context. -/
theorem crun : ∃ q q' v, CRun .single 2 1 q 1 ∧ pop q = some (q', some v) ∧ q.token = false := by
  have h1 : ∃ q1, push (Q.new .single 2 1) 7 0 = some (q1, true) ∧ q1.token = true ∧
      ∃ q', pop { q1 with token := false } = some (q', some 7) := by
    refine ⟨⟨.single, [⟨some [some 7, none], 0, 1, 2, 1⟩], 0, true, [], [], 0⟩, by decide +kernel, rfl,
      ⟨.single, [⟨some [none, none], 1, 1, 2, 0⟩], 0, false, [], [], 0⟩, by decide +kernel⟩
  obtain ⟨q1, e1, e2, q', e3⟩ := h1
  exact ⟨_, q', 7, .wake (.push 7 0 .init e1) e2, e3, rfl⟩

end Verif.NetQueue
