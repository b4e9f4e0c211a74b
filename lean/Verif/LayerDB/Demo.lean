import Verif.LayerDB.Main

/-!
# Cases that meet the hypotheses of the theorems on a database layer
-/

namespace Verif.LayerDB

/-- A database with one key. -/
def d0 : Nat → Key → Option Val := fun i k => if i = 1 ∧ k = [1] then some [10] else none

/-- Events, one after the other. -/
def runs (s : DB) (g : List Handle) (a : Spec) : List Ev → DB × List Handle × Spec
  | [] => (s, g, a)
  | e :: es => runs (step s e).1 (given g (step s e).2) (a.step e).1 es

instance (g : List Handle) (e : Ev) : Decidable (Allowed g e) := by
  cases e <;> unfold Allowed <;> infer_instance

/-- All of them are allowed. -/
def allow (s : DB) (g : List Handle) : List Ev → Bool
  | [] => true
  | e :: es => decide (Allowed g e) && allow (step s e).1 (given g (step s e).2) es

theorem run_runs {d : Nat → Key → Option Val} (es : List Ev) {s : DB} {g : List Handle} {a : Spec} (R : Run d s g a)
    (h : allow s g es = true) : Run d (runs s g a es).1 (runs s g a es).2.1 (runs s g a es).2.2 := by
  induction es generalizing s g a with
  | nil => exact R
  | cons e t ih =>
    simp only [allow, Bool.and_eq_true, decide_eq_true_eq] at h
    exact ih (R.step e h.1) h.2

/-- Open two buckets; write the key 3, the key 2 and the key 3 of bucket 1 again, and delete its key 1. -/
def es0 : List Ev :=
  [.open 1, .open 2, .set (.layer 1) [3] [30] false, .set (.layer 1) [2] [20] false, .set (.layer 1) [3] [31] false,
   .delete (.layer 1) [1] false]

def s0 : DB := (runs (DB.new d0) [] ⟨d0, [], false⟩ es0).1
def g0 : List Handle := (runs (DB.new d0) [] ⟨d0, [], false⟩ es0).2.1
def a0 : Spec := (runs (DB.new d0) [] ⟨d0, [], false⟩ es0).2.2

theorem run0 : Run d0 s0 g0 a0 := run_runs es0 Run.init (by decide +kernel)

/-- Readers see the writes, the disk does not have them. -/
example : get s0 (.layer 1) [3] = some [31] ∧ get s0 (.layer 1) [1] = none ∧ s0.real 1 [3] = none ∧
    s0.real 1 [1] = some [10] ∧ Handle.layer 1 ∈ g0 := by decide +kernel

/-- All writes succeed. -/
example : (flush s0 true 3).2 = true ∧ (flush s0 true 3).1.real 1 [3] = some [31] ∧
    (flush s0 true 3).1.real 1 [1] = none := by decide +kernel

/-- One fails. -/
example : (flush s0 true 1).2 = false ∧ (flush (flush s0 true 1).1 true 3).2 = true := by decide +kernel

/-- Throw the writes away. -/
example : (flush s0 false 0).2 = true ∧ get (flush s0 false 0).1 (.layer 1) [1] = some [10] := by decide +kernel

/-- A flush that fails does not leave the disk as after some first part of the writes: a key that is written again
moves to the end. Here the key 2 is on the disk, and the key 3, written before it, is not. -/
theorem not_a_prefix : (flush s0 true 1).1.real 1 [2] = some [20] ∧ (flush s0 true 1).1.real 1 [3] = none ∧
    ∀ m : Nat, after d0 (a0.pending.take m) 1 [2] = some [20] → after d0 (a0.pending.take m) 1 [3] ≠ none := by
  refine ⟨by decide +kernel, by decide +kernel, ?_⟩
  intro m
  match m with
  | 0 => decide +kernel
  | 1 => decide +kernel
  | 2 => decide +kernel
  | 3 => decide +kernel
  | n + 4 =>
    have : a0.pending.take (n + 4) = a0.pending := List.take_of_length_le (by
      have : a0.pending.length = 4 := by decide +kernel
      omega)
    rw [this]
    decide +kernel

end Verif.LayerDB
