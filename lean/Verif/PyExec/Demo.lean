import Verif.PyExec.Main

/-! # Concrete runs -/
namespace Verif.PyExec.Demo
open Verif.PyExec

/-- HAVAH prices, four outstanding writes, a service that handles one request at a time. -/
def env : Env := ⟨havahCosts, 4, fun _ => 1, fun _ _ _ => (true, 0, 0)⟩
/-- Another schedule and depth. -/
def slow : Env := ⟨havahCosts, 100, fun _ => 0, fun _ _ _ => (true, 0, 0)⟩

/-- The store: one value of three bytes of account 7. -/
def store0 : Store := fun k => if k = (7, [1]) then some [5, 5, 5] else none

theorem store0_full : ∀ k, store0 k ≠ some [] := by
  intro k
  unfold store0
  split <;> simp

/-- What can be compared of an outcome. -/
def view (r : Option (ℤ × ℤ × Store × List Out)) : Option (ℤ × ℤ × List Out) :=
  r.map fun r => (r.1, r.2.1, r.2.2.2)

/-- Overwrite, delete, write again, write elsewhere, call a contract that emits an event. -/
def busy : Prog :=
  .put [1] [9] fun _ => .del [1] fun _ => .put [1] [8, 8] fun _ => .put [2] [1] fun _ =>
  .call 9 false false 25000 (.event 1 10 fun _ => .ret) fun _ => .get [1] fun _ => .ret

/-- 10320 − 5620, − 40, 10640, 10320, 25000 + 6000, 3050. -/
example : view (invoke env busy 7 false false 1000000 store0) =
    some (0, 59670, [.setValue false false (7, [1]) (some [9]), .setValue false false (7, [1]) none,
      .setValue false false (7, [1]) (some [8, 8]), .setValue false false (7, [2]) (some [1]),
      .event false false 9 1]) := by decide +kernel
example : invoke env busy 7 false false 1000000 store0 = invoke slow busy 7 false false 1000000 store0 :=
  (C11_depth_and_schedule_irrelevant env havahCosts_sane 4 (fun _ => 1) busy 7 false false 1000000
    (by decide) store0 store0_full).trans
  (C11_depth_and_schedule_irrelevant env havahCosts_sane 100 (fun _ => 0) busy 7 false false 1000000
    (by decide) store0 store0_full).symm

/-- A write whose provisional price (10320) does not fit but whose final price (4700) does. -/
example : view (invoke slow (.put [1] [9] fun r => match r with
    | .ok _ => .ret
    | .error e => .raise e) 7 false false 5000 store0) =
    some (0, 4700, [.setValue false false (7, [1]) (some [9])]) := by decide +kernel

/-- Out of steps with writes outstanding: the whole limit is used. -/
example : view (invoke slow (.put [2] [1] fun _ => .put [3] [1] fun r => match r with
    | .ok _ => .ret
    | .error e => .raise e) 7 false false 20000 store0) =
    some (10, 20000, [.setValue false false (7, [2]) (some [1])]) := by decide +kernel

/-- Steps used may be negative: a contract that only deletes. -/
example : view (invoke slow (.del [1] fun _ => .ret) 7 false false 1000 store0) =
    some (0, -520, [.setValue false false (7, [1]) none]) := by decide +kernel

/-- A contract that writes and ignores all exceptions does nothing in query mode, nor can it
through another contract; and nothing in a read-only method. -/
def sneaky : Prog :=
  .put [1] [9] fun _ => .event 3 4 fun _ => .setFee 50 fun _ =>
  .call 9 false false 0 (.put [1] [9] fun _ => .del [1] fun _ => .ret) fun _ => .del [1] fun _ => .ret
example : view (invoke slow sneaky 7 true false 1000000 store0) = some (0, 0, []) := by
  decide +kernel
/-- Only the callee, which is not read-only, writes — and the fee proportion is set from a
read-only method of a frame that is not in query mode (the service puts frames of methods it
knows to be read-only in query mode, service/contract/callhandler.go:341-343). -/
example : view (invoke slow sneaky 7 false true 1000000 store0) =
    some (0, 10280, [.setValue false false (9, [1]) (some [9]), .setValue false false (9, [1]) none,
      .fee false true 7 50]) := by decide +kernel

/-! ### Prices for which C11 and C10 fail

Nothing in the executor enforces `Sane`; with a positive price for deletion the pipeline can be
observed. -/

/-- Deleting costs 100. -/
def bad (depth : ℕ) : Env :=
  ⟨fun t => match t with | .schema => 1 | .deleteBase => 100 | .set => 1 | _ => 0, depth,
    fun _ => 0, fun _ _ _ => (true, 0, 0)⟩

/-- Waiting for each reply, the second charge fails and the contract is told; with a pipeline
the failure appears in the final drain, outside all handlers, and the executor dies. -/
example : view (invoke (bad 0) (.del [1] fun r => match r with
    | .ok _ => .ret
    | .error e => .raise e) 7 false false 50 store0) =
      some (10, 50, [.setValue false false (7, [1]) none]) := by decide +kernel
example : view (invoke (bad 4) (.del [1] fun r => match r with
    | .ok _ => .ret
    | .error e => .raise e) 7 false false 50 store0) = none := by decide +kernel

end Verif.PyExec.Demo
