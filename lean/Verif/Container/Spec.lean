import Verif.Container.Model

/-! Specification of the SCORE containers: a variable, a map and a list of Python values. -/

namespace Verif.Container.Spec
open Verif.Container

/-- operations on a VarDB -/
inductive VarOp | set (x : PyVal) | remove | get

/-- a variable: the state is the value a read returns. The empty byte string counts as "no value". -/
def varStep (ty : VType) (cur : PyVal) : VarOp → PyVal × PyVal
  | .set x => (if x = .bytes [] then .none else x, .none)
  | .remove => (defaultValue ty, .none)
  | .get => (cur, cur)

/-- operations on a DictDB of any depth: a path has one key per level -/
inductive DictOp
  | set (path : List PyVal) (x : PyVal)
  | del (path : List PyVal)
  | get (path : List PyVal)
  | contains (path : List PyVal)

/-- empty text and empty bytes are not stored -/
def stored (x : PyVal) : Option PyVal := if x = .bytes [] ∨ x = .str "" then none else some x

/-- a map from key paths to values -/
def dictStep (ty : VType) (m : List PyVal → Option PyVal) : DictOp → (List PyVal → Option PyVal) × PyVal
  | .set p x => (fun q => if q = p then stored x else m q, .none)
  | .del p => (fun q => if q = p then none else m q, .none)
  | .get p => (m, (m p).getD (defaultValue ty))
  | .contains p => (m, .bool (m p).isSome)

/-- operations on an ArrayDB -/
inductive ArrOp
  | put (x : PyVal)
  | pop
  | get (i : Int)
  | set (i : Int) (x : PyVal)
  | len

/-- position meant by a Python index: negative indices count from the end -/
def position (n : Nat) (i : Int) : Option Nat :=
  if 0 ≤ i ∧ i < n then some i.toNat
  else if -(n : Int) ≤ i ∧ i < 0 then some (n - (-i).toNat)
  else none

/-- how an element is seen by later reads -/
def elem (x : PyVal) : PyVal := if x = .bytes [] then .none else x

/-- a list; `none` as result is the exception for an index out of range -/
def arrStep (l : List PyVal) : ArrOp → List PyVal × Option PyVal
  | .put x => (l ++ [elem x], some .none)
  | .pop => (l.dropLast, some (l.getLast?.getD .none))
  | .get i => (l, (position l.length i).bind (fun k => l[k]?))
  | .set i x => match position l.length i with
    | some k => (l.set k (elem x), some .none)
    | none => (l, none)
  | .len => (l, some (.int l.length))

/-- outputs of a run of a step function -/
def run {σ ω o : Type} (step : σ → ω → σ × o) : σ → List ω → List o
  | _, [] => []
  | s, op :: ops => let r := step s op; r.2 :: run step r.1 ops

/-- final state of a run -/
def final {σ ω o : Type} (step : σ → ω → σ × o) : σ → List ω → σ
  | s, [] => s
  | s, op :: ops => final step (step s op).1 ops

end Verif.Container.Spec
