import Verif.Dropped.Model

/-!
# What the cache must hold after a history

The specification knows no list, map or counter: only the history of calls.
-/

namespace Verif.Dropped.Spec

open Verif Verif.Dropped

/-- The lowest timestamp still of interest after a history: the largest `expire`, at least 0. -/
def floorTs : List Op → Int
  | [] => 0
  | .add _ _ :: l => floorTs l
  | .expire ts :: l => max ts (floorTs l)

/-- What is remembered for the time slot `k` (of `dur` microseconds), given the floor `m` before
the history and the ids `h` held before it:

* adding a new id to a full slot forgets the ids of that slot first,
* adding an id older than the floor does nothing,
* raising the floor beyond the slot forgets the slot. -/
def held (dur size k : Int) : Int → List Bytes → List Op → List Bytes
  | _, h, [] => h
  | m, h, .add Option.none _ :: l => held dur size k m h l
  | m, h, .add (some x) ts :: l =>
    if m ≤ ts ∧ ts / dur = k then
      if x ∈ h then held dur size k m h l
      else if (h.length : Int) < size then held dur size k m (x :: h) l
      else held dur size k m [x] l
    else held dur size k m h l
  | m, h, .expire ts :: l =>
    if m < ts then
      (if k < ts / dur then held dur size k ts [] l else held dur size k ts h l)
    else held dur size k m h l

/-- The ids remembered for the slot `k` after a history on a new cache. -/
def slot (dur size : Int) (ops : List Op) (k : Int) : List Bytes := held dur size k 0 [] ops

/-- The ids that were ever added for the slot `k`. -/
def addedTo (dur k : Int) : List Op → List Bytes
  | [] => []
  | .add (some x) ts :: l => if ts / dur = k then x :: addedTo dur k l else addedTo dur k l
  | .add Option.none _ :: l => addedTo dur k l
  | .expire _ :: l => addedTo dur k l

/-- The timestamp of the last committed block of a group, 0 if there is none. -/
def lastCommit (g : Group) (ops : List MOp) : Int :=
  match ops.reverse.find? (fun o => match o with | .commit g' _ _ => decide (g' = g) | _ => false) with
  | some (.commit _ ts _) => ts
  | _ => 0

/-- The threshold set last, by default five minutes. -/
def lastTh (ops : List MOp) : Int :=
  match ops.reverse.find? (fun o => match o with | .setTh _ => true | _ => false) with
  | some (.setTh th) => th
  | _ => 5 * 60 * 1000000

end Verif.Dropped.Spec
