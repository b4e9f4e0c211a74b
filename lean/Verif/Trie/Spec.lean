import Verif.Trie.Model
import Mathlib.Data.List.Infix
import Mathlib.Data.Fintype.Basic

/-!
# Canonical tries: specification used in the proofs about `Verif/Trie/Model.lean`
-/

namespace Verif.Trie
open Verif

/-- What a trie without hash nodes holds under a key. -/
def find : Node → List Nib → Option Bytes
  | .nil, _ => none
  | .hash _, _ => none
  | .leaf k v, q => if q = k then some v else none
  | .ext k n, q => if k <+: q then find n (q.drop k.length) else none
  | .branch c v, q =>
    match q with
    | [] => v
    | i :: r => find (c i) r

/-- A branch node. -/
def IsBranch : Node → Prop
  | .branch _ _ => True
  | _ => False

/-- A hash node. -/
def IsHash : Node → Prop
  | .hash _ => True
  | _ => False

/-- A trie in normal form that is not empty: extensions are not empty and lead to branches, and
branches have at least two of: a value, and children. -/
def Canon : Node → Prop
  | .nil => False
  | .hash _ => False
  | .leaf _ _ => True
  | .ext k n => k ≠ [] ∧ IsBranch n ∧ Canon n
  | .branch c v =>
    (∀ i, c i = .nil ∨ Canon (c i)) ∧ 2 ≤ (alive c).length + (if v.isSome then 1 else 0)

/-- A trie in normal form, maybe empty. -/
def Canon0 (t : Node) : Prop := t = .nil ∨ Canon t

/-- Keys and values that can be stored: values are not empty, and nothing is longer than a computer
can hold. -/
def Fits (f : List Nib → Option Bytes) : Prop :=
  ∀ q v, f q = some v → q.length < 2 ^ 62 ∧ v ≠ [] ∧ v.length < 2 ^ 62

end Verif.Trie
