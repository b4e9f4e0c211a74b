import Verif.Trie.Flush

/-!
# Histories of a trie: specification

A trie over a database that may be shared with other tries, with the root hashes saved so far. The
operations are those of `mptForBytes`, writing by others, and crashes; the reference is a plain map.
-/

namespace Verif.Trie
open Verif

/-- What happens to the trie. -/
inductive Op
  | get (k : Bytes)
  | set (k v : Bytes)
  /-- `inPlace`: whether branches are changed in place (only matters after errors). -/
  | delete (k : Bytes) (inPlace : Bool)
  /-- `Flush`; the root hash is then saved. -/
  | flush
  /-- The process stops after `n` writes of a flush, and the trie is opened again with the `i`-th
  saved root hash. With `n = 0` this is just opening the trie with an earlier root hash. -/
  | crash (n i : Nat)
  /-- Somebody else writes to the database. -/
  | other (e : Bytes × Bytes)

/-- The database, the trie, and the root hashes saved, latest first. -/
structure St where
  db : DB
  root : Node
  saved : List (Option Bytes)

/-- What an operation writes to the database, in order. -/
def Op.out (H : Bytes → Bytes) (s : St) : Op → List (Bytes × Bytes)
  | .flush => writes H true s.root
  | .crash n _ => (writes H true s.root).take n
  | .other e => [e]
  | _ => []

/-- One operation of the model, and what the caller gets. -/
def step (H : Bytes → Bytes) (s : St) : Op → St × Except Err (Option Bytes)
  | .get k => ({ s with root := (Get s.db s.root k).1 }, (Get s.db s.root k).2)
  | .set k v => ({ s with root := (Set s.db s.root k v).1 }, (Set s.db s.root k v).2)
  | .delete k ip =>
    ({ s with root := (Delete s.db ip s.root k).1 }, (Delete s.db ip s.root k).2)
  | .flush => (⟨Flush H s.db s.root, s.root, rootHash H s.root :: s.saved⟩, .ok none)
  | .crash n i =>
    (⟨dbSets s.db ((writes H true s.root).take n), newMPT ((s.saved.getD i none).getD []), s.saved⟩, .ok none)
  | .other e => ({ s with db := dbSet s.db e }, .ok none)

/-- A history. -/
def run (H : Bytes → Bytes) : St → List Op → St × List (Except Err (Option Bytes))
  | s, [] => (s, [])
  | s, o :: os =>
    let r := run H (step H s o).1 os
    (r.1, (step H s o).2 :: r.2)

/-- The reference: the map, and the maps saved. -/
structure Ref where
  m : Bytes → Option Bytes
  saved : List (Bytes → Option Bytes)

/-- One operation of the reference. -/
def refStep (s : Ref) : Op → Ref × Option Bytes
  | .get k => (s, s.m k)
  | .set k v => ({ s with m := fun x => if x = k then some v else s.m x }, s.m k)
  | .delete k _ => ({ s with m := fun x => if x = k then none else s.m x }, s.m k)
  | .flush => ({ s with saved := s.m :: s.saved }, none)
  | .crash _ i => ({ s with m := s.saved.getD i (fun _ => none) }, none)
  | .other _ => (s, none)

/-- A history of the reference. -/
def refRun : Ref → List Op → Ref × List (Option Bytes)
  | s, [] => (s, [])
  | s, o :: os =>
    let r := refRun (refStep s o).1 os
    (r.1, (refStep s o).2 :: r.2)

/-- Operations as they may be: values are not empty, and nothing is longer than a computer can hold.
(An empty value is a finding, see `C40_empty_value_lost`.) -/
def Op.Valid : Op → Prop
  | .set k v => k.length < 2 ^ 61 ∧ v ≠ [] ∧ v.length < 2 ^ 62
  | _ => True

/-- Nothing is ever overwritten in the database with something else. Keys there are hashes of what is
stored, so that this could only happen if two different strings had the same hash. -/
def NoOverwrite (H : Bytes → Bytes) : St → List Op → Prop
  | _, [] => True
  | s, o :: os => ¬ Clash s.db (o.out H s) ∧ NoOverwrite H (step H s o).1 os

/-- An empty trie on an empty database. -/
def St.init : St := ⟨fun _ => none, .nil, []⟩

/-- The empty map. -/
def Ref.init : Ref := ⟨fun _ => none, []⟩

end Verif.Trie
