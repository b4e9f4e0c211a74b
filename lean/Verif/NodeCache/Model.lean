import Mathlib.Data.List.Basic
import Mathlib.Tactic.SplitIfs

/-!
# The cache of trie nodes

Models `common/trie/cache/nodecache.go` (`indexByNibs`, `sizeByDepth`) and `common/trie/cache/branchcache.go`.

Simplifications: a file is its length and its bytes (zero in holes), and writing does not fail; an array is a function; bytes are
numbers.
-/

namespace Verif.NodeCache

/-- `indexByNibs` (nodecache.go:10-19). -/
def index (nibs : List Nat) : Nat := nibs.foldl (fun idx n => idx * 16 + n + 1) 0

/-- `sizeByDepth` (nodecache.go:21-23). -/
def sizeByDepth (d : Nat) : Nat := (16 ^ d - 1) / 15

/-- A file. -/
structure File where
  len : Nat
  data : Nat → Nat

/-- `WriteAt`. -/
def File.writeAt (f : File) (b : List Nat) (at' : Nat) : File :=
  ⟨max f.len (at' + b.length), fun x => if at' ≤ x ∧ x < at' + b.length then b.getD (x - at') 0 else f.data x⟩

/-- `ReadAt` of `n` bytes; none: an error (the end of the file). -/
def File.readAt (f : File) (n at' : Nat) : Option (List Nat) :=
  if f.len < at' + n then none else some ((List.range n).map fun i => f.data (at' + i))

/-- A `BranchCache` (branchcache.go:22-28). -/
structure Cache where
  nodes : Nat → Option (List Nat × List Nat)
  offset : Nat
  depth : Nat
  f : File

/-- `NewBranchCache` (branchcache.go:163-188), with a file that is empty. -/
def Cache.new (depth fdepth : Nat) : Cache := ⟨fun _ => none, sizeByDepth depth, depth + fdepth, ⟨0, fun _ => 0⟩⟩

/-- `read` (branchcache.go:70-99). -/
def Cache.read (c : Cache) (idx : Nat) : Option (List Nat × List Nat) :=
  match c.f.readAt 566 ((idx - c.offset) * 566) with
  | none => none
  | some b =>
    let vl := b.getD 0 0 * 256 + b.getD 1 0
    if vl < 32 then none
    else if 566 < 2 + vl then none
    else some ((b.drop 2).take 32, ((b.drop 2).take vl).drop 32)

/-- `write` (branchcache.go:114-125). -/
def Cache.write (c : Cache) (idx : Nat) (h s : List Nat) : Cache :=
  let vl := 32 + s.length
  { c with f := c.f.writeAt ([vl / 256 % 256, vl % 256] ++ h ++ s) ((idx - c.offset) * 566) }

/-- `Get` (branchcache.go:30-48): the data, and if it can be in the cache. No nibbles is nil (here: none). -/
def Cache.get (c : Cache) (nibs : Option (List Nat)) (h : List Nat) : Option (List Nat) × Bool :=
  match nibs with
  | none => (none, false)
  | some nibs =>
    if c.depth ≤ nibs.length then (none, false)
    else
      let node := if index nibs < c.offset then c.nodes (index nibs) else c.read (index nibs)
      match node with
      | none => (none, true)
      | some n => if n.1 = h then (some n.2, true) else (none, true)

/-- `Put` (branchcache.go:54-66). -/
def Cache.put (c : Cache) (nibs : Option (List Nat)) (h s : List Nat) : Cache :=
  match nibs with
  | none => c
  | some nibs =>
    if 532 < s.length ∨ c.depth ≤ nibs.length then c
    else if index nibs < c.offset then { c with nodes := fun i => if i = index nibs then some (h, s) else c.nodes i }
    else c.write (index nibs) h s

/-- A cache and what was put, the last one first. Nibbles are below 16, hashes have 32 bytes, and bytes are below 256. -/
inductive Run (depth fdepth : Nat) : Cache → List (Option (List Nat) × List Nat × List Nat) → Prop
  | new : Run depth fdepth (.new depth fdepth) []
  | put {c : Cache} {ps : List (Option (List Nat) × List Nat × List Nat)} {nibs : Option (List Nat)} {h s : List Nat} :
      Run depth fdepth c ps → (∀ ns, nibs = some ns → ∀ n ∈ ns, n < 16) → h.length = 32 →
      Run depth fdepth (c.put nibs h s) ((nibs, h, s) :: ps)

end Verif.NodeCache
