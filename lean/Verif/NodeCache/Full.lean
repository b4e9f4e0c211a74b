import Verif.NodeCache.Model

/-!
# The full cache of trie nodes

Models `common/trie/cache/fullcache.go`, and the migration from the branch cache.

Simplifications: the list of nodes with the map from hashes to its elements is a list of pairs with different hashes; counters are left
out. none: a panic (an index out of range).
-/

namespace Verif.NodeCache

/-- A `FullCache` (fullcache.go:34-42), the least recently used node first. -/
structure Full where
  nodes : List (Option (List Nat × List Nat))
  lru : List (List Nat × List Nat)

/-- `NewFullCache` (fullcache.go:128-134). -/
def Full.new : Full := ⟨List.replicate (sizeByDepth 5) none, []⟩

/-- `NewFullCacheFromBranch` (fullcache.go:136-157). -/
def Full.ofBranch (bc : Cache) : Full :=
  if bc.depth = 5 then ⟨(List.range bc.offset).map bc.nodes, []⟩
  else ⟨(List.range (sizeByDepth 5)).map fun i => if i < bc.offset then bc.nodes i else none, []⟩

/-- `getNode` (fullcache.go:49-57). -/
def Full.getNode (c : Full) (h : List Nat) : Full × Option (List Nat) :=
  match c.lru.find? fun e => decide (e.1 = h) with
  | some e => ({ c with lru := (c.lru.filter fun x => decide (x.1 ≠ h)) ++ [e] }, some e.2)
  | none => (c, none)

/-- `putNode` (fullcache.go:59-77). -/
def Full.putNode (c : Full) (h v : List Nat) : Full :=
  match c.lru.find? fun e => decide (e.1 = h) with
  | some e => { c with lru := (c.lru.filter fun x => decide (x.1 ≠ h)) ++ [e] }
  | none => { c with lru := (if 80000 ≤ c.lru.length then c.lru.tail else c.lru) ++ [(h, v)] }

/-- `Get` (fullcache.go:79-99). -/
def Full.get (c : Full) (nibs : Option (List Nat)) (h : List Nat) : Option (Full × Option (List Nat) × Bool) :=
  match nibs with
  | none => some (c, none, false)
  | some nibs =>
    if index nibs < sizeByDepth 5 then
      match c.nodes[index nibs]? with
      | none => none
      | some none => some (c, none, true)
      | some (some n) => if n.1 = h then some (c, some n.2, true) else some (c, none, true)
    else some ((c.getNode h).1, (c.getNode h).2, true)

/-- `Put` (fullcache.go:101-116). -/
def Full.put (c : Full) (nibs : Option (List Nat)) (h v : List Nat) : Option Full :=
  match nibs with
  | none => some c
  | some nibs =>
    if index nibs < sizeByDepth 5 then
      if index nibs < c.nodes.length then some { c with nodes := c.nodes.set (index nibs) (some (h, v)) } else none
    else some (c.putNode h v)

/-- A full cache and what was put, the last one first: what was put before the migration counts if the branch cache had it in memory. -/
inductive FRun : Full → List (Option (List Nat) × List Nat × List Nat) → Prop
  | new : FRun .new []
  | migrate {depth fdepth : Nat} {bc : Cache} {ps : List (Option (List Nat) × List Nat × List Nat)} :
      Run depth fdepth bc ps → depth + fdepth ≠ 5 ∨ fdepth = 0 →
      FRun (.ofBranch bc) (ps.filter fun p => decide (p.2.2.length ≤ 532) && decide (∀ ns, p.1 = some ns → ns.length < depth))
  | get {c c' : Full} {ps : List (Option (List Nat) × List Nat × List Nat)} {nibs : Option (List Nat)} {h : List Nat}
      {r : Option (List Nat) × Bool} : FRun c ps → c.get nibs h = some (c', r) → FRun c' ps
  | put {c c' : Full} {ps : List (Option (List Nat) × List Nat × List Nat)} {nibs : Option (List Nat)} {h v : List Nat} :
      FRun c ps → (∀ ns, nibs = some ns → ∀ n ∈ ns, n < 16) → c.put nibs h v = some c' → FRun c' ((nibs, h, v) :: ps)

end Verif.NodeCache
