import Mathlib.Data.List.Basic
import Mathlib.Data.List.Nodup
import Mathlib.Algebra.BigOperators.Group.List.Basic
import Mathlib.Tactic.SplitIfs

/-!
# The pool of packets that came already

Models `PacketPool` of `network/pool.go`: a peer relays a packet only if `Put` says that it is new.

Simplifications: a packet is its hash (the pool looks at nothing else); arrays are functions on indices below `n`; each
operation is atomic (the lock).
-/

namespace Verif.Packets

/-- A `PacketPool` (pool.go:8-15). A bucket that is none is a nil map. -/
structure Pool where
  n : Nat
  l : Nat
  cur : Nat
  buckets : Nat → Option (List Nat)
  len : Nat → Nat

def upd {α : Type} (f : Nat → α) (i : Nat) (v : α) : Nat → α := fun j => if j = i then v else f j

/-- `NewPacketPool` (pool.go:17-27). -/
def Pool.new (n l : Nat) : Pool := ⟨n, l, 0, upd (fun _ => none) 0 (some []), fun _ => 0⟩

/-- The loop of `_contains` (pool.go:31-44). -/
def Pool.look (p : Pool) (h : Nat) : Nat → Nat → Bool
  | 0, _ => false
  | i + 1, cur =>
    match p.buckets cur with
    | none => false
    | some m => if m.contains h then true else p.look h i ((if cur < 1 then p.n else cur) - 1)

/-- `_contains`, `Contains` (pool.go:29-46, 80-85). -/
def Pool.contains (p : Pool) (h : Nat) : Bool := p.look h p.n p.cur

/-- `Put` (pool.go:48-67); none: a panic (a write to a nil map). -/
def Pool.put (p : Pool) (h : Nat) : Option (Pool × Bool) :=
  if p.contains h then some (p, false)
  else
    match p.buckets p.cur with
    | none => none
    | some m =>
      let q : Pool := { p with buckets := upd p.buckets p.cur (some (h :: m)), len := upd p.len p.cur (p.len p.cur + 1) }
      if p.l ≤ q.len p.cur then
        let c := if p.n ≤ p.cur + 1 then 0 else p.cur + 1
        some ({ q with cur := c, buckets := upd q.buckets c (some []), len := upd q.len c 0 }, true)
      else some (q, true)

/-- `Clear` (pool.go:69-78). -/
def Pool.clear (p : Pool) : Pool :=
  { p with cur := 0, buckets := upd (fun i => if i < p.n then none else p.buckets i) 0 (some []) }

/-- A pool, and the packets it took since it was made or cleared, the last one first. -/
inductive Run (n l : Nat) : Pool → List Nat → Prop
  | new : Run n l (.new n l) []
  | put {p p' : Pool} {hs : List Nat} {h : Nat} {b : Bool} : Run n l p hs → p.put h = some (p', b) →
      Run n l p' (if b then h :: hs else hs)
  | clear {p : Pool} {hs : List Nat} : Run n l p hs → Run n l p.clear []

end Verif.Packets
