import Mathlib.Data.List.Basic

/-!
# The queues of the network

Models `network/queue.go` of the Go code: the ring buffer, the queue with one of them (`NewQueue`: received packets and
events of a protocol, packets that wait for a second try), the queue with priorities (packets to a peer), and the one with
weights (all packets that are sent).

Simplifications:
* `Push`, `Pop`, `Available` hold the lock of the queue, so they are atomic. `SetWeight` does not take it; it is atomic
  here (nothing calls it);
* a context is a number; it is not nil (all callers push a new context);
* sizes are not negative;
* `Close` is left out (nothing calls it), so are the `ChannelQueue` (not in use) and `Available` of a bad index (0).
-/

namespace Verif.NetQueue

/-- A `sliceQueue` (queue.go:48-52). The buffer is nil before the first push. -/
structure Ring where
  buffer : Option (List (Option Nat))
  read : Nat
  write : Nat
  size : Nat
  len : Nat
deriving Repr, DecidableEq

/-- `init` (queue.go:54-57) on a zero value. -/
def Ring.new (size : Nat) : Ring := ⟨none, 0, 0, size, 0⟩

/-- The buffer, made at the first push (queue.go:63-65). -/
def Ring.slots (q : Ring) : List (Option Nat) :=
  match q.buffer with
  | none => List.replicate q.size none
  | some b => b

/-- `push` (queue.go:59-70). `none`: an index is out of range, or a division by zero. -/
def Ring.push (q : Ring) (c : Nat) : Option (Ring × Bool) :=
  if q.len = q.size then some (q, false)
  else
    let b := q.slots
    if q.write < b.length ∧ q.size ≠ 0 then
      some ({ q with buffer := some (b.set q.write (some c)), len := q.len + 1, write := (q.write + 1) % q.size }, true)
    else none

/-- `pop` (queue.go:72-81). The outer `none`: a panic; the inner one: the queue is empty. The entry in the buffer is not
nil if it is an entry that was pushed; a nil one counts as a panic here. -/
def Ring.pop (q : Ring) : Option (Ring × Option Nat) :=
  if q.len < 1 then some (q, none)
  else
    match q.buffer with
    | none => none
    | some b =>
      match b[q.read]? with
      | some (some v) =>
        if q.size = 0 then none
        else some ({ q with buffer := some (b.set q.read none), len := q.len - 1, read := (q.read + 1) % q.size }, some v)
      | _ => none

/-- `available` (queue.go:83-85). -/
def Ring.available (q : Ring) : Nat := q.size - q.len

/-- The three queues: `singleQueue`, `PriorityQueue`, `WeightQueue`. -/
inductive Kind where
  | single
  | priority
  | weight
deriving Repr, DecidableEq

/-- A queue (queue.go:87-92, 145-152, 220-222, 244-249). The single queue has one ring, and no `total`. `token`: there is
a value in the channel `out`, which has place for one. -/
structure Q where
  kind : Kind
  rings : List Ring
  total : Nat
  token : Bool
  weights : List Nat
  current : List Nat
  idx : Nat
deriving Repr, DecidableEq

/-- `notify` (queue.go:94-99, 178-183). -/
def notify (q : Q) : Q := { q with token := true }

/-- `singleQueue.Push` (queue.go:101-110). -/
def pushSingle (q : Q) (r : Ring) (c : Nat) : Option (Q × Bool) :=
  match r.push c with
  | none => none
  | some (r', ok) =>
    let q' := { q with rings := [r'] }
    some (if ok && r'.len == 1 then notify q' else q', ok)

/-- `multiQueue.Push` (queue.go:163-176). -/
def pushMulti (q : Q) (c : Nat) (idx : Int) : Option (Q × Bool) :=
  if idx < 0 ∨ idx ≥ q.rings.length then some (q, false)
  else
    match q.rings[idx.toNat]? with
    | none => none
    | some r =>
      match r.push c with
      | none => none
      | some (_, false) => some (q, false)
      | some (r', true) => some (notify { q with rings := q.rings.set idx.toNat r', total := q.total + 1 }, true)

/-- `Push`. -/
def push (q : Q) (c : Nat) (idx : Int) : Option (Q × Bool) :=
  match q.kind, q.rings with
  | .single, [r] => pushSingle q r c
  | .single, _ => none
  | _, _ => pushMulti q c idx

/-- `PriorityQueue.fetch` (queue.go:224-231) from the index `i` on; `n` indexes are left. -/
def fetchPriority (q : Q) (i : Nat) : Nat → Option (Q × Option Nat)
  | 0 => some (q, none)
  | n + 1 =>
    match q.rings[i]? with
    | none => none
    | some r =>
      match r.pop with
      | none => none
      | some (r', some v) => some ({ q with rings := q.rings.set i r' }, some v)
      | some (r', none) => fetchPriority { q with rings := q.rings.set i r' } (i + 1) n

/-- `WeightQueue.fetch` (queue.go:251-268) from the round `i` of the loop on; `n` rounds are left. -/
def fetchWeight (q : Q) (i : Nat) : Nat → Option (Q × Option Nat)
  | 0 => some (q, none)
  | n + 1 =>
    let s := q.rings.length
    let idx := (q.idx + i) % s
    match q.rings[idx]?, q.current[idx]?, q.weights[idx]? with
    | some r, some c, some w =>
      match r.pop with
      | none => none
      | some (r', some v) =>
        let q' := { q with rings := q.rings.set idx r' }
        if c + 1 ≥ w then some ({ q' with current := q.current.set idx 0, idx := (idx + 1) % s }, some v)
        else some ({ q' with current := q.current.set idx (c + 1), idx := idx }, some v)
      | some (r', none) =>
        fetchWeight { q with rings := q.rings.set idx r', current := q.current.set idx 0 } (i + 1) n
    | _, _, _ => none

/-- `singleQueue.Pop` (queue.go:112-121). -/
def popSingle (q : Q) (r : Ring) : Option (Q × Option Nat) :=
  match r.pop with
  | none => none
  | some (r', v) =>
    let q' := { q with rings := [r'] }
    some (if v.isSome && decide (r'.len > 0) then notify q' else q', v)

/-- `multiQueue.Pop` (queue.go:189-205). -/
def popMulti (q : Q) : Option (Q × Option Nat) :=
  if q.total < 1 then some (q, none)
  else
    match (if q.kind = .weight then fetchWeight q 0 q.rings.length else fetchPriority q 0 q.rings.length) with
    | none => none
    | some (q', none) => some (q', none)
    | some (q', some v) =>
      let q'' := { q' with total := q'.total - 1 }
      some (if q''.total > 0 then notify q'' else q'', some v)

/-- `Pop`. -/
def pop (q : Q) : Option (Q × Option Nat) :=
  match q.kind, q.rings with
  | .single, [r] => popSingle q r
  | .single, _ => none
  | _, _ => popMulti q

/-- `Available` (queue.go:123-128, 211-218) of the ring at an index that exists. -/
def available (q : Q) (i : Nat) : Nat :=
  match q.rings[i]? with
  | some r => r.available
  | none => 0

/-- `SetWeight` (queue.go:270-276). Returns if there is no error. -/
def setWeight (q : Q) (idx weight : Int) : Q × Bool :=
  if idx < 0 ∨ idx ≥ q.weights.length ∨ weight < 1 then (q, false)
  else ({ q with weights := q.weights.set idx.toNat weight.toNat }, true)

/-- `NewQueue` (queue.go:138-143), `NewPriorityQueue` (237-242; `cnt` is the highest priority plus one) and
`NewWeightQueue` (282-293). -/
def Q.new (kind : Kind) (size cnt : Nat) : Q where
  kind := kind
  rings := if kind = .single then [Ring.new size] else List.replicate cnt (Ring.new size)
  total := 0
  token := false
  weights := if kind = .weight then List.replicate cnt 1 else []
  current := if kind = .weight then List.replicate cnt 0 else []
  idx := 0

/-- What happens to a queue. `wait`: a consumer receives from the channel of `Wait`; `pop`: `Pop`. -/
inductive Ev where
  | push (c : Nat) (idx : Int)
  | pop
  | wait
  | setWeight (idx weight : Int)
deriving Repr, DecidableEq

/-- What the caller gets. -/
inductive Out where
  | bool (b : Bool)
  | value (v : Option Nat)
  | blocked
deriving Repr, DecidableEq

/-- One event; `none`: a panic. -/
def step (q : Q) : Ev → Option (Q × Out)
  | .push c i => (push q c i).map fun p => (p.1, .bool p.2)
  | .pop => (pop q).map fun p => (p.1, .value p.2)
  | .wait => some (if q.token then ({ q with token := false }, .bool true) else (q, .blocked))
  | .setWeight i w => let p := setWeight q i w; some (p.1, .bool p.2)

end Verif.NetQueue
