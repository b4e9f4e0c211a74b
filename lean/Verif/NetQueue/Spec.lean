import Verif.NetQueue.Model

/-!
# What the queues are

Lists of contexts with a bound on their lengths, and a rule which list is served.
-/

namespace Verif.NetQueue

/-- The queues: the contexts in each, oldest first; whose turn it is, and how many it was served in this turn. -/
structure Spec where
  kind : Kind
  cap : Nat
  qs : List (List Nat)
  weights : List Nat
  turn : Nat
  used : Nat
deriving Repr, DecidableEq

/-- The queue `i` has nothing. -/
def Spec.isEmpty (a : Spec) (i : Nat) : Bool := a.qs.getD i [] == []

/-- The indexes in the order in which they are looked at. -/
def Spec.order (a : Spec) : List Nat :=
  if a.kind = .weight then (List.range a.qs.length).map fun i => (a.turn + i) % a.qs.length
  else List.range a.qs.length

/-- The queue that is served next: the first one in the order that has something. -/
def Spec.next (a : Spec) : Option Nat := a.order.find? fun i => !a.isEmpty i

/-- The index a push goes to. -/
def Spec.target (a : Spec) (idx : Int) : Option Nat :=
  if a.kind = .single then some 0
  else if 0 ≤ idx ∧ idx < a.qs.length then some idx.toNat else none

/-- The turn passes on if the weight is used up. -/
def Spec.advance (a : Spec) (i : Nat) : Spec :=
  if a.kind = .weight then
    let u := if i = a.turn then a.used + 1 else 1
    if u ≥ a.weights.getD i 0 then { a with turn := (i + 1) % a.qs.length, used := 0 } else { a with turn := i, used := u }
  else a

/-- `Push`: refused if there is no such queue, or if it is full. -/
def Spec.push (a : Spec) (c : Nat) (idx : Int) : Spec × Bool :=
  match a.target idx with
  | none => (a, false)
  | some i =>
    if (a.qs.getD i []).length < a.cap then ({ a with qs := a.qs.set i (a.qs.getD i [] ++ [c]) }, true) else (a, false)

/-- `Pop`: the oldest one of the queue that is served next. -/
def Spec.pop (a : Spec) : Spec × Option Nat :=
  match a.next with
  | none => (a, none)
  | some i =>
    let b := a.advance i
    ({ b with qs := a.qs.set i (a.qs.getD i []).tail }, (a.qs.getD i []).head?)

/-- A new weight. -/
def Spec.setWeight (a : Spec) (idx w : Int) : Spec × Bool :=
  if 0 ≤ idx ∧ idx < a.weights.length ∧ 1 ≤ w then ({ a with weights := a.weights.set idx.toNat w.toNat }, true)
  else (a, false)

/-- A new queue. -/
def Spec.new (kind : Kind) (size cnt : Nat) : Spec where
  kind := kind
  cap := size
  qs := List.replicate (if kind = .single then 1 else cnt) []
  weights := if kind = .weight then List.replicate cnt 1 else []
  turn := 0
  used := 0

/-- What each event does, and the answer; `none`: not said here. -/
def Spec.step (a : Spec) : Ev → Spec × Option Out
  | .push c i => let p := a.push c i; (p.1, some (.bool p.2))
  | .pop => let p := a.pop; (p.1, some (.value p.2))
  | .wait => (a, none)
  | .setWeight i w => let p := a.setWeight i w; (p.1, some (.bool p.2))

/-- A queue and what it should be, after the same events. -/
inductive Run (kind : Kind) (size cnt : Nat) : Q → Spec → Prop
  | init : Run kind size cnt (Q.new kind size cnt) (Spec.new kind size cnt)
  | step {q q' : Q} {a : Spec} {o : Out} (e : Ev) : Run kind size cnt q a → step q e = some (q', o) →
      Run kind size cnt q' (a.step e).1

/-! ### Histories -/

/-- Many events. -/
def Spec.run (a : Spec) : List Ev → Spec
  | [] => a
  | e :: es => Spec.run (a.step e).1 es

/-- The contexts that were accepted for the queue `i`. -/
def Spec.accepted (a : Spec) (i : Nat) : List Ev → List Nat
  | [] => []
  | .push c idx :: es =>
    (if a.target idx = some i ∧ (a.push c idx).2 = true then [c] else []) ++ Spec.accepted (a.step (.push c idx)).1 i es
  | e :: es => Spec.accepted (a.step e).1 i es

/-- The contexts that `Pop` gave out from the queue `i`. -/
def Spec.served (a : Spec) (i : Nat) : List Ev → List Nat
  | [] => []
  | .pop :: es => (if a.next = some i then a.pop.2.toList else []) ++ Spec.served (a.step .pop).1 i es
  | e :: es => Spec.served (a.step e).1 i es

/-- The number of calls of `Pop`. -/
def pops (es : List Ev) : Nat := (es.filter fun e => e == .pop).length

/-! ### Consumers

A consumer waits for the channel and then calls `Pop`, once or more often; it must not wait again before the first
`Pop`. `awake` is the number of the consumers that took a value from the channel and have not finished. -/

/-- A queue with the number of consumers that are awake. `wake`: a consumer takes the value from the channel; `pop`: a consumer that is awake calls `Pop`, and is finished after
that if `done`; `steal`: somebody else calls `Pop`. -/
inductive CRun (kind : Kind) (size cnt : Nat) : Q → Nat → Prop
  | init : CRun kind size cnt (Q.new kind size cnt) 0
  | push {q q' : Q} {n : Nat} {ok : Bool} (c : Nat) (idx : Int) : CRun kind size cnt q n →
      push q c idx = some (q', ok) → CRun kind size cnt q' n
  | wake {q : Q} {n : Nat} : CRun kind size cnt q n → q.token = true → CRun kind size cnt { q with token := false } (n + 1)
  | pop {q q' : Q} {n : Nat} {v : Option Nat} (done : Bool) : CRun kind size cnt q (n + 1) → pop q = some (q', v) →
      CRun kind size cnt q' (if done then n else n + 1)
  | steal {q q' : Q} {n : Nat} {v : Option Nat} : CRun kind size cnt q n → pop q = some (q', v) → CRun kind size cnt q' n
  | setWeight {q : Q} {n : Nat} (i w : Int) : CRun kind size cnt q n → CRun kind size cnt (setWeight q i w).1 n

end Verif.NetQueue
