import Mathlib.Data.List.Basic

/-!
# Streams

Models `network/stream.go` of the Go code: messages to a peer get a sequence number of 16 bits and are kept until the
peer acknowledges them; after a time without an acknowledgement they are sent again; the peer takes only the next number.

Simplifications:
* one connection of two peers, each with one stream; everything a stream does is atomic (lock of the reactor). After the lock is
  released the message goes to the user's reactor; there is one goroutine for that per protocol, so the order stays;
* the clock is an argument; times are numbers. A timer may fire at any time, not only when it is due;
* sequence numbers are numbers below 65536, and reduced where the Go code's `uint16` is;
* a message of the user is not nil (`streamMessage` takes nil for an acknowledgement);
* undecodable messages are left out.
-/

namespace Verif.Streams

/-- A protocol and the bytes. -/
structure Data where
  pi : Nat
  bytes : List Nat
deriving Repr, DecidableEq

/-- A `streamMessage` (stream.go:18-23); no data: an acknowledgement. -/
structure Msg where
  seq : Nat
  ack : Nat
  data : Option Data
deriving Repr, DecidableEq

/-- A `sendItem` (stream.go:35-39). -/
structure Item where
  data : Data
  t : Nat
deriving Repr, DecidableEq

/-- A `stream` (stream.go:41-52). `repost`: the timer, with the number and the data its function has captured. `ackTimer`: none is nil,
`some false` is a timer that has fired. -/
structure Stream where
  seq : Nat
  peerAck : Nat
  timedout : Bool
  repost : Option (Nat × Data)
  unacked : List Item
  peerSeq : Nat
  ackTimer : Option Bool
deriving Repr, DecidableEq

/-- `newStream` (stream.go:146-151). -/
def Stream.new : Stream := ⟨0, 0, false, none, [], 0, none⟩

/-- `configPeerAckTimeout` (stream.go:14), in microseconds. -/
def ackTimeout : Nat := 1000000

/-- `postMessage` (stream.go:164-174); `ok`: `Unicast` gives no error. What is sent is the list. -/
def post (s : Stream) (m : Msg) (ok : Bool) : Stream × List Msg :=
  if ok then ({ s with ackTimer := none }, [m]) else (s, [])

/-- `postAck` (stream.go:176-181). -/
def postAck (s : Stream) (ok : Bool) : Stream × List Msg := post s ⟨s.seq, s.peerSeq, none⟩ ok

/-- `updateRepostTimer` (stream.go:280-308). -/
def updateTimer (s : Stream) : Stream :=
  match s.unacked with
  | [] => { s with repost := none }
  | i :: _ => { s with repost := some ((s.peerAck + 1) % 65536, i.data) }

/-- The loop that sends again (stream.go:221-232); `n` is the index of the first item of the list. -/
def resend (s : Stream) (now : Nat) (ok : Nat → Bool) : Nat → List Item → List Item × List Msg
  | _, [] => ([], [])
  | n, i :: is =>
    let p := resend s now ok (n + 1) is
    if i.t ≤ now ∨ s.timedout then
      ({ i with t := now + ackTimeout } :: p.1,
        (if ok n then [⟨(s.peerAck + n + 1) % 65536, s.peerSeq, some i.data⟩] else []) ++ p.2)
    else (i :: p.1, p.2)

/-- The first half of `receive` (stream.go:184-206): is the message the next one? -/
def accept (s : Stream) (m : Msg) (ok : Bool) : Stream × List Msg × Bool :=
  if m.seq = (s.peerSeq + 1) % 65536 then
    ({ s with
      peerSeq := (s.peerSeq + 1) % 65536
      ackTimer := match s.ackTimer with
        | none => some true
        | some b => some b }, [], true)
  else
    match m.data with
    | some _ => ((postAck s ok).1, (postAck s ok).2, false)
    | none => (s, [], false)

/-- The second half of `receive` (stream.go:208-240): what does it acknowledge? -/
def acknowledge (s : Stream) (m : Msg) (now : Nat) (ok : Nat → Bool) : Stream × List Msg :=
  let ack := if m.ack < s.peerAck then m.ack + 65536 else m.ack
  if s.peerAck < ack ∧ ack ≤ s.peerAck + s.unacked.length then
    let s1 : Stream := { s with unacked := s.unacked.drop (ack - s.peerAck), peerAck := m.ack }
    let p := resend s1 now ok 0 s1.unacked
    (updateTimer { s1 with unacked := p.1, timedout := false, ackTimer := if p.2 = [] then s1.ackTimer else none }, p.2)
  else (s, [])

/-- `receive` (stream.go:183-242). -/
def receive (s : Stream) (m : Msg) (now : Nat) (ok : Nat → Bool) : Stream × List Msg × Bool :=
  let a := accept s m (ok 0)
  let b := acknowledge a.1 m now fun i => ok (i + 1)
  (b.1, a.2.1 ++ b.2, a.2.2)

/-- `send` (stream.go:244-278); none: an error. -/
def send (s : Stream) (d : Data) (now : Nat) (ok : Bool) : Option (Stream × List Msg) :=
  let next := (s.seq + 1) % 65536
  if next = s.peerAck then none
  else if !s.timedout && !ok then none
  else
    let p := if s.timedout then (s, []) else post s ⟨next, s.peerSeq, some d⟩ ok
    let s1 : Stream := { p.1 with seq := next, unacked := p.1.unacked ++ [⟨d, now + ackTimeout⟩] }
    some (if s1.repost.isNone then updateTimer s1 else s1, p.2)

/-- The function of the repost timer (stream.go:289-306). The item it has captured is the first one (`Inv.timer`). -/
def onRepost (s : Stream) (now : Nat) (ok : Bool) : Stream × List Msg :=
  match s.repost with
  | none => (s, [])
  | some (q, d) =>
    let p := post { s with timedout := true } ⟨q, s.peerSeq, some d⟩ ok
    let items := match p.1.unacked with
      | [] => []
      | i :: is => { i with t := now + ackTimeout } :: is
    (updateTimer { p.1 with unacked := items }, p.2)

/-- The function of the acknowledgement timer (stream.go:188-196). -/
def onAckTimer (s : Stream) (ok : Bool) : Stream × List Msg :=
  match s.ackTimer with
  | some true => postAck { s with ackTimer := some false } ok
  | _ => (s, [])

end Verif.Streams
