import Mathlib.Data.List.Basic

/-!
# Fetching blocks from peers

Models `consensus/fastsync/client.go` and `heightset.go` of the Go code: a client that fetches the blocks of a range of
heights, from up to three peers at a time, and hands them over in order, with room for ten blocks that came early.

Simplifications:
* everything runs under the lock of the client, so each event is atomic. Callbacks run in goroutines of their own: an output
  is that one of them is started;
* heights are numbers from 0 on without overflow; `nActivePeers` too (it is the number of peers with a fetcher, see
  `Inv.active`, so it does not go below 0);
* a fetcher is kept in its peer. In the Go code it is an object that its timer and its peer refer to; once it is
  not in a peer of the current request any more, its timer is stopped and its messages do not reach it, so that it does
  nothing. (After the answer "no block" its step is set once more, client.go:511-514; its peer is gone then.)
* the result of a send is an argument (`Send`) of each event, for each peer; the cancel messages are left out;
* undecodable messages, and those of another kind than the step waits for, change nothing; they are left out.
-/

namespace Verif.FastSync

/-- What `Unicast` returns: no error, a temporary one, another one. -/
inductive Send where
  | ok
  | temp
  | perm
deriving Repr, DecidableEq

/-- A block. -/
structure Blk where
  height : Nat
  body : List Nat
deriving Repr, DecidableEq

/-- `fstep` (client.go:363-371). -/
inductive Step where
  | send
  | resp
  | data
  | fin
deriving Repr, DecidableEq

/-- The timer of a fetcher: it waits to send again, or for the answer. -/
inductive Tm where
  | resend
  | timeout
deriving Repr, DecidableEq

/-- A `fetcher` (client.go:373-386). -/
structure Fetcher where
  height : Nat
  rid : Nat
  step : Step
  timer : Option Tm
  left : Int
  votes : List Nat
  data : List Nat
deriving Repr, DecidableEq

/-- A `peer` (client.go:119-123). -/
structure Peer where
  id : Nat
  requestID : Nat
  f : Option Fetcher
deriving Repr, DecidableEq

/-- A `blockResult` (client.go:33-39); `req` is the number of the request it belongs to. -/
structure Res where
  id : Nat
  blk : Blk
  votes : List Nat
  req : Nat
deriving Repr, DecidableEq

/-- A `fetchRequest` (client.go:125-135) with its `heightSet` (heightset.go:3-7). `crash`: a panic. -/
structure Req where
  serial : Nat
  fetchID : Nat
  begin : Nat
  stop : Nat
  additional : List Nat
  peers : List Peer
  nActive : Nat
  offset : Nat
  pending : List (Option Res)
  crash : Bool
deriving Repr, DecidableEq

/-- A `client` (client.go:22-31); `next` numbers the requests. -/
structure Client where
  fetchID : Nat
  next : Nat
  fr : Option Req
  crash : Bool
deriving Repr, DecidableEq

/-- A callback that is started. -/
inductive Out where
  | onBlock (r : Res)
  | onEnd (req : Nat) (ok : Bool)
deriving Repr, DecidableEq

/-- `configMaxActive`, `configMaxPendingResults` (client.go:15-20). -/
def maxActive : Nat := 3
def maxPending : Nat := 10

/-- The least of a list (heightset.go:39-46). -/
def least : List Nat → Option Nat
  | [] => none
  | x :: xs => match least xs with
    | none => some x
    | some m => some (if x ≤ m then x else m)

/-- `getLowest` (heightset.go:37-51). -/
def getLowest (r : Req) : Option Nat :=
  match least r.additional with
  | some m => some m
  | none => if r.begin ≤ r.stop then some r.begin else none

/-- `popLowest` (heightset.go:16-35). -/
def popLowest (r : Req) : Req :=
  match least r.additional with
  | some m => { r with additional := r.additional.erase m }
  | none => if r.begin ≤ r.stop then { r with begin := r.begin + 1 } else r

/-- `add` (heightset.go:53-58). -/
def addHeight (r : Req) (h : Nat) : Req :=
  if h ≥ r.begin then { r with crash := true } else { r with additional := r.additional ++ [h] }

/-- `newFetcher` (client.go:388-400) with `_doSend` (423-466). If the send fails for good, `onResult` does not find a peer
that has the fetcher, because it is stored only later, and returns; the fetcher is finished then, and stays in its
peer. -/
def newFetcher (h rid : Nat) (snd : Send) : Fetcher :=
  match snd with
  | .ok => ⟨h, rid, .resp, some .timeout, 0, [], []⟩
  | .temp => ⟨h, rid, .send, some .resend, 0, [], []⟩
  | .perm => ⟨h, rid, .fin, none, 0, [], []⟩

/-- The first peer without a fetcher gets one (client.go:253-266). -/
def assign (fid h : Nat) (snd : Nat → Send) : List Peer → Option (List Peer)
  | [] => none
  | p :: ps =>
    match p.f with
    | none => some ({ p with
        f := some (newFetcher h (fid * 65536 + p.requestID) (snd p.id))
        requestID := (p.requestID + 1) % 65536 } :: ps)
    | some _ => (assign fid h snd ps).map fun l => p :: l

/-- `_reschedule` (client.go:241-269), with a bound for the rounds of the loop. -/
def rescheduleN (snd : Nat → Send) : Nat → Req → Req
  | 0, r => r
  | n + 1, r =>
    if r.nActive ≥ maxActive then r
    else if r.peers.length = r.nActive then r
    else
      match getLowest r with
      | none => r
      | some l =>
        if r.offset + r.pending.length ≤ l then r
        else
          match assign r.fetchID l snd r.peers with
          | none => { r with crash := true }
          | some ps =>
            let r := popLowest { r with peers := ps }
            rescheduleN snd n { r with nActive := r.nActive + 1 }

/-- `_reschedule`: each round makes a peer active, so there are at most `maxActive` of them. -/
def reschedule (snd : Nat → Send) (r : Req) : Req := rescheduleN snd maxActive r

/-- The peer at an index goes; the last one takes its place (client.go:90-94, 225-229, 299-302). -/
def removeAt (l : List Peer) (i : Nat) : List Peer :=
  match l.getLast? with
  | none => l
  | some p => (l.set i p).dropLast

/-- The results of a peer but the first are dropped, their heights noted (client.go:107-112, 305-312). -/
def dropFrom (id : Nat) : List (Option Res) → List (Option Res) × List Nat
  | [] => ([], [])
  | x :: xs =>
    let p := dropFrom id xs
    match x with
    | some r => if r.id = id then (none :: p.1, r.blk.height :: p.2) else (x :: p.1, p.2)
    | none => (none :: p.1, p.2)

/-- Both loops. -/
def dropResults (r : Req) (id : Nat) : Req :=
  match r.pending with
  | [] => { r with crash := true }
  | x :: xs =>
    let p := dropFrom id xs
    p.2.foldl addHeight { r with pending := x :: p.1 }

/-- The first pending result. -/
def first (r : Req) : Option Res :=
  match r.pending with
  | some x :: _ => some x
  | _ => none

/-- The request stays the current one. -/
def keep (c : Client) (r : Req) (o : List Out) : Client × List Out :=
  ({ c with fr := some r, crash := c.crash || r.crash }, o)

/-- `_cancel` (client.go:402-414), and the end is reported if `o` says so. -/
def cancelReq (c : Client) (r : Req) (o : List Out) : Client × List Out :=
  ({ c with fr := none, crash := c.crash || r.crash }, o)

/-- `onResult` with an error (client.go:294-325), for the peer at index `i` with this fetcher. -/
def onError (c : Client) (r : Req) (i id : Nat) (f : Fetcher) (noBlock : Bool) (snd : Nat → Send) : Client × List Out :=
  let r := { r with nActive := r.nActive - 1, peers := removeAt r.peers i }
  let r := addHeight r f.height
  let r := if noBlock then r else dropResults r id
  if r.peers.length ≠ 0 then keep c (reschedule snd r) []
  else if first r = none then cancelReq c r [.onEnd r.serial false]
  else keep c r []

/-- `onResult` with a block (client.go:326-347). -/
def onBlock (c : Client) (r : Req) (i id : Nat) (p : Peer) (f : Fetcher) (b : Blk) (snd : Nat → Send) : Client × List Out :=
  let k := f.height - r.offset
  let res : Res := ⟨id, b, f.votes, r.serial⟩
  if f.height < r.offset ∨ k ≥ r.pending.length then keep c { r with crash := true } []
  else
    let r := { r with pending := r.pending.set k (some res), nActive := r.nActive - 1,
                      peers := r.peers.set i { p with f := none } }
    keep c (reschedule snd r) (if k = 0 then [.onBlock res] else [])

/-- The peer with this ID, and its index. -/
def findPeer (id : Nat) : List Peer → Option (Nat × Peer)
  | [] => none
  | p :: ps => if p.id = id then some (0, p) else (findPeer id ps).map fun x => (x.1 + 1, x.2)

/-- A message of a peer: `BlockMetadata` and `BlockData`. -/
inductive Msg where
  | info (rid : Nat) (len : Int) (votes : List Nat)
  | data (rid : Nat) (bytes : List Nat)
deriving Repr, DecidableEq

/-- `client.onReceive` (client.go:182-196) and `fetcher.onReceive` (485-553); `parse` is `NewBlockDataFromReader`. -/
def onReceive (parse : List Nat → Option Blk) (c : Client) (id : Nat) (m : Msg) (snd : Nat → Send) : Client × List Out :=
  match c.fr with
  | none => (c, [])
  | some r =>
    match findPeer id r.peers with
    | none => (c, [])
    | some (i, p) =>
      match p.f with
      | none => (c, [])
      | some f =>
        let put (f : Fetcher) : Client × List Out := keep c { r with peers := r.peers.set i { p with f := some f } } []
        match f.step, m with
        | .resp, .info rid len votes =>
          if rid ≠ f.rid then (c, [])
          else if len < 0 then onError c r i id f true snd
          else put { f with left := len, votes := votes, step := .data }
        | .data, .data rid bytes =>
          if rid ≠ f.rid then (c, [])
          else
            let f' := { f with data := f.data ++ bytes, left := f.left - bytes.length }
            if f'.left = 0 then
              match parse f'.data with
              | none => onError c r i id f' false snd
              | some b => if b.height ≠ f'.height then onError c r i id f' false snd else onBlock c r i id p f' b snd
            else if f'.left < 0 then onError c r i id f' false snd
            else put f'
        | _, _ => (c, [])

/-- The timer of the fetcher of a peer (client.go:439-462). -/
def onTimer (c : Client) (id : Nat) (snd : Nat → Send) : Client × List Out :=
  match c.fr with
  | none => (c, [])
  | some r =>
    match findPeer id r.peers with
    | none => (c, [])
    | some (i, p) =>
      match p.f with
      | none => (c, [])
      | some f =>
        match f.timer with
        | none => (c, [])
        | some .timeout => onError c r i id f false snd
        | some .resend =>
          match snd id with
          | .ok => keep c { r with peers := r.peers.set i { p with f := some { f with step := .resp, timer := some .timeout } } } []
          | .temp => (c, [])
          | .perm => onError c r i id f false snd

/-- `fetchBlocks` (client.go:147-180); none: it is in use. -/
def fetchBlocks (c : Client) (begin stop : Nat) (ids : List Nat) (snd : Nat → Send) : Option Client :=
  match c.fr with
  | some _ => none
  | none =>
    let fid := (c.fetchID + 1) % 65536
    let r : Req := ⟨c.next, fid, begin, stop, [], ids.map fun id => ⟨id, 0, none⟩, 0, begin,
      List.replicate maxPending none, false⟩
    let r := reschedule snd r
    some { c with fetchID := fid, next := c.next + 1, fr := some r, crash := c.crash || r.crash }

/-- `onJoin` (client.go:198-214). -/
def onJoin (c : Client) (id : Nat) (snd : Nat → Send) : Client × List Out :=
  match c.fr with
  | none => (c, [])
  | some r =>
    match findPeer id r.peers with
    | some _ => (c, [])
    | none => keep c (reschedule snd { r with peers := r.peers ++ [⟨id, 0, none⟩] }) []

/-- `onLeave` (client.go:216-239). -/
def onLeave (c : Client) (id : Nat) (snd : Nat → Send) : Client × List Out :=
  match c.fr with
  | none => (c, [])
  | some r =>
    match findPeer id r.peers with
    | none => (c, [])
    | some (i, p) =>
      let r := { r with peers := removeAt r.peers i }
      match p.f with
      | none => keep c r []
      | some f =>
        let r := addHeight r f.height
        keep c (reschedule snd { r with nActive := r.nActive - 1 }) []

/-- `Consume` (client.go:49-74). -/
def consume (c : Client) (x : Res) (snd : Nat → Send) : Client × List Out :=
  match c.fr with
  | none => (c, [])
  | some r =>
    if r.serial ≠ x.req then (c, [])
    else
      match r.pending with
      | [] => keep c { r with crash := true } []
      | _ :: xs =>
        let r := reschedule snd { r with offset := r.offset + 1, pending := xs ++ [none] }
        if r.offset > r.stop ∨ (r.peers.length = 0 ∧ first r = none) then cancelReq c r [.onEnd r.serial true]
        else
          match first r with
          | some y => keep c r [.onBlock y]
          | none => keep c r []

/-- `Reject` (client.go:76-117). -/
def reject (c : Client) (x : Res) (snd : Nat → Send) : Client × List Out :=
  match c.fr with
  | none => (c, [])
  | some r =>
    if r.serial ≠ x.req then (c, [])
    else
      let r := match findPeer x.id r.peers with
        | none => r
        | some (i, p) =>
          let r := { r with peers := removeAt r.peers i }
          match p.f with
          | none => r
          | some _ => reschedule snd { r with nActive := r.nActive - 1 }
      match r.pending with
      | [] => keep c { r with crash := true } []
      | _ :: xs =>
        let r := { r with pending := none :: xs }
        let r := addHeight r x.blk.height
        let r := dropResults r x.id
        if r.peers.length ≠ 0 then keep c (reschedule snd r) []
        else cancelReq c r [.onEnd r.serial false]

/-- `cancel` (client.go:416-421) of the request with a number. -/
def cancel (c : Client) (serial : Nat) : Client :=
  match c.fr with
  | some r => if r.serial = serial then { c with fr := none } else c
  | none => c

/-- What happens. -/
inductive Ev where
  | fetch (begin stop : Nat) (ids : List Nat)
  | recv (id : Nat) (m : Msg)
  | timer (id : Nat)
  | join (id : Nat)
  | leave (id : Nat)
  | consume (x : Res)
  | reject (x : Res)
  | cancel (serial : Nat)

/-- One event. -/
def step (parse : List Nat → Option Blk) (c : Client) (e : Ev) (snd : Nat → Send) : Client × List Out :=
  match e with
  | .fetch b s ids => ((fetchBlocks c b s ids snd).getD c, [])
  | .recv id m => onReceive parse c id m snd
  | .timer id => onTimer c id snd
  | .join id => onJoin c id snd
  | .leave id => onLeave c id snd
  | .consume x => consume c x snd
  | .reject x => reject c x snd
  | .cancel n => (cancel c n, [])

/-- `newClient` (client.go:137-145). -/
def Client.new : Client := ⟨0, 0, none, false⟩

end Verif.FastSync
