import Verif.FastSync.Model

/-!
# What fetching blocks is

Beside the state of the client: what was handed over and is not answered yet, what was consumed, which heights a rejection
dropped.
-/

namespace Verif.FastSync

/-- The history of the current request, and all callbacks. -/
structure G where
  /-- Results that were handed over, not consumed or rejected yet (of all requests). -/
  given : List Res
  /-- Heights that a rejected peer was fetching (of the current request). -/
  lost : List Nat
  /-- Results that were consumed, in order (of the current request). -/
  done : List Res
  /-- The height the current request begins with. -/
  start : Nat
  /-- All callbacks so far. -/
  log : List Out

/-- The results that are handed over. -/
def results : List Out → List Res
  | [] => []
  | .onBlock r :: os => r :: results os
  | .onEnd _ _ :: os => results os

/-- The result belongs to the current request. -/
def current (c : Client) (x : Res) : Bool :=
  match c.fr with
  | some r => r.serial == x.req
  | none => false

/-- The heights a peer is fetching. -/
def fetching (c : Client) (id : Nat) : List Nat :=
  match c.fr with
  | some r => (r.peers.filter fun p => p.id == id).filterMap fun p => p.f.map fun f => f.height
  | none => []

/-- The history after an event with this output. -/
def G.next (g : G) (c : Client) (e : Ev) (o : List Out) : G :=
  let g := { g with log := g.log ++ o }
  match e with
  | .fetch b _ _ =>
    match c.fr with
    | some _ => g
    | none => { g with lost := [], done := [], start := b }
  | .consume x =>
    { g with
      given := g.given.erase x ++ results o
      done := if current c x then g.done ++ [x] else g.done }
  | .reject x =>
    { g with
      given := g.given.erase x ++ results o
      lost := if current c x then g.lost ++ fetching c x.id else g.lost }
  | _ => { g with given := g.given ++ results o }

/-- A result is answered once; the peers at the beginning are different ones. -/
def Allowed (g : G) : Ev → Prop
  | .consume x | .reject x => x ∈ g.given
  | .fetch _ _ ids => ids.Nodup
  | _ => True

/-- A client with its history. -/
inductive Run (parse : List Nat → Option Blk) : Client → G → Prop
  | init : Run parse Client.new ⟨[], [], [], 0, []⟩
  | step {c : Client} {g : G} (e : Ev) (snd : Nat → Send) : Run parse c g → Allowed g e →
      Run parse (step parse c e snd).1 (g.next c e (step parse c e snd).2)

/-- The heights that are being fetched. -/
def active (r : Req) : List Nat := r.peers.filterMap fun p => p.f.map fun f => f.height

end Verif.FastSync
