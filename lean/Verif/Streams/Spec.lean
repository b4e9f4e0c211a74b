import Verif.Streams.Model

/-!
# Two peers and the connection between them

The connection keeps the order and may lose any message.
-/

namespace Verif.Streams

/-- A peer. -/
inductive Side where
  | a
  | b
deriving Repr, DecidableEq

/-- The other one. -/
def Side.other : Side → Side
  | .a => .b
  | .b => .a

/-- The two streams, and what each has sent and did not arrive yet. -/
structure Sys where
  str : Side → Stream
  net : Side → List Msg

/-- The history of a connection, for each sender: what `Unicast` took without an error, and what the other one took as the next
message: the data that went to the user, or none if there was no data in it. -/
structure Hist where
  sent : Side → List Data
  taken : Side → List (Option Data)

/-- A function changed at one side. -/
def set {α : Type} (f : Side → α) (x : Side) (v : α) : Side → α := fun y => if y = x then v else f y

def Sys.new : Sys := ⟨fun _ => Stream.new, fun _ => []⟩
def Hist.new : Hist := ⟨fun _ => [], fun _ => []⟩

/-- What can happen. -/
inductive Step : Sys → Hist → Sys → Hist → Prop
  | send {c : Sys} {h : Hist} (x : Side) (d : Data) (now : Nat) (ok : Bool) {s : Stream} {o : List Msg} :
      send (c.str x) d now ok = some (s, o) →
      Step c h ⟨set c.str x s, set c.net x (c.net x ++ o)⟩ { h with sent := set h.sent x (h.sent x ++ [d]) }
  | arrive {c : Sys} {h : Hist} (x : Side) (m : Msg) (ms : List Msg) (now : Nat) (ok : Nat → Bool) : c.net x = m :: ms →
      Step c h
        ⟨set c.str x.other (receive (c.str x.other) m now ok).1,
          set (set c.net x ms) x.other (c.net x.other ++ (receive (c.str x.other) m now ok).2.1)⟩
        { h with taken := if (receive (c.str x.other) m now ok).2.2 then set h.taken x (h.taken x ++ [m.data]) else h.taken }
  | lose {c : Sys} {h : Hist} (x : Side) (l : List Msg) : l.Sublist (c.net x) → Step c h ⟨c.str, set c.net x l⟩ h
  | repost {c : Sys} {h : Hist} (x : Side) (now : Nat) (ok : Bool) :
      Step c h ⟨set c.str x (onRepost (c.str x) now ok).1, set c.net x (c.net x ++ (onRepost (c.str x) now ok).2)⟩ h
  | ack {c : Sys} {h : Hist} (x : Side) (ok : Bool) :
      Step c h ⟨set c.str x (onAckTimer (c.str x) ok).1, set c.net x (c.net x ++ (onAckTimer (c.str x) ok).2)⟩ h

/-- A connection. -/
inductive Run : Sys → Hist → Prop
  | init : Run Sys.new Hist.new
  | step {c c' : Sys} {h h' : Hist} : Run c h → Step c h c' h' → Run c' h'

/-- What can come after a state. -/
inductive After (c : Sys) (h : Hist) : Sys → Hist → Prop
  | refl : After c h c h
  | step {c' c'' : Sys} {h' h'' : Hist} : After c h c' h' → Step c' h' c'' h'' → After c h c'' h''

/-- What went to the user of the other side. -/
def Hist.got (h : Hist) (x : Side) : List Data := (h.taken x).filterMap id

end Verif.Streams
