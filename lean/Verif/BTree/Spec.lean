import Verif.BTree.Model

/-!
# What the user of the block manager relies on

Written with the parent relation of blocks and with what the user has seen (candidates, callbacks, answers) only.
-/

namespace Verif.BTree

/-- `a` is `b` or one of the blocks below it. -/
inductive Below (ch : Chain) (a : Id) : Id → Prop
  | refl : Below ch a a
  | up {b c : Id} : ch.prev c = some b → Below ch a b → Below ch a c

/-- No block lies below its own parent: the block IDs are hashes of contents that have the previous ID. -/
def NoLoop (ch : Chain) : Prop := ∀ a b, ch.prev b = some a → ¬ Below ch b a

/-- The block that was finalized last. -/
def World.last (w : World) : Option Id := w.fins.head?

/-- The blocks that the manager has to know: the last finalized block, and each block above it that is, or is below,
a block for which the user has a candidate. -/
def Needed (ch : Chain) (w : World) (b : Id) : Prop :=
  ∃ f, w.last = some f ∧ (b = f ∨ (Below ch f b ∧ ∃ d, 0 < w.cands d ∧ Below ch b d))

/-- How often the callback of a task was called. -/
def World.calls (w : World) (t : Tid) : Nat := w.log.countP fun e => e.1 = t

/-- How often `Cancel` on a task returned true. -/
def World.cancelled (w : World) (t : Tid) : Nat := w.cancels.countP fun e => e = t

/-- A task that was neither cancelled nor has called back. -/
def World.open (w : World) (t : Tid) : Prop :=
  t < w.s.tasks.length ∧ w.calls t = 0 ∧ w.cancelled t = 0

/-- The block a task works on top of. -/
def Kind.parent (ch : Chain) : Kind → Option Id
  | .imp b _ => ch.prev b
  | .prop p => some p

/-- A candidate for `b` is what a task of this kind should bring. -/
def Kind.fits (ch : Chain) (b : Id) : Kind → Prop
  | .imp b' _ => b = b'
  | .prop p => ch.prev b = some p

/-- Each block of the list (newest first) is on top of the next. -/
def Linked (ch : Chain) : List Id → Prop
  | [] => True
  | [_] => True
  | b :: a :: l => ch.prev b = some a ∧ Linked ch (a :: l)

end Verif.BTree
