import Verif.LayerDB.Model

/-!
# What a database layer is

A database with a list of pending writes.
-/

namespace Verif.LayerDB

/-- A write: the new value of a key in a bucket, or its deletion. -/
structure Wr where
  id : Nat
  key : Key
  val : Option Val
deriving Repr, DecidableEq

/-- The content of a database after some writes. -/
def after (d : Nat → Key → Option Val) (ws : List Wr) : Nat → Key → Option Val :=
  ws.foldl (fun d w => fun i k => if i = w.id ∧ k = w.key then w.val else d i k) d

/-- The writes in a history that no later one overwrites, in their order. -/
def newest : List Wr → List Wr
  | [] => []
  | w :: ws => if ∃ x ∈ ws, x.id = w.id ∧ x.key = w.key then newest ws else w :: newest ws

/-- The layer: the database below, the writes since the start (or since they were thrown away last), and if writes go
through. -/
structure Spec where
  disk : Nat → Key → Option Val
  pending : List Wr
  direct : Bool

/-- What a reader sees. -/
def Spec.view (a : Spec) : Nat → Key → Option Val := after a.disk a.pending

/-- The bucket a handle is on. -/
def Handle.id : Handle → Nat
  | .layer i => i
  | .real i => i

/-- A write through the layer. -/
def Spec.write (a : Spec) (w : Wr) (ok : Bool) : Spec × Out :=
  if a.direct then (if ok then { a with disk := after a.disk [w] } else a, .bool ok)
  else ({ a with pending := a.pending ++ [w] }, .bool true)

/-- What each event does and answers (`none`: any handle). -/
def Spec.step (a : Spec) : Ev → Spec × Option Out
  | .open _ => (a, none)
  | .get h k => (a, some (.value (a.view h.id k)))
  | .has h k => (a, some (.bool (a.view h.id k).isSome))
  | .set h k v ok => let p := a.write ⟨h.id, k, some v⟩ ok; (p.1, some p.2)
  | .delete h k ok => let p := a.write ⟨h.id, k, none⟩ ok; (p.1, some p.2)
  | .flush false _ => if a.direct then (a, some (.bool false)) else ({ a with pending := [] }, some (.bool true))
  | .flush true n =>
    if a.direct then (a, some (.bool true))
    else if n < (newest a.pending).length then
      ({ a with disk := after a.disk ((newest a.pending).take n) }, some (.bool false))
    else ({ disk := a.view, pending := [], direct := true }, some (.bool true))
  | .raw id k v => ({ a with disk := after a.disk [⟨id, k, v⟩] }, some .done)

/-- An operation is on a handle that was given out. -/
def Allowed (g : List Handle) : Ev → Prop
  | .get h _ | .has h _ | .set h _ _ _ | .delete h _ _ => h ∈ g
  | _ => True

/-- The handles given out. -/
def given (g : List Handle) : Out → List Handle
  | .handle h => h :: g
  | _ => g

/-- A layer on a database with content `d`, the handles its users have, and the specification, after the same
events. -/
inductive Run (d : Nat → Key → Option Val) : DB → List Handle → Spec → Prop
  | init : Run d (DB.new d) [] ⟨d, [], false⟩
  | step {s : DB} {g : List Handle} {a : Spec} (e : Ev) : Run d s g a → Allowed g e →
      Run d (step s e).1 (given g (step s e).2) (a.step e).1

end Verif.LayerDB
