import Mathlib.Data.List.Basic

/-!
# A database layer that collects writes

Models `common/db/layer_db.go` of the Go code: a database on top of another one, which keeps the writes in memory until
`Flush` writes them or throws them away. State synchronization (`common/merkle/builder.go:183`), the replay of
blocks (`chain/taskreplay.go:183-193`) and the writer of results (`common/db/databasewriter.go`) work on it.

The Go code keeps, for each bucket, a map from keys to elements of one linked list, which all buckets share; the model has
these elements as a heap addressed by numbers, and the list as the list of the addresses in it.

Simplifications:
* an operation holds the lock of its bucket, `Flush` the locks of all buckets (and locks are taken in one order: database,
  buckets, list), so operations are atomic;
* the database below is a map for each bucket; a write to it succeeds, or returns an error and changes nothing: whether
  the writes succeed is an argument of the operations. `GetBucket` of it succeeds;
* flags (`WithFlags`, `GetFlag`), `Close` and `Unwrap` are left out.
-/

namespace Verif.LayerDB

abbrev Key := List Nat
abbrev Val := List Nat

/-- A `layerBucketItem` (layer_db.go:10-14). A nil `value` (`none`) stands for a deletion. -/
structure Item where
  bk : Nat
  key : Key
  value : Option Val
deriving Repr, DecidableEq

/-- A `layerDB` (layer_db.go:106-113), with its buckets (35-40) in place: `buckets id` is none if there is no
`layerBucket` for the ID, and `some data` otherwise, where `data` is nil (`none`) after a flush. `real` is the
database below. -/
structure DB where
  flushed : Bool
  real : Nat → Key → Option Val
  buckets : Nat → Option (Option (Key → Option Nat))
  heap : Nat → Item
  next : Nat
  list : List Nat

/-- What `GetBucket` returns: a bucket of the layer, or one of the database below. -/
inductive Handle where
  | layer (id : Nat)
  | real (id : Nat)
deriving Repr, DecidableEq

/-- A write to a bucket of the database below; `ok`: it succeeds. -/
def writeReal (r : Nat → Key → Option Val) (id : Nat) (k : Key) (v : Option Val) (ok : Bool) :
    (Nat → Key → Option Val) × Bool :=
  if ok then (fun i j => if i = id ∧ j = k then v else r i j, true) else (r, false)

/-- `GetBucket` (layer_db.go:115-137). -/
def getBucket (s : DB) (id : Nat) : DB × Handle :=
  match s.buckets id with
  | some _ => (s, .layer id)
  | none =>
    if s.flushed then (s, .real id)
    else ({ s with buckets := fun i => if i = id then some (some fun _ => none) else s.buckets i }, .layer id)

/-- `layerBucket.Get` (layer_db.go:42-52), or `Get` of the bucket below. -/
def get (s : DB) (h : Handle) (k : Key) : Option Val :=
  match h with
  | .real id => s.real id k
  | .layer id =>
    match s.buckets id with
    | some (some data) =>
      match data k with
      | some e => (s.heap e).value
      | none => s.real id k
    | _ => s.real id k

/-- `layerBucket.Has` (layer_db.go:54-64), or `Has` of the bucket below. -/
def has (s : DB) (h : Handle) (k : Key) : Bool :=
  match h with
  | .real id => (s.real id k).isSome
  | .layer id =>
    match s.buckets id with
    | some (some data) =>
      match data k with
      | some e => (s.heap e).value.isSome
      | none => (s.real id k).isSome
    | _ => (s.real id k).isSome

/-- `PushBack` of a new item, and the entry in the map (layer_db.go:80-81, 97-98). -/
def push (s : DB) (id : Nat) (data : Key → Option Nat) (k : Key) (v : Option Val) : DB :=
  { s with
    heap := fun e => if e = s.next then ⟨id, k, v⟩ else s.heap e
    next := s.next + 1
    list := s.list ++ [s.next]
    buckets := fun i => if i = id then some (some fun j => if j = k then some s.next else data j) else s.buckets i }

/-- `MoveToBack` of an element (layer_db.go:75, 94) and the new value of its item (76, 95). -/
def touch (s : DB) (e : Nat) (v : Option Val) : DB :=
  { s with
    heap := fun x => if x = e then { s.heap x with value := v } else s.heap x
    list := s.list.erase e ++ [e] }

/-- `layerBucket.Set` (layer_db.go:66-87), or `Set` of the bucket below. Returns if there is no error. -/
def set (s : DB) (h : Handle) (k : Key) (v : Val) (ok : Bool) : DB × Bool :=
  match h with
  | .real id => ({ s with real := (writeReal s.real id k (some v) ok).1 }, ok)
  | .layer id =>
    match s.buckets id with
    | some (some data) =>
      match data k with
      | some e => (touch s e (some v), true)
      | none => (push s id data k (some v), true)
    | _ => ({ s with real := (writeReal s.real id k (some v) ok).1 }, ok)

/-- `layerBucket.Delete` (layer_db.go:89-104), or `Delete` of the bucket below. -/
def delete (s : DB) (h : Handle) (k : Key) (ok : Bool) : DB × Bool :=
  match h with
  | .real id => ({ s with real := (writeReal s.real id k none ok).1 }, ok)
  | .layer id =>
    match s.buckets id with
    | some (some data) =>
      match data k with
      | some e => (touch s e none, true)
      | none => (push s id data k none, true)
    | _ => ({ s with real := (writeReal s.real id k none ok).1 }, ok)

/-- The loop over the list (layer_db.go:162-174). `fuel`: how many of the writes succeed before one fails; if it is not
reached, none does. -/
def writeAll (heap : Nat → Item) : List Nat → Nat → (Nat → Key → Option Val) → (Nat → Key → Option Val) × Bool
  | [], _, r => (r, true)
  | _ :: _, 0, r => (r, false)
  | e :: es, n + 1, r =>
    let i := heap e
    writeAll heap es n (writeReal r i.bk i.key i.value true).1

/-- `Flush(write)` (layer_db.go:139-186). -/
def flush (s : DB) (write : Bool) (n : Nat) : DB × Bool :=
  if s.flushed then (s, write)
  else if write then
    match writeAll s.heap s.list n s.real with
    | (r, false) => ({ s with real := r }, false)
    | (r, true) =>
      ({ s with real := r, buckets := fun i => (s.buckets i).map fun _ => none, list := [], flushed := true }, true)
  else
    ({ s with buckets := fun i => (s.buckets i).map fun _ => some fun _ => none, list := [], flushed := false }, true)

/-- `NewLayerDB` (layer_db.go:218-230) on a database with this content. -/
def DB.new (real : Nat → Key → Option Val) : DB where
  flushed := false
  real := real
  buckets := fun _ => none
  heap := fun _ => ⟨0, [], none⟩
  next := 0
  list := []

/-- What a user does, and what others do with the database below (`rawSet`, `rawDel`). -/
inductive Ev where
  | open (id : Nat)
  | get (h : Handle) (k : Key)
  | has (h : Handle) (k : Key)
  | set (h : Handle) (k : Key) (v : Val) (ok : Bool)
  | delete (h : Handle) (k : Key) (ok : Bool)
  | flush (write : Bool) (n : Nat)
  | raw (id : Nat) (k : Key) (v : Option Val)

/-- What the user sees. -/
inductive Out where
  | handle (h : Handle)
  | value (v : Option Val)
  | bool (b : Bool)
  | done
deriving Repr, DecidableEq

/-- One event. -/
def step (s : DB) : Ev → DB × Out
  | .open id => let p := getBucket s id; (p.1, .handle p.2)
  | .get h k => (s, .value (get s h k))
  | .has h k => (s, .bool (has s h k))
  | .set h k v ok => let p := set s h k v ok; (p.1, .bool p.2)
  | .delete h k ok => let p := delete s h k ok; (p.1, .bool p.2)
  | .flush w n => let p := flush s w n; (p.1, .bool p.2)
  | .raw id k v => ({ s with real := (writeReal s.real id k v true).1 }, .done)

end Verif.LayerDB
