import Mathlib.Data.List.Basic
import Mathlib.Data.List.Nodup
import Mathlib.Tactic.Common

/-!
# Synchronization of states: the Merkle builder (C69)

`common/merkle/builder.go`, with the requesters of `ompt`, `service/state`, `service/txresult` and `btp` as a parameter, and `common/db/layer_db.go` below it.
Not modelled: errors of the database; refs with an empty key, which are not requested at all.
-/

namespace Verif.Sync

/-- What a requester asks for: the bucket, the key, who is told of the data, and whether it first looks in the database: `mpt.resolve` (`ompt/mpt.go:556-569`),
`contract.Resolve` (`state/contract.go:191-205`), `objectGraph.Resolve` (`objectgraph.go:136-149`), `apiInfoStore.Resolve` (`apiinfo.go:95-111`) and
`NewValidatorSnapshotWithBuilder` (`validatorlist.go:406-434`) do; those of `btp/digestfrombytes.go:238, 260, 278` do not. -/
structure Ref (B K Q : Type) where
  bucket : B
  key : K
  req : Q
  check : Bool

/-- The parameters: `BucketID.Hasher()` (`common/db/bucket.go:33-47`) with the name and the function; what `DataRequester.OnData` of a requester does with data: the things it
requests, in order, and whether it succeeds; and whether `mpt.resolve` can use what it has found in the database (`realize`: it can be parsed; for others: always). -/
structure Env (B N K D Q : Type) where
  hasher : B → Option N
  hash : N → D → K
  onData : Q → D → List (Ref B K Q) × Bool
  usable : Q → D → Bool

/-- `request` (`builder.go:39-43`): the two slices are zipped; `name` is the hasher under which it is in `hasherMap`. -/
structure Req (B N K Q : Type) where
  name : N
  key : K
  entries : List (B × Q)

/-- `merkleBuilder` (`builder.go:47-53`).  The maps `hasherMap` hold exactly the elements of the list, so that a look-up is a search of the list.  `writes` records what was
written to the store, in order. -/
structure State (B N K D Q : Type) where
  store : B → K → Option D
  reqs : List (Req B N K Q)
  mark : Option (N × K)
  resolved : ℕ
  writes : List (B × K × D)

variable {B N K D Q : Type} [DecidableEq B] [DecidableEq N] [DecidableEq K]

/-- `Bucket.Set`. -/
def setStore (σ : B → K → Option D) (b : B) (k : K) (d : D) : B → K → Option D :=
  fun b' k' => if b' = b ∧ k' = k then some d else σ b' k'

/-- `list.InsertAfter`. -/
def insertAfter (n : N) (k : K) (x : Req B N K Q) : List (Req B N K Q) → List (Req B N K Q)
  | [] => []
  | r :: rs => if r.name = n ∧ r.key = k then r :: x :: rs else r :: insertAfter n k x rs

/-- The look-up in `hasherMap`. -/
def lookup (n : N) (k : K) (l : List (Req B N K Q)) : Option (Req B N K Q) := l.find? (fun r => decide (r.name = n ∧ r.key = k))

/-- Add a requester to the request of this hasher and key (`builder.go:143-146`). -/
def addEntry (n : N) (k : K) (e : B × Q) (l : List (Req B N K Q)) : List (Req B N K Q) :=
  l.map (fun r => if r.name = n ∧ r.key = k then { r with entries := r.entries ++ [e] } else r)

/-- `RequestData` (`builder.go:126-160`). -/
def requestData (env : Env B N K D Q) (s : State B N K D Q) (b : B) (k : K) (q : Q) : State B N K D Q :=
  match env.hasher b with
  | none => s
  | some n =>
    match lookup n k s.reqs with
    | some _ => { s with reqs := addEntry n k (b, q) s.reqs }
    | none =>
      match s.mark with
      | some m => { s with reqs := insertAfter m.1 m.2 ⟨n, k, [(b, q)]⟩ s.reqs, mark := some (n, k) }
      | none => { s with reqs := s.reqs ++ [⟨n, k, [(b, q)]⟩] }

/-- Whether a requester finds what it wants in the database. -/
def finds (env : Env B N K D Q) (σ : B → K → Option D) (r : Ref B K Q) : Bool :=
  match σ r.bucket r.key with
  | some d => r.check && env.usable r.req d
  | none => false

/-- One request of a requester: see `Ref`. -/
def resolve (env : Env B N K D Q) (s : State B N K D Q) (r : Ref B K Q) : State B N K D Q :=
  if finds env s.store r then s else requestData env s r.bucket r.key r.req

/-- The loop over the requesters in `OnData` (`builder.go:103-115`). -/
def tell (env : Env B N K D Q) (k : K) (d : D) (s : State B N K D Q) : List (B × Q) → State B N K D Q × Bool
  | [] => (s, true)
  | (b, q) :: es =>
    let s1 := { s with store := setStore s.store b k d, writes := s.writes ++ [(b, k, d)] }
    let s2 := (env.onData q d).1.foldl (resolve env) s1
    if (env.onData q d).2 then tell env k d s2 es else (s2, false)

/-- What `OnData` returns. -/
inductive Res
  | ok
  | noHasher
  | noRequester
  | failed
deriving DecidableEq

/-- `OnData` (`builder.go:87-124`). -/
def onData (env : Env B N K D Q) (s : State B N K D Q) (b : B) (d : D) : State B N K D Q × Res :=
  match env.hasher b with
  | none => (s, .noHasher)
  | some n =>
    match lookup n (env.hash n d) s.reqs with
    | none => (s, .noRequester)
    | some r =>
      let t := tell env (env.hash n d) d { s with mark := some (n, env.hash n d) } r.entries
      if t.2 then
        ({ t.1 with mark := none, resolved := t.1.resolved + 1, reqs := t.1.reqs.filter (fun r => decide (¬ (r.name = n ∧ r.key = env.hash n d))) }, .ok)
      else ({ t.1 with mark := none }, .failed)

/-- `NewBuilder` over a database (`builder.go:179-194`). -/
def start (σ : B → K → Option D) : State B N K D Q := ⟨σ, [], none, 0, []⟩

/-- `UnresolvedCount` (`builder.go:162-164`). -/
def unresolved (s : State B N K D Q) : ℕ := s.reqs.length

/-- The loop of `HandleData` (`service/sync2/syncprocessor.go:377-390`): errors are only counted. -/
def handleData (env : Env B N K D Q) (s : State B N K D Q) (l : List (B × D)) : State B N K D Q :=
  l.foldl (fun s x => (onData env s x.1 x.2).1) s

/-- What happens to a builder: somebody requests a root (`getStateBuilder`, `getBTPBuilder`, `service/sync2/syncer.go:59-90`; `AddRequest`, `syncprocessor.go:199-228`), or a
peer sends data, whatever it is. -/
inductive Ev (B K D Q : Type)
  | root (r : Ref B K Q)
  | data (l : List (B × D))

/-- One event. -/
def step (env : Env B N K D Q) (s : State B N K D Q) : Ev B K D Q → State B N K D Q
  | .root r => resolve env s r
  | .data l => handleData env s l

/-- All events. -/
def run (env : Env B N K D Q) (σ : B → K → Option D) (evs : List (Ev B K D Q)) : State B N K D Q := evs.foldl (step env) (start σ)

/-! ## The layer (`common/db/layer_db.go`) -/

/-- `layerDB`: `items` are the elements of `ldb.list` (bucket, key, value or `nil` for deleted), which the maps of the buckets point to; `flushed`. -/
structure Layer (B K D : Type) where
  real : B → K → Option D
  items : List (B × K × Option D)
  flushed : Bool

/-- Set or delete in a map. -/
def putReal (σ : B → K → Option D) (i : B × K × Option D) : B → K → Option D :=
  fun b k => if b = i.1 ∧ k = i.2.1 then i.2.2 else σ b k

/-- `layerBucket.Get` (`layer_db.go:40-50`). -/
def Layer.get (l : Layer B K D) (b : B) (k : K) : Option D :=
  match l.items.find? (fun i => decide (i.1 = b ∧ i.2.1 = k)) with
  | some i => i.2.2
  | none => l.real b k

/-- `Set` and `Delete` (`:64-106`): an item that is there is moved to the back. -/
def Layer.put (l : Layer B K D) (b : B) (k : K) (v : Option D) : Layer B K D :=
  if l.flushed then { l with real := putReal l.real (b, k, v) }
  else { l with items := l.items.filter (fun i => decide (¬ (i.1 = b ∧ i.2.1 = k))) ++ [(b, k, v)] }

/-- `Flush` (`:141-188`); if it is interrupted after `n` writes the database is `real` of `flushPart`. -/
def Layer.flush (l : Layer B K D) (write : Bool) : Layer B K D × Bool :=
  if l.flushed then (l, write)
  else if write then (⟨l.items.foldl putReal l.real, [], true⟩, true)
  else (⟨l.real, [], false⟩, true)

/-- The database after the first `n` writes of `Flush(true)`. -/
def Layer.flushPart (l : Layer B K D) (n : ℕ) : B → K → Option D := (l.items.take n).foldl putReal l.real

/-- The layer to which a builder has written. -/
def layerOf (σ : B → K → Option D) (w : List (B × K × D)) : Layer B K D := w.foldl (fun l x => l.put x.1 x.2.1 (some x.2.2)) ⟨σ, [], false⟩

/-! ## Specification -/

/-- What is below a ref, by the data in the store. -/
inductive Below (env : Env B N K D Q) (σ : B → K → Option D) (r : Ref B K Q) : Ref B K Q → Prop
  | refl : Below env σ r r
  | child {c x : Ref B K Q} {d : D} : Below env σ r c → σ c.bucket c.key = some d → x ∈ (env.onData c.req d).1 → Below env σ r x

/-- Everything below `r` is in the store, has its hash as key, and is well formed. -/
def Complete (env : Env B N K D Q) (σ : B → K → Option D) (r : Ref B K Q) : Prop :=
  ∀ c, Below env σ r c → ∃ n d, env.hasher c.bucket = some n ∧ σ c.bucket c.key = some d ∧ env.hash n d = c.key ∧ (env.onData c.req d).2 = true

/-- What is known of the things `U` that may be requested (bucket, key, requester): their buckets have hashers; what they request is in `U` too; requesters of the same key
in the same bucket do the same (the key tells what kind of data it is); and no data contains its own hash. -/
structure World (env : Env B N K D Q) (U : B → K → Q → Prop) : Prop where
  hasher : ∀ {b k q}, U b k q → ∃ n, env.hasher b = some n
  closed : ∀ {b k q n d}, U b k q → env.hasher b = some n → env.hash n d = k → ∀ c ∈ (env.onData q d).1, U c.bucket c.key c.req
  agree : ∀ {b k q q' n d}, U b k q → U b k q' → env.hasher b = some n → env.hash n d = k → env.onData q d = env.onData q' d
  nofix : ∀ {b k q n d}, U b k q → env.hasher b = some n → env.hash n d = k → ∀ c ∈ (env.onData q d).1, ¬ (env.hasher c.bucket = some n ∧ c.key = k)

/-- A database in which nothing is missing below what it has. -/
def Whole (env : Env B N K D Q) (U : B → K → Q → Prop) (σ : B → K → Option D) : Prop :=
  ∀ b k q n d, U b k q → env.hasher b = some n → σ b k = some d →
    env.hash n d = k ∧ (env.onData q d).2 = true ∧ ∀ c ∈ (env.onData q d).1, (σ c.bucket c.key).isSome = true

/-- The roots of a history. -/
def roots : List (Ev B K D Q) → List (Ref B K Q)
  | [] => []
  | .root r :: evs => r :: roots evs
  | .data _ :: evs => roots evs

end Verif.Sync
