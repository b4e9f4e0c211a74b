import Verif.Base.Bytes

/-!
# The cache of dropped transactions and the check before a transaction enters the pool

Model of `service/txidcache.go`, `service/txidmanager.go` and the timestamp check of
`service/tschecker.go`.

The cache is a heap structure: a doubly linked list of slots (`container/list`) and a Go map from
slot numbers to list elements, both pointing at the same `txIDSlot` objects.  The model keeps the
pointers: a slot lives in `heap` at a reference, `order` is the linked list (of references, front
first) and `smap` the Go map.  The element and the slot it carries are one reference, as the code
never changes `e.Value`.

Simplifications: `int64` times and counters are unbounded integers; logging is dropped.  The lock
`mg.lock` makes the methods of the manager atomic, so they are modelled as steps.
-/

namespace Verif.Dropped

open Verif

/-- `txIDSlot`, `service/txidcache.go:19-22`; the Go set `txIds` is a list without duplicates. -/
structure Slot where
  id : Int
  ids : List Bytes
deriving Repr, DecidableEq

/-- `txIDCache`, `service/txidcache.go:49-57`.  `next` is the allocator of references. -/
structure Cache where
  dur : Int
  size : Int
  smap : Int → Option Nat
  order : List Nat
  heap : Nat → Slot
  next : Nat
  cnt : Int
  minTs : Int

/-- `NewTxIDCache`, `service/txidcache.go:190-202`. -/
def newCache (dur size : Int) : Cache :=
  { dur := dur, size := size, smap := fun _ => Option.none, order := [], heap := fun _ => ⟨0, []⟩,
    next := 0, cnt := 0, minTs := 0 }

/-- `(*txIDCache).getSlotId`, `service/txidcache.go:59-61`: Go's `/` truncates towards zero. -/
def getSlotId (c : Cache) (ts : Int) : Int := ts.tdiv c.dur

/-- What the loop of `newSlot` finds. -/
inductive Scan
  | found (r : Nat)
  | front
  | after (before passed : List Nat)
deriving Repr, DecidableEq

/-- The loop of `(*txIDCache).newSlot` from the back of the list, `service/txidcache.go:76-85`;
`rest` is the part not visited yet, last element first, `passed` the part already visited. -/
def scanBack (heap : Nat → Slot) (sid : Int) : List Nat → List Nat → Scan
  | [], _ => .front
  | r :: rest, passed =>
    if (heap r).id = sid then .found r
    else if (heap r).id < sid then .after (rest.reverse ++ [r]) passed
    else scanBack heap sid rest (r :: passed)

/-- `(*txIDCache).newSlot`, `service/txidcache.go:73-96`. -/
def newSlot (c : Cache) (sid : Int) : Cache × Nat :=
  match scanBack c.heap sid c.order.reverse [] with
  | .found r => (c, r)
  | .front =>
    ({ c with
        heap := Function.update c.heap c.next ⟨sid, []⟩
        order := c.next :: c.order
        smap := Function.update c.smap sid (some c.next)
        next := c.next + 1 }, c.next)
  | .after before passed =>
    ({ c with
        heap := Function.update c.heap c.next ⟨sid, []⟩
        order := before ++ c.next :: passed
        smap := Function.update c.smap sid (some c.next)
        next := c.next + 1 }, c.next)

/-- `(*txIDCache).getSlot` with `createIfMissing = true`, `service/txidcache.go:63-71`. -/
def getOrNewSlot (c : Cache) (sid : Int) : Cache × Nat :=
  match c.smap sid with
  | some r => (c, r)
  | Option.none => newSlot c sid

/-- `(*txIDCache).verifyTx`, `service/txidcache.go:98-100`; `nil` is `none`. -/
def verifyTx (c : Cache) (id : Option Bytes) (ts : Int) : Bool :=
  id.isSome && decide (c.minTs ≤ ts)

/-- `(*txIDCache).Contains`, `service/txidcache.go:102-117`. -/
def contains (c : Cache) (id : Option Bytes) (ts : Int) : Bool :=
  match id with
  | Option.none => false
  | some x =>
    if verifyTx c (some x) ts = false then false
    else
      match c.smap (getSlotId c ts) with
      | some r => (c.heap r).ids.contains x
      | Option.none => false

/-- `(*txIDCache).flushSlotIfFull`, `service/txidcache.go:143-152`. -/
def flushSlotIfFull (c : Cache) (r : Nat) : Cache :=
  if ((c.heap r).ids.length : Int) < c.size then c
  else
    { c with
      heap := Function.update c.heap r { c.heap r with ids := [] }
      cnt := c.cnt - (c.heap r).ids.length }

/-- `(*txIDSlot).put` and `c.txCount++`, `service/txidcache.go:29-31, 136-137`. -/
def putId (c : Cache) (r : Nat) (x : Bytes) : Cache :=
  { c with
    heap := Function.update c.heap r { c.heap r with ids := x :: (c.heap r).ids }
    cnt := c.cnt + 1 }

/-- `(*txIDCache).Add`, `service/txidcache.go:119-141`. -/
def add (c : Cache) (id : Option Bytes) (ts : Int) : Cache :=
  match id with
  | Option.none => c
  | some x =>
    if verifyTx c (some x) ts = false then c
    else
      let (c1, r) := getOrNewSlot c (getSlotId c ts)
      if (c1.heap r).ids.contains x then c1
      else putId (flushSlotIfFull c1 r) r x

/-- `(*txIDCache).Len`, `service/txidcache.go:154-156`. -/
def len (c : Cache) : Int := c.cnt

/-- The loop of `(*txIDCache).RemoveOldTXsByTS`, `service/txidcache.go:167-183`, over the list from
its front. -/
def removeLoop (c : Cache) (sid : Int) : List Nat → Cache
  | [] => c
  | r :: rest =>
    if sid ≤ (c.heap r).id then c
    else
      removeLoop
        { c with
          order := rest
          smap := Function.update c.smap (c.heap r).id Option.none
          cnt := c.cnt - (c.heap r).ids.length } sid rest

/-- `(*txIDCache).RemoveOldTXsByTS`, `service/txidcache.go:158-188`. -/
def removeOld (c : Cache) (ts : Int) : Cache :=
  if ts ≤ c.minTs then c
  else { removeLoop c (getSlotId c ts) c.order with minTs := ts }

/-- The calls that change a cache. -/
inductive Op
  | add (id : Option Bytes) (ts : Int)
  | expire (ts : Int)
deriving Repr, DecidableEq

/-- One call. -/
def step (c : Cache) : Op → Cache
  | .add id ts => add c id ts
  | .expire ts => removeOld c ts

/-- A history of calls on a new cache. -/
def run (dur size : Int) (ops : List Op) : Cache := ops.foldl step (newCache dur size)

/-! ## The manager -/

/-- `module.TransactionGroup`. -/
inductive Group | patch | normal
deriving Repr, DecidableEq

/-- `txIDManager`, `service/txidmanager.go:44-50`; `th` is the threshold in `tsc`. -/
structure Mgr where
  cache : Cache
  th : Int
  commitTS : Group → Int

/-- `ConfigPatchTimestampThreshold`, `service/tschecker.go:15`. -/
def patchThreshold : Int := 60000000

/-- `TransactionThreshold`, `service/tschecker.go:47-53`. -/
def txThreshold (m : Mgr) : Group → Int
  | .normal => m.th
  | .patch => patchThreshold

/-- Results of `CheckTXForAdd`. -/
inductive Verdict | ok | expired | future | dropped | committed | failed
deriving Repr, DecidableEq

/-- `CheckTxTimestamp`, `service/tschecker.go:18-28`. -/
def checkTs (mn mx ts : Int) : Verdict :=
  if ts ≤ mn then .expired else if mx < ts then .future else .ok

/-- Answer of the locator manager `lm.Has` (its correctness is C57): an error, or whether the
transaction is recorded. -/
inductive Loc | err | has (b : Bool)
deriving Repr, DecidableEq

/-- The locator question at the end of `CheckTXForAdd`, `service/txidmanager.go:78-83`. -/
def checkLoc : Loc → Verdict
  | .err => .failed
  | .has true => .committed
  | .has false => .ok

/-- `(*txIDManager).CheckTXForAdd`, `service/txidmanager.go:63-84`; `now` is the clock in
microseconds and `loc` the answer the locator manager would give. -/
def checkTXForAdd (m : Mgr) (now : Int) (g : Group) (id : Option Bytes) (ts : Int) (loc : Loc) :
    Verdict :=
  match checkTs (m.commitTS g - txThreshold m g) (now + m.th) ts with
  | .ok =>
    if g = .normal ∧ contains m.cache id ts = true then .dropped else checkLoc loc
  | v => v

/-- `(*txIDManager).AddDroppedTX`, `service/txidmanager.go:95-100`. -/
def addDropped (m : Mgr) (id : Option Bytes) (ts : Int) : Mgr :=
  { m with cache := add m.cache id ts }

/-- `(*txIDManager).onCommit`, `service/txidmanager.go:102-110`. -/
def onCommit (m : Mgr) (g : Group) (ts th : Int) : Mgr :=
  { m with
    cache := if g = .normal then removeOld m.cache (ts - th) else m.cache
    commitTS := Function.update m.commitTS g ts }

/-- What happens to a manager: a transaction is dropped by the pool, the logger of a block is
committed with the timestamp and threshold of its tracker (`service/txidmanager.go:144-153`), the
threshold is changed (`SetThreshold`, `service/tschecker.go:38-41`). -/
inductive MOp
  | drop (id : Option Bytes) (ts : Int)
  | commit (g : Group) (ts th : Int)
  | setTh (th : Int)
deriving Repr, DecidableEq

def mstep (m : Mgr) : MOp → Mgr
  | .drop id ts => addDropped m id ts
  | .commit g ts th => onCommit m g ts th
  | .setTh th => { m with th := th }

/-- `NewTXIDManager` and `NewTimestampChecker` (default threshold), `service/txidmanager.go:112-121`,
`service/tschecker.go:63-67`, followed by a history of calls. -/
def mrun (dur size : Int) (ops : List MOp) : Mgr :=
  ops.foldl mstep { cache := newCache dur size, th := 300000000, commitTS := fun _ => 0 }

/-! ## `Commit` of a logger is effective once -/

/-- The life of a `txIDLogger`: `commit` flag and how often the manager was told. -/
structure Logger where
  flag : Bool
  told : Nat
deriving Repr, DecidableEq

/-- `(*txIDLogger).Commit`, `service/txidmanager.go:144-153`; `ok` tells whether the tracker's commit
succeeds.  The result tells whether the call returned no error. -/
def logCommit (l : Logger) (ok : Bool) : Logger × Bool :=
  if l.flag then (l, true)
  else if ok then ({ flag := true, told := l.told + 1 }, true)
  else ({ l with flag := false }, false)

end Verif.Dropped
