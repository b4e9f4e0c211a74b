import Mathlib.Data.List.Basic
import Mathlib.Data.List.Nodup
import Mathlib.Data.List.Pairwise
import Mathlib.Order.Basic
import Mathlib.Data.Int.Order.Basic
import Mathlib.Tactic.Linarith

/-!
# The transaction locator manager (replay protection)

Models `/repo/common/txlocator/manager.go` for the group of normal transactions, with its background
flush worker, together with the use that the service and block managers make of it
(`/repo/service/transition.go:505-560`, `:664-707`, `:929-944`, `/repo/block/manager.go:675-700`,
`:991-1032`): a block is checked, committed and then becomes the last block on disk; after a restart the
last block on disk is committed again.

A step ends wherever the manager's lock is released or the database is written, so that a crash can come
between any two steps.  Not modelled: the group of patch transactions (they are flushed while the lock is
held), failures of single database operations other than by stopping the manager (`dead`), `int64`
overflow, the recycling of locator records (`freeLocator` is called on records that nothing refers to).
-/

namespace Verif.Locator

/-- `module/transaction.go` `TransactionLocator` of a normal transaction: the height and the index. -/
structure Loc where
  height : ℤ
  index : ℕ
  deriving DecidableEq, Repr

/-- What the manager uses of a block: its height, time stamp, the threshold in force, and the ids of its
normal transactions. -/
structure Blk (I : Type) where
  height : ℤ
  ts : ℤ
  th : ℤ
  txs : List I
  deriving DecidableEq, Repr

/-- `manager.go:33-40` `txList` with its chain of `locator`s (`:47-52`); an id cleared by `commitTracker`
is `none`. -/
structure TxList (I : Type) where
  height : ℤ
  ts : ℤ
  th : ℤ
  items : List (Option I × ℕ)
  deriving DecidableEq, Repr

section
variable {I : Type} [DecidableEq I]

/-- `manager.go:416-454` `tracker.Add`: the list built for the block. -/
def Blk.toList (b : Blk I) : TxList I :=
  ⟨b.height, b.ts, b.th, b.txs.zipIdx.map (fun x => (some x.1, x.2))⟩

/-- The ids of a list. -/
def TxList.ids (l : TxList I) : List I := l.items.filterMap Prod.fst

/-- `manager.go:103-130`: the manager; with it the database of locators, and what the block manager keeps.
`locs` is the map `locators`; `dead` is its being nil.  `cur` is the list the worker is writing, with the
number of locators already written. `chain` are the blocks up to the last block on disk, `pending` is the
block whose transactions are committed while the block is not the last one on disk yet, `accepted` are the
candidates for the next block that passed the check, `tried` are all blocks that were ever committed (a
record of the execution). -/
structure State (I : Type) where
  db : I → Option Loc
  locs : I → Option Loc
  dead : Bool
  queue : List (TxList I)
  cur : Option (TxList I × ℕ)
  cache : List (TxList I)
  maxTS : ℤ
  chain : List (Blk I)
  pending : Option (Blk I)
  accepted : List (Blk I)
  tried : List (Blk I)

namespace State

/-- `manager.go:132-138` `Has` with `:147-160`, `:174-181`.  The look-up in the database follows the one in
the map without the lock; in between the database can only gain ids. -/
def has (s : State I) (id : I) (ts : ℤ) : Bool :=
  if s.dead = true then false
  else if (s.locs id).isSome then true
  else if s.maxTS ≠ 0 ∧ s.maxTS ≤ ts then false
  else (s.db id).isSome

/-- `manager.go:140-145` `GetLocator` with `:162-172`, `:183-198`. -/
def getLocator (s : State I) (id : I) : Option Loc :=
  if s.dead = true then none
  else match s.locs id with
    | some l => some l
    | none => s.db id

/-- `manager.go:221-223`: clear the id of a locator if it is one of the new ones. -/
def blankItem (new : List I) : Option I × ℕ → Option I × ℕ
  | (some id, k) => if id ∈ new then (none, k) else (some id, k)
  | (none, k) => (none, k)

/-- `manager.go:220-225`: an id that comes again is taken from the list that had it. -/
def blank (new : List I) (l : TxList I) : TxList I := { l with items := l.items.map (blankItem new) }

/-- Put one locator of a list of height `h` into a map. -/
def putItem (h : ℤ) (m : I → Option Loc) : Option I × ℕ → I → Option Loc
  | (some id, k) => Function.update m id (some ⟨h, k⟩)
  | (none, _) => m

/-- The entries of a list put into a map. -/
def putAll (m : I → Option Loc) (l : TxList I) : I → Option Loc := l.items.foldl (putItem l.height) m

/-- `manager.go:213-238` `commitTracker` for normal transactions; the error of a stopped manager is
`none`. -/
def commitList (s : State I) (l : TxList I) : Option (State I) :=
  if s.dead = true then none
  else some { s with
    locs := putAll s.locs l
    queue := s.queue.map (blank l.ids) ++ [l]
    cur := s.cur.map (fun x => (blank l.ids x.1, x.2))
    cache := s.cache.map (blank l.ids) }

/-- `manager.go:254-257`: the list is out of the range of transactions from `min` on. -/
def expired (min : ℤ) (l : TxList I) : Bool := decide (l.ts + l.th ≤ min)

/-- `manager.go:259-264`: the locators of a list are dropped from the map. -/
def dropAll (m : I → Option Loc) (l : TxList I) : I → Option Loc :=
  fun id => if id ∈ l.ids then none else m id

/-- `manager.go:265-269`: the latest time stamp of a transaction only in the database. -/
def raise (m : ℤ) (l : TxList I) : ℤ := if l.ts ≠ 0 ∧ m < l.ts + l.th then l.ts + l.th else m

/-- `manager.go:246-277` `addListAndClearOldInLock`. -/
def addList (s : State I) (l : TxList I) : State I :=
  if s.dead = true then s
  else
    { s with
      locs := (s.cache.takeWhile (expired (l.ts - l.th))).foldl dropAll s.locs
      maxTS := (s.cache.takeWhile (expired (l.ts - l.th))).foldl raise s.maxTS
      cache := s.cache.dropWhile (expired (l.ts - l.th)) ++ [l] }

/-! ### The flush worker -/

/-- `manager.go:307-321` `fetchFlushJob`. -/
def fetch (s : State I) : Option (State I) :=
  match s.cur, s.queue with
  | none, l :: q => some { s with cur := some (l, 0), queue := q }
  | _, _ => none

/-- `manager.go:279-291` `flushList`: write the next locator.  The record of a cleared id goes to the empty
key, which is not modelled. -/
def write (s : State I) : Option (State I) :=
  match s.cur with
  | none => none
  | some (l, k) =>
    match l.items[k]? with
    | none => none
    | some (some id, j) =>
      some { s with db := Function.update s.db id (some ⟨l.height, j⟩), cur := some (l, k + 1) }
    | some (none, _) => some { s with cur := some (l, k + 1) }

/-- `manager.go:323-354` `handleFlushJobs`: the list is written. -/
def flushed (s : State I) : Option (State I) :=
  match s.cur with
  | none => none
  | some (l, k) => if k = l.items.length then some ({ s with cur := none }.addList l) else none

/-- `manager.go:330-350`: a write fails; the manager stops and the waiting jobs are taken off the queue
unwritten, so that the commits waiting for them return without error. -/
def fail (s : State I) : Option (State I) :=
  match s.cur with
  | none => none
  | some _ => some { s with dead := true, cur := none, queue := [] }

/-! ### Checks -/

/-- `service/tschecker.go:17-27` `CheckTxTimestamp` with the range of the block (`:109-117`). -/
def inRange (b : Blk I) (ts : ℤ) : Bool := decide (b.ts - b.th < ts) && decide (ts ≤ b.ts + b.th)

/-- `service/transition.go:664-707`: the checks of a block on top of the last one on disk: `tracker.Add`
without `force` (`manager.go:416-454`, the tracker has no parent, see `:460-462`) and the range of the time
stamps. `tsOf` gives the time stamp of a transaction, which is determined by its id. -/
def check (tsOf : I → ℤ) (s : State I) (b : Blk I) : Bool :=
  decide b.txs.Nodup && b.txs.all (fun id => !s.has id (tsOf id) && inRange b (tsOf id))

/-- `manager.go:393-406` `tracker.Has` and `:408-414`, for a tracker with the given blocks above the last one
on disk, the nearest first: the answer that a block on top of them gets. -/
def trackHas (s : State I) : List (Blk I) → I → ℤ → Bool
  | [], id, ts => s.has id ts
  | b :: path, id, ts =>
    if b.ts + b.th ≤ ts then false
    else if id ∈ b.txs then true
    else s.trackHas path id ts

/-- The list of the initial transition (`service/transition.go:281-282`). -/
def initList (th : ℤ) : TxList I := ⟨0, 0, th, []⟩

/-- A manager with nothing in it (`manager.go:371-383` `NewManager`). -/
def fresh (s : State I) : State I :=
  { s with
    locs := fun _ => none
    dead := false
    queue := []
    cur := none
    cache := []
    maxTS := 0
    pending := none
    accepted := [] }

/-- `block/manager.go:675-696`: start with the last block on disk; its locators are committed again.
`th` is the threshold of the initial transition. -/
def restart (th : ℤ) (s : State I) : Option (State I) :=
  ((fresh s).commitList (initList th)).bind (fun s1 =>
    match s.chain.getLast? with
    | none => some s1
    | some b => s1.commitList b.toList)

/-- The state of an empty database. -/
def empty : State I where
  db := fun _ => none
  locs := fun _ => none
  dead := false
  queue := []
  cur := none
  cache := []
  maxTS := 0
  chain := []
  pending := none
  accepted := []
  tried := []

/-- `service/transition.go:929-944`, `block/manager.go:1006`: commit the transactions of a block. -/
def commit (s : State I) (b : Blk I) : Option (State I) :=
  if s.pending.isSome then none
  else (s.commitList b.toList).map (fun s' => { s' with pending := some b, tried := b :: s'.tried })

/-- `block/manager.go:1011-1032`: the block becomes the last one on disk.  The commit returns only when the
worker has taken the list (`manager.go:228-230`). -/
def finish (s : State I) : Option (State I) :=
  match s.pending with
  | none => none
  | some b =>
    if s.queue = [] then some { s with chain := s.chain ++ [b], pending := none, accepted := [] } else none

end State

/-- What happens to the manager. -/
inductive Ev (I : Type)
  | check (b : Blk I)
  | commit (b : Blk I)
  | finish
  | fetch
  | write
  | flushed
  /-- `Term` (`manager.go:359-369`) -/
  | stop
  /-- the worker fails to write (`manager.go:330-350`) -/
  | fail
  | restart (th : ℤ)

/-- A block that may follow a chain of blocks: its transactions are in its range, and none occurs twice or
in the chain. This is what a validator should check. -/
structure Fits (tsOf : I → ℤ) (chain : List (Blk I)) (b : Blk I) : Prop where
  nodup : b.txs.Nodup
  range : ∀ id ∈ b.txs, b.ts - b.th < tsOf id ∧ tsOf id ≤ b.ts + b.th
  fresh : ∀ id ∈ b.txs, ∀ a ∈ chain, id ∉ a.txs

/-- One event.  A block that is checked here or committed is acceptable to `rule` as the next one (its time stamp,
see `VerifyTimestamp`, and the threshold in force). A block is committed if it passed the check here, or if
it `Fits`: it is imported by force when others have decided it.  With `lossy` false, the worker fails only
when no commit waits for it. -/
def Step (tsOf : I → ℤ) (rule : List (Blk I) → Blk I → Prop) (lossy : Bool) (s : State I) (e : Ev I)
    (s' : State I) : Prop :=
  match e with
  | .check b => s.pending = none ∧ rule s.chain b ∧ s.check tsOf b = true ∧
      s' = { s with accepted := b :: s.accepted }
  | .commit b => rule s.chain b ∧ (b ∈ s.accepted ∨ Fits tsOf s.chain b) ∧ s.commit b = some s'
  | .finish => s.finish = some s'
  | .fetch => s.fetch = some s'
  | .write => s.write = some s'
  | .flushed => s.flushed = some s'
  | .stop => s' = { s with dead := true }
  | .fail => (lossy = true ∨ s.queue = []) ∧ s.fail = some s'
  | .restart th => s.restart th = some s'

/-- The states that can be reached. -/
inductive Reach (tsOf : I → ℤ) (rule : List (Blk I) → Blk I → Prop) (lossy : Bool) : State I → Prop
  | init (th : ℤ) (s) : State.empty.restart th = some s → Reach tsOf rule lossy s
  | step {s s' : State I} (e : Ev I) :
      Reach tsOf rule lossy s → Step tsOf rule lossy s e s' → Reach tsOf rule lossy s'

/-- Block time stamps and both ends of the range do not go back; so it is when time stamps increase and the
threshold does not change. -/
def Regular (chain : List (Blk I)) (b : Blk I) : Prop :=
  0 ≤ b.ts ∧ ∀ a ∈ chain, a.ts ≤ b.ts ∧ a.ts - a.th ≤ b.ts - b.th ∧ a.ts + a.th ≤ b.ts + b.th

end
end Verif.Locator
