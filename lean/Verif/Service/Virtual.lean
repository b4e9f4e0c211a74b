import Mathlib.Logic.Function.Basic
import Mathlib.Data.Nat.Notation

/-!
# Concurrent execution of the transactions of a block

`service/transition_pe.go` runs the transactions of a block in goroutines, each on a virtual world state
(`service/state/worldvirtualstate.go`) made in the order of the block from the locks the transaction asks for.

Simplifications.  An account is one value, and what only a world lock gives (validators, extension, BTP) counts as accounts that nobody locks
singly.  A transaction is a program that reads and writes accounts; an execution failure that leads to a retry may come at any time.  The methods of a
virtual state are atomic (each holds the mutex), a method that waits is not enabled.  Errors that are no reason for a retry, cancellation and the limit of
running goroutines are not modelled; they only take executions away, except for what `C62` says about errors.  The virtual state that
`callhandler.go:101-127` makes and gives up for one with a world lock is not modelled: no other state depends on it.
-/

namespace Verif.Virtual

/-- `AccountReadLock`, `AccountWriteLock`, `AccountWriteUnlock` (`worldvirtualstate.go:16-21`). -/
inductive Lk
  | read
  | write
  | unlock
  deriving DecidableEq

/-- A transaction that runs on accounts `A` with values `V` to a receipt `R`. -/
inductive Prog (A V R : Type) : Type
  | done (r : R)
  | read (a : A) (k : V → Prog A V R)
  | write (a : A) (v : V) (k : Prog A V R)

/-- `LockRequest` (`worldvirtualstate.go:23-26`) with a read or a write lock; `acct` is `none` for the world. -/
structure Req (A : Type) where
  acct : Option A
  write : Bool
  deriving DecidableEq

/-- An account state: the one of the real world, or a read-only one made from a snapshot. -/
inductive Ref (V : Type)
  | live
  | ro (v : V)

/-- `lockedAccountState` (`worldvirtualstate.go:37-42`); `depend` is the index of the transaction. -/
structure Entry (V : Type) where
  lock : Lk
  depend : Option ℕ
  st : Option (Ref V)
  base : Option V

/-- `worldVirtualSnapshot` (`worldvirtualstate.go:509-514`). -/
structure Snap (A V : Type) where
  base : Option (A → V)
  accts : A → Option V

/-- `worldVirtualState` (`worldvirtualstate.go:70-82`) of a transaction, `waiting` is `waiter != nil`, `world` is `worldLock` with `none` for
`AccountNoLock`; the snapshot the goroutine takes when it starts (`transition_pe.go:81-82`) and the state of the transaction. -/
structure Tx (A V R : Type) where
  base : Option (A → V)
  committed : Option (A → V)
  waiting : Bool
  entries : A → Option (Entry V)
  world : Option Lk
  snap : Option (Snap A V)
  init : Prog A V R
  prog : Prog A V R

/-- `worldVirtualContext` (`worldvirtualstate.go:44-49`) and the virtual states of the first `n` transactions; the parent of number `i + 1` is
number `i`, number 0 has none. -/
structure State (A V R : Type) where
  real : A → V
  acctLocker : A → Option ℕ
  worldLocker : Option ℕ
  ro : A → Option V
  n : ℕ
  tx : ℕ → Tx A V R

section
variable {A V R : Type} [DecidableEq A]

/-- `getLocker` for an account (`worldvirtualstate.go:51-59`). -/
def State.getLocker (s : State A V R) (a : A) : Option ℕ :=
  match s.acctLocker a with
  | some j => some j
  | none => s.worldLocker

/-- `worldLock` of the requests (`worldvirtualstate.go:366-378`). -/
def worldOf (reqs : List (Req A)) : Option Lk :=
  if ⟨none, true⟩ ∈ reqs then some .write
  else if ⟨none, false⟩ ∈ reqs then some .read
  else none

/-- The lock of an account without a world write lock (`worldvirtualstate.go:386-405`): the strongest one asked for; a read lock is not needed with
a world read lock. -/
def lockOf (reqs : List (Req A)) (a : A) : Option Lk :=
  if ⟨some a, true⟩ ∈ reqs then some .write
  else if ⟨some a, false⟩ ∈ reqs ∧ worldOf reqs ≠ some .read then some .read
  else none

/-- The value of a read-only state without dependency (`getROAccountState`, `worldvirtualstate.go:352-363`): the cached one, or that of the
real world. -/
def State.roOf (s : State A V R) (a : A) : V :=
  match s.ro a with
  | some v => v
  | none => s.real a

/-- An entry when it is made (`worldvirtualstate.go:407-420`); the first virtual state has no parent and so no dependencies. -/
def State.newEntry (s : State A V R) (lock : Lk) (a : A) : Entry V :=
  match (if s.n = 0 then none else s.getLocker a) with
  | some j => ⟨lock, some j, none, none⟩
  | none => ⟨lock, none, some (if lock = .write then .live else .ro (s.roOf a)), none⟩

/-- `NewWorldVirtualState` for the first transaction (`worldvirtualstate.go:490-507`) and `GetFuture` for the others (`:341-350`), with
`applyLockRequests` (`:365-427`); called by `Prepare` of the transaction (`transition_pe.go:73-78`).  The base of the first is the real world, of the
others what the parent has committed. -/
def State.prepare (s : State A V R) (reqs : List (Req A)) (p : Prog A V R) : State A V R :=
  let base := if s.n = 0 then some s.real else (s.tx (s.n - 1)).committed
  if worldOf reqs = some .write then
    { s with
      acctLocker := fun _ => none
      worldLocker := some s.n
      n := s.n + 1
      tx := Function.update s.tx s.n ⟨base, none, true, fun _ => none, some .write, none, p, p⟩ }
  else
    { s with
      acctLocker := fun a => if lockOf reqs a = some .write then some s.n else s.acctLocker a
      ro := fun a => if lockOf reqs a = some .read ∧ (s.n = 0 ∨ s.getLocker a = none) then some (s.roOf a) else s.ro a
      n := s.n + 1
      tx := Function.update s.tx s.n
        ⟨base, none, true, fun a => (lockOf reqs a).map (fun l => s.newEntry l a), worldOf reqs, none, p, p⟩ }

/-- The value of an account state. -/
def State.value (s : State A V R) (a : A) : Ref V → V
  | .live => s.real a
  | .ro v => v

/-- The states `Realize` waits for (`worldvirtualstate.go:299-313`), from number `i` back: up to one that has committed the
world, or with one that has a base. -/
def State.realizeList (s : State A V R) : ℕ → List ℕ
  | 0 => if (s.tx 0).committed.isSome then [] else [0]
  | i + 1 =>
    if (s.tx (i + 1)).committed.isSome then []
    else if (s.tx (i + 1)).base.isSome then [i + 1]
    else (i + 1) :: s.realizeList i

/-- `Realize` (`worldvirtualstate.go:298-323`); `none` if it has to wait. -/
def State.realize (s : State A V R) (i : ℕ) : Option (State A V R) :=
  if (s.realizeList i).all (fun j => !(s.tx j).waiting) then
    if (s.tx i).committed.isSome then some s
    else some { s with tx := Function.update s.tx i { s.tx i with committed := some s.real } }
  else none

/-- `realizeBaseInLock` (`worldvirtualstate.go:325-331`). -/
def State.realizeBase (s : State A V R) (i : ℕ) : Option (State A V R) :=
  if (s.tx i).base.isSome then some s
  else (s.realize (i - 1)).map (fun s =>
    { s with tx := Function.update s.tx i { s.tx i with base := (s.tx (i - 1)).committed } })

/-- `GetAccountROState` of a state that is committed (`worldvirtualstate.go:193-196`, `:162-191`); `none` if there is no value. -/
def State.peek (s : State A V R) (j : ℕ) (a : A) : Option V :=
  match (s.tx j).entries a with
  | some e =>
    match e.depend with
    | some _ => none
    | none => e.st.map (s.value a)
  | none =>
    match (s.tx j).world with
    | none => none
    | some _ => (s.tx j).committed.map (fun b => b a)

/-- The end of `getAccountStateInLock` for an account that is not locked singly (`worldvirtualstate.go:180-190`). -/
def State.worldRef (s : State A V R) (i : ℕ) (a : A) : Option (Ref V) :=
  match (s.tx i).committed with
  | some b => some (.ro (b a))
  | none => if (s.tx i).world = some .write then some .live else (s.tx i).base.map (fun b => .ro (b a))

/-- `GetAccountState` (`worldvirtualstate.go:155-191`): `none` if it has to wait, otherwise the state and the account state, if there is
one. -/
def State.access (s : State A V R) (i : ℕ) (a : A) : Option (State A V R × Option (Ref V)) :=
  match (s.tx i).entries a with
  | some e =>
    match e.depend with
    | none => some (s, e.st)
    | some j =>
      if (s.tx j).waiting then none
      else
        match (if e.lock = .write then some .live else (s.peek j a).map .ro) with
        | none => none
        | some r => some
          ({ s with tx := Function.update s.tx i { s.tx i with
              entries := Function.update (s.tx i).entries a (some ⟨e.lock, none, some r, some (s.value a r)⟩) } },
            some r)
  | none =>
    match (s.tx i).world with
    | none => some (s, none)
    | some _ =>
      match s.realizeBase i with
      | none => none
      | some s => some (s, s.worldRef i a)

/-- What `GetSnapshot` keeps of an account: those with a write lock that have a state (`worldvirtualstate.go:226-232`). -/
def State.snapEntry (s : State A V R) (a : A) : Option (Entry V) → Option V
  | none => none
  | some e => if e.lock = .write then e.st.map (s.value a) else none

/-- The start of the goroutine: `GetSnapshot` (`transition_pe.go:81-82`, `worldvirtualstate.go:198-236`). -/
def State.start (s : State A V R) (i : ℕ) : Option (State A V R) :=
  if i < s.n ∧ (s.tx i).snap.isNone = true then
    if (s.tx i).world = some .write then
      match s.realizeBase i with
      | none => none
      | some s => some { s with tx := Function.update s.tx i { s.tx i with snap := some ⟨some s.real, fun _ => none⟩ } }
    else
      match (if (s.tx i).world = some .read then s.realizeBase i else some s) with
      | none => none
      | some s => some { s with tx := Function.update s.tx i { s.tx i with
          snap := some ⟨(s.tx i).base, fun a => s.snapEntry a ((s.tx i).entries a)⟩ } }
  else none

/-- The main loop asks for an account state of a transaction it has prepared (`callhandler.go:101-130`, `Ensure` at
`worldvirtualstate.go:473-488`). -/
def State.touch (s : State A V R) (i : ℕ) (a : A) : Option (State A V R) :=
  if i < s.n ∧ (s.tx i).snap.isNone = true then (s.access i a).map (fun x => x.1) else none

/-- One access of the transaction `i` that has started: a read, or a write on a state that is not read-only. -/
def State.step (s : State A V R) (i : ℕ) : Option (State A V R) :=
  if i < s.n ∧ (s.tx i).snap.isSome = true ∧ (s.tx i).waiting = true then
    match (s.tx i).prog with
    | .done _ => none
    | .read a k =>
      match s.access i a with
      | some (s, some r) => some { s with tx := Function.update s.tx i { s.tx i with prog := k (s.value a r) } }
      | _ => none
    | .write a v k =>
      match s.access i a with
      | some (s, some .live) => some { s with
          real := Function.update s.real a v
          tx := Function.update s.tx i { s.tx i with prog := k } }
      | _ => none
  else none

/-- What `Reset` makes of an account (`worldvirtualstate.go:255-279`). -/
def State.resetAcct (s : State A V R) (t : Tx A V R) (sn : Snap A V) (a : A) : V :=
  match t.entries a with
  | none => s.real a
  | some e =>
    if e.lock = .write then
      match sn.accts a with
      | some v => v
      | none =>
        match e.st with
        | none => s.real a
        | some _ =>
          match sn.base with
          | some b => b a
          | none => e.base.getD (s.real a)
    else s.real a

/-- A retry: `Reset` to the snapshot (`worldvirtualstate.go:238-281`) and a new handler (`transition_pe.go:119-133`). -/
def State.retry (s : State A V R) (i : ℕ) : Option (State A V R) :=
  match (s.tx i).snap with
  | none => none
  | some sn =>
    if i < s.n ∧ (s.tx i).waiting = true then
      if (s.tx i).world = some .write then
        match sn.base with
        | none => none
        | some b => some { s with real := b, tx := Function.update s.tx i { s.tx i with prog := (s.tx i).init } }
      else some { s with
        real := s.resetAcct (s.tx i) sn
        tx := Function.update s.tx i { s.tx i with prog := (s.tx i).init } }
    else none

/-- What `Commit` makes of an entry (`worldvirtualstate.go:437-449`). -/
def State.commitEntry (s : State A V R) (a : A) (e : Entry V) : Entry V :=
  if e.lock = .write then
    match e.depend with
    | some j => ⟨.unlock, none, (s.peek j a).map .ro, s.peek j a⟩
    | none => ⟨.unlock, none, e.st.map (fun r => .ro (s.value a r)), e.base⟩
  else e

/-- The dependencies of the write locks of `i` are committed, so that `Commit` does not wait. -/
def State.ready (s : State A V R) (i : ℕ) : Prop :=
  ∀ a e j, (s.tx i).entries a = some e → e.lock = .write → e.depend = some j → (s.tx j).waiting = false

/-- `Commit` after the end of the transaction (`transition_pe.go:135`, `worldvirtualstate.go:429-459`). -/
def State.commit (s : State A V R) (i : ℕ) : State A V R :=
  { s with tx := Function.update s.tx i { s.tx i with
      entries := fun a => ((s.tx i).entries a).map (s.commitEntry a)
      world := if (s.tx i).world = some .write then some .unlock else (s.tx i).world
      committed := if (s.tx i).world = some .write then some s.real else (s.tx i).committed
      waiting := false } }

/-- The transaction `i` has come to its end and can be committed. -/
def State.CanCommit (s : State A V R) (i : ℕ) (r : R) : Prop :=
  i < s.n ∧ (s.tx i).snap.isSome = true ∧ (s.tx i).waiting = true ∧ (s.tx i).prog = .done r ∧ s.ready i

/-- The steps of an execution of the transactions `work`. -/
inductive Step (work : List (List (Req A) × Prog A V R)) : State A V R → State A V R → Prop
  | prepare {s} (x : List (Req A) × Prog A V R) (h : work[s.n]? = some x) : Step work s (s.prepare x.1 x.2)
  | touch {s s'} (i : ℕ) (a : A) (e : s.touch i a = some s') : Step work s s'
  | start {s s'} (i : ℕ) (e : s.start i = some s') : Step work s s'
  | step {s s'} (i : ℕ) (e : s.step i = some s') : Step work s s'
  | retry {s s'} (i : ℕ) (e : s.retry i = some s') : Step work s s'
  | commit {s} (i : ℕ) (r : R) (h : s.CanCommit i r) : Step work s (s.commit i)

/-- A state without transactions. -/
def State.new (real : A → V) (t : Tx A V R) : State A V R := ⟨real, fun _ => none, none, fun _ => none, 0, fun _ => t⟩

/-- The executions. -/
inductive Reach (work : List (List (Req A) × Prog A V R)) (real : A → V) : State A V R → Prop
  | new (t : Tx A V R) : Reach work real (State.new real t)
  | step {s s'} (h : Reach work real s) (e : Step work s s') : Reach work real s'

end

/-! ## Errors -/

/-- The result of one attempt to execute a transaction: a receipt, an error after which it is tried again (`ExecutionFailError`,
`CriticalRerunError`), another error. -/
inductive Out (R E : Type)
  | ok (r : R)
  | again (e : E)
  | fail (e : E)

/-- The attempts from number `k` with `left` retries left (`transition_pe.go:83-134`, `transition_se.go:52-82`).  The error of a retry that
can not be made is not modelled. -/
def attempts {R E : Type} (out : ℕ → Out R E) : ℕ → ℕ → Except E R
  | left, k =>
    match out k with
    | .ok r => .ok r
    | .fail e => .error e
    | .again e =>
      match left with
      | 0 => .error e
      | left + 1 => attempts out left (k + 1)

/-- A transaction with `RetryCount` retries (`transition.go:28`). -/
def runTx {R E : Type} (out : ℕ → Out R E) : Except E R := attempts out 2 0

/-- `executeTxsSequential` (`transition_se.go:16-93`): the receipts, or the first error. -/
def seqExec {R E : Type} : List (ℕ → Out R E) → Except E (List R)
  | [] => .ok []
  | x :: l => do
    let r ← runTx x
    let rs ← seqExec l
    pure (r :: rs)

/-- `executionContext.Report` (`transition_pe.go:34-40`) on `lastError`. -/
def report {E : Type} (last : Option E) (e : E) : Option E := if last.isSome then some e else last

/-- `executeTxsConcurrent` (`transition_pe.go:51-145`) from transaction `i`: the error it returns and the receipts of the transactions it has
started; `seen i` are the errors that were reported before the check in front of transaction `i` (`:56-58`). -/
def conExec {R E : Type} (seen : ℕ → List E) : ℕ → List (ℕ → Out R E) → Option E × List (Option R)
  | _, [] => (none, [])
  | i, x :: l =>
    match (seen i).foldl report none with
    | some e => (some e, [])
    | none => ((conExec seen (i + 1) l).1, (runTx x).toOption :: (conExec seen (i + 1) l).2)

end Verif.Virtual
