import Mathlib.Data.Finmap
import Verif.Base.Bytes

/-!
# The state of the world in memory: accounts, snapshots and resets (C70)

`service/state/account.go`, `contract.go`, `worldstate.go`.  Go objects that are compared by identity (snapshots of accounts) are numbers here.
Not modelled: validators, extension and BTP states; the object graphs of Java contracts; errors of the database; the encoding of snapshots (they are written to and read from
the database unchanged: C39, C40).
-/

namespace Verif.WorldState
open Verif

/-- `ContractStatus` (`contract.go:18-23`). -/
inductive Status
  | inactive
  | active
  | pending
  | rejected
deriving DecidableEq

/-- `contract` (`contract.go:61-73`).  `code` stands for `codeHash`: the code itself is found by it. -/
structure Contract where
  status : Status
  contentType : Bytes
  eeType : Bytes
  deployTx : Bytes
  auditTx : Bytes
  code : Bytes
  params : Bytes
deriving DecidableEq

/-- The data of an account (`accountData`, `account.go:114-127`), as the getters give them.  The bits of `state` are three fields. -/
structure Acct (D : Type) where
  version : ℕ
  balance : ℤ
  isContract : Bool
  disabled : Bool
  blocked : Bool
  sysDeposit : Bool
  owner : Option Bytes
  api : Option Bytes
  cur : Option Contract
  next : Option Contract
  store : Finmap (fun _ : Bytes => Bytes)
  deposits : D
deriving DecidableEq

/-- What an operation returns. -/
inductive Res
  | ok
  | value (v : Option Bytes)
  | flag (b : Bool)
  | notContract
  | alreadyDeploying
  | noNext
  | invalidNext
  | noAvailable
  | noMatched
  | alreadyRejected
  | notPending
  | refused
deriving DecidableEq

/-- The operations of `AccountState` (`account.go:73-103`).  `deposits f`: `AddDeposit`, `WithdrawDeposit` or `PaySteps`, with `none` for an error or nothing to do (C45).
`setCode next`: `SetCode` of what `Contract()` or `NextContract()` returns. -/
inductive Op (D : Type)
  | setBalance (v : ℤ)
  | setValue (k v : Bytes)
  | deleteValue (k : Bytes)
  | setDisable (b : Bool)
  | setBlock (b : Bool)
  | setUseSystemDeposit (b : Bool)
  | setOwner (o : Option Bytes)
  | init (o : Option Bytes)
  | deploy (code eeType contentType params tx : Bytes)
  | activate
  | accept (tx audit : Bytes)
  | reject (tx audit : Bytes)
  | setCode (next : Bool) (code : Bytes)
  | setApi (a : Option Bytes)
  | migrate (v : ℕ)
  | deposits (f : D → Option D)

variable {D : Type}

/-- `accountStateImpl` (`account.go:506-512`): `hasStore` tells whether `store` is not `nil`, `last` is the last snapshot. -/
structure AState (D : Type) where
  a : Acct D
  hasStore : Bool
  last : Option ℕ

/-- An account that is not there (`newAccountState`, `account.go:864-881`, `newAccountSnapshot`, `:496-504`); `none`: no deposits. -/
def Acct.zero (e : D) : Acct D := ⟨1, 0, false, false, false, false, none, none, none, none, ∅, e⟩

/-- `IsEmpty` of a snapshot (`account.go:171-173`): its store is `nil` if it is empty (`:700-702`). -/
def Acct.isEmpty (a : Acct D) : Bool :=
  decide (a.balance = 0) && decide (a.store = ∅) && !a.isContract && !a.disabled && !a.blocked && !a.sysDeposit

/-- `contract.Equal` (`contract.go:75-92`). -/
def Contract.equal (c d : Contract) : Bool :=
  decide (c.status = d.status) && decide (c.deployTx = d.deployTx) && decide (c.auditTx = d.auditTx) && decide (c.code = d.code)

/-- The same for pointers. -/
def equalC : Option Contract → Option Contract → Bool
  | none, none => true
  | some c, some d => c.equal d
  | _, _ => false

/-- `accountSnapshotImpl.Equal` (`account.go:383-427`); the hashes of stores are equal exactly if the stores are (C40). -/
def Acct.equal [DecidableEq D] (a b : Acct D) : Bool :=
  decide (a.version = b.version) && decide (a.isContract = b.isContract) && decide (a.balance = b.balance) &&
  decide (a.disabled = b.disabled) && decide (a.blocked = b.blocked) && decide (a.sysDeposit = b.sysDeposit) && decide (a.owner = b.owner) && equalC a.cur b.cur &&
  equalC a.next b.next && decide (a.api = b.api) && decide (a.deposits = b.deposits) && decide (a.store = b.store)

/-- `markDirty` (`account.go:514-516`). -/
def AState.dirty (s : AState D) : AState D := { s with last := none }

/-- `DeleteValue` (`account.go:805-815`). -/
def AState.delete (s : AState D) (k : Bytes) : AState D × Res :=
  match s.hasStore with
  | false => (s, .value none)
  | true =>
    match s.a.store.lookup k with
    | some old => if old.length = 0 then ({ s with a := { s.a with store := s.a.store.erase k } }, .value none)
        else (AState.dirty { s with a := { s.a with store := s.a.store.erase k } }, .value (some old))
    | none => (s, .value none)

/-- The operations, as the code does them (`account.go:537-690, 788-862`, `contract.go:228-247`). -/
def AState.op (s : AState D) : Op D → AState D × Res
  | .setBalance v => if s.a.balance = v then (s, .ok) else (AState.dirty { s with a := { s.a with balance := v } }, .ok)
  | .setValue k v =>
    if v.length = 0 then s.delete k
    else (AState.dirty { s with a := { s.a with store := s.a.store.insert k v }, hasStore := true }, .value (s.a.store.lookup k))
  | .deleteValue k => s.delete k
  | .setDisable b =>
    if s.a.isContract then
      if s.a.disabled = b then (s, .ok) else (AState.dirty { s with a := { s.a with disabled := !s.a.disabled } }, .ok)
    else (s, .ok)
  | .setBlock b => if s.a.blocked = b then (s, .ok) else (AState.dirty { s with a := { s.a with blocked := !s.a.blocked } }, .ok)
  | .setUseSystemDeposit b =>
    if s.a.isContract then
      if s.a.sysDeposit = b then (s, .ok) else (AState.dirty { s with a := { s.a with sysDeposit := !s.a.sysDeposit } }, .ok)
    else (s, .notContract)
  | .setOwner o =>
    if s.a.isContract then
      if s.a.owner = o then (s, .ok) else (AState.dirty { s with a := { s.a with owner := o } }, .ok)
    else (s, .notContract)
  | .init o =>
    if s.a.isContract then (s, .flag false)
    else (AState.dirty { s with a := { s.a with isContract := true, owner := o } }, .flag true)
  | .deploy code ee ct params tx =>
    if s.a.isContract then
      match s.a.next with
      | some n =>
        if n.status = .active then (s, .alreadyDeploying)
        else (AState.dirty { s with a := { s.a with next := some ⟨.pending, ct, ee, tx, [], code, params⟩ } }, .value (some n.deployTx))
      | none => (AState.dirty { s with a := { s.a with next := some ⟨.pending, ct, ee, tx, [], code, params⟩ } }, .value none)
    else (s, .value none)
  | .activate =>
    match s.a.next with
    | none => (s, .noNext)
    | some n =>
      if n.status = .pending then
        (AState.dirty { s with a := { s.a with cur := s.a.cur.map (fun c => { c with status := .inactive }), next := some { n with status := .active } } }, .ok)
      else (s, .invalidNext)
  | .accept tx audit =>
    if s.a.isContract then
      match s.a.next with
      | none => (s, .noAvailable)
      | some n =>
        if n.deployTx = tx then
          if n.status = .rejected then (s, .alreadyRejected)
          else (AState.dirty { s with a := { s.a with cur := some { n with status := .active, auditTx := audit }, next := none } }, .ok)
        else (s, .noMatched)
    else (s, .noAvailable)
  | .reject tx audit =>
    if s.a.isContract then
      match s.a.next with
      | none => (s, .noAvailable)
      | some n =>
        if n.deployTx = tx then
          if n.status = .pending then (AState.dirty { s with a := { s.a with next := some { n with status := .rejected, auditTx := audit } } }, .ok)
          else (s, .notPending)
        else (s, .noMatched)
    else (s, .noAvailable)
  | .setCode next code =>
    match (if next then s.a.next else s.a.cur) with
    | none => (s, .refused)
    | some c =>
      if code.length ≠ 0 ∧ code = c.code then (s, .ok)
      else if next then (AState.dirty { s with a := { s.a with next := some { c with code := code } } }, .ok)
      else (AState.dirty { s with a := { s.a with cur := some { c with code := code } } }, .ok)
  | .setApi a => (AState.dirty { s with a := { s.a with api := a } }, .ok)
  | .migrate v => if v > s.a.version then (AState.dirty { s with a := { s.a with version := v } }, .ok) else (s, .ok)
  | .deposits f =>
    match f s.a.deposits with
    | some d => (AState.dirty { s with a := { s.a with deposits := d } }, .ok)
    | none => (s, .refused)

/-- `GetSnapshot` (`account.go:692-726`) with the list of all snapshots made so far. -/
def AState.snap (s : AState D) (objs : List (Acct D)) : ℕ × AState D × List (Acct D) :=
  match s.last with
  | some o => (o, s, objs)
  | none => (objs.length, { s with last := some objs.length }, objs ++ [s.a])

/-- `Reset` (`account.go:737-774`) to a snapshot. -/
def AState.reset (s : AState D) (objs : List (Acct D)) (o : ℕ) : AState D :=
  if s.last = some o then s
  else
    match objs[o]? with
    | some v => ⟨v, decide (v.store ≠ ∅), some o⟩
    | none => s

/-- `Clear` (`account.go:776-786`). -/
def AState.clear (e : D) : AState D := ⟨Acct.zero e, false, none⟩

/-! ## The world -/

/-- `worldStateImpl` (`worldstate.go:126-138`).  `cells`: the account states that were made, by number; `opened` is `mutableAccounts`, `lasts` is `lastAccounts`, `trie` is `accounts`; `objs`:
all snapshots of accounts; `snaps`: the world snapshots, and `held`: the account snapshots the user has.  Accounts are named by the keys (`addressIDToKey`, `:179-184`): no two
ids have the same hash. -/
structure World (K D : Type) where
  cells : List (AState D)
  opened : List (K × ℕ)
  lasts : K → Option ℕ
  trie : K → Option (Acct D)
  objs : List (Acct D)
  snaps : List (K → Option (Acct D))
  held : List ℕ

variable {K : Type} [DecidableEq K] [DecidableEq D]

/-- Update of a function. -/
def upd {β : Type} (f : K → β) (k : K) (v : β) : K → β := fun x => if x = k then v else f x

/-- The trie returns an object of the value it has (`getAccountSnapshotWithKey`, `worldstate.go:261-272`): one of those there are, or a new one, loaded from the database; which one is given
by `hint`. -/
def load (objs : List (Acct D)) (v : Acct D) (hint : ℕ) : ℕ × List (Acct D) :=
  if objs[hint]? = some v then (hint, objs) else (objs.length, objs ++ [v])

/-- The trie replaces a value only if it is not `Equal` (`ompt/leaf.go:156`, `branch.go:143`). -/
def trieSet (t : K → Option (Acct D)) (k : K) (v : Acct D) : K → Option (Acct D) :=
  match t k with
  | some old => if old.equal v then t else upd t k (some v)
  | none => upd t k (some v)

/-- What to do with a new snapshot (`worldstate.go:206-225`). -/
def store (w : World K D) (k : K) (o : ℕ) (v : Acct D) : World K D :=
  if v.isEmpty then { w with lasts := upd w.lasts k (some o), trie := upd w.trie k none }
  else { w with lasts := upd w.lasts k (some o), trie := trieSet w.trie k v }

/-- One account in `flushAccountCacheInLock` (`worldstate.go:202-226`). -/
def flushOne (w : World K D) (kp : K × ℕ) : World K D :=
  match w.cells[kp.2]? with
  | none => w
  | some c =>
    let r := c.snap w.objs
    let w1 := { w with cells := w.cells.set kp.2 r.2.1, objs := r.2.2 }
    match r.2.2[r.1]? with
    | none => w1
    | some v =>
      match w.lasts kp.1 with
      | some l => if l = r.1 then w1 else store w1 kp.1 r.1 v
      | none => if v.isEmpty then w1 else store w1 kp.1 r.1 v

/-- The order in which Go goes through `mutableAccounts` is any: `ord`, if it is one. -/
def order (w : World K D) (ord : List (K × ℕ)) : List (K × ℕ) := if ord.isPerm w.opened then ord else w.opened

/-- `flushAccountCacheInLock`. -/
def flush (w : World K D) (ord : List (K × ℕ)) : World K D := (order w ord).foldl flushOne w

/-- One account in `Reset` (`worldstate.go:161-172`). -/
def resetOne (e : D) (hint : K → ℕ) (w : World K D) (kp : K × ℕ) : World K D :=
  match w.cells[kp.2]? with
  | none => w
  | some c =>
    match w.trie kp.1 with
    | none => { w with cells := w.cells.set kp.2 (AState.clear e), lasts := upd w.lasts kp.1 none }
    | some v =>
      let r := load w.objs v (hint kp.1)
      { w with cells := w.cells.set kp.2 (c.reset r.2 r.1), objs := r.2, lasts := upd w.lasts kp.1 (some r.1) }

/-- What a user does. -/
inductive Ev (K D : Type)
  /-- `WorldState.GetAccountState` -/
  | account (k : K) (hint : ℕ)
  /-- an operation on an account state, by its number -/
  | op (p : ℕ) (o : Op D)
  /-- the getters of an account state -/
  | read (p : ℕ)
  /-- `AccountState.GetSnapshot` -/
  | snapOf (p : ℕ)
  /-- `AccountState.Reset` to the `i`-th account snapshot -/
  | resetTo (p i : ℕ)
  /-- `AccountState.Clear` -/
  | clear (p : ℕ)
  /-- `WorldState.GetAccountSnapshot` -/
  | peek (k : K)
  /-- `WorldState.GetSnapshot` -/
  | snapshot (ord : List (K × ℕ))
  /-- `WorldState.Reset` to the `i`-th world snapshot -/
  | reset (i : ℕ) (ord : List (K × ℕ)) (hint : K → ℕ)
  /-- `WorldState.ClearCache` -/
  | clearCache (ord : List (K × ℕ))
  /-- `WorldSnapshot.GetAccountSnapshot` of the `i`-th world snapshot -/
  | look (i : ℕ) (k : K)

/-- What he gets. -/
inductive Out (D : Type)
  | unit
  | handle (p : ℕ)
  | res (r : Res)
  | acct (a : Acct D)
  | found (a : Option (Acct D))
  | bad

/-- `GetAccountState` (`worldstate.go:186-200`). -/
def getAccount (e : D) (w : World K D) (k : K) (hint : ℕ) : World K D × ℕ :=
  match w.opened.find? (fun kp => decide (kp.1 = k)) with
  | some kp => (w, kp.2)
  | none =>
    match w.trie k with
    | none => ({ w with cells := w.cells ++ [AState.clear e], opened := w.opened ++ [(k, w.cells.length)], lasts := upd w.lasts k none }, w.cells.length)
    | some v =>
      let r := load w.objs v hint
      ({ w with cells := w.cells ++ [(AState.clear e).reset r.2 r.1], opened := w.opened ++ [(k, w.cells.length)], lasts := upd w.lasts k (some r.1), objs := r.2 }, w.cells.length)

/-- `GetAccountSnapshot` (`worldstate.go:274-288`). -/
def peek (e : D) (w : World K D) (k : K) : World K D × Acct D :=
  match w.opened.find? (fun kp => decide (kp.1 = k)) with
  | some kp =>
    match w.cells[kp.2]? with
    | none => (w, Acct.zero e)
    | some c => ({ w with cells := w.cells.set kp.2 (c.snap w.objs).2.1, objs := (c.snap w.objs).2.2 }, ((c.snap w.objs).2.2[(c.snap w.objs).1]?).getD (Acct.zero e))
  | none => (w, (w.trie k).getD (Acct.zero e))

/-- One step. -/
def step (e : D) (w : World K D) : Ev K D → World K D × Out D
  | .account k hint => ((getAccount e w k hint).1, .handle (getAccount e w k hint).2)
  | .op p o =>
    match w.cells[p]? with
    | none => (w, .bad)
    | some c => ({ w with cells := w.cells.set p (c.op o).1 }, .res (c.op o).2)
  | .read p =>
    match w.cells[p]? with
    | none => (w, .bad)
    | some c => (w, .acct c.a)
  | .snapOf p =>
    match w.cells[p]? with
    | none => (w, .bad)
    | some c => ({ w with cells := w.cells.set p (c.snap w.objs).2.1, objs := (c.snap w.objs).2.2, held := w.held ++ [(c.snap w.objs).1] },
        match (c.snap w.objs).2.2[(c.snap w.objs).1]? with
        | some v => .acct v
        | none => .bad)
  | .resetTo p i =>
    match w.cells[p]?, w.held[i]? with
    | some c, some o => ({ w with cells := w.cells.set p (c.reset w.objs o) }, .unit)
    | _, _ => (w, .bad)
  | .clear p =>
    match w.cells[p]? with
    | none => (w, .bad)
    | some _ => ({ w with cells := w.cells.set p (AState.clear e) }, .unit)
  | .peek k => ((peek e w k).1, .acct (peek e w k).2)
  | .snapshot ord => ({ flush w ord with snaps := (flush w ord).snaps ++ [(flush w ord).trie] }, .unit)
  | .reset i ord hint =>
    match w.snaps[i]? with
    | none => (w, .bad)
    | some t => ((order w ord).foldl (resetOne e hint) { w with trie := t }, .unit)
  | .clearCache ord => ({ flush w ord with opened := [], lasts := fun _ => none }, .unit)
  | .look i k =>
    match w.snaps[i]? with
    | none => (w, .bad)
    | some t => (w, .found (t k))

/-- `NewWorldState` (`worldstate.go:305-321`) on what is in the database. -/
def start (t : K → Option (Acct D)) : World K D := ⟨[], [], fun _ => none, t, [], [], []⟩

/-- All steps. -/
def run (e : D) : World K D → List (Ev K D) → World K D × List (Out D)
  | w, [] => (w, [])
  | w, ev :: evs => ((run e (step e w ev).1 evs).1, (step e w ev).2 :: (run e (step e w ev).1 evs).2)

/-! ## Specification: accounts are values -/

/-- What an operation does to the data of an account. -/
def Acct.op (a : Acct D) : Op D → Acct D × Res
  | .setBalance v => ({ a with balance := v }, .ok)
  | .setValue k v => if v = [] then ({ a with store := a.store.erase k }, .value (a.store.lookup k)) else ({ a with store := a.store.insert k v }, .value (a.store.lookup k))
  | .deleteValue k => ({ a with store := a.store.erase k }, .value (a.store.lookup k))
  | .setDisable b => (if a.isContract then { a with disabled := b } else a, .ok)
  | .setBlock b => ({ a with blocked := b }, .ok)
  | .setUseSystemDeposit b => if a.isContract then ({ a with sysDeposit := b }, .ok) else (a, .notContract)
  | .setOwner o => if a.isContract then ({ a with owner := o }, .ok) else (a, .notContract)
  | .init o => if a.isContract then (a, .flag false) else ({ a with isContract := true, owner := o }, .flag true)
  | .deploy code ee ct params tx =>
    if a.isContract = false then (a, .value none)
    else if a.next.map Contract.status = some .active then (a, .alreadyDeploying)
    else ({ a with next := some ⟨.pending, ct, ee, tx, [], code, params⟩ }, .value (a.next.map Contract.deployTx))
  | .activate =>
    match a.next with
    | none => (a, .noNext)
    | some n =>
      if n.status = .pending then ({ a with cur := a.cur.map (fun c => { c with status := .inactive }), next := some { n with status := .active } }, .ok)
      else (a, .invalidNext)
  | .accept tx audit =>
    match a.isContract, a.next with
    | true, some n =>
      if n.deployTx ≠ tx then (a, .noMatched)
      else if n.status = .rejected then (a, .alreadyRejected)
      else ({ a with cur := some { n with status := .active, auditTx := audit }, next := none }, .ok)
    | _, _ => (a, .noAvailable)
  | .reject tx audit =>
    match a.isContract, a.next with
    | true, some n =>
      if n.deployTx ≠ tx then (a, .noMatched)
      else if n.status = .pending then ({ a with next := some { n with status := .rejected, auditTx := audit } }, .ok)
      else (a, .notPending)
    | _, _ => (a, .noAvailable)
  | .setCode true code =>
    match a.next with
    | none => (a, .refused)
    | some c => ({ a with next := some { c with code := code } }, .ok)
  | .setCode false code =>
    match a.cur with
    | none => (a, .refused)
    | some c => ({ a with cur := some { c with code := code } }, .ok)
  | .setApi x => ({ a with api := x }, .ok)
  | .migrate v => ({ a with version := max a.version v }, .ok)
  | .deposits f =>
    match f a.deposits with
    | some d => ({ a with deposits := d }, .ok)
    | none => (a, .refused)

/-- An account state that was given out: for an account, or, if the cache was cleared since then, with a value of its own. -/
inductive Handle (K D : Type)
  | live (k : K)
  | gone (a : Acct D)

/-- The world is a value of each account; snapshots are copies. -/
structure Spec (K D : Type) where
  acc : K → Acct D
  handles : List (Handle K D)
  snaps : List (K → Acct D)
  held : List (Acct D)

/-- Whether a handle is for `k`. -/
def Handle.isFor (k : K) : Handle K D → Bool
  | .live k' => decide (k' = k)
  | .gone _ => false

/-- The value behind a handle. -/
def Spec.val (s : Spec K D) : Handle K D → Acct D
  | .live k => s.acc k
  | .gone a => a

/-- Set the value behind the `p`-th handle. -/
def Spec.put (s : Spec K D) (p : ℕ) (a : Acct D) : Handle K D → Spec K D
  | .live k => { s with acc := upd s.acc k a }
  | .gone _ => { s with handles := s.handles.set p (.gone a) }

/-- An account that is called empty is as if it were not there; only its version, owner, API and contracts could be lost by that (see `C70_empty`). -/
def Acct.norm (e : D) (a : Acct D) : Acct D := if a.isEmpty then Acct.zero e else a

/-- For an account that is not there, a world snapshot returns nothing. -/
def Acct.found (a : Acct D) : Option (Acct D) := if a.isEmpty then none else some a

/-- One step. -/
def Spec.step (e : D) (s : Spec K D) : Ev K D → Spec K D × Out D
  | .account k _ =>
    match s.handles.findIdx? (Handle.isFor k) with
    | some p => (s, .handle p)
    | none => ({ s with handles := s.handles ++ [.live k] }, .handle s.handles.length)
  | .op p o =>
    match s.handles[p]? with
    | some h => (s.put p ((s.val h).op o).1 h, .res ((s.val h).op o).2)
    | none => (s, .bad)
  | .read p =>
    match s.handles[p]? with
    | some h => (s, .acct (s.val h))
    | none => (s, .bad)
  | .snapOf p =>
    match s.handles[p]? with
    | some h => ({ s with held := s.held ++ [s.val h] }, .acct (s.val h))
    | none => (s, .bad)
  | .resetTo p i =>
    match s.handles[p]?, s.held[i]? with
    | some h, some v => (s.put p v h, .unit)
    | _, _ => (s, .bad)
  | .clear p =>
    match s.handles[p]? with
    | some h => (s.put p (Acct.zero e) h, .unit)
    | none => (s, .bad)
  | .peek k => (s, .acct (s.acc k))
  | .snapshot _ => ({ s with snaps := s.snaps ++ [fun k => (s.acc k).norm e] }, .unit)
  | .reset i _ _ =>
    match s.snaps[i]? with
    | some f => ({ s with acc := f }, .unit)
    | none => (s, .bad)
  | .clearCache _ => (⟨fun k => (s.acc k).norm e, s.handles.map (fun h => .gone (s.val h)), s.snaps, s.held⟩, .unit)
  | .look i k =>
    match s.snaps[i]? with
    | some f => (s, .found (f k).found)
    | none => (s, .bad)

/-- All steps. -/
def Spec.run (e : D) : Spec K D → List (Ev K D) → Spec K D × List (Out D)
  | s, [] => (s, [])
  | s, ev :: evs => ((Spec.run e (s.step e ev).1 evs).1, (s.step e ev).2 :: (Spec.run e (s.step e ev).1 evs).2)

/-- At first the accounts are as in the database. -/
def Spec.start (e : D) (t : K → Option (Acct D)) : Spec K D := ⟨fun k => (t k).getD (Acct.zero e), [], [], []⟩

/-- What is known of the data in the database and of deployments: `info` tells the content type, engine and parameters of the deployment of an id (an id is used once:
`contract/deployhandler.go:352-356`), and no value in a store is empty (`account.go:789-791`). -/
def Acct.Good (info : Bytes → Bytes × Bytes × Bytes) (a : Acct D) : Prop :=
  (∀ c, a.cur = some c ∨ a.next = some c → info c.deployTx = (c.contentType, c.eeType, c.params)) ∧ ∀ k, a.store.lookup k ≠ some []

/-- The same for operations. -/
def Op.Good (info : Bytes → Bytes × Bytes × Bytes) : Op D → Prop
  | .deploy _ ee ct params tx => info tx = (ct, ee, params)
  | _ => True

/-- The same for events. -/
def Ev.Good (info : Bytes → Bytes × Bytes × Bytes) : Ev K D → Prop
  | .op _ o => o.Good info
  | _ => True

end Verif.WorldState
