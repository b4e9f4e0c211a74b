import Verif.WorldState.Model
import Verif.Base.Bytes

/-!
# Deployment of contracts (C71)

Models `service/contract/deployhandler.go` (`DeployHandler`, `AcceptHandler`), `contractmanager.go` (`DeployAndInstallSystemSCORE`), `acceptScore` and `rejectScore` of the basic platform
(`service/platform/basic/chainscore.go`), `setScoreOwner` of HAVAH, and the types of engines (`service/state/eetype.go`), on the accounts of C70 (`Acct.op` is what `C70_history` shows of
`accountStateImpl`).  What a contract does when it is installed or called is any list of calls, nested as deep as one likes; a call that fails is undone (C61).
-/

namespace Verif.Deploy

open Verif Verif.WorldState

/-! ## Types of engines (`eetype.go:11-73`) -/

/-- `PythonEE`: "python". -/
def python : Bytes := [112, 121, 116, 104, 111, 110]

/-- `JavaEE`: "java". -/
def java : Bytes := [106, 97, 118, 97]

/-- `SystemEE`: "system". -/
def system : Bytes := [115, 121, 115, 116, 101, 109]

/-- `ValidateEEType` (`eetype.go:122-129`); the same types have an install method (`:25-29, 49-54`). -/
def validEE (e : Bytes) : Bool := decide (e = python) || decide (e = java) || decide (e = system)

/-- `AbleToUpdate` (`eetype.go:67-73`), `allowUpdateFromTo` (`:35-43`). -/
def ableToUpdate (to_ org : Bytes) : Bool :=
  if org = python then decide (to_ = python) || decide (to_ = java)
  else if org = java then decide (to_ = java)
  else false

/-- `NeedAudit` (`eetype.go:44-46, 93-99`). -/
def needAudit (e : Bytes) : Bool := decide (e = python)

/-- Whether `AcceptHandler` finds the method to call (`deployhandler.go:431-446`, `eetype.go:49-65`). -/
def hasMethod (cur : Option Contract) (e : Bytes) : Bool :=
  match cur with
  | none => validEE e
  | some c => ableToUpdate e c.eeType

/-! ## State -/

/-- What happened, for the specification only. -/
inductive Ev
  | create (a : Bytes) (owner : Option Bytes)
  | transfer (a sender new : Bytes)
  | deploy (a sender id ee ct params code : Bytes) (auto : Bool)
  | setCode (a code : Bytes)
  | accept (a id audit : Bytes) (auto : Bool)
  | reject (a id audit : Bytes)
  | native (a : Bytes) (owner : Option Bytes) (id code : Bytes)
deriving DecidableEq

/-- The accounts, by address, and the table from deployment ids to addresses (`VarTxHashToAddress`).  Accounts are named by addresses: contracts and users with the same 20 bytes, which share an
account in the code, are not distinguished further (only contract addresses are used below). -/
structure World where
  acct : Bytes → Acct Unit
  h2a : Bytes → Option Bytes
  log : List Ev

/-- How a call ends. -/
inductive Out
  | ok
  | fail
  | panic
deriving DecidableEq

/-- A deployment (`DeployHandler`, `deployhandler.go:24-31`) and what the node is configured for at that time.  `target`: `To`, unless it is the system address; `fresh`: the new address, from
`genContractAddr` or given for a preinstalled contract (`predefined`); `tx`: the hash of the transaction, `salt`:
the number of the deployment in it (`NextTransactionSalt`, `worldcontext.go:398-409`). -/
structure Deploy where
  sender : Bytes
  target : Option Bytes
  fresh : Bytes
  predefined : Bool
  toGov : Bool
  addrOk : Bool
  tx : Bytes
  salt : Option ℕ
  code : Bytes
  ee : Bytes
  ct : Bytes
  params : Bytes
  readOnly : Bool
  steps : Bool
  whitelist : Bool
  deployer : Bool
  audit : Bool
  autoGov : Bool
  enabled : Bool

/-- `getIDWithSalt` (`deployhandler.go:233-248`): the lowest bytes of the sum, as many as the hash has. -/
def idWithSalt (tx : Bytes) : Option ℕ → Bytes
  | none => tx
  | some s => beBytes tx.length (beNat tx + s)

/-- The id of a deployment. -/
def Deploy.id (d : Deploy) : Bytes := idWithSalt d.tx d.salt

/-- What installing a contract leads to, apart from calls: `api`: what `GetAPI` gives, `paramsOk`: whether the parameters fit the method, `version`: the account version of the revision, `ok`:
whether `on_install`, `on_update` or `<init>` succeeds. -/
structure Install where
  api : Option Bytes
  paramsOk : Bool
  version : ℕ
  ok : Bool

/-- Calls. -/
inductive Call
  /-- a transaction or a call that deploys a contract; `inner`: what the contract does when it is installed at once -/
  | deploy (d : Deploy) (i : Install) (inner : List Call)
  /-- `acceptScore` by governance -/
  | accept (id audit : Bytes) (i : Install) (inner : List Call)
  /-- `rejectScore` by governance -/
  | reject (id audit : Bytes)
  /-- `setScoreOwner` -/
  | setOwner (sender a new : Bytes)
  /-- a contract in Go, installed at genesis -/
  | native (a : Bytes) (owner : Option Bytes) (code tid : Bytes) (ok : Bool) (version : ℕ) (api : Option Bytes)
  /-- what else is done with an account -/
  | touch (a : Bytes) (o : Op Unit)
  /-- `SetCode`, from the engine, for the contract it is installing -/
  | setCode (code : Bytes)
  /-- a call of a contract, which makes calls, and fails if not `ok` -/
  | frame (ok : Bool) (inner : List Call)

/-- The operations that are not about contracts. -/
def plain : Op Unit → Bool
  | .setBalance _ => true
  | .setValue _ _ => true
  | .deleteValue _ => true
  | .setDisable _ => true
  | .setBlock _ => true
  | .setUseSystemDeposit _ => true
  | .migrate _ => true
  | .deposits _ => true
  | _ => false

/-- Update of a function. -/
def put {β : Type} (f : Bytes → β) (k : Bytes) (v : β) : Bytes → β := fun x => if x = k then v else f x

/-- One operation on one account. -/
def World.op (w : World) (a : Bytes) (o : Op Unit) : World := { w with acct := put w.acct a ((w.acct a).op o).1 }

/-- Its result. -/
def World.res (w : World) (a : Bytes) (o : Op Unit) : Res := ((w.acct a).op o).2

/-! ## Handlers -/

/-- `AcceptHandler.ExecuteSync` after `ActivateNextContract` (`deployhandler.go:468-496`): install or update, then `AcceptContract`.  `finish` is what follows the call of the method. -/
def finish (a id audit : Bytes) (auto : Bool) (ok : Bool) (w : World) : World × Out :=
  if ok then
    if w.res a (.accept id audit) = .ok then ({ w.op a (.accept id audit) with log := w.log ++ [.accept a id audit auto] }, .ok) else (w, .fail)
  else (w, .fail)

/-- `AcceptHandler.ExecuteSync` before it calls the method (`deployhandler.go:414-467`), with `callGetAPIHandler` (`:498-668`): `none` with how it ends, or the address and the state. -/
def prepare (w : World) (id : Bytes) (i : Install) : Option (Bytes × World) × Out :=
  match w.h2a id with
  | none => (none, .fail)
  | some a =>
    match (w.acct a).next with
    | none => (none, .panic)
    | some n =>
      if n.status = .pending then
        if hasMethod (w.acct a).cur n.eeType then
          match i.api with
          | none => (none, .fail)
          | some api =>
            let w1 := ({ w with h2a := put w.h2a id none }.op a (.migrate i.version)).op a (.setApi (some api))
            if i.paramsOk then
              if w1.res a .activate = .ok then (some (a, w1.op a .activate), .ok) else (none, .fail)
            else (none, .fail)
        else (none, .fail)
      else (none, .fail)

/-- `AcceptHandler.ExecuteSync`; `inner a` is what the method of the contract at `a` does.  A call that fails is undone. -/
def acceptWith (inner : Bytes → World → World × Out) (w : World) (id audit : Bytes) (auto : Bool) (i : Install) : World × Out :=
  match prepare w id i with
  | (none, o) => (w, o)
  | (some aw, _) =>
    match inner aw.1 aw.2 with
    | (w2, .panic) => (w2, .panic)
    | (w2, _) =>
      match finish aw.1 id audit auto i.ok w2 with
      | (w3, .ok) => (w3, .ok)
      | (_, o) => (w, o)

/-- The address that is deployed to (`deployhandler.go:277-298`). -/
def Deploy.addr (d : Deploy) : Bytes := d.target.getD d.fresh

/-- Whether it is an update (`deployhandler.go:279-303`). -/
def Deploy.update (d : Deploy) (a : Acct Unit) : Bool :=
  match d.target with
  | none => false
  | some _ => !(d.toGov && !a.isContract)

/-- The checks that do not depend on the account (`deployhandler.go:267-331`); without a hash there is no transaction (`worldcontext.go:386-392`). -/
def Deploy.allowed (d : Deploy) : Bool :=
  decide (d.tx ≠ []) && !d.readOnly && d.addrOk && d.steps && (!d.whitelist || d.deployer || d.predefined) && validEE d.ee && d.enabled

/-- The checks of an update (`deployhandler.go:338-349`). -/
def Deploy.mayUpdate (d : Deploy) (a : Acct Unit) : Bool :=
  a.isContract && decide (a.owner = some d.sender) &&
    match a.cur with
    | none => true
    | some c => ableToUpdate d.ee c.eeType

/-- Whether no audit is needed (`deployhandler.go:372-374`). -/
def Deploy.auto (d : Deploy) : Bool := !needAudit d.ee || !d.audit || d.deployer || d.predefined || (d.autoGov && d.toGov)

/-- `InitContractAccount` for a new contract, the checks for another (`deployhandler.go:333-350`). -/
def Deploy.init (d : Deploy) (w : World) : Option World :=
  if d.update (w.acct d.addr) = false then
    if w.res d.addr (.init (some d.sender)) = .flag true then some { w.op d.addr (.init (some d.sender)) with log := w.log ++ [.create d.addr (some d.sender)] } else none
  else if d.mayUpdate (w.acct d.addr) then some w
  else none

/-- `DeployContract` and the table (`deployhandler.go:351-370`). -/
def Deploy.register (d : Deploy) (w : World) : Option World :=
  if w.h2a d.id = none then
    match w.res d.addr (.deploy d.code d.ee d.ct d.params d.id) with
    | .value old =>
      some { w.op d.addr (.deploy d.code d.ee d.ct d.params d.id) with
        h2a := (match old with
          | none => put w.h2a d.id (some d.addr)
          | some o => if o.length > 0 then put (put w.h2a d.id (some d.addr)) o none else put w.h2a d.id (some d.addr)),
        log := w.log ++ [.deploy d.addr d.sender d.id d.ee d.ct d.params d.code d.auto] }
    | _ => none
  else none

/-- `DeployHandler.DoExecuteSync` (`deployhandler.go:263-384`). -/
def deployWith (inner : Bytes → World → World × Out) (w : World) (d : Deploy) (i : Install) : World × Out :=
  if d.allowed then
    match d.init w with
    | none => (w, .fail)
    | some w1 =>
      match d.register w1 with
      | none => (w, .fail)
      | some w2 =>
        if d.auto then
          match acceptWith inner w2 d.id d.tx true i with
          | (w3, .ok) => (w3, .ok)
          | (w3, .panic) => (w3, .panic)
          | (_, .fail) => (w, .fail)
        else (w2, .ok)
  else (w, .fail)

/-- `Ex_rejectScore` (`service/platform/basic/chainscore.go:956-980`); an unknown id ends in a recovered panic there, which is a failure. -/
def reject (w : World) (id audit : Bytes) : World × Out :=
  match w.h2a id with
  | none => (w, .fail)
  | some a =>
    let w1 := { w with h2a := put w.h2a id none }
    if w1.res a (.reject id audit) = .ok then ({ w1.op a (.reject id audit) with log := w.log ++ [.reject a id audit] }, .ok) else (w, .fail)

/-- `SetScoreOwner` (`havah/hvh/context.go:187-221`). -/
def setOwner (w : World) (sender a new : Bytes) : World × Out :=
  if (w.acct a).isContract && decide ((w.acct a).owner = some sender) && !(w.acct a).blocked && !(w.acct a).disabled then
    ({ w.op a (.setOwner (some new)) with log := w.log ++ [.transfer a sender new] }, .ok)
  else (w, .fail)

/-- `DeployAndInstallSystemSCORE` (`contractmanager.go:91-119`); content type and parameters are left out.  A failure of it ends the genesis. -/
def native (w : World) (a : Bytes) (owner : Option Bytes) (code tid : Bytes) (ok : Bool) (version : ℕ) (api : Option Bytes) : World × Out :=
  if w.res a (.init owner) = .flag true then
    let w1 := w.op a (.init owner)
    match w1.res a (.deploy code system [] [] tid) with
    | .value _ =>
      let w2 := w1.op a (.deploy code system [] [] tid)
      if w2.res a (.accept tid tid) = .ok ∧ ok then
        ({ ((w2.op a (.accept tid tid)).op a (.migrate version)).op a (.setApi api) with log := w.log ++ [.native a owner tid code] }, .ok)
      else (w, .fail)
    | _ => (w, .fail)
  else (w, .fail)

/-- `CallHandler.SetCode` (`callhandler.go:616-622`); there must be a contract (`:155-164`). -/
def setCode (w : World) (a code : Bytes) : World × Out :=
  match (w.acct a).next with
  | some _ => ({ w.op a (.setCode true code) with log := w.log ++ [.setCode a code] }, .ok)
  | none => (w, .panic)

mutual

/-- One call; `inst`: the contract that the engine of the caller is installing. -/
def exec (inst : Option Bytes) (w : World) : Call → World × Out
  | .deploy d i inner => deployWith (fun a w => execs (some a) w inner) w d i
  | .accept id audit i inner => acceptWith (fun a w => execs (some a) w inner) w id audit false i
  | .reject id audit => reject w id audit
  | .setOwner sender a new => setOwner w sender a new
  | .native a owner code tid ok version api => native w a owner code tid ok version api
  | .touch a o => if plain o then (w.op a o, .ok) else (w, .fail)
  | .setCode code =>
    match inst with
    | some a => setCode w a code
    | none => (w, .fail)
  | .frame ok inner =>
    match execs none w inner with
    | (w1, .panic) => (w1, .panic)
    | (w1, _) => if ok then (w1, .ok) else (w, .fail)

/-- Calls one after the other.  The caller goes on after a failure; if it does not, it makes no more calls. -/
def execs (inst : Option Bytes) (w : World) : List Call → World × Out
  | [] => (w, .ok)
  | c :: cs =>
    match exec inst w c with
    | (w1, .panic) => (w1, .panic)
    | (w1, _) => execs inst w1 cs

end

/-- Nothing is deployed yet. -/
def start : World := ⟨fun _ => Acct.zero (), fun _ => none, []⟩

/-! ## Specification: what may happen to a contract -/

/-- A contract that was deployed. -/
structure Code where
  id : Bytes
  ee : Bytes
  ct : Bytes
  params : Bytes
  code : Bytes
deriving DecidableEq

/-- What a contract is, without its status. -/
def content (c : Contract) : Code := ⟨c.deployTx, c.eeType, c.contentType, c.params, c.code⟩

/-- A contract that waits; `auto`: it needs no audit. -/
structure Pend where
  c : Code
  auto : Bool
  rejected : Bool
deriving DecidableEq

/-- A contract account. -/
structure Slot where
  exists_ : Bool
  owner : Option Bytes
  pending : Option Pend
  active : Option Code
deriving DecidableEq

/-- The account is as the slot says: what is active runs, what waits is pending or rejected. -/
structure Slot.Shows (s : Slot) (a : Acct Unit) : Prop where
  ex : s.exists_ = a.isContract
  owner : s.owner = a.owner
  active : s.active = a.cur.map content
  runs : ∀ c, a.cur = some c → c.status = .active
  waiting : s.pending.map Pend.c = a.next.map content
  status : ∀ p n, s.pending = some p → a.next = some n → n.status = if p.rejected then .rejected else .pending

/-- Which engine may replace which. -/
def Replaces (new old : Bytes) : Prop := (new = java ∧ (old = java ∨ old = python)) ∨ (new = python ∧ old = python)

/-- What may happen at address `a` and what comes of it. -/
inductive Slot.Step (s : Slot) : Ev → Slot → Prop
  /-- an account becomes a contract once -/
  | create (a : Bytes) (o : Option Bytes) (h : s.exists_ = false) : Slot.Step s (.create a o) { s with exists_ := true, owner := o }
  /-- only the owner gives the contract away -/
  | transfer (a sender new : Bytes) (h : s.exists_ = true) (h1 : s.owner = some sender) : Slot.Step s (.transfer a sender new) { s with owner := some new }
  /-- only the owner deploys; what he deployed before and was not accepted is replaced -/
  | deploy (a sender id ee ct params code : Bytes) (auto : Bool) (h : s.exists_ = true) (h1 : s.owner = some sender) (h2 : ∀ c, s.active = some c → Replaces ee c.ee) :
      Slot.Step s (.deploy a sender id ee ct params code auto) { s with pending := some ⟨⟨id, ee, ct, params, code⟩, auto, false⟩ }
  /-- the engine may set the code of what waits, when it installs it -/
  | setCode (a code : Bytes) (p : Pend) (h : s.pending = some p) (h1 : p.rejected = false) : Slot.Step s (.setCode a code) { s with pending := some { p with c := { p.c with code := code } } }
  /-- what is accepted is what was deployed last and was not rejected; it is accepted without audit only if that is allowed -/
  | accept (a id audit : Bytes) (auto : Bool) (p : Pend) (h : s.pending = some p) (h1 : p.rejected = false) (h2 : p.c.id = id) (h3 : auto = true → p.auto = true)
      (h4 : ∀ c, s.active = some c → Replaces p.c.ee c.ee) :
      Slot.Step s (.accept a id audit auto) { s with pending := none, active := some p.c }
  /-- what waits may be rejected -/
  | reject (a id audit : Bytes) (p : Pend) (h : s.pending = some p) (h1 : p.rejected = false) (h2 : p.c.id = id) :
      Slot.Step s (.reject a id audit) { s with pending := some { p with rejected := true } }
  /-- a contract in Go comes with a new account only -/
  | native (a : Bytes) (o : Option Bytes) (id code : Bytes) (h : s.exists_ = false) :
      Slot.Step s (.native a o id code) { s with exists_ := true, owner := o, active := some ⟨id, system, [], [], code⟩ }

/-- The address of an event. -/
def Ev.addr : Ev → Bytes
  | .create a _ => a
  | .transfer a _ _ => a
  | .deploy a _ _ _ _ _ _ _ => a
  | .setCode a _ => a
  | .accept a _ _ _ => a
  | .reject a _ _ => a
  | .native a _ _ _ => a

/-- The events, one after the other, lead to these contracts. -/
inductive Legal : List Ev → (Bytes → Slot) → Prop
  | nil : Legal [] (fun _ => ⟨false, none, none, none⟩)
  | snoc (l : List Ev) (f : Bytes → Slot) (e : Ev) (s : Slot) (h : Legal l f) (h1 : (f e.addr).Step e s) : Legal (l ++ [e]) (put f e.addr s)

end Verif.Deploy
