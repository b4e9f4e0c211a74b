import Mathlib.Data.Int.Basic
import Mathlib.Data.List.Basic
import Mathlib.Logic.Function.Basic

/-!
# Model of the Python executor at run time

Function-by-function model of
* `pyee/pyexec/iconscore/icon_score_step.py`   (`IconScoreStepCounter`),
* `pyee/pyexec/ipc/proxy.py`                   (`ServiceManagerProxy`: set-value pipeline,
                                                read-only right, nested invocation),
* `pyee/pyexec/database/db.py:75-265`          (`ProxyDatabase`, `ContextDatabase`),
* `pyee/pyexec/iconscore/internal_call.py`     (`message_call`),
* `pyee/pyexec/service_engine.py:58-115`       (`invoke`, `_handle_invoke`),
* `pyee/pyexec/iconscore/icon_score_eventlog.py:66-117` (right and charge of events),
* and, as far as the executor sees it, `service/eeproxy/proxy.go:420-470` and
  `service/state/account.go:788-816` (the store on the other side of the channel).

Simplifications
* the contract is any (terminating) interaction with the API: `Prog` is the tree of its API
  calls, its continuation receives results *and exceptions*, so contracts may catch anything;
* a hashed key is a pair of account and bytes; logging messages are dropped;
* the service answers `getBalance`, `getInfo` and `contains` by an arbitrary function of the
  store (`Env.answer`);
* events are represented by an identity and their byte size (their layout is C14).
-/
namespace Verif.PyExec

abbrev Bytes := List UInt8
/-- Account and hashed key. -/
abbrev Key := ℕ × Bytes
abbrev Store := Key → Option Bytes

/-- `StepType` (icon_score_step.py:30-46). -/
inductive StepType
  | schema | get | set | replace | delete | eventLog | apiCall
  | getBase | setBase | deleteBase | logBase | log
deriving DecidableEq, Repr

/-- `_step_costs.get(t, 0)` (icon_score_step.py:104-112, 207). -/
abbrev Costs := StepType → ℤ

/-- `get_base_step` with the table built in the constructor (icon_score_step.py:117-135, 204). -/
def baseStep (c : Costs) (t : StepType) : ℤ :=
  if c .schema = 0 then 0
  else match t with
    | .get => c .getBase
    | .set => c .setBase
    | .delete => c .deleteBase
    | .log => c .logBase
    | _ => 0

/-- Steps of `apply_step` (icon_score_step.py:166-171). -/
def applied (c : Costs) (t : StepType) (n : ℤ) : ℤ := baseStep c t + c t * n

/-- Steps of `refund_step` (icon_score_step.py:117-137, 189-194). -/
def refund (c : Costs) (n : ℤ) : ℤ :=
  if c .schema = 0 then (c .replace - c .set) * n
  else ((baseStep c .set + baseStep c .delete) / 2 - baseStep c .set) + c .delete * n

/-- Exceptions: `OutOfStepException` with its `step_used`, an `IconServiceBaseException` with
its code, any other Python exception, and the escape of an exception from the `finally` clause
of an invocation (nothing can catch that; the run ends). -/
inductive Exc
  | outOfStep (used : ℤ)
  | base (code : ℤ)
  | python
  | crash
deriving DecidableEq, Repr

/-- `ExceptionCode` values used (base/exception.py:20-38). -/
def codeOutOfStep : ℤ := 10
def codeAccessDenied : ℤ := 9
def codeIllegalFormat : ℤ := 5
def codeSystemError : ℤ := 1

/-! ### The channel and the service -/

/-- Requests on the channel. -/
inductive Req
  /-- `SETVALUE` with its DELETE flag (`none`) and OLDVALUE flag. -/
  | set (k : Key) (v : Option Bytes) (old : Bool)
  | get (k : Key)
  /-- `GETBALANCE`, `GETINFO`, `CONTAINS` with the step limit it carries -/
  | ask (id : ℕ) (limit : ℤ)

/-- Replies on the channel. -/
inductive Reply
  | old (has : Bool) (size : ℕ)
  | value (v : Option Bytes)
  | ans (a : Bool × ℕ × ℕ)
deriving DecidableEq, Repr

/-- The store of the service never holds empty values (service/state/account.go:788-791). -/
def clean (st : Store) : Store := fun k => match st k with | some (b :: bs) => some (b :: bs) | _ => none

/-- Parameters of a run. -/
structure Env where
  costs : Costs
  /-- `MAX_SET_VALUE_HANDLERS` (proxy.py:25) -/
  depth : ℕ
  /-- how many requests the service handles at each communication of the executor -/
  sched : ℕ → ℕ
  /-- answers of the service -/
  answer : Store → ℕ → ℤ → Bool × ℕ × ℕ

/-- What the service does with one request (eeproxy/proxy.go:420-470); an empty value is a
deletion (service/state/account.go:788-791), and deletion of nothing reports no old value. -/
def serve1 (E : Env) (st : Store) : Req → Store × List Reply
  | .set k v old =>
    (Function.update st k (match v with | some (b :: bs) => some (b :: bs) | _ => none),
      if old then [.old (st k).isSome ((st k).getD []).length] else [])
  | .get k => (st, [.value (st k)])
  | .ask id limit => (st, [.ans (E.answer st id limit)])

/-- The channel: requests not handled yet, replies not received yet, and the store. -/
structure Net where
  store : Store
  reqs : List Req
  resp : List Reply

/-- The service handles up to `n` requests in order. -/
def serve (E : Env) : ℕ → Net → Net
  | 0, net => net
  | n + 1, net =>
    match net.reqs with
    | [] => net
    | r :: rs =>
      let s := serve1 E net.store r
      serve E n { store := s.1, reqs := rs, resp := net.resp ++ s.2 }

/-- The service has handled everything. -/
def flush (E : Env) (net : Net) : Net := serve E net.reqs.length net

/-- Wait for a reply: requests are handled until there is one. -/
def await (E : Env) : List Req → Store → Option (Reply × Net)
  | [], _ => none
  | r :: rs, st =>
    let s := serve1 E st r
    match s.2 with
    | [] => await E rs s.1
    | a :: as => some (a, { store := s.1, reqs := rs, resp := as })

/-! ### The executor -/

/-- `IconScoreContext` with its step counter. -/
structure Frame where
  acct : ℕ
  /-- context type `QUERY` (otherwise `INVOKE`, pyexec.py:137) -/
  query : Bool
  /-- function type `READONLY` -/
  ro : Bool
  limit : ℤ
  used : ℤ := 0
  fee : ℤ := 0

/-- `readonly` (icon_score_context.py:105-108). -/
def Frame.readonly (f : Frame) : Bool := f.query || f.ro

/-- The two callbacks (db.py:234-262). -/
inductive HKind
  | refund | delete
deriving DecidableEq, Repr

/-- State-changing messages, with the mode of the frame that sent them. -/
inductive Out
  | setValue (query ro : Bool) (k : Key) (v : Option Bytes)
  | event (query ro : Bool) (acct id : ℕ)
  | fee (query ro : Bool) (acct : ℕ) (pct : ℤ)
deriving DecidableEq, Repr

/-- The state of the executor. -/
structure X where
  /-- top of the context stack -/
  fr : Frame
  /-- `__set_handlers` (proxy.py:251) -/
  q : List (HKind × ℕ)
  net : Net
  /-- `__readonly` (proxy.py:250) -/
  pro : Bool
  /-- messages sent, in order -/
  out : List Out
  tick : ℕ

/-- Computations that may raise. -/
abbrev EM (α : Type) := X → Except Exc α × X

/-- Sequencing. -/
def andThen {α β : Type} (m : EM α) (f : α → EM β) : EM β := fun x =>
  match m x with
  | (.ok a, x') => f a x'
  | (.error e, x') => (.error e, x')

/-- `client.send`; meanwhile the service may handle some requests. -/
def send (E : Env) (r : Req) (x : X) : X :=
  { x with
    net := (serve E (E.sched x.tick) { x.net with reqs := x.net.reqs ++ [r] })
    tick := x.tick + 1 }

/-- `client.receive`: blocks until a reply arrives (never returning if none can come is
represented by a Python exception; it does not happen, see `receive_some`). -/
def receive (E : Env) : EM Reply := fun x =>
  let net := serve E (E.sched x.tick) x.net
  match net.resp with
  | a :: as => (.ok a, { x with net := { net with resp := as }, tick := x.tick + 1 })
  | [] =>
    match await E net.reqs net.store with
    | some (a, net') => (.ok a, { x with net := net', tick := x.tick + 1 })
    | none => (.error .python, x)

/-- `add_step` (icon_score_step.py:196-198). -/
def addStep (n : ℤ) (x : X) : X := { x with fr := { x.fr with used := x.fr.used + n } }

/-- The callback for a reply (proxy.py:435-446 with db.py:234-262); `consume` is the step
counter's `consume_step`. -/
def handler (E : Env) (consume : ℤ → EM Unit) (h : HKind) (newSize : ℕ) : Reply → EM Unit
  | .old has size => fun x =>
    if x.fr.query then (.ok (), x)
    else if !has then (.ok (), x)
    else match h with
      | .refund =>
        (.ok (), addStep (refund E.costs (if E.costs .schema = 0 then newSize else size)) x)
      | .delete =>
        let step := applied E.costs .delete size
        if step = 0 then (.ok (), x) else consume step x
  | _ => fun x => (.error .python, x)

/-- `__handle_set_values` (proxy.py:435-446). Popping from an empty list raises `IndexError`. -/
def drainWith (E : Env) (consume : ℤ → EM Unit) : ℕ → EM Unit
  | 0 => fun x => (.ok (), x)
  | n + 1 => fun x =>
    match x.q with
    | [] => (.error .python, x)
    | (h, size) :: q =>
      andThen (receive E) (fun r => andThen (handler E consume h size r)
        (fun _ => drainWith E consume n)) { x with q := q }

/-- `consume_step` (icon_score_step.py:173-187) with `fuel` nested calls of the refund handler.
The queue is shorter in each nested call, so `queue length + 1` is always enough
(`consume_fuel`). -/
def consume (E : Env) : ℕ → ℤ → EM Unit
  | 0, _ => fun x => (.error .crash, x)
  | fuel + 1, step => fun x =>
    if x.fr.used + step ≤ x.fr.limit then
      (.ok (), { x with fr := { x.fr with used := x.fr.used + step } })
    else if x.q.length > 0 then
      andThen (drainWith E (consume E fuel) x.q.length) (fun _ => consume E fuel step) x
    else
      (.error (.outOfStep x.fr.used), { x with fr := { x.fr with used := x.fr.limit } })

/-- `consume_step`. -/
def consumeStep (E : Env) (step : ℤ) : EM Unit := fun x => consume E (x.q.length + 1) step x

/-- `apply_step` (icon_score_step.py:164-171). -/
def applyStep (E : Env) (t : StepType) (n : ℤ) : EM Unit := fun x =>
  let step := applied E.costs t n
  if step = 0 then (.ok (), x) else consumeStep E step x

/-- `handle_set_values` (proxy.py:428-433): drain everything. -/
def drain (E : Env) : EM Unit := fun x =>
  drainWith E (consume E x.q.length) x.q.length x

/-- `step_remained` (icon_score_step.py:158-162). -/
def stepRemained (E : Env) : EM ℤ :=
  andThen (drain E) (fun _ x => (.ok (x.fr.limit - x.fr.used), x))

/-- `get_value` (proxy.py:448-460). -/
def getValue (E : Env) (k : Bytes) : EM (Option Bytes) := fun x =>
  andThen (drain E) (fun _ => andThen (receive E) (fun r => match r with
    | .value v => fun x => (.ok v, x)
    | _ => fun x => (.error .python, x))) (send E (.get (x.fr.acct, k)) x)

/-- `contains`, `get_balance`, `get_info` (proxy.py:485-505). -/
def ask (E : Env) (id : ℕ) (limit : ℤ) : EM (Bool × ℕ × ℕ) := fun x =>
  andThen (drain E) (fun _ => andThen (receive E) (fun r => match r with
    | .ans a => fun x => (.ok a, x)
    | _ => fun x => (.error .python, x))) (send E (.ask id limit) x)

/-- `set_value` (proxy.py:462-477). -/
def setValue (E : Env) (k : Bytes) (v : Option Bytes) (cb : Option HKind) : EM Unit := fun x =>
  if x.pro then (.error .python, x)
  else
    let x1 := send E (.set (x.fr.acct, k) v cb.isSome)
      { x with out := x.out ++ [.setValue x.fr.query x.fr.ro (x.fr.acct, k) v] }
    match cb with
    | none => (.ok (), x1)
    | some h =>
      let q := x1.q ++ [(h, (v.getD []).length)]
      if q.length > E.depth then
        drainWith E (consume E q.length) (q.length - E.depth) { x1 with q := q }
      else (.ok (), { x1 with q := q })

/-! ### ContextDatabase — db.py:127-265 -/

/-- `get` (db.py:138-147, 247-252). -/
def dbGet (E : Env) (k : Bytes) : EM (Option Bytes) :=
  andThen (getValue E k) fun v =>
    andThen (applyStep E .get (v.getD []).length) fun _ x => (.ok v, x)

/-- The fallback of `put` after an `OutOfStepException` (db.py:166-181). -/
def putFallback (E : Env) (k v : Bytes) (used : ℤ) : EM Unit := fun x =>
  andThen (getValue E k) (fun o =>
    andThen
      (if E.costs .schema = 0 then
        if (o.getD []).length > 0 then applyStep E .replace v.length
        else applyStep E .set v.length
      else
        fun x =>
          let x1 :=
            if (o.getD []).length > 0 ∧ x.fr.query = false then
              addStep (refund E.costs (if E.costs .schema = 0 then 0 else (o.getD []).length)) x
            else x
          applyStep E .set v.length x1)
      fun _ => setValue E k (some v) none)
    (addStep (used - x.fr.limit) x)

/-- `put` (db.py:149-186). -/
def dbPut (E : Env) (k v : Bytes) : EM Unit := fun x =>
  if x.fr.readonly then (.error (.base codeAccessDenied), x)
  else if v.length > 0 then
    match andThen
        (fun x => if x.fr.query then (.ok (), x) else applyStep E .set v.length x)
        (fun _ => setValue E k (some v) (some .refund)) x with
    | (.error (.outOfStep used), x') => putFallback E k v used x'
    | r => r
  else setValue E k (some v) (some .delete) x

/-- `delete` (db.py:188-197). -/
def dbDelete (E : Env) (k : Bytes) : EM Unit := fun x =>
  if x.fr.readonly then (.error (.base codeAccessDenied), x)
  else setValue E k none (some .delete) x

/-- `contains` (db.py:199-212). -/
def dbContains (E : Env) (id : ℕ) : EM Bool :=
  andThen (stepRemained E) fun rem =>
    andThen (ask E id rem) fun a =>
      andThen
        (fun x => if a.2.1 > 1 then
          consumeStep E (baseStep E.costs .get * ((a.2.1 : ℤ) - 1)) x else (.ok (), x))
        fun _ => andThen (applyStep E .get a.2.2) fun _ x => (.ok a.1, x)

/-! ### Other API functions -/

/-- `emit_event_log` (icon_score_eventlog.py:73-117) and `send_event` (proxy.py:507-513). -/
def emitEvent (E : Env) (id size : ℕ) : EM Unit := fun x =>
  if x.fr.readonly then (.error (.base codeIllegalFormat), x)
  else
    andThen (applyStep E (if E.costs .schema = 0 then .eventLog else .log) size)
      (fun _ x =>
        if x.pro then (.ok (), x)
        else (.ok (), { x with out := x.out ++ [.event x.fr.query x.fr.ro x.fr.acct id] })) x

/-- `set_fee_sharing_proportion` (icon_score_base.py:626-632). -/
def setFee (p : ℤ) : EM Unit := fun x =>
  if x.fr.query then (.error (.base codeIllegalFormat), x)
  else if p < 0 ∨ p > 100 then (.error (.base codeIllegalFormat), x)
  else (.ok (), { x with fr := { x.fr with fee := p } })

/-! ### Contracts -/

/-- A contract: the tree of its API calls. -/
inductive Prog
  | ret
  /-- (`crash` is not an exception of a contract and read as any other one) -/
  | raise (e : Exc)
  | get (k : Bytes) (κ : Except Exc (Option Bytes) → Prog)
  | put (k v : Bytes) (κ : Except Exc Unit → Prog)
  | del (k : Bytes) (κ : Except Exc Unit → Prog)
  | contains (id : ℕ) (κ : Except Exc Bool → Prog)
  /-- `get_balance` and the like -/
  | balance (id : ℕ) (κ : Except Exc (Bool × ℕ × ℕ) → Prog)
  | event (id size : ℕ) (κ : Except Exc Unit → Prog)
  /-- hashing, JSON and signature functions charge steps -/
  | api (step : ℕ) (κ : Except Exc Unit → Prog)
  | setFee (p : ℤ) (κ : Except Exc Unit → Prog)
  /-- call of another contract run by this executor; the service takes `over` steps and decides
  about query mode, which callees inherit (service/contract/callframe.go:42) -/
  | call (acct : ℕ) (query ro : Bool) (over : ℕ) (child : Prog) (κ : Except Exc Unit → Prog)
  /-- call answered elsewhere: any effect on the store (none in query mode), any status and any
  steps -/
  | remote (f : ℤ → Store → Store × ℤ × ℤ) (κ : Except Exc Unit → Prog)

/-- `_get_status_from_exception` (service_engine.py:117-133). -/
def statusOf : Except Exc Unit → ℤ
  | .ok _ => 0
  | .error (.outOfStep _) => codeOutOfStep
  | .error (.base c) => c
  | .error .python => codeSystemError
  | .error .crash => codeSystemError

/-- The `finally` clause of `_handle_invoke` (service_engine.py:91-97) and
`set_fee_proportion` (proxy.py:479-485): an exception here escapes. -/
def finish (E : Env) (r : Except Exc Unit × X) : Except Exc ℤ × X :=
  match r with
  | (.error .crash, x) => (.error .crash, x)
  | (res, x) =>
    match drain E x with
    | (.error _, x') => (.error .crash, x')
    | (.ok _, x') =>
      if x'.fr.fee > 0 then
        if x'.pro then (.error .crash, x')
        else (.ok (statusOf res),
          { x' with out := x'.out ++ [.fee x'.fr.query x'.fr.ro x'.fr.acct x'.fr.fee] })
      else (.ok (statusOf res), x')

/-- The end of `message_call` (internal_call.py:64-76): account for the steps of the callee. -/
def callResult (newLimit status used : ℤ) : EM Unit := fun x =>
  if used > newLimit then (.error .python, addStep newLimit x)
  else if status = 0 then (.ok (), addStep used x)
  else (.error (.base status), addStep used x)

/-- The contract continues with the result of an API function. `crash` cannot be caught. -/
def next {α : Type} (r : Except Exc α × X) (f : Except Exc α → EM Unit) : Except Exc Unit × X :=
  match r with
  | (.error .crash, x) => (.error .crash, x)
  | (r, x) => f r x

/-- Running a contract. -/
def run (E : Env) : Prog → EM Unit
  | .ret => fun x => (.ok (), x)
  | .raise e => fun x => (.error (if e = .crash then .python else e), x)
  | .get k κ => fun x => next (dbGet E k x) fun r => run E (κ r)
  | .put k v κ => fun x => next (dbPut E k v x) fun r => run E (κ r)
  | .del k κ => fun x => next (dbDelete E k x) fun r => run E (κ r)
  | .contains id κ => fun x => next (dbContains E id x) fun r => run E (κ r)
  | .balance id κ => fun x => next (ask E id 0 x) fun r => run E (κ r)
  | .event id size κ => fun x => next (emitEvent E id size x) fun r => run E (κ r)
  | .api step κ => fun x => next (consumeStep E step x) fun r => run E (κ r)
  | .setFee p κ => fun x => next (setFee p x) fun r => run E (κ r)
  | .call acct query ro over child κ => fun x =>
    -- `message_call` (internal_call.py:44-63)
    next (stepRemained E x) fun r x1 => match r with
    | .error e => run E (κ (.error e)) x1
    | .ok newLimit =>
      -- the service has handled everything before it acts on the call
      let net := flush E x1.net
      if newLimit < over then
        let r := callResult newLimit codeOutOfStep newLimit { x1 with net := net }
        run E (κ r.1) r.2
      else
        -- `__handle_invoke` (proxy.py:355-394)
        match finish E (run E child
          { x1 with net := net, pro := x1.fr.query || query,
                    fr := ⟨acct, x1.fr.query || query, ro, newLimit - over, 0, 0⟩ }) with
        | (.error e, x2) => (.error e, x2)
        | (.ok status, x2) =>
          -- RESULT: a failed call is rolled back by the service
          let net2 := flush E x2.net
          let r := callResult newLimit status (over + x2.fr.used)
            { x2 with fr := x1.fr, pro := x1.pro,
                      net := if status = 0 then net2 else { net2 with store := net.store } }
          run E (κ r.1) r.2
  | .remote f κ => fun x =>
    next (stepRemained E x) fun r x1 => match r with
    | .error e => run E (κ (.error e)) x1
    | .ok newLimit =>
      let net := flush E x1.net
      let a := f newLimit net.store
      let r := callResult newLimit a.2.1 a.2.2 
        { x1 with net := if x1.fr.query then net else { net with store := clean a.1 } }
      run E (κ r.1) r.2

/-- The outcome of an invocation by the service: status, steps used, the store after
everything has been handled, and the messages sent; `none` if the executor died. -/
def invoke (E : Env) (p : Prog) (acct : ℕ) (query ro : Bool) (limit : ℤ) (store : Store) :
    Option (ℤ × ℤ × Store × List Out) :=
  match finish E (run E p
    { fr := ⟨acct, query, ro, limit, 0, 0⟩, q := [], net := ⟨store, [], []⟩, pro := query,
      out := [], tick := 0 }) with
  | (.error _, _) => none
  | (.ok status, x) => some (status, x.fr.used, (flush E x.net).store, x.out)

end Verif.PyExec
