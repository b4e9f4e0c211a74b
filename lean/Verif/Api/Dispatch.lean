import Mathlib.Data.List.Nodup
import Mathlib.Data.Int.Basic
import Mathlib.Tactic.Common

/-!
# Which method a message runs

* Python: decorators (pyee/pyexec/iconscore/icon_score_base.py:95-330), `create_score_element_metadata`,
  `verify_score_flag` (typing/element.py:40-50, 213-228, 370-397), `get_score_api` (typing/definition.py:42-105),
  `__call` (icon_score_base.py:431-476);
* Go: `buildMethodMap` (service/scoreapi/info.go:41-55), method predicates (method.go:625-651), `GetHandler`,
  `GetCallHandler` (service/contract/contractmanager.go:178-236), `OnCall` (callhandler.go:565-586),
  `TransferAndCallHandler` (callhandler.go:637-722), `ensureMethodAndParams` (callhandler.go:308-361),
  `QueryHandler.Query` (service/queryhandler.go:24-50), `AcceptHandler` (deployhandler.go:425-475).

Not modelled: parameters, steps, disabled contracts, deployment states; balances: the check of the sender's
balance is an arbitrary answer (`funds`). Contract instances are assumed not to replace their methods.
-/
namespace Verif.Api.Dispatch

/-- `ScoreFlag` (icon_score_constant.py:37-53). -/
structure Flags where
  readonly : Bool := false
  external : Bool := false
  payable : Bool := false
  fallback : Bool := false
  isolated : Bool := false
  eventlog : Bool := false
  interface : Bool := false
deriving DecidableEq, Repr

inductive Deco
  | external (readonly : Bool)
  | payable
  | isolated
  | eventlog
  | interface
deriving DecidableEq, Repr

/-- A function in the body of a contract class, possibly inherited: the attribute it is found under, its
`__name__`, its decorators from the inside out, whether it is abstract, whether its signature is one a fallback may
have, and the event signature (for events). -/
structure Member where
  key : String
  fname : String
  decos : List Deco
  abstract : Bool := false
  fallbackSig : Bool := true
  signature : String := ""
deriving DecidableEq, Repr

/-- One decorator (icon_score_base.py:46-73, 111-133, 252-268, 288-301, 318-325); `none`: an exception. The checks of
`eventlog` on parameters are in `Verif/Api/Event.lean`. -/
def apply1 (fname : String) (f : Flags) : Deco → Option Flags
  | .external ro =>
    if fname = "fallback" then none
    else if f.external then none
    else some { f with external := true, readonly := f.readonly || ro }
  | .payable =>
    if f.payable then none
    else some { f with payable := true, fallback := f.fallback || fname == "fallback" }
  | .isolated => if f.isolated then none else some { f with isolated := true }
  | .eventlog => if f.eventlog then none else some { f with eventlog := true }
  | .interface => if f.interface then none else some { f with interface := true }

def applyAll (fname : String) : Flags → List Deco → Option Flags
  | f, [] => some f
  | f, d :: l => (apply1 fname f d).bind (fun f => applyAll fname f l)

def Member.flags (m : Member) : Option Flags := applyAll m.fname {} m.decos

/-- `_VALID_SCORE_FLAG_COMBINATION` (element.py:43-50). -/
def validCombinations : List Flags :=
  [{ external := true }, { external := true, payable := true }, { external := true, readonly := true },
   { fallback := true, payable := true }, { eventlog := true }, { interface := true }]

/-- `verify_score_flag` (element.py:213-226) with `allow_payable_only=True`. -/
def verifyFlag (f : Flags) : Bool := validCombinations.contains f || f == { payable := true }

/-- `FUNC | EVENTLOG` on (element.py:385). -/
def Flags.collected (f : Flags) : Bool :=
  f.readonly || f.external || f.payable || f.fallback || f.isolated || f.eventlog

/-- `is_any_flag_on(flag, ScoreFlag.ALL)`. -/
def Flags.any (f : Flags) : Bool := f.collected || f.interface

/-- `FunctionMetadata` / `EventLogMetadata` (element.py:256-317). -/
structure Element where
  key : String
  fname : String
  flags : Flags
  event : Bool
  signature : String
deriving DecidableEq, Repr

/-- `FunctionMetadata.is_fallback` (element.py:280-282). -/
def Flags.isFallback (f : Flags) : Bool := f.fallback && f.payable

/-- The body of the loop of `create_score_element_metadata` (element.py:373-391): the element, if any;
`none` is an exception. -/
def elementOf (m : Member) : Option (Option Element) :=
  match m.flags with
  | none => none
  | some f =>
    if m.key.startsWith "__" then some none
    else if m.key = "on_install" ∨ m.key = "on_update" then
      if m.abstract then some none
      else if f.any then none
      else some (some ⟨m.key, m.fname, f, false, ""⟩)
    else if f.collected then
      if verifyFlag f then
        if f.eventlog then some (some ⟨m.key, m.fname, f, true, m.signature⟩)
        -- `_verify_fallback_signature`
        else if f.isFallback && !m.fallbackSig then none
        else some (some ⟨m.key, m.fname, f, false, ""⟩)
      else none
    else some none

/-- `create_score_element_metadata` (element.py:370-394). -/
def elements : List Member → Option (List Element)
  | [] => some []
  | m :: l => match elementOf m, elements l with
    | some none, some es => some es
    | some (some e), some es => some (e :: es)
    | _, _ => none

/-! ### The API -/

inductive MType | function | fallback | event
deriving DecidableEq, Repr

/-- `scoreapi.Method` (method.go:580-623), only what selects methods. -/
structure Method where
  type : MType
  name : String
  readonly : Bool
  external : Bool
  payable : Bool
  signature : String
deriving DecidableEq, Repr

/-- `get_score_api` for one element (definition.py:52-67, 70-105). -/
def methodOf (e : Element) : Option Method :=
  if e.event then some ⟨.event, e.fname, false, false, false, e.signature⟩
  else if e.flags = { payable := true } then none
  else some ⟨if e.fname = "fallback" ∧ e.flags.payable = true then .fallback else .function, e.fname,
    e.flags.readonly, e.flags.external, e.flags.payable, ""⟩

/-- `IsReadOnly` (method.go:629-631). -/
def Method.isReadOnly (m : Method) : Bool := m.type == .function && m.readonly
/-- `IsExternal` (method.go:633-635). -/
def Method.isExternal (m : Method) : Bool := m.type == .function && (m.external || m.readonly)
/-- `IsPayable` (method.go:625-627). -/
def Method.isPayable (m : Method) : Bool := m.type != .event && m.payable

/-- The key of a method in `buildMethodMap` (info.go:41-55); `FallbackMethodName` is the empty text. -/
def Method.mapKey (m : Method) : Option String :=
  match m.type with
  | .event => some m.signature
  | .fallback => some ""
  | .function => if m.name = "" then none else some m.name

/-- `GetMethod`: the last method entered under a key. -/
def getMethod (ms : List Method) (name : String) : Option Method :=
  ms.reverse.find? (fun m => m.mapKey == some name)

/-- The API of a class, and its elements. -/
structure Class where
  els : List Element
  api : List Method
deriving DecidableEq, Repr

/-- The class statement (`IconScoreBaseMeta.__new__`, icon_score_base.py:349-366). -/
def load (ms : List Member) : Option Class :=
  (elements ms).map (fun es => ⟨es, es.filterMap methodOf⟩)

/-! ### Requests -/

inductive Req
  /-- plain transfer to the contract in a transaction -/
  | transfer (value : ℤ)
  /-- transaction with `dataType = "call"` -/
  | userCall (name : String) (value : ℤ)
  /-- call by another contract (`OnCall`); `""` if it names no method -/
  | contractCall (name : String) (value : ℤ)
  /-- `icx_call` -/
  | query (name : String)
  /-- acceptance of a deployment: `on_install` or `on_update` -/
  | deploy (update : Bool)
deriving DecidableEq, Repr

inductive Err
  | noMethod | notFound | notPayable | accessDenied | transferFailed
deriving DecidableEq, Repr

inductive Outcome
  | rejected (e : Err)
  /-- success without running anything -/
  | nothing
  /-- the attribute `key` of the contract is called -/
  | runs (key : String) (readonly : Bool) (value : ℤ)
deriving DecidableEq, Repr

/-- `elements.get(func_name)`; keys of a class are distinct. -/
def Class.element (c : Class) (name : String) : Option Element := c.els.find? (fun e => e.key == name)

/-- `__is_external_method` (icon_score_base.py:457-460). -/
def Class.isExternal (c : Class) (name : String) : Bool :=
  match c.element name with
  | some e => !e.event && e.flags.external
  | none => false

/-- `__is_payable_method` (icon_score_base.py:462-465). -/
def Class.isPayable (c : Class) (name : String) : Bool :=
  match c.element name with
  | some e => !e.event && e.flags.payable
  | none => false

/-- `IconScoreBase.__call` (icon_score_base.py:431-455). -/
def pyCall (c : Class) (name : String) (readonly : Bool) (value : ℤ) : Outcome :=
  if name ≠ "fallback" ∧ name ≠ "on_install" ∧ name ≠ "on_update" ∧ c.isExternal name = false then .rejected .notFound
  else if name = "fallback" then
    if c.isPayable name = false then .rejected .notFound else .runs name readonly value
  else if value > 0 ∧ c.isPayable name = false then .rejected .notPayable
  else .runs name readonly value

/-- `ensureMethodAndParams` and `invokeEEMethod` (callhandler.go:308-361, 224-265); `ro` is `ReadOnlyMode()`. -/
def callHandler (c : Class) (external forDeploy ro : Bool) (name : String) (value : ℤ) : Outcome :=
  match getMethod c.api name with
  | none => .rejected .notFound
  | some m =>
    if m.type = .event then .rejected .notFound
    else if forDeploy then pyCall c m.name ro value
    else if m.type = .fallback ∧ external = true then .rejected .notFound
    else if m.type ≠ .fallback ∧ (name = "on_install" ∨ name = "on_update") then .rejected .notFound
    else if m.type ≠ .fallback ∧ m.isExternal = false then .rejected .notFound
    else if m.isReadOnly ≠ ro then
      if m.isReadOnly then pyCall c m.name true value else .rejected .accessDenied
    else pyCall c m.name ro value

/-- `TransferAndCallHandler.DoExecuteAsync` (callhandler.go:666-716); `legacy` is the revision flag, `funds`
whether the sender can pay. -/
def transferAndCall (c : Class) (legacy funds external ro : Bool) (name : String) (value : ℤ) : Outcome :=
  -- `TransferHandler.DoExecuteSync` (transferhandler.go:37-60)
  if ro then .rejected .accessDenied
  else if value < 0 then .rejected .transferFailed
  else if !funds then .rejected .transferFailed
  else
    let m := getMethod c.api name
    let payable := match m with
      | some m => m.isPayable
      | none => false
    if name = "" then
      if legacy then
        if value > 0 ∧ payable = false then .rejected .notPayable
        else if m = none then .nothing
        else callHandler c external false ro name value
      else if payable = false then .rejected .notFound
      else callHandler c external false ro name value
    else match m with
      | none => .rejected .notFound
      | some m =>
        if m.isPayable = false then .rejected .notPayable
        else if m.isReadOnly then .rejected .accessDenied
        else callHandler c external false ro name value

/-- What a request does on an active contract; `ro` is the mode of the caller (false for transactions). -/
def handle (c : Class) (legacy funds ro : Bool) : Req → Outcome
  | .transfer v => transferAndCall c legacy funds false false "" v
  | .userCall name v =>
    -- `ParseCallData` (callhandler.go:728-738)
    if name = "" then .rejected .noMethod
    else if v > 0 then transferAndCall c legacy funds true false name v
    else callHandler c true false false name v
  | .contractCall name v =>
    if v > 0 then transferAndCall c legacy funds false ro name v
    else callHandler c false false ro name v
  | .query name =>
    if name = "" then .rejected .noMethod
    else match getMethod c.api name with
      | none => .rejected .notFound
      | some m => if m.isReadOnly = false then .rejected .accessDenied
        else callHandler c true false true name 0
  | .deploy update => callHandler c false true false (if update then "on_update" else "on_install") 0

end Verif.Api.Dispatch
