import Verif.Api.Types
import Verif.Container.Model

/-!
# Event logs

* declaring and calling an event: `eventlog`, `__retrieve_event_signature`, `__resolve_arguments`
  (pyee/pyexec/iconscore/icon_score_base.py:92-232);
* emitting it: `emit_event_log` (icon_score_eventlog.py:73-149), `send_event`, `encode`
  (pyee/pyexec/ipc/proxy.py:294-308, 524-530);
* the check by the service: `CheckEventData`, `ValidateEvent`, `Signature`
  (service/scoreapi/method.go:396-427, 803-809, 835-859, service/scoreapi/info.go:81-91).

Classes derived from the base types, and signatures built with other tools than `def`, are not represented.
Step charging and the read-only rule are in `Verif/PyExec`.
-/
namespace Verif.Api
open Verif.Container (PyVal utf8 utf8Decode)
open Verif.IntCodec

/-- Arguments of an event call: values of the base types, `None`, or something else. -/
inductive Val
  | ok (v : PyVal)
  | other
deriving DecidableEq

/-- `inspect.Parameter`: name, annotation and default. -/
structure Param where
  name : String
  hint : Option Hint
  default : Option Val

/-- A function decorated with `@eventlog(indexed=..)`. -/
structure Decl where
  fname : List Char
  params : List Param
  indexed : ℤ

inductive EvErr
  | noSelf | indexedOverflow | indexExceeds | noHint | unsupportedHint
  | tooManyArguments | duplicated | missing | typeMismatch | reserved | readonly | indexedCount
deriving DecidableEq, Repr

/-- `','.join(l)` -/
def joinComma : List (List Char) → List Char
  | [] => []
  | [a] => a
  | a :: b :: l => a ++ ',' :: joinComma (b :: l)

/-- The class of a parameter of an event (icon_score_base.py:168-181). -/
def mainType : Option Hint → Except EvErr Base
  | none => .error .noHint
  | some (.base b) => .ok b
  | some (.text s) => if s = "Address" then .ok .address else .error .unsupportedHint
  | some _ => .error .unsupportedHint

/-- The loop of `__retrieve_event_signature` (icon_score_base.py:163-183). -/
def mainTypes : List Param → Except EvErr (List Base)
  | [] => .ok []
  | p :: l => match mainType p.hint with
    | .error e => .error e
    | .ok b => match mainTypes l with
      | .error e => .error e
      | .ok bs => .ok (b :: bs)

/-- `f"{function_name}({','.join(type_names)})"` (icon_score_base.py:184). -/
def signatureOf (fname : List Char) (names : List (List Char)) : List Char :=
  fname ++ '(' :: joinComma names ++ [')']

/-- An event after decoration: parameters without `self`. -/
structure Event where
  fname : List Char
  params : List Param
  types : List Base
  indexed : ℤ

def Event.signature (e : Event) : List Char := signatureOf e.fname (e.types.map Base.pyName)

/-- `eventlog` (icon_score_base.py:111-133), decorated once. -/
def declare (d : Decl) : Except EvErr Event :=
  match d.params with
  | [] => .error .noSelf
  | s :: ps =>
    if s.name ≠ "self" then .error .noSelf
    else if d.indexed > 3 then .error .indexedOverflow
    else if (ps.length : ℤ) < d.indexed then .error .indexExceeds
    else match mainTypes ps with
      | .error e => .error e
      | .ok ts => .ok ⟨d.fname, ps, ts, d.indexed⟩

/-- `isinstance(value, main_type)` (`bool` is an `int` in Python). -/
def isInstance : PyVal → Base → Bool
  | .int _, .int => true
  | .bool _, .int => true
  | .bool _, .bool => true
  | .str _, .str => true
  | .bytes _, .bytes => true
  | .addr _, .address => true
  | _, _ => false

/-- `kwargs[name]`; the keys of a dictionary are distinct. -/
def lookup (n : String) : List (String × Val) → Option Val
  | [] => none
  | (k, v) :: l => if k = n then some v else lookup n l

/-- The value of one parameter (icon_score_base.py:207-222). -/
def valueOf (p : Param) (pos : Option Val) (kwargs : List (String × Val)) : Except EvErr Val :=
  match pos with
  | some v => if (lookup p.name kwargs).isSome then .error .duplicated else .ok v
  | none => match lookup p.name kwargs with
    | some v => .ok v
    | none => match p.default with
      | some v => .ok v
      | none => .error .missing

/-- The type check (icon_score_base.py:224-232). -/
def checkType (v : Val) (b : Base) : Except EvErr PyVal :=
  match v with
  | .other => .error .typeMismatch
  | .ok .none => .ok .none
  | .ok x => if isInstance x b then .ok x else .error .typeMismatch

/-- The loop of `__resolve_arguments` (icon_score_base.py:202-233); `args` are the positional
arguments not used yet. -/
def resolveLoop (kwargs : List (String × Val)) : List Param → List Base → List Val →
    Except EvErr (List PyVal)
  | p :: ps, b :: bs, args => match valueOf p args.head? kwargs with
    | .error e => .error e
    | .ok v => match checkType v b with
      | .error e => .error e
      | .ok x => match resolveLoop kwargs ps bs args.tail with
        | .error e => .error e
        | .ok xs => .ok (x :: xs)
  | _, _, _ => .ok []

/-- `__resolve_arguments` (icon_score_base.py:187-233). -/
def resolve (e : Event) (args : List Val) (kwargs : List (String × Val)) : Except EvErr (List PyVal) :=
  if e.params.length < args.length + kwargs.length then .error .tooManyArguments
  else resolveLoop kwargs e.params e.types args

/-- `encode` (proxy.py:294-308); `none` is nil. -/
def encode : PyVal → Option Bytes
  | .none => none
  | .str s => some (utf8 s)
  | .bytes b => some b
  | .bool b => some (if b then [1] else [0])
  | .int i => some ((pyIntToBytes i).getD [])
  | .addr a => some (Address.toBytes a)

/-- `__get_byte_length` (icon_score_eventlog.py:120-139). -/
def byteLength : PyVal → ℕ
  | .none => 0
  | .int i => pyByteLength i
  | .bool b => pyByteLength (if b then 1 else 0)
  | .str s => (utf8 s).length
  | .addr a => (Address.toBytes a).length
  | .bytes b => b.length

/-- The message `EVENT`: indexed values and data. -/
structure Msg where
  indexed : List (Option Bytes)
  data : List (Option Bytes)
deriving DecidableEq

/-- The loop separating the arguments (icon_score_eventlog.py:103-110), from position `i`. -/
def separate (k : ℤ) (i : ℕ) : List PyVal → List PyVal × List PyVal
  | [] => ([], [])
  | a :: l =>
    let r := separate k (i + 1) l
    if (i : ℤ) < k then (a :: r.1, r.2) else (r.1, a :: r.2)

/-- `ICX_TRANSFER_EVENT_LOG` (icon_constant.py:24). -/
def reservedSignature : List Char := "ICXTransfer(Address,Address,int)".toList

/-- Calling an event (icon_score_base.py:135-153) and `emit_event_log` (icon_score_eventlog.py:92-117): the size
charged and the message sent. -/
def emit (readonly : Bool) (e : Event) (args : List Val) (kwargs : List (String × Val)) :
    Except EvErr (ℕ × Msg) :=
  match resolve e args kwargs with
  | .error x => .error x
  | .ok vs =>
    if e.signature = reservedSignature then .error .reserved
    else if readonly then .error .readonly
    else if e.indexed > vs.length then .error .indexedCount
    else
      let sig := PyVal.str (String.ofList e.signature)
      let size := byteLength sig + (vs.map byteLength).sum
      let p := separate e.indexed 0 vs
      .ok (size, ⟨(sig :: p.1).map encode, p.2.map encode⟩)

/-! ### The service -/

/-- The parts of `Method` (method.go:616-623) used for events. -/
structure GoMethod where
  name : List Char
  indexed : ℤ
  inputs : List ℕ
deriving DecidableEq

/-- The code of a parameter: `normalize_parameter` (element.py:109-132: a missing hint is `str`, a default `None`
makes it optional), `_get_input`, `convert_data_type`. Errors on defaults are not modelled. -/
def paramCode (p : Param) : Option ℕ :=
  (normalize true (p.hint.getD (.base .str))).bind (fun h =>
    convertDataType (typeName (if p.default = some (.ok .none) then mkOpt h else h)))

def paramCodes : List Param → Option (List ℕ)
  | [] => some []
  | p :: l => match paramCode p with
    | none => none
    | some c => (paramCodes l).map (c :: ·)

/-- The entry of the API for an event: `_get_eventlog` (definition.py:74-94), `add_event` (proxy.py:232-242),
received as `Method`. -/
def eventMethod (e : Event) : Option GoMethod :=
  (paramCodes e.params).map (fun cs => ⟨e.fname, e.indexed, cs⟩)

/-- `Signature` (method.go:803-809). -/
def GoMethod.signature (m : GoMethod) : List Char :=
  signatureOf m.name (m.inputs.map (fun t => (goString t).getD []))

/-- `ValidateEvent` (method.go:396-427) with `UsableForEvent` (method.go:453-459). -/
def validateEvent (t : ℕ) (bs : Option Bytes) : Bool :=
  if goIsList t ∨ t = 0 ∨ goTag t = 0 ∨ goTag t > 5 then false
  else match bs with
    | none => true
    | some bs =>
      if goTag t = 1 then bs.length != 0
      else if goTag t = 4 then bs == [0] || bs == [1]
      else if goTag t = 5 then (Address.goSetBytes bs).isSome
      else if goTag t = 2 then (utf8Decode bs).isSome
      else true

/-- The loop of `CheckEventData` (method.go:846-857). -/
def checkInputs : List ℕ → List (Option Bytes) → Bool
  | [], _ => true
  | _ :: _, [] => false
  | t :: ts, b :: bs => validateEvent t b && checkInputs ts bs

/-- `CheckEventData` (method.go:835-859): the inputs are the indexed values after the signature, then the
data. -/
def GoMethod.checkEventData (m : GoMethod) (g : Msg) : Bool :=
  if g.indexed.length + g.data.length ≠ m.inputs.length + 1 then false
  else if (g.indexed.length : ℤ) ≠ m.indexed + 1 then false
  else checkInputs m.inputs (g.indexed.tail ++ g.data)

/-- `Info.CheckEventData` (info.go:81-91) on the events of a contract: the method is looked up by the
signature in the message (the last one entered wins, info.go:41-55), and `OnEvent`
(service/contract/callhandler.go:535-558) records the event exactly if this succeeds. -/
def recorded (ms : List GoMethod) (g : Msg) : Bool :=
  match g.indexed with
  | [] => false
  | s :: _ => match ms.reverse.find? (fun m => utf8 (String.ofList m.signature) == s.getD []) with
    | none => false
    | some m => m.checkEventData g

end Verif.Api
