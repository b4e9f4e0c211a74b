import Verif.Base.Bytes
import Mathlib.Data.List.Nodup
import Mathlib.Data.List.TakeDrop

/-!
# Type hints and type codes of contract methods

* Python: `normalize_type_hint` and `check_if_struct_is_valid` (pyee/pyexec/iconscore/typing/element.py:156-211,
  433-478), `_split_type_hint`, `_type_hints_to_name`, `_get_fields`
  (pyee/pyexec/iconscore/typing/definition.py:131-196), `convert_data_type`, `convert_inputs`
  (pyee/pyexec/pyexec.py:61-106);
* Go: `DataType` (service/scoreapi/method.go:41-64, 170-256, 557-571).
-/
namespace Verif.Api

/-- `BASE_TYPES` (typing/__init__.py:30). -/
inductive Base | bool | bytes | int | str | address
deriving DecidableEq, Repr

/-- A type annotation, after the normalisation done by `typing` itself. -/
inductive Hint
  | base (b : Base)
  /-- a text; `typing` turns texts inside `List`, `Optional` and `TypedDict` into forward references -/
  | text (s : String)
  /-- `List[h]` -/
  | list (h : Hint)
  /-- `Optional[h]`, i.e. `Union[h, None]` -/
  | opt (h : Hint)
  /-- a `TypedDict` class with its identity; classes that contain themselves are not represented -/
  | struct (id : ℕ) (fields : List (String × Hint))
  /-- anything else: bare `list`, `Dict[..]`, `Tuple[..]`, other unions, `None`, other classes -/
  | other

/-- `Union[h, None]`: nested unions are flattened by `typing`. -/
def mkOpt : Hint → Hint
  | .opt h => .opt h
  | h => .opt h

mutual
/-- `normalize_type_hint` (element.py:156-183); `top = false` for the hints inside another one, where
a text is a forward reference. `none` is `IllegalFormatException`. -/
def normalize (top : Bool) : Hint → Option Hint
  | .base b => some (.base b)
  | .text s => if top = true ∧ s = "Address" then some (.base .address) else none
  | .list h => (normalize false h).map .list
  | .opt h => (normalize false h).map mkOpt
  -- `is_struct_valid` (element.py:424-430) starts with an empty set
  | .struct id fs =>
    if fs.length > 16 then none else (checkFields [id] fs).map (fun _ => .struct id fs)
  | .other => none
/-- The loop over the fields in `check_if_struct_is_valid` (element.py:450-466); `seen` is `structs`. -/
def checkFields (seen : List ℕ) : List (String × Hint) → Option (List ℕ)
  | [] => some seen
  | (_, h) :: l => match checkField seen h with
    | none => none
    | some seen => checkFields seen l
/-- One field (element.py:451-466), and the checks on entering a struct (element.py:437-448). -/
def checkField (seen : List ℕ) : Hint → Option (List ℕ)
  | .base _ => some seen
  | .list h => (normalize false h).map (fun _ => seen)
  | .opt h => (normalize false h).map (fun _ => seen)
  | .struct id fs =>
    if id ∈ seen then none
    else if fs.length > 16 then none
    else checkFields (id :: seen) fs
  | .text _ => none
  | .other => none
end

def Base.pyName : Base → List Char
  | .bool => "bool".toList
  | .bytes => "bytes".toList
  | .int => "int".toList
  | .str => "str".toList
  | .address => "Address".toList

/-- `_type_hints_to_name(_split_type_hint(h))` (definition.py:131-169). -/
def typeName : Hint → List Char
  | .base b => b.pyName
  | .text s => if s = "Address" then Base.address.pyName else []
  | .list h => '[' :: ']' :: typeName h
  | .opt h => typeName h
  | .struct _ _ => "struct".toList
  | .other => []

/-- `convert_data_type` (pyexec.py:61-77); `none` is the exception. The case of `'[]'` is tested last in
the code; no other name begins with it. -/
def convertDataType : List Char → Option ℕ
  | '[' :: ']' :: r => (convertDataType r).map (0x10 + ·)
  | typ =>
    if typ = "int".toList then some 1
    else if typ = "str".toList then some 2
    else if typ = "bytes".toList then some 3
    else if typ = "bool".toList then some 4
    else if typ = "Address".toList then some 5
    else if typ = "struct".toList then some 8
    else none

/-- A parameter type as sent to the service: the code, and the fields of a struct. -/
inductive Desc
  | mk (code : ℕ) (fields : List (String × Desc))

mutual
/-- `_get_input` with `convert_inputs` (definition.py:107-128, pyexec.py:89-106): code of the hint, and
fields if the last of the split hints is a struct. -/
def describe : Hint → Option Desc
  | .base b => (convertDataType (typeName (.base b))).map (Desc.mk · [])
  | .text s => (convertDataType (typeName (.text s))).map (Desc.mk · [])
  | .list h => (describe h).map (fun d => match d with | .mk c fs => .mk (0x10 + c) fs)
  | .opt h => describe h
  | .struct _ fs => (describeFields fs).map (Desc.mk 8)
  | .other => none
/-- `_get_fields` (definition.py:172-196). -/
def describeFields : List (String × Hint) → Option (List (String × Desc))
  | [] => some []
  | (n, h) :: l => match describe h with
    | none => none
    | some d => (describeFields l).map ((n, d) :: ·)
end

/-! ### Go -/

/-- `Tag` (method.go:221-223): `t & valueTagMask`. -/
def goTag (t : ℕ) : ℕ := t &&& 15
/-- `ListDepth` (method.go:225-227). -/
def goDepth (t : ℕ) : ℕ := (t >>> 4) &&& 15
/-- `IsList` (method.go:229-231). -/
def goIsList (t : ℕ) : Bool := t &&& 240 != 0
/-- `ListTypeOf` (method.go:237-239). -/
def goListTypeOf (depth t : ℕ) : ℕ := t + 16 * depth

/-- `TypeTag.String` (method.go:70-91); unknown tags print something else. -/
def goTagName : ℕ → Option (List Char)
  | 1 => some "int".toList
  | 2 => some "str".toList
  | 3 => some "bytes".toList
  | 4 => some "bool".toList
  | 5 => some "Address".toList
  | 6 => some "list".toList
  | 7 => some "dict".toList
  | 8 => some "struct".toList
  | _ => none

/-- `TypeTagOf` (method.go:170-191). -/
def goTagOf (s : List Char) : ℕ :=
  if s = "bool".toList then 4
  else if s = "int".toList then 1
  else if s = "str".toList then 2
  else if s = "bytes".toList then 3
  else if s = "Address".toList then 5
  else if s = "list".toList then 6
  else if s = "dict".toList then 7
  else if s = "struct".toList then 8
  else 0

/-- `strings.Repeat("[]", n)`. -/
def brackets : ℕ → List Char
  | 0 => []
  | n + 1 => '[' :: ']' :: brackets n

/-- `DataType.String` (method.go:241-244). -/
def goString (t : ℕ) : Option (List Char) := (goTagName (goTag t)).map (brackets (goDepth t) ++ ·)

/-- The loop of `DataTypeOf` (method.go:559-562). -/
def stripBrackets : List Char → ℕ × List Char
  | '[' :: ']' :: r => ((stripBrackets r).1 + 1, (stripBrackets r).2)
  | s => (0, s)

/-- `DataTypeOf` (method.go:557-571); 0 is `Unknown`. -/
def goDataTypeOf (s : List Char) : ℕ :=
  let p := stripBrackets s
  if p.1 > 15 then 0
  else if goTagOf p.2 = 0 then 0
  else goListTypeOf p.1 (goTagOf p.2)

end Verif.Api
