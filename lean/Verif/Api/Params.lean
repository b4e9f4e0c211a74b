import Verif.Api.Event
import Verif.IntCodec.Text
import Verif.Typed.Model

/-!
# Parameters of calls (service/scoreapi/method.go)

`encoding/json` is trusted: the model starts from parsed values. Numbers keep their text; objects keep their entries in order, the
last of equal keys counts (Go reads them into a map). Objects of the channel are `Typed.W`; the entries of a dictionary
made here are listed in the order of the fields (they are written sorted by key).
-/
namespace Verif.Api.Params
open Verif.Container (PyVal utf8)
open Verif.IntCodec Verif.Typed

/-- A parsed JSON value. -/
inductive J
  | null
  | bool (b : Bool)
  | num (text : List Char)
  | str (s : String)
  | arr (l : List J)
  | obj (l : List (String × J))

/-- The value of a key after reading all entries into a map. -/
def lastOf {α β : Type} [DecidableEq α] (k : α) : List (α × β) → Option β
  | [] => none
  | (k', v) :: l => match lastOf k l with
    | some v' => some v'
    | none => if k' = k then some v else none

/-- `HexBytes.UnmarshalJSON` (common/hexbytes.go:60-80) of a text. -/
def hexBytes (s : List Char) : Option Bytes :=
  match s with
  | '0' :: 'x' :: r => hexDecode r
  | s => hexDecode s

/-- `HexInt.UnmarshalJSON` (common/hexint.go:29-40). -/
def hexInt : J → Option ℤ
  | .str s => parseBigInt s.toList
  | .num t => setString 0 t
  | _ => none

/-- `HexInt32.UnmarshalJSON` (common/hexint.go:174-185); other values are not numbers for `ParseInt` either. -/
def hexInt32 : J → Option ℤ
  | .str s => parseInt 32 s.toList
  | .num t => parseInt 32 t
  | _ => none

/-- `TypeTag.ConvertJSONToTypedObj` (method.go:93-168) with `EncodeAny` (common/codec/typed.go:108-157); `fields` converts the entries
of an object. -/
def convTag (tag : ℕ) (fields : List (String × J) → Option (List (Bytes × W))) (j : J) : Option W :=
  match tag with
  | 1 => match hexInt j with
    | some i => some (.bytes tagInt (goBigIntToBytes i))
    | none => none
  | 2 => match j with
    | .str s => some (.bytes tagString (utf8 s))
    | _ => none
  | 3 => match j with
    | .str s => match hexBytes s.toList with
      | some b => some (.bytes tagBytes b)
      | none => none
    | _ => none
  | 4 => match hexInt32 j with
    | some i => if i ≠ 0 ∧ i ≠ 1 then none else some (.bytes tagBool (if i ≠ 0 then [1] else [0]))
    | none => none
  | 5 => match j with
    | .str s => match Address.goSetStringStrict s.toList with
      | some a => some (.bytes tagAddress (Address.goBytes a))
      | none => none
    | _ => none
  | 8 => match j with
    | .obj l => match fields l with
      | some m => some (.dict tagDict m)
      | none => none
    | _ => none
  | _ => none

/-- All or nothing. -/
def mapAll {α β : Type} (f : α → Option β) : List α → Option (List β)
  | [] => some []
  | a :: l => match f a, mapAll f l with
    | some b, some m => some (b :: m)
    | _, _ => none

/-- `DataType.ConvertJSONToTypedObj` (method.go:252-285) below the top, where nulls are not allowed; `depth` is `ListDepth`. -/
def convDepth (leaf : J → Option W) : ℕ → J → Option W
  | _, .null => none
  | 0, j => leaf j
  | n + 1, .arr l => match mapAll (convDepth leaf n) l with
    | some m => some (.list tagList m)
    | none => none
  | _ + 1, _ => none

mutual
/-- The same for a type and its fields. -/
def conv : Desc → J → Option W
  | .mk code fs, j => convDepth (convTag (goTag code) (fun l => convFields fs l)) (goDepth code) j
/-- The loop over the fields (method.go:142-153). Field names are distinct. -/
def convFields : List (String × Desc) → List (String × J) → Option (List (Bytes × W))
  | [], _ => some []
  | (n, d) :: fs, l => match lastOf n l with
    | none => none
    | some j => match conv d j, convFields fs l with
      | some w, some m => some ((utf8 n, w) :: m)
      | _, _ => none
end

/-- `DataType.ConvertJSONToTypedObj` of a parameter. -/
def convertJSON (d : Desc) (j : J) (nullable : Bool) : Option W :=
  match j with
  | .null => if nullable then some (.null tagNil) else none
  | j => conv d j

/-- `DataType.ConvertBytesToTypedObj` (method.go:354-393). -/
def convertBytes (code : ℕ) (bs : Option Bytes) : Option W :=
  if code = 0 then none
  else match bs with
    | none => some (.null tagNil)
    | some bs =>
      if goDepth code > 0 then none
      else match goTag code with
        | 1 => some (.bytes tagInt (goBigIntToBytes (goBigIntSetBytes bs)))
        | 2 => some (.bytes tagString bs)
        | 3 => some (.bytes tagBytes bs)
        | 4 => some (.bytes tagBool (if bs = [0] ∨ bs = [] then [0] else [1]))
        | 5 => match Address.goSetBytes bs with
          | some a => some (.bytes tagAddress (Address.goBytes a))
          | none => none
        | _ => none

/-- `Parameter` (method.go:580-585). -/
structure Input where
  name : String
  desc : Desc
  default : Option Bytes

/-- `Method` (method.go:618-625): the number of mandatory inputs, and the inputs. -/
structure Method where
  indexed : ℕ
  inputs : List Input

def Input.code (p : Input) : ℕ := match p.desc with | .mk c _ => c

/-- `inputParameters` (method.go:861-888). -/
inductive Given
  | list (l : List J)
  | dict (l : List (String × J))

def Given.get : Given → ℕ → String → Option J
  | .list l, i, _ => l[i]?
  | .dict l, _, n => lastOf n l

def Given.size : Given → ℕ
  | .list l => l.length
  | .dict l => (l.map Prod.fst).dedup.length

/-- The start of `ConvertParamsToTypedObj` (method.go:890-908); `null` is read as an empty object. -/
def parseGiven : Option J → Option Given
  | none => some (.list [])
  | some (.arr l) => some (.list l)
  | some (.obj l) => some (.dict l)
  | some .null => some (.dict [])
  | _ => none

/-- The loop (method.go:911-932); the number is `matched`. -/
def convLoop (indexed : ℕ) (p : Given) : ℕ → List Input → Option (List W × ℕ)
  | _, [] => some ([], 0)
  | i, a :: l => match p.get i a.name with
    | none =>
      if i ≥ indexed then
        match convertBytes a.code a.default, convLoop indexed p (i + 1) l with
        | some w, some (ws, n) => some (w :: ws, n)
        | _, _ => none
      else none
    | some j => match convertJSON a.desc j (i ≥ indexed), convLoop indexed p (i + 1) l with
      | some w, some (ws, n) => some (w :: ws, n + 1)
      | _, _ => none

/-- `Method.ConvertParamsToTypedObj` (method.go:890-944). -/
def Method.convertParams (m : Method) (p : Option J) (allowExtra : Bool) : Option (List W) :=
  match parseGiven p with
  | none => none
  | some g => match convLoop m.indexed g 0 m.inputs with
    | none => none
    | some (ws, matched) => if matched ≠ g.size ∧ allowExtra = false then none else some ws

/-! ### Calls between contracts -/

def wTag : W → ℕ
  | .null t => t
  | .bytes t _ => t
  | .list t _ => t
  | .dict t _ => t

/-- `inputTypeTag` (method.go:433-439) and `UsableForInput` (method.go:463-472). -/
def inputTag : ℕ → Option ℕ
  | 1 => some tagInt
  | 2 => some tagString
  | 3 => some tagBytes
  | 4 => some tagBool
  | 5 => some tagAddress
  | _ => none

/-- The last part of `ValidateInput` (method.go:499-533). -/
def validTag (tag : ℕ) (fields : List (Bytes × W) → Bool) (w : W) : Bool :=
  if tag = 8 then
    match w with
    | .dict t m => t = tagDict && fields m
    | _ => false
  else match inputTag tag with
    | some t => wTag w = t
    | none => false

/-- `ValidateInput` (method.go:474-498) for lists. -/
def validDepth (leaf : W → Bool) : ℕ → W → Bool
  | 0, w => leaf w
  | n + 1, .list t l => t = tagList && l.all (validDepth leaf n)
  | _ + 1, _ => false

mutual
/-- `ValidateInput` (method.go:474-534), nulls not allowed. -/
def valid : Desc → W → Bool
  | .mk code fs, w => validDepth (validTag (goTag code) (fun m => validFields fs m &&
      (m.map Prod.fst).dedup.length ≤ fs.length)) (goDepth code) w
/-- The loop over the fields (method.go:510-518). -/
def validFields : List (String × Desc) → List (Bytes × W) → Bool
  | [], _ => true
  | (n, d) :: fs, m => match lastOf (utf8 n) m with
    | none => false
    | some w => valid d w && validFields fs m
end

/-- `ValidateInput` of a parameter. -/
def validInput (d : Desc) (w : W) (nullable : Bool) : Bool :=
  (match d with | .mk c _ => goTag c = 8 || (inputTag (goTag c)).isSome) && (wTag w = tagNil && nullable || valid d w)

/-- `EnsureParamsSequential` with a list (method.go:739-756). -/
def seqList (indexed : ℕ) (given : List W) : ℕ → List Input → Option (List W)
  | _, [] => some []
  | i, a :: l => match given[i]? with
    | some w =>
      if validInput a.desc w (decide (i ≥ indexed) && a.default.isNone) then (seqList indexed given (i + 1) l).map (w :: ·)
      else none
    | none => match convertBytes a.code a.default, seqList indexed given (i + 1) l with
      | some w, some ws => some (w :: ws)
      | _, _ => none

/-- The parameters by position inside of a dictionary (method.go:720-726). -/
def positional (m : List (Bytes × W)) : List W :=
  match lastOf (utf8 ".") m with
  | some (.list t l) => if t = tagList then l else []
  | _ => []

/-- `EnsureParamsSequential` with a dictionary (method.go:770-804). -/
def seqDict (indexed : ℕ) (m : List (Bytes × W)) : ℕ → List Input → Option (List W)
  | _, [] => some []
  | i, a :: l =>
    match (match (positional m)[i]? with | some w => some w | none => lastOf (utf8 a.name) m) with
    | some w =>
      if validInput a.desc w (decide (i ≥ indexed) && a.default.isNone) then (seqDict indexed m (i + 1) l).map (w :: ·)
      else none
    | none =>
      if i ≥ indexed then
        match convertBytes a.code a.default, seqDict indexed m (i + 1) l with
        | some w, some ws => some (w :: ws)
        | _, _ => none
      else none

/-- `Method.EnsureParamsSequential` (method.go:728-805). -/
def Method.sequential (m : Method) : W → Option (List W)
  | .list t l =>
    if t = tagList then
      if l.length < m.indexed then none
      else if l.length > m.inputs.length then none
      else seqList m.indexed l 0 m.inputs
    else none
  | .dict t d => if t = tagDict then seqDict m.indexed d 0 m.inputs else none
  | _ => none

/-! ### Results -/

/-- `outputTypeTag` (method.go:441-452). -/
def outputTag : ℕ → Option (ℕ × Bool)
  | 1 => some (tagInt, false)
  | 2 => some (tagString, false)
  | 3 => some (tagBytes, true)
  | 4 => some (tagBool, false)
  | 5 => some (tagAddress, true)
  | 6 => some (tagList, true)
  | 7 => some (tagDict, true)
  | _ => none

/-- `ValidateOutput` (method.go:536-556). -/
def validOutput (code : ℕ) (w : W) : Bool :=
  if goDepth code > 0 then false
  else match outputTag (goTag code) with
    | none => false
    | some (t, nullable) => wTag w = t || (wTag w = tagNil && nullable)

def allValid : List ℕ → List W → Bool
  | [], [] => true
  | c :: cs, w :: ws => validOutput c w && allValid cs ws
  | _, _ => false

/-- `EnsureResult` (method.go:946-994): `true` is acceptance. -/
def ensureResult (outputs : List ℕ) (readOnly : Bool) (w : W) : Bool :=
  match outputs with
  | [] => wTag w = tagNil || !readOnly
  | [c] => validOutput c w
  | cs => match w with
    | .list t ws => t = tagList && allValid cs ws
    | _ => false

end Verif.Api.Params
