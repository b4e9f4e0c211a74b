import Verif.Container.Model

/-!
# Typed objects between the executor and the service

* Python: `encode_any`, `decode_any`, `decode` of `ServiceManagerProxy` (pyee/pyexec/ipc/proxy.py:276-359)
  with `EECodec` (pyee/pyexec/pyexec.py:33-43);
* Go: `EncodeAny`, `DecodeAny` (common/codec/typed.go:104-225) with `typeCodec` (common/codec.go:24-70).

The serializers themselves (msgpack 0.6.2 in Python, which returns both strings and byte strings as
`bytes`, and vmihailenco/msgpack in Go, which reads either as `string` or `[]byte` as asked) are not
modelled; what they deliver is `W`.
-/
namespace Verif.Typed
open Verif.IntCodec Verif.Container

/-- Type tags (proxy.py:178-190, common/codec/typed.go:9-17, common/codec.go:14-18). -/
def tagNil : ℕ := 0
def tagDict : ℕ := 1
def tagList : ℕ := 2
def tagBytes : ℕ := 3
def tagString : ℕ := 4
def tagBool : ℕ := 5
def tagAddress : ℕ := 10
def tagInt : ℕ := 11

/-- An object on the wire: a tag and a payload. Keys of maps arrive as bytes. -/
inductive W
  | null (tag : ℕ)
  | bytes (tag : ℕ) (b : Bytes)
  | list (tag : ℕ) (l : List W)
  | dict (tag : ℕ) (l : List (Bytes × W))

inductive Err | invalidKeyType | unknownType | illegalBool | unicode | badAddress | shape
deriving DecidableEq, Repr

/-! ### Python -/

/-- Keys of Python dictionaries. -/
inductive DKey
  | str (s : String)
  | other (n : ℕ)
deriving DecidableEq

/-- Python objects. A dictionary is the list of its items in insertion order. -/
inductive PyObj
  | none
  | bool (b : Bool)
  | int (i : ℤ)
  | str (s : String)
  | bytes (b : Bytes)
  | addr (a : Address.Addr)
  | list (l : List PyObj)
  | tuple (l : List PyObj)
  | dict (l : List (DKey × PyObj))
  /-- an object of any other class -/
  | other

mutual
/-- `encode_any` (proxy.py:331-359). -/
def encodeAny : PyObj → Except Err W
  | .none => .ok (.null tagNil)
  | .dict l => (encodeItems l).map (.dict tagDict)
  | .list l => (encodeAll l).map (.list tagList)
  | .tuple l => (encodeAll l).map (.list tagList)
  | .bytes b => .ok (.bytes tagBytes b)
  | .str s => .ok (.bytes tagString (utf8 s))
  | .bool b => .ok (.bytes tagBool (if b then [1] else [0]))
  | .int i => match pyIntToBytes i with
    | some b => .ok (.bytes tagInt b)
    | Option.none => .error .shape
  -- `EECodec.encode` (pyexec.py:34-37)
  | .addr a => .ok (.bytes tagAddress (Address.toBytes a))
  | .other => .error .unknownType
/-- The loop over a list (proxy.py:343-345). -/
def encodeAll : List PyObj → Except Err (List W)
  | [] => .ok []
  | v :: l => match encodeAny v with
    | .error e => .error e
    | .ok w => (encodeAll l).map (w :: ·)
/-- The loop over the items of a dictionary (proxy.py:336-340). -/
def encodeItems : List (DKey × PyObj) → Except Err (List (Bytes × W))
  | [] => .ok []
  | (k, v) :: l => match k with
    | .other _ => .error .invalidKeyType
    | .str s => match encodeAny v with
      | .error e => .error e
      | .ok w => (encodeItems l).map ((utf8 s, w) :: ·)
end

/-- `obj[k] = v` -/
def put {α β : Type} [DecidableEq α] (k : α) (v : β) : List (α × β) → List (α × β)
  | [] => [(k, v)]
  | (k', v') :: l => if k' = k then (k, v) :: l else (k', v') :: put k v l

/-- `decode` (proxy.py:276-292) with `EECodec.decode` (pyexec.py:39-43). -/
def decodeBytes (tag : ℕ) (b : Bytes) : Except Err PyObj :=
  if tag = tagBytes then .ok (.bytes b)
  else if tag = tagString then match utf8Decode b with
    | some s => .ok (.str s)
    | none => .error .unicode
  else if tag = tagInt then .ok (.int (pyBytesToInt b))
  else if tag = tagBool then
    if b = [0] then .ok (.bool false) else if b = [1] then .ok (.bool true)
    else .error .illegalBool
  else if tag = tagAddress then match Address.fromBytes b with
    | .ok (some a) => .ok (.addr a)
    | .ok none => .ok .none
    | .error _ => .error .badAddress
  else .error .unknownType

mutual
/-- `decode_any` (proxy.py:310-329). A payload of another kind than the tag asks for counts as
rejected (Python raises, except that an empty payload is read as an empty container). -/
def decodeAny : W → Except Err PyObj
  | .null tag => if tag = tagNil then .ok .none
    -- `decode(BYTES, None)` returns None; everything else raises
    else if tag = tagBytes then .ok .none else .error .shape
  | .bytes tag b => if tag = tagNil then .ok .none
    else if tag = tagDict ∨ tag = tagList then .error .shape
    else decodeBytes tag b
  | .list tag l => if tag = tagNil then .ok .none
    else if tag = tagList then (decodeAll l).map .list else .error .shape
  | .dict tag l => if tag = tagNil then .ok .none
    else if tag = tagDict then (decodeItems [] l).map .dict else .error .shape
def decodeAll : List W → Except Err (List PyObj)
  | [] => .ok []
  | w :: l => match decodeAny w with
    | .error e => .error e
    | .ok v => (decodeAll l).map (v :: ·)
/-- The loop over the items (proxy.py:315-319); `acc` is `obj`. -/
def decodeItems (acc : List (DKey × PyObj)) : List (Bytes × W) →
    Except Err (List (DKey × PyObj))
  | [] => .ok acc
  | (k, w) :: l => match utf8Decode k with
    | none => .error .unicode
    | some s => match decodeAny w with
      | .error e => .error e
      | .ok v => decodeItems (put (.str s) v acc) l
end

/-! ### Go -/

/-- Go values. Strings are byte strings; a map is the list of its entries in the order they are
written (sorted by key, common/codec/typeddict.go:38-45). -/
inductive GoObj
  | nil
  | bool (b : Bool)
  | int (i : ℤ)
  | str (s : Bytes)
  | bytes (b : Bytes)
  | addr (a : Address.GoAddr)
  | list (l : List GoObj)
  | dict (l : List (Bytes × GoObj))
  /-- a value of any other type -/
  | other

mutual
/-- `EncodeAny` (common/codec/typed.go:104-157) with `Encode` (common/codec.go:45-70). -/
def goEncodeAny : GoObj → Option W
  | .nil => some (.null tagNil)
  | .str s => some (.bytes tagString s)
  | .bytes b => some (.bytes tagBytes b)
  | .bool b => some (.bytes tagBool (if b then [1] else [0]))
  | .list l => (goEncodeAll l).map (.list tagList)
  | .dict l => (goEncodeItems l).map (.dict tagDict)
  | .addr a => some (.bytes tagAddress (Address.goBytes a))
  | .int i => some (.bytes tagInt (goBigIntToBytes i))
  | .other => none
def goEncodeAll : List GoObj → Option (List W)
  | [] => some []
  | v :: l => match goEncodeAny v with
    | none => none
    | some w => (goEncodeAll l).map (w :: ·)
def goEncodeItems : List (Bytes × GoObj) → Option (List (Bytes × W))
  | [] => some []
  | (k, v) :: l => match goEncodeAny v with
    | none => none
    | some w => (goEncodeItems l).map ((k, w) :: ·)
end

mutual
/-- `RLPDecodeSelf` and `DecodeAny` (common/codec/typed.go:49-92, 167-225), the dictionary read by
`RLPReadSelf` (typeddict.go:59-83), with `Decode` (common/codec.go:24-43; floats are not modelled). -/
def goDecodeAny : W → Option GoObj
  | .null tag => if tag = tagNil then some .nil else none
  | .bytes tag b =>
    if tag = tagNil then some .nil
    else if tag = tagString then some (.str b)
    else if tag = tagBytes then some (.bytes b)
    else if tag = tagBool then
      if b = [0] then some (.bool false) else if b = [1] then some (.bool true) else none
    else if tag = tagAddress then (Address.goSetBytes b).map .addr
    else if tag = tagInt then some (.int (goBigIntSetBytes b))
    else none
  | .list tag l => if tag = tagNil then some .nil
    else if tag = tagList then (goDecodeAll l).map .list else none
  | .dict tag l => if tag = tagNil then some .nil
    else if tag = tagDict then (goDecodeItems [] l).map .dict else none
def goDecodeAll : List W → Option (List GoObj)
  | [] => some []
  | w :: l => match goDecodeAny w with
    | none => none
    | some v => (goDecodeAll l).map (v :: ·)
def goDecodeItems (acc : List (Bytes × GoObj)) : List (Bytes × W) → Option (List (Bytes × GoObj))
  | [] => some acc
  | (k, w) :: l => match goDecodeAny w with
    | none => none
    | some v => goDecodeItems (put k v acc) l
end

end Verif.Typed
