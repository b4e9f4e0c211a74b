import Mathlib.Data.Int.Basic
import Mathlib.Data.Nat.Digits.Defs
import Verif.Rlp.Model

/-!
# Specification for the RLP codec

Which values belong to a type, and the wire format, written without the model's reading and writing
functions.
-/

namespace Verif.Rlp
open Verif

/-- A key belongs to a key type. -/
def KeyOk : KeyTy → Key → Prop
  | .str, .str _ => True
  | .uint w, .uint n => n < 2 ^ w
  | .int w, .int z => -(2 ^ (w - 1)) ≤ z ∧ z < 2 ^ (w - 1)
  | _, _ => False

mutual
/-- A value belongs to a type. Maps have distinct keys, listed in increasing order. -/
def HasTy : Ty → Val → Prop
  | .bool, .bool _ => True
  | .uint w, .uint n => n < 2 ^ w
  | .int w, .int z => -(2 ^ (w - 1)) ≤ z ∧ z < 2 ^ (w - 1)
  | .str, .str _ => True
  | .big, .big _ => True
  | .bytes, .bytesNil => True
  | .bytes, .bytes _ => True
  | .bytesN n, .bytesN b => b.length = n
  | .slice _, .sliceNil => True
  | .slice t, .slice vs => ∀ v ∈ vs, HasTy t v
  | .array n t, .array vs => vs.length = n ∧ ∀ v ∈ vs, HasTy t v
  | .ptr _, .ptrNil => True
  | .ptr t, .ptr v => HasTy t v
  | .struct ts, .struct vs => HasTys ts vs
  | .map _ _, .mapNil => True
  | .map k t, .map ks vs =>
    ks.length = vs.length ∧ (∀ key ∈ ks, KeyOk k key) ∧ ks.Pairwise (fun a b => keyLt a b = true) ∧
      ∀ v ∈ vs, HasTy t v
  | _, _ => False
/-- The fields of a struct belong to their types. -/
def HasTys : List Ty → List Val → Prop
  | [], [] => True
  | t :: ts, v :: vs => HasTy t v ∧ HasTys ts vs
  | _, _ => False
end

/-- Types with a nil value of their own. -/
def Nilable : Ty → Prop
  | .bytes | .slice _ | .ptr _ | .map _ _ => True
  | _ => False

/-- The key types of Go: strings and integers of 1 to 64 bits. -/
def KeyWf : KeyTy → Prop
  | .str => True
  | .uint w => 1 ≤ w ∧ w ≤ 64
  | .int w => 1 ≤ w ∧ w ≤ 64

mutual
/-- Integers have 1 to 64 bits and no pointer points to a type with a nil value of its own. -/
def WfTy : Ty → Prop
  | .uint w => 1 ≤ w ∧ w ≤ 64
  | .int w => 1 ≤ w ∧ w ≤ 64
  | .slice t => WfTy t
  | .array _ t => WfTy t
  | .ptr t => ¬ Nilable t ∧ WfTy t
  | .struct ts => WfTys ts
  | .map k t => KeyWf k ∧ WfTy t
  | _ => True
/-- All the types of a list are well formed. -/
def WfTys : List Ty → Prop
  | [] => True
  | t :: ts => WfTy t ∧ WfTys ts
end

/-- A key of at most `m` bytes. -/
def KeyStrLe (m : Nat) : Key → Prop
  | .str b => b.length ≤ m
  | _ => True

mutual
/-- Every byte string in the value (strings, byte slices, byte arrays and the two's complement form of
big integers) has at most `m` bytes. -/
def StrLe (m : Nat) : Val → Prop
  | .str b => b.length ≤ m
  | .big z => (Verif.IntCodec.goBigIntToBytes z).length ≤ m
  | .bytes b => b.length ≤ m
  | .bytesN b => b.length ≤ m
  | .slice vs => StrLes m vs
  | .array vs => StrLes m vs
  | .ptr v => StrLe m v
  | .struct vs => StrLes m vs
  | .map ks vs => (∀ k ∈ ks, KeyStrLe m k) ∧ StrLes m vs
  | _ => True
/-- The same for all the values of a list. -/
def StrLes (m : Nat) : List Val → Prop
  | [] => True
  | v :: vs => StrLe m v ∧ StrLes m vs
end

/-! ## Wire format -/

/-- What is on the wire: null, a byte string or a list. -/
inductive Item
  | null
  | bytes (b : Bytes)
  | list (is : List Item)

/-- The shortest big-endian base-256 numeral. -/
def numeral (n : Nat) : Bytes := (Nat.digits 256 n).reverse.map UInt8.ofNat

/-- Payload with its length: `base` for the short form and `base + 55` for the long one. -/
def withLength (base : Nat) (payload : Bytes) : Bytes :=
  if payload.length ≤ 55 then UInt8.ofNat (base + payload.length) :: payload
  else UInt8.ofNat (base + 55 + (numeral payload.length).length) :: (numeral payload.length ++ payload)

mutual
/-- Recursive length prefix, with `f8 00` for null. -/
def rlp : Item → Bytes
  | .null => [0xf8, 0x00]
  | .bytes b => match b with
    | [x] => if x.toNat < 128 then [x] else withLength 128 [x]
    | b => withLength 128 b
  | .list is => withLength 192 (rlps is)
/-- Concatenation of the items. -/
def rlps : List Item → Bytes
  | [] => []
  | i :: is => rlp i ++ rlps is
end

/-- The shortest two's complement form of an integer (see C02, C38). -/
def intBytes (z : Int) : Bytes := Verif.IntCodec.goBigIntToBytes z

/-- A key on the wire. -/
def keyItem : Key → Item
  | .str b => .bytes b
  | .uint n => .bytes (intBytes n)
  | .int z => .bytes (intBytes z)

/-- Keys and values in turn. -/
def interleave : List Key → List Item → List Item
  | k :: ks, i :: is => keyItem k :: i :: interleave ks is
  | _, _ => []

mutual
/-- What a value is on the wire: nil values are null, booleans and integers are byte strings, slices,
arrays and structs are lists, a map is the list of its keys and values in turn. -/
def item : Val → Item
  | .bool b => .bytes [if b then 1 else 0]
  | .uint n => .bytes (intBytes n)
  | .int z => .bytes (intBytes z)
  | .str b => .bytes b
  | .big z => .bytes (intBytes z)
  | .bytesNil => .null
  | .bytes b => .bytes b
  | .bytesN b => .bytes b
  | .sliceNil => .null
  | .slice vs => .list (items vs)
  | .array vs => .list (items vs)
  | .ptrNil => .null
  | .ptr v => item v
  | .struct vs => .list (items vs)
  | .mapNil => .null
  | .map ks vs => .list (interleave ks (items vs))
/-- The items of a list of values. -/
def items : List Val → List Item
  | [] => []
  | v :: vs => item v :: items vs
end

end Verif.Rlp
