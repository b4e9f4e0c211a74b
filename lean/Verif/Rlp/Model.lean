import Verif.IntCodec.Model

/-!
# The RLP codec of the node

Model of `common/codec/rlp.go` (writer and reader) and of the reflective encoder and decoder of
`common/codec/codec.go`, for the Go types built from booleans, fixed-width integers, strings, byte
slices, byte arrays, `*big.Int`, slices, arrays, pointers, structs and maps, and of the pooled
`MarshalToBytes`/`UnmarshalFromBytes` of `common/codec/bytes.go`.

Simplifications.
* Types with their own `RLPEncodeSelf`, `MarshalBinary`, … are not modelled; `big.Int` is (it is
  handled inside codec.go).
* A struct is the list of its exported fields, with the fields of embedded structs in place
  (`encodeRecursiveFields`, codec.go:240-266).
* Decoding is into a zero value.
* `[]byte` and `[n]byte` are types of their own (`bytes`, `bytesN`), so `slice`/`array` are used for
  other element types; a Go string is the sequence of its bytes.
* A Go map is represented by its entries in increasing order of keys.
* `int` and `uint` are the 64-bit ones.
-/

namespace Verif.Rlp
open Verif Verif.IntCodec

/-! ## Values and types -/

/-- Types of map keys the encoder can sort (codec.go:302-317). -/
inductive KeyTy
  | str
  | uint (w : Nat)
  | int (w : Nat)
deriving DecidableEq, Repr

/-- Map keys. -/
inductive Key
  | str (b : Bytes)
  | uint (n : Nat)
  | int (z : Int)
deriving DecidableEq, Repr

/-- Go types. `w` is a number of bits. -/
inductive Ty
  | bool
  | uint (w : Nat)
  | int (w : Nat)
  | str
  | big
  | bytes
  | bytesN (n : Nat)
  | slice (t : Ty)
  | array (n : Nat) (t : Ty)
  | ptr (t : Ty)
  | struct (ts : List Ty)
  | map (k : KeyTy) (t : Ty)

/-- Go values. -/
inductive Val
  | bool (b : Bool)
  | uint (n : Nat)
  | int (z : Int)
  | str (b : Bytes)
  | big (z : Int)
  | bytesNil
  | bytes (b : Bytes)
  | bytesN (b : Bytes)
  | sliceNil
  | slice (vs : List Val)
  | array (vs : List Val)
  | ptrNil
  | ptr (v : Val)
  | struct (vs : List Val)
  | mapNil
  | map (ks : List Key) (vs : List Val)

/-! ## The writer -/

/-- common/codec/rlp.go:30-32 `sizeToBytes`. -/
def sizeToBytes (n : Nat) : Bytes := goSizeToBytes (BitVec.ofNat 64 n)

/-- common/codec/rlp.go:440 `nullSequence`. -/
def nullSequence : Bytes := [0xf8, 0]

/-- common/codec/rlp.go:446-478 `writeBytes`, for a slice that is not nil. -/
def writeBytes (b : Bytes) : Bytes :=
  if b.length = 0 then [0x80]
  else if b.length = 1 ∧ (∀ x ∈ b, x < 0x80) then b
  else if b.length ≤ 55 then UInt8.ofNat (0x80 + b.length) :: b
  else
    let sz := sizeToBytes b.length
    UInt8.ofNat (0x80 + 55 + sz.length) :: (sz ++ b)

/-- common/codec/rlp.go:480-502 `writeList`, on the buffered content of the list. -/
def writeList (b : Bytes) : Bytes :=
  if b.length = 0 then [0xc0]
  else if b.length ≤ 55 then UInt8.ofNat (0xC0 + b.length) :: b
  else
    let sz := sizeToBytes b.length
    UInt8.ofNat (0xC0 + 55 + sz.length) :: (sz ++ b)

/-- Go's `<` on strings: bytes, from the first. -/
def bytesLt : Bytes → Bytes → Bool
  | [], [] => false
  | [], _ :: _ => true
  | _ :: _, [] => false
  | a :: as, b :: bs => a.toNat < b.toNat || (a == b && bytesLt as bs)

/-- The order in which keys are sorted, codec.go:302-314. Keys of a map are all of one kind. -/
def keyLt : Key → Key → Bool
  | .str a, .str b => bytesLt a b
  | .uint a, .uint b => a < b
  | .int a, .int b => a < b
  | .str _, _ => true
  | .uint _, .int _ => true
  | _, _ => false

/-- Insertion into a sorted list of entries; an entry with the same key is replaced. Used for
`sort.Slice` on the (distinct) keys (codec.go:302-314) and for `SetMapIndex` (codec.go:717). -/
def insertKey {α : Type} (k : Key) (v : α) : List (Key × α) → List (Key × α)
  | [] => [(k, v)]
  | (k', v') :: r =>
    if keyLt k k' then (k, v) :: (k', v') :: r
    else if k = k' then (k, v) :: r
    else (k', v') :: insertKey k v r

/-- The entries in increasing order of their keys (codec.go:301-314). -/
def sortKeys {α : Type} (l : List (Key × α)) : List (Key × α) :=
  l.foldl (fun acc e => insertKey e.1 e.2 acc) []

/-- common/codec/rlp.go:514-538 `WriteValue` of a key. -/
def encodeKey : Key → Bytes
  | .str b => writeBytes b
  | .uint n => writeBytes (goUint64ToBytes (BitVec.ofNat 64 n))
  | .int z => writeBytes (goInt64ToBytes (BitVec.ofInt 64 z))

mutual
/-- common/codec/codec.go:268-345 `encodeValue`, with `WriteValue` of rlp.go:514-538 and
`encodeArrayValue` of codec.go:206-229. A list is buffered and written when it is closed
(rlp.go:400-407, 545-560). -/
def encode : Val → Bytes
  | .bool b => writeBytes [if b then 1 else 0]
  | .uint n => writeBytes (goUint64ToBytes (BitVec.ofNat 64 n))
  | .int z => writeBytes (goInt64ToBytes (BitVec.ofInt 64 z))
  | .str b => writeBytes b
  | .big z => writeBytes (goBigIntToBytes z)
  | .bytesNil => nullSequence
  | .bytes b => writeBytes b
  | .bytesN b => writeBytes b
  | .sliceNil => nullSequence
  | .slice vs => writeList (encodeAll vs).flatten
  | .array vs => writeList (encodeAll vs).flatten
  | .ptrNil => nullSequence
  | .ptr v => encode v
  | .struct vs => writeList (encodeAll vs).flatten
  | .mapNil => nullSequence
  | .map ks vs =>
    writeList ((sortKeys (ks.zip (encodeAll vs))).map (fun e => encodeKey e.1 ++ e.2)).flatten
/-- The encodings of the elements of a list, in order. -/
def encodeAll : List Val → List Bytes
  | [] => []
  | v :: vs => encode v :: encodeAll vs
end

/-! ## The reader -/

/-- The outcome of a reading function: a value and what is left to read; `ErrNilValue` and what is
left to read; `io.EOF`; any other error. -/
inductive Res (α : Type)
  | ok (v : α) (rest : Bytes)
  | nil (rest : Bytes)
  | eof
  | err
deriving DecidableEq, Repr

/-- Apply a check to the value read. -/
def Res.bind {α β : Type} (r : Res α) (f : α → Option β) : Res β :=
  match r with
  | .ok v rest => match f v with
    | some w => .ok w rest
    | none => .err
  | .nil rest => .nil rest
  | .eof => .eof
  | .err => .err

/-- common/intconv/bytes.go:103-108 `SafeBytesToSize`, common/codec/rlp.go:34-40 `bytesToSize`. -/
def bytesToSize (bs : Bytes) : Option Nat :=
  match goSafeBytesToSize64 bs with
  | some v => if v.toNat ≤ 2 ^ 63 - 1 then some v.toNat else none
  | none => none

/-- common/codec/rlp.go:94-102 `readAll`: exactly `n` bytes, or an error (never `io.EOF`). -/
def readAll (n : Nat) (b : Bytes) : Option (Bytes × Bytes) :=
  if n ≤ b.length then some (b.take n, b.drop n) else none

/-- common/codec/rlp.go:87-92 `readSize`. -/
def readSize (n : Nat) (b : Bytes) : Option (Nat × Bytes) :=
  match readAll n b with
  | some (s, r) => match bytesToSize s with
    | some v => some (v, r)
    | none => none
  | none => none

/-- common/codec/rlp.go:205-249 `readBytes`. `max` is `maxSB`; `b` is what the reader can still
deliver, and `trunc` says whether running out is an error (the input ended before the announced end
of a list, rlp.go:56-70) rather than `io.EOF`. -/
def readBytes (max : Nat) (b : Bytes) (trunc : Bool) : Res Bytes :=
  match b with
  | [] => if trunc then .err else .eof
  | h :: r =>
    let tag := h.toNat
    if tag < 0x80 then .ok [h] r
    else if tag ≤ 0xB7 then
      match readAll (tag - 0x80) r with
      | some (s, r') => .ok s r'
      | none => .err
    else if tag < 0xC0 then
      match readSize (tag - 0xB7) r with
      | some (sz2, r') =>
        if sz2 > max then .err
        else match readAll sz2 r' with
          | some (s, r'') => .ok s r''
          | none => .err
      | none => .err
    else if tag = 0xF8 then
      match readSize 1 r with
      | some (sz2, r') => if sz2 = 0 then .nil r' else .err
      | none => .err
    else .err

/-- common/codec/rlp.go:165-195 `readList`: the announced size of the list. -/
def readListHeader (b : Bytes) (trunc : Bool) : Res Nat :=
  match b with
  | [] => if trunc then .err else .eof
  | h :: r =>
    let tag := h.toNat
    if tag < 0xC0 then .err
    else if tag ≤ 0xF7 then .ok (tag - 0xC0) r
    else
      match readSize (tag - 0xF7) r with
      | some (sz2, r') => if tag - 0xF7 = 1 ∧ sz2 = 0 then .nil r' else .ok sz2 r'
      | none => .err

/-- common/codec/rlp.go:133-161 `skipOne`; `none` is an error. -/
def skipOne (b : Bytes) : Option Bytes :=
  match b with
  | [] => none
  | h :: r =>
    let tag := h.toNat
    let skipN (n : Nat) (r : Bytes) : Option Bytes := if n ≤ r.length then some (r.drop n) else none
    if tag < 0x80 then some r
    else if tag ≤ 0xB7 then skipN (tag - 0x80) r
    else if tag < 0xC0 then
      match readSize (tag - 0xB7) r with
      | some (sz2, r') => skipN sz2 r'
      | none => none
    else if tag ≤ 0xF7 then skipN (tag - 0xC0) r
    else
      match readSize (tag - 0xF7) r with
      | some (sz2, r') => skipN sz2 r'
      | none => none

/-- common/codec/rlp.go:328-339 `readMore`. -/
def readMore (max : Nat) (org : Bytes) (size : Nat) (b : Bytes) : Option (Bytes × Bytes) :=
  if size + org.length > max then none
  else match readAll size b with
    | some (s, r) => some (org ++ s, r)
    | none => none

/-- common/codec/rlp.go:341-372 `ReadRaw`; `none` is an error. -/
def readRaw (max : Nat) (b : Bytes) : Option (Bytes × Bytes) :=
  match b with
  | [] => none
  | h :: r =>
    let tag := h.toNat
    if tag < 0x80 then some ([h], r)
    else if tag ≤ 0xB7 then readMore max [h] (tag - 0x80) r
    else if tag < 0xC0 then
      match readSize (tag - 0xB7) r with
      | some (sz2, r') => readMore max (h :: r.take (tag - 0xB7)) sz2 r'
      | none => none
    else if tag ≤ 0xF7 then readMore max [h] (tag - 0xC0) r
    else
      match readSize (tag - 0xF7) r with
      | some (sz2, r') => readMore max (h :: r.take (tag - 0xF7)) sz2 r'
      | none => none

/-- common/codec/rlp.go:251-293 `readUintValue` for `uint<w>`: overflow is refused. -/
def toUint (w : Nat) (b : Bytes) : Option Nat :=
  match goSafeBytesToUint64 b with
  | some v => if v.toNat = v.toNat % 2 ^ w then some v.toNat else none
  | none => none

/-- common/codec/rlp.go:260-269 `readUintValue` for `bool`. -/
def toBool (b : Bytes) : Option Bool :=
  match goSafeBytesToUint64 b with
  | some v => if v.toNat = 0 then some false else if v.toNat = 1 then some true else none
  | none => none

/-- common/codec/rlp.go:295-326 `readIntValue` for `int<w>`: overflow is refused. -/
def toInt (w : Nat) (b : Bytes) : Option Int :=
  match goSafeBytesToInt64 b with
  | some v => if v.toInt = (BitVec.ofInt w v.toInt).toInt then some v.toInt else none
  | none => none

/-- A map key: `decodeValue` of codec.go:591-601 for a key type. -/
def decodeKey (k : KeyTy) (max : Nat) (b : Bytes) (trunc : Bool) : Res Key :=
  match k with
  | .str => (readBytes max b trunc).bind (fun s => some (.str s))
  | .uint w => (readBytes max b trunc).bind (fun s => (toUint w s).map .uint)
  | .int w => (readBytes max b trunc).bind (fun s => (toInt w s).map .int)

mutual
/-- The zero value of a type (`reflect.Zero`). -/
def zero : Ty → Val
  | .bool => .bool false
  | .uint _ => .uint 0
  | .int _ => .int 0
  | .str => .str []
  | .big => .big 0
  | .bytes => .bytesNil
  | .bytesN n => .bytesN (List.replicate n 0)
  | .slice _ => .sliceNil
  | .array n t => .array (List.replicate n (zero t))
  | .ptr _ => .ptrNil
  | .struct ts => .struct (zeros ts)
  | .map _ _ => .mapNil
/-- The zero values of a list of types. -/
def zeros : List Ty → List Val
  | [] => []
  | t :: ts => zero t :: zeros ts
end

/-- A function decoding one value: `maxSB`, the bytes the reader can deliver, and whether their end
is an error. -/
abbrev Dec (α : Type) := Nat → Bytes → Bool → Res α

/-- common/codec/codec.go:546-557 `decodeNullableValue`. -/
def nullable (f : Dec Val) (z : Val) : Dec Val := fun max b trunc =>
  match f max b trunc with
  | .nil r => .ok z r
  | x => x

/-- The loop over the elements of a slice, codec.go:667-678. `fuel` bounds the iterations; every
iteration reads at least one byte, see `C39_loops_finish`. -/
def sliceLoop (f : Dec Val) (max : Nat) : Nat → Bytes → Bool → Res (List Val)
  | 0, _, _ => .err
  | fuel + 1, b, trunc =>
    match f max b trunc with
    | .ok v r => match sliceLoop f max fuel r trunc with
      | .ok vs r' => .ok (v :: vs) r'
      | x => x
    | .eof => .ok [] b
    | .nil r => .nil r
    | .err => .err

/-- The loop over the elements of an array, codec.go:630-639; elements not read stay zero. -/
def arrayLoop (f : Dec Val) (z : Val) (max : Nat) : Nat → Bytes → Bool → Res (List Val)
  | 0, b, _ => .ok [] b
  | n + 1, b, trunc =>
    match f max b trunc with
    | .ok v r => match arrayLoop f z max n r trunc with
      | .ok vs r' => .ok (v :: vs) r'
      | x => x
    | .eof => .ok (List.replicate (n + 1) z) b
    | .nil r => .nil r
    | .err => .err

/-- The loop over the entries of a map, codec.go:700-720; `f` reads a value. -/
def mapLoop (k : KeyTy) (f : Dec Val) (max : Nat) :
    Nat → List (Key × Val) → Bytes → Bool → Res (List (Key × Val))
  | 0, _, _, _ => .err
  | fuel + 1, acc, b, trunc =>
    match decodeKey k max b trunc with
    | .ok key r =>
      match f max r trunc with
      | .ok v r' => mapLoop k f max fuel (insertKey key v acc) r' trunc
      | .eof => .err
      | .nil r' => .nil r'
      | .err => .err
    | .eof => .ok acc b
    | .nil _ => .err
    | .err => .err

/-- Reading a list: header (rlp.go:165-195), the elements with a reader limited to the announced size
(`body`, given the `maxSB` of that reader), and `flush` (codec.go:411-417), which discards what the
elements left of the list. When `body` stops with `ErrNilValue` or `io.EOF` there is no `flush`, and
the enclosing reader continues inside the list. -/
def inList {α : Type} (max : Nat) (b : Bytes) (trunc : Bool)
    (body : Nat → Bytes → Bool → Res α) : Res α :=
  match readListHeader b trunc with
  | .ok n r =>
    match body (min max n) (r.take n) (r.length < n) with
    | .ok v _ => if r.length < n then .err else .ok v (r.drop n)
    | .nil r' => .nil (r' ++ r.drop n)
    | .eof => .eof
    | .err => .err
  | .nil r => .nil r
  | .eof => .eof
  | .err => .err

/-- `ErrNilValue` of a nilable type gives its nil value (codec.go:648-651, 658-661, 683-686,
693-696). -/
def nilIs (z : Val) (r : Res Val) : Res Val :=
  match r with
  | .nil rest => .ok z rest
  | x => x

/-- The part of `decodeValue` for slices and maps where only `ErrNilValue` of the *header* means
nil (codec.go:655-661, 690-696). -/
def nilHeader (z : Val) (b : Bytes) (trunc : Bool) (r : Res Val) : Res Val :=
  match readListHeader b trunc with
  | .nil rest => .ok z rest
  | _ => r

mutual
/-- common/codec/codec.go:591-725 `decodeValue`, with `tryCustom` for `big.Int` (codec.go:531-540). -/
def decode : Ty → Dec Val
  | .bool, max, b, tr => (readBytes max b tr).bind (fun s => (toBool s).map .bool)
  | .uint w, max, b, tr => (readBytes max b tr).bind (fun s => (toUint w s).map .uint)
  | .int w, max, b, tr => (readBytes max b tr).bind (fun s => (toInt w s).map .int)
  | .str, max, b, tr => (readBytes max b tr).bind (fun s => some (.str s))
  | .big, max, b, tr => (readBytes max b tr).bind (fun s => some (.big (goBigIntSetBytes s)))
  | .bytes, max, b, tr => nilIs .bytesNil ((readBytes max b tr).bind (fun s => some (.bytes s)))
  | .bytesN n, max, b, tr =>
    (readBytes max b tr).bind
      (fun s => some (.bytesN (s.take n ++ List.replicate (n - s.length) 0)))
  | .slice t, max, b, tr =>
    nilHeader .sliceNil b tr (inList max b tr (fun max' s tr' =>
      (sliceLoop (nullable (decode t) (zero t)) max' (s.length + 1) s tr').bind
        (fun vs => some (.slice vs))))
  | .array n t, max, b, tr =>
    inList max b tr (fun max' s tr' =>
      (arrayLoop (nullable (decode t) (zero t)) (zero t) max' n s tr').bind
        (fun vs => some (.array vs)))
  | .ptr t, max, b, tr =>
    nilIs .ptrNil ((decode t max b tr).bind (fun v => some (.ptr v)))
  | .struct ts, max, b, tr =>
    inList max b tr (fun max' s tr' => (decodeFields ts max' s tr').bind (fun vs => some (.struct vs)))
  | .map k t, max, b, tr =>
    nilHeader .mapNil b tr (inList max b tr (fun max' s tr' =>
      (mapLoop k (nullable (decode t) (zero t)) max' (s.length + 1) [] s tr').bind
        (fun es => some (.map (es.map Prod.fst) (es.map Prod.snd)))))
/-- common/codec/codec.go:559-589 `decodeRecursiveFields`: a field whose value is missing (`io.EOF`)
is zero, and the following fields are still tried. -/
def decodeFields : List Ty → Dec (List Val)
  | [], _, b, _ => .ok [] b
  | t :: ts, max, b, tr =>
    match decode t max b tr with
    | .ok v r => match decodeFields ts max r tr with
      | .ok vs r' => .ok (v :: vs) r'
      | x => x
    | .eof => match decodeFields ts max b tr with
      | .ok vs r' => .ok (zero t :: vs) r'
      | x => x
    | .nil r => .nil r
    | .err => .err
end

/-! ## Pooled decoders -/

/-- What the child reader left behind by a successful decoding of `b` into a value of type `t` still
wants to discard. `d.child` is set when a list is opened and cleared by `flush`; a pointer to a struct
turns `ErrNilValue` of a *field* into success without `flush` (codec.go:680-688, 690-698, 411-417). -/
def staleChild : Ty → Nat → Bytes → Option Nat
  | .ptr t, max, b => staleChild t max b
  | .struct ts, max, b =>
    match readListHeader b false with
    | .ok n r =>
      match decodeFields ts (min max n) (r.take n) (r.length < n) with
      | .nil r' => some (n - ((r.take n).length - r'.length))
      | _ => none
    | _ => none
  | _, _, _ => none

/-- common/codec/bytes.go:77-88 `UnmarshalFromBytes` with the pooled decoder it gets. `stale` is the
unread size of the child reader of that decoder, `none` if it has none; the result is the value and
the unread bytes, and the state in which the decoder goes back to the pool. On an error the decoder
is dropped. `Reset` (bytes.go:29-33) replaces the buffer and sets `maxSB` to its length. The child
reader shares the buffer, so `flush` (codec.go:411-417, 433-438) discards from the new bytes. -/
def unmarshalFromBytes (t : Ty) (stale : Option Nat) (b : Bytes) :
    Option ((Val × Bytes) × Option Nat) :=
  let afterFlush : Option Bytes :=
    match stale with
    | none => some b
    | some n => if n ≤ b.length then some (b.drop n) else none
  match afterFlush with
  | none => none
  | some b' =>
    match decode t b.length b' false with
    | .ok v r => some ((v, r), staleChild t b.length b')
    | _ => none

/-- common/codec/bytes.go:49-51 `Unmarshal`, on a stream: `maxSB` is 1e6 (rlp.go:17, 567-571). -/
def unmarshal (t : Ty) (b : Bytes) : Option (Val × Bytes) :=
  match decode t 1000000 b false with
  | .ok v r => some (v, r)
  | _ => none

/-- common/codec/bytes.go:64-75 `MarshalToBytes`. -/
def marshalToBytes (v : Val) : Bytes := encode v

end Verif.Rlp
