import Verif.IntCodec.Text
import Verif.Address.Model

/-!
# What is signed of a transaction

The hash of a transaction, which its signature is for, is taken of a text (`service/transaction/serialize.go`, `transaction_v3.go`).  Strings are
lists of characters; Go works on the bytes of their UTF-8 form, in which the special characters stand for themselves only.  A JSON text is given by
the value that `json.Unmarshal` makes of it; the type `F` stands for `float64` and `conv` for its conversion to `int64`.
-/

namespace Verif.Tx

open Verif.IntCodec Verif.Address

/-- A JSON value as `json.Unmarshal` gives it; a Go map is given by its entries in the order of the keys (`sort.Strings`,
`serialize.go:99-104`). -/
inductive J (F : Type) : Type
  | null
  | bool (b : Bool)
  | num (x : F)
  | str (s : List Char)
  | list (l : List (J F))
  | dict (d : List (List Char × J F))

/-- The characters that are escaped (`serialize.go:23-34`). -/
def special (c : Char) : Bool := c ∈ ['\\', '{', '}', '[', ']', '.']

/-- `serializeString` (`serialize.go:19-41`). -/
def serString : List Char → List Char
  | [] => []
  | c :: s => if special c then '\\' :: c :: serString s else c :: serString s

/-- A decimal digit. -/
def digit (n : ℕ) : Char := Char.ofNat (48 + n % 10)

/-- The decimal text of a natural number, at most `fuel` digits. -/
def decNat : ℕ → ℕ → List Char
  | 0, _ => []
  | fuel + 1, n => if n < 10 then [digit n] else decNat fuel (n / 10) ++ [digit n]

/-- `strconv.FormatInt(i, 10)` of an `int64`. -/
def decInt (i : ℤ) : List Char := if i < 0 then '-' :: decNat 20 i.natAbs else decNat 20 i.natAbs

section
variable {F : Type} (conv : F → ℤ)

mutual

/-- `serializeValue` (`serialize.go:60-94`); `none` is an error. -/
def serValue : J F → Option (List Char)
  | .null => some ['\\', '0']
  | .bool _ => none
  | .num x => some (decInt (conv x))
  | .str s => some (serString s)
  | .list l => (serList [] l).map (fun f => '[' :: (f ++ [']']))
  | .dict d => (serDict [] d).map (fun f => '{' :: (f ++ ['}']))

/-- The loop of `serializeList` (`serialize.go:43-58`) with the buffer. -/
def serList : List Char → List (J F) → Option (List Char)
  | buf, [] => some buf
  | buf, v :: l =>
    match serValue v with
    | none => none
    | some f => serList ((if buf = [] then [] else buf ++ ['.']) ++ f) l

/-- The loop of `serializeDict` (`serialize.go:96-122`) with the buffer. -/
def serDict : List Char → List (List Char × J F) → Option (List Char)
  | buf, [] => some buf
  | buf, (k, v) :: d =>
    match serValue v with
    | none => none
    | some f => serDict ((if buf = [] then [] else buf ++ ['.']) ++ (serString k ++ '.' :: f)) d

end

example : serValue (F := ℤ) id (.dict [("a".toList, .list [.str "".toList, .str "x.y".toList]), ("b".toList, .num (-12))]) =
    some "{a.[x\\.y].b.-12}".toList := by rfl

end

/-! ## Transactions -/

/-- `transactionV3Data` (`transaction_v3.go:23-35`) without the signature.  `data` is `none` for nil and `some none` for an empty one. -/
structure V3 (F : Type) where
  data : Option (Option (J F))
  dataType : Option (List Char)
  src : GoAddr
  nid : Option (BitVec 64)
  nonce : Option ℤ
  stepLimit : ℤ
  timestamp : BitVec 64
  dst : GoAddr
  value : Option ℤ
  version : BitVec 16

section
variable {F : Type} (conv : F → ℤ)

/-- `.name.` and what follows, if it is there. -/
def field (name : String) : Option (List Char) → List Char
  | none => []
  | some s => '.' :: (name.toList ++ '.' :: s)

/-- The data of a transaction in the text (`transaction_v3.go:42-57`). -/
def dataText : Option (Option (J F)) → Option (Option (List Char))
  | none => some none
  | some none => some (some [])
  | some (some v) => (serValue conv v).map some

/-- The text after the data (`transaction_v3.go:59-99`). -/
def V3.rest (t : V3 F) : List Char :=
  field "dataType" t.dataType ++ field "from" (some (goString t.src)) ++ field "nid" (t.nid.map formatInt) ++
    field "nonce" (t.nonce.map formatBigInt) ++ field "stepLimit" (some (formatBigInt t.stepLimit)) ++
    field "timestamp" (some (formatInt t.timestamp)) ++ field "to" (some (goString t.dst)) ++
    field "value" (t.value.map formatBigInt) ++ field "version" (some (formatUint (t.version.setWidth 64)))

/-- The text that is hashed for a transaction in binary form (`transactionV3Data.calcHash`, `transaction_v3.go:37-102`); `none` is an
error. -/
def V3.text (t : V3 F) : Option (List Char) :=
  (dataText conv t.data).map (fun d => "icx_sendTransaction".toList ++ field "data" d ++ t.rest)

/-- The text that is hashed for a transaction in JSON form (`calcHashOfTransactionJSMap`, `transaction_json.go:56-69`): all fields except the
signature and the hash (`:39-44`). -/
def jsonText (d : List (List Char × J F)) : Option (List Char) :=
  (serDict conv [] (d.filter (fun e => e.1 ∉ ["signature".toList, "txHash".toList]))).map ("icx_sendTransaction.".toList ++ ·)

end

end Verif.Tx
