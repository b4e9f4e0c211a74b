import Verif.Keys.Model
import Verif.Address.Model

/-! # SCORE containers: pyee/pyexec/iconscore/icon_container_db.py

The account store is a function from hashed keys to stored bytes; the hash is the parameter `H`.
Step charging and the read-only check of `ContextDatabase` are modelled in other areas. -/

namespace Verif.Container
open Verif.Keys Verif.IntCodec

/-- Python values a SCORE stores (`V` and `K`, icon_container_db.py:24-25), and `None`. -/
inductive PyVal
  | none
  | int (i : Int)
  | str (s : String)
  | addr (a : Address.Addr)
  | bool (b : Bool)
  | bytes (b : Bytes)
deriving DecidableEq

/-- the `value_type` of a container -/
inductive VType | int | str | addr | bool | bytes
deriving DecidableEq, Repr

inductive Err | invalidParams | containerAccess | valueError | unicode | typeError
deriving DecidableEq, Repr

/-- `str.encode('utf-8')` (standard library) -/
def utf8 (s : String) : Bytes := s.toUTF8.data.toList

/-- `bytes.decode()` (standard library); `none` is `UnicodeDecodeError` -/
def utf8Decode (b : Bytes) : Option String := String.fromUTF8? ⟨b.toArray⟩

/-- `int_to_bytes`, never failing -/
def intBytes (i : Int) : Except Err Bytes :=
  match pyIntToBytes i with
  | some b => .ok b
  | none => .error .valueError

/-- icon_container_db.py:33-48 `encode_key` (`bool` is an `int` in Python). -/
def encodeKey : PyVal → Except Err Bytes
  | .none => .error .invalidParams
  | .int i => intBytes i
  | .bool b => intBytes (if b then 1 else 0)
  | .str s => .ok (utf8 s)
  | .addr a => .ok (Address.toBytes a)
  | .bytes b => .ok b

/-- icon_container_db.py:50-64 `encode_value`. -/
def encodeValue : PyVal → Except Err Bytes
  | .none => .error .invalidParams
  | .int i => intBytes i
  | .bool b => intBytes (if b then 1 else 0)
  | .str s => .ok (utf8 s)
  | .addr a => .ok (Address.toBytes a)
  | .bytes b => .ok b

/-- icon_container_db.py:85-92 `get_default_value`. -/
def defaultValue : VType → PyVal
  | .int => .int 0
  | .str => .str ""
  | .bool => .bool false
  | .addr => .none
  | .bytes => .none

/-- icon_container_db.py:66-82 `decode_object`. -/
def decodeObject (value : Option Bytes) (ty : VType) : Except Err PyVal :=
  match value with
  | none => .ok (defaultValue ty)
  | some v =>
    match ty with
    | .int => .ok (.int (pyBytesToInt v))
    | .str => match utf8Decode v with
      | some s => .ok (.str s)
      | none => .error .unicode
    | .addr => match Address.fromBytes v with
      | .ok (some a) => .ok (.addr a)
      | .ok none => .ok .none
      | .error _ => .error .valueError
    | .bool => .ok (.bool (pyBytesToInt v ≠ 0))
    | .bytes => .ok (.bytes v)

/-- The account's value store as seen through the service manager: keyed by hashed key. -/
abbrev Store := Bytes → Option Bytes

/-- service/state/account.go:788-803 `SetValue`: an empty value deletes. -/
def Store.put (s : Store) (k v : Bytes) : Store :=
  fun x => if x = k then (if v = [] then none else some v) else s x

/-- service/state/account.go:805-815 `DeleteValue`. -/
def Store.del (s : Store) (k : Bytes) : Store := fun x => if x = k then none else s x

section
variable (H : Bytes → Bytes)

/-- database/db.py:287-295 `IconScoreDatabase.get`. -/
def dbGet (d : Db) (s : Store) (k : Option Bytes) : Option Bytes := s (H (d.slot k))

/-- database/db.py:297-305 `IconScoreDatabase.put`. -/
def dbPut (d : Db) (s : Store) (k : Option Bytes) (v : Bytes) : Store := s.put (H (d.slot k)) v

/-- database/db.py:334-341 `IconScoreDatabase.delete`. -/
def dbDel (d : Db) (s : Store) (k : Option Bytes) : Store := s.del (H (d.slot k))

/-! ## VarDB (icon_container_db.py:267-306) -/

structure VarDB where
  db : Db
  ty : VType

/-- icon_container_db.py:277-282 -/
def VarDB.mk' (name : Bytes) (d : Db) (ty : VType) : VarDB := ⟨d.subDb name (some [0x02]), ty⟩

/-- icon_container_db.py:284-291 -/
def VarDB.set (v : VarDB) (s : Store) (x : PyVal) : Except Err Store := do
  let b ← encodeValue x
  pure (dbPut H v.db s none b)

/-- icon_container_db.py:293-299 -/
def VarDB.get (v : VarDB) (s : Store) : Except Err PyVal := decodeObject (dbGet H v.db s none) v.ty

/-- icon_container_db.py:301-305 -/
def VarDB.remove (v : VarDB) (s : Store) : Store := dbDel H v.db s none

/-! ## DictDB (icon_container_db.py:95-153) -/

structure DictDB where
  db : Db
  ty : VType
  depth : Int

/-- icon_container_db.py:105-112 (`var_key` already encoded) -/
def DictDB.mk' (name : Bytes) (d : Db) (ty : VType) (depth : Int) : DictDB :=
  ⟨d.subDb name (some [0x01]), ty, depth⟩

/-- icon_container_db.py:122-129 `__setitem__` -/
def DictDB.setItem (d : DictDB) (s : Store) (k x : PyVal) : Except Err Store :=
  if d.depth ≠ 1 then .error .containerAccess
  else do
    let ek ← encodeKey k
    let ev ← encodeValue x
    pure (dbPut H d.db s (some ek) ev)

/-- icon_container_db.py:131-136 `__getitem__` when the result is a nested DictDB (`depth != 1`). -/
def DictDB.sub (d : DictDB) (k : PyVal) : Except Err DictDB :=
  if d.depth = 1 then .error .typeError
  else do
    let ek ← encodeKey k
    pure (DictDB.mk' ek d.db d.ty (d.depth - 1))

/-- icon_container_db.py:131-136 `__getitem__` when the result is a value (`depth == 1`). -/
def DictDB.getItem (d : DictDB) (s : Store) (k : PyVal) : Except Err PyVal :=
  if d.depth ≠ 1 then .error .typeError
  else do
    let ek ← encodeKey k
    decodeObject (dbGet H d.db s (some ek)) d.ty

/-- icon_container_db.py:138-139,147-150 `__delitem__`, `remove`, `__remove` -/
def DictDB.delItem (d : DictDB) (s : Store) (k : PyVal) : Except Err Store :=
  if d.depth ≠ 1 then .error .containerAccess
  else do
    let ek ← encodeKey k
    pure (dbDel H d.db s (some ek))

/-- icon_container_db.py:141-145 `__contains__` -/
def DictDB.contains (d : DictDB) (s : Store) (k : PyVal) : Except Err Bool := do
  let ek ← encodeKey k
  pure (dbGet H d.db s (some ek)).isSome

/-- `d[k1][k2]...`: descend through nested dictionaries by all keys but the last, which is returned. -/
def DictDB.walk (d : DictDB) : List PyVal → Except Err (DictDB × PyVal)
  | [] => .error .typeError
  | [k] => .ok (d, k)
  | k :: k' :: ks => do
    let d' ← d.sub k
    DictDB.walk d' (k' :: ks)

/-! ## ArrayDB (icon_container_db.py:156-265) -/

structure ArrayDB where
  db : Db
  ty : VType

/-- icon_container_db.py:165-170 -/
def ArrayDB.mk' (name : Bytes) (d : Db) (ty : VType) : ArrayDB := ⟨d.subDb name (some [0x00]), ty⟩

/-- icon_container_db.py:207-208 `__get_size` -/
def ArrayDB.size (a : ArrayDB) (s : Store) : Except Err Int :=
  match decodeObject (dbGet H a.db s none) .int with
  | .ok (.int i) => .ok i
  | .ok _ => .error .typeError
  | .error e => .error e

/-- icon_container_db.py:210-212 `__set_size` -/
def ArrayDB.setSize (a : ArrayDB) (s : Store) (n : Int) : Except Err Store := do
  let b ← encodeValue (.int n)
  pure (dbPut H a.db s none b)

/-- icon_container_db.py:214-216 `__put` -/
def ArrayDB.putAt (a : ArrayDB) (s : Store) (i : Int) (x : PyVal) : Except Err Store := do
  let b ← encodeValue x
  let k ← encodeKey (.int i)
  pure (dbPut H a.db s (some k) b)

/-- icon_container_db.py:172-180 `put` -/
def ArrayDB.put (a : ArrayDB) (s : Store) (x : PyVal) : Except Err Store := do
  let n ← a.size H s
  let s ← a.putAt H s n x
  a.setSize H s (n + 1)

/-- icon_container_db.py:250-260 `_get` -/
def ArrayDB.getAt (a : ArrayDB) (s : Store) (size : Int) (i : Int) : Except Err PyVal :=
  let i := if i < 0 then i + size else i
  if 0 ≤ i ∧ i < size then do
    let k ← encodeKey (.int i)
    decodeObject (dbGet H a.db s (some k)) a.ty
  else .error .invalidParams

/-- icon_container_db.py:198-205,235-236 `get`, `__getitem__` -/
def ArrayDB.getItem (a : ArrayDB) (s : Store) (i : Int) : Except Err PyVal := do
  let n ← a.size H s
  a.getAt H s n i

/-- icon_container_db.py:182-196 `pop` -/
def ArrayDB.pop (a : ArrayDB) (s : Store) : Except Err (PyVal × Store) := do
  let n ← a.size H s
  if n = 0 then pure (.none, s)
  else
    let i := n - 1
    let v ← a.getItem H s i
    let k ← encodeKey (.int i)
    let s := dbDel H a.db s (some k)
    let s ← a.setSize H s i
    pure (v, s)

/-- icon_container_db.py:224-233 `__setitem__` -/
def ArrayDB.setItem (a : ArrayDB) (s : Store) (i : Int) (x : PyVal) : Except Err Store := do
  let n ← a.size H s
  let i := if i < 0 then i + n else i
  if 0 ≤ i ∧ i < n then a.putAt H s i x else .error .invalidParams

/-- icon_container_db.py:218-219,262-265 `__iter__`: the values at `range(size)`, read eagerly (the code
is a generator; mutation while iterating is not modelled). -/
def ArrayDB.toList (a : ArrayDB) (s : Store) : Except Err (List PyVal) := do
  let n ← a.size H s
  (List.range n.toNat).mapM (fun i => a.getAt H s n (i : Nat))

/-- service/contract/callhandler.go:486-519 `ArrayDBContains` with an unlimited step budget: the stored
bytes at indices `0 .. size-1` are compared with `value`, absent entries are skipped. The Go loop reads
`Size()` as int64 and keys the entries with `Int64ToBytes(i)`, equal to the Python encoding
(`C38_go_int64_encoders`). -/
def ArrayDB.goContains (a : ArrayDB) (s : Store) (n : Nat) (value : Bytes) : Bool :=
  (List.range n).any fun i =>
    match pyIntToBytes (i : Nat) with
    | none => false
    | some k => match dbGet H a.db s (some k) with
      | none => false
      | some b => b == value

/-- type(item) == value_type -/
def hasType : PyVal → VType → Bool
  | .int _, .int => true
  | .str _, .str => true
  | .addr _, .addr => true
  | .bool _, .bool => true
  | .bytes _, .bytes => true
  | _, _ => false

/-- icon_container_db.py:238-248 `__contains__`. The second branch (other types) compares with Python
`==`, where `True == 1`; it is modelled for items whose type is neither int nor bool. -/
def ArrayDB.contains (a : ArrayDB) (s : Store) (x : PyVal) : Except Err Bool := do
  if hasType x a.ty then
    let n ← a.size H s
    if n = 0 then pure false
    else
      let b ← encodeValue x
      pure (a.goContains H s n.toNat b)
  else
    let l ← a.toList H s
    pure (l.contains x)

end

end Verif.Container
