import Verif.IntCodec.Model

/-! # Addresses: pyee/pyexec/base/address.py and common/address.go

Python text is `List Char`. Go text is modelled as `List Char` too (Go indexes bytes; for texts with
non-ASCII characters both implementations reject, since every character must be a hex digit). -/

namespace Verif.Address
open Verif.IntCodec

/-- `AddressPrefix`, pyee/pyexec/base/address.py:59-67. -/
inductive Prefix | eoa | contract
deriving DecidableEq, Repr

/-- errors raised: `InvalidParamsException`, and `ValueError` of `AddressPrefix(prefix_int)` -/
inductive Err | invalidParams | valueError
deriving DecidableEq, Repr

/-- `Address`, pyee/pyexec/base/address.py:91-128: prefix and body. -/
structure Addr where
  pfx : Prefix
  body : Bytes
deriving DecidableEq, Repr

/-- `Address.__init__` with length validation, pyee/pyexec/base/address.py:95-114
(the `isinstance` checks are carried by the types). -/
def mk (p : Prefix) (b : Bytes) : Except Err Addr :=
  if b.length ≠ 20 then .error .invalidParams else .ok ⟨p, b⟩

/-- utils/__init__.py:39-52 `is_lowercase_hex_string`: `re.match('[0-9a-f]+', value)` must match the
whole text; on the empty text the match is `None` and the exception handler returns False. -/
def isLowercaseHexString (s : List Char) : Bool := !s.isEmpty && s.all isLowerHex

/-- pyee/pyexec/base/address.py:32-47 `is_icon_address_valid`. -/
def isIconAddressValid (s : List Char) : Bool :=
  if s.length = 42 then
    let pfx := s.take 2
    let body := s.drop 2
    if pfx = ['h', 'x'] ∨ pfx = ['c', 'x'] then isLowercaseHexString body else false
  else false

/-- pyee/pyexec/base/address.py:75-88 `AddressPrefix.from_string`. -/
def prefixFromString (s : List Char) : Except Err Prefix :=
  if s = ['h', 'x'] then .ok .eoa
  else if s = ['c', 'x'] then .ok .contract
  else .error .invalidParams

/-- pyee/pyexec/base/address.py:177-192 `Address.from_string`. -/
def fromString (s : List Char) : Except Err Addr :=
  if !isIconAddressValid s then .error .invalidParams
  else do
    let p ← prefixFromString (s.take 2)
    match hexDecode (s.drop 2) with
    | none => .error .valueError
    | some b => mk p b

/-- pyee/pyexec/base/address.py:69-73,149-156 `Address.__str__`. -/
def toStr (a : Addr) : List Char :=
  (match a.pfx with | .eoa => ['h', 'x'] | .contract => ['c', 'x']) ++ hexEncode a.body

/-- `AddressPrefix(prefix_int)`: enumeration lookup by value. -/
def prefixOfInt (n : Nat) : Except Err Prefix :=
  if n = 0 then .ok .eoa else if n = 1 then .ok .contract else .error .valueError

/-- pyee/pyexec/base/address.py:207-228 `Address.from_bytes`; `ok none` is the returned `None`. -/
def fromBytes (buf : Bytes) : Except Err (Option Addr) :=
  if buf.length ≠ 20 ∧ buf.length ≠ 21 then .ok none
  else if buf.length ≠ 20 then do
    let p ← prefixOfInt (beNat (buf.take 1))
    let a ← mk p (buf.drop 1)
    pure (some a)
  else do
    let a ← mk .eoa buf
    pure (some a)

/-- pyee/pyexec/base/address.py:230-237 `Address.to_bytes`. -/
def toBytes (a : Addr) : Bytes :=
  (match a.pfx with | .eoa => 0 | .contract => 1) :: a.body

/-- pyee/pyexec/base/address.py:239-245 `Address.from_prefix_and_int`. -/
def fromPrefixAndInt (p : Prefix) (num : Int) : Except Err Addr :=
  match pyIntToBytes num with
  | none => .error .valueError
  | some nb =>
    if nb.length > 20 then .error .invalidParams
    else mk p (List.replicate (20 - nb.length) 0 ++ nb)

/-! ## Go -/

/-- common/address.go:21 `type Address [21]byte`: first byte and the 20-byte ID. -/
structure GoAddr where
  typ : UInt8
  id : Bytes
deriving DecidableEq, Repr

/-- common/address.go:125-139 `SetTypeAndID`: short IDs are left-padded with zeros, longer ones are cut
to 20 bytes. -/
def goSetTypeAndID (ic : Bool) (id : Bytes) : GoAddr :=
  ⟨if ic then 1 else 0,
   if id.length < 20 then List.replicate (20 - id.length) 0 ++ id else id.take 20⟩

/-- common/address.go:96-98 `Bytes`. -/
def goBytes (a : GoAddr) : Bytes := a.typ :: a.id

/-- common/address.go:105-121 `SetBytes`; `none` is `ErrIllegalArgument`. -/
def goSetBytes (b : Bytes) : Option GoAddr :=
  if b.length = 21 then
    match b with
    | [] => none
    | t :: r => if t = 0 ∨ t = 1 then some ⟨t, r⟩ else none
  else if b.length = 20 then some ⟨0, b⟩
  else none

/-- common/address.go:27-33 `String`. -/
def goString (a : GoAddr) : List Char :=
  (if a.typ = 1 then ['c', 'x'] else ['h', 'x']) ++ hexEncode a.id

/-- common/address.go:47-70 `SetStringStrict`; `none` is an error. `strings.ToLower(body) != body` is
"some character is an upper-case letter" on ASCII text. -/
def goSetStringStrict (s : List Char) : Option GoAddr :=
  if s.length ≠ 42 then none
  else
    let pfx := s.take 2
    let body := s.drop 2
    let go (ic : Bool) : Option GoAddr :=
      if body.any (fun c => 'A' ≤ c ∧ c ≤ 'Z') then none
      else match hexDecode body with
        | none => none
        | some b => some (goSetTypeAndID ic b)
    if pfx = ['c', 'x'] then go true
    else if pfx = ['h', 'x'] then go false
    else none

/-- common/address.go:72-94 `SetString` (lenient form used for JSON). -/
def goSetString (s : List Char) : Option GoAddr :=
  let (ic, s) :=
    if s.length ≥ 2 then
      if s.take 2 = ['c', 'x'] then (true, s.drop 2)
      else if s.take 2 = ['h', 'x'] then (false, s.drop 2)
      else if s.take 2 = ['0', 'x'] then (false, s.drop 2)
      else (false, s)
    else (false, s)
  let s := if s.length % 2 = 1 then '0' :: s else s
  match hexDecode s with
  | none => none
  | some b => some (goSetTypeAndID ic b)

/-- common/address.go:23-25,226-235 `Equal` on non-nil addresses: compares `IsContract` and `ID`. -/
def goEqual (a b : GoAddr) : Bool := ((a.typ == 1) == (b.typ == 1)) && a.id == b.id

/-- the Go image of a Python address -/
def toGo (a : Addr) : GoAddr := ⟨match a.pfx with | .eoa => 0 | .contract => 1, a.body⟩

end Verif.Address
