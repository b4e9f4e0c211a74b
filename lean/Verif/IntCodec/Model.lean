import Verif.Base.Hex

/-!
# Integer codecs: Python executor and Go `common/intconv`
-/

namespace Verif.IntCodec

/-- Python `int.bit_length` and Go `big.Int.BitLen`: number of bits of the absolute value.
(standard library operation) -/
def bitLen (z : Int) : Nat := if z = 0 then 0 else z.natAbs.log2 + 1

/-- Python `int.to_bytes(n, "big", signed=True)`; `none` is the `OverflowError` raised when the value
does not fit in `n` bytes of two's complement. (standard library operation) -/
def toBytesSigned (v : Int) (n : Nat) : Option Bytes :=
  if -(2 ^ (8 * n) : Int) ≤ 2 * v ∧ 2 * v < 2 ^ (8 * n) then
    some (beBytes n (v % (256 ^ n : Int)).toNat)
  else none

/-- pyee/pyexec/utils/__init__.py:35-36 `byte_length_of_int`, and the same expression at
pyee/pyexec/ipc/proxy.py:28. -/
def pyByteLength (n : Int) : Nat := (bitLen (n + if n < 0 then 1 else 0) + 8) / 8

/-- pyee/pyexec/utils/__init__.py:26-28 and pyee/pyexec/ipc/proxy.py:27-29 `int_to_bytes`. -/
def pyIntToBytes (v : Int) : Option Bytes := toBytesSigned v (pyByteLength v)

/-- pyee/pyexec/utils/__init__.py:31-32 and pyee/pyexec/ipc/proxy.py:33-34 `bytes_to_int`
(`int.from_bytes(v, "big", signed=True)`: the sign is the top bit of the first byte). -/
def pyBytesToInt (bs : Bytes) : Int :=
  match bs with
  | [] => 0
  | b :: _ =>
    if b.toNat ≥ 0x80 then (beNat bs : Int) - 256 ^ bs.length else beNat bs

/-- Go `big.Int.Bytes`: minimal big-endian bytes of the absolute value (no leading zero; empty for 0).
(standard library operation) -/
def natBytes (n : Nat) : Bytes := beBytes ((bitLen n + 7) / 8) n

/-- common/intconv/bytes.go:14-33 `BigIntToBytes` (the `nil` argument, treated as zero, is not modelled
separately). -/
def goBigIntToBytes (i : Int) : Bytes :=
  if i = 0 then [0]
  else if i > 0 then
    let bl := bitLen i
    if bl % 8 = 0 then 0 :: natBytes i.toNat else natBytes i.toNat
  else
    let bl := bitLen (i + 1)
    let nb : Int := 2 ^ ((bl + 8) / 8 * 8) + i
    natBytes nb.natAbs

/-- common/intconv/bytes.go:35-43 `BigIntSetBytes`. -/
def goBigIntSetBytes (bs : Bytes) : Int :=
  let i : Int := beNat bs
  match bs with
  | [] => i
  | b :: _ => if b &&& 0x80 ≠ 0 then i - 2 ^ bitLen i else i

/-- common/intconv/bytes.go:45-59 `Uint64ToBytes`, the loop body for `idx`, with the bytes `acc`
already written after `idx`. `k = idx + 1`. -/
def u64Loop : Nat → BitVec 64 → Bytes → Bytes
  | 0, _, acc => acc
  | k + 1, v, acc =>
    let tv : UInt8 := UInt8.ofNat (v &&& 0xff#64).toNat
    let v' := v >>> 8
    let acc' := tv :: acc
    if v' = 0 ∧ tv &&& 0x80 = 0 then acc' else u64Loop k v' acc'

/-- common/intconv/bytes.go:45-59 `Uint64ToBytes`. -/
def goUint64ToBytes (v : BitVec 64) : Bytes := if v = 0 then [0] else u64Loop 9 v []

/-- common/intconv/bytes.go:61-74 `SizeToBytes`, loop. -/
def sizeLoop : Nat → BitVec 64 → Bytes → Bytes
  | 0, _, acc => acc
  | k + 1, v, acc =>
    let acc' := UInt8.ofNat (v &&& 0xff#64).toNat :: acc
    let v' := v >>> 8
    if v' = 0 then acc' else sizeLoop k v' acc'

/-- common/intconv/bytes.go:61-74 `SizeToBytes`. -/
def goSizeToBytes (v : BitVec 64) : Bytes := if v = 0 then [0] else sizeLoop 8 v []

/-- the accumulation `v = (v << 8) | uint64(b)` of bytes.go:89-91,118-120,133-140 -/
def accBytes (v : BitVec 64) : Bytes → BitVec 64
  | [] => v
  | b :: bs => accBytes ((v <<< 8) ||| BitVec.ofNat 64 b.toNat) bs

/-- common/intconv/bytes.go:76-93 `SafeBytesToUint64`; `none` is `(0,false)`. -/
def goSafeBytesToUint64 (bs : Bytes) : Option (BitVec 64) :=
  match bs with
  | [] => some 0
  | b :: rest =>
    if b = 0 then
      if rest.length > 8 then none else some (accBytes 0 rest)
    else if b &&& 0x80 ≠ 0 then none
    else if bs.length > 8 then none else some (accBytes 0 bs)

/-- common/intconv/bytes.go:110-122 `SafeBytesToSize64`. -/
def goSafeBytesToSize64 (bs : Bytes) : Option (BitVec 64) :=
  if bs.length = 0 then some 0
  else if bs.length > 8 then none
  else some (accBytes 0 bs)

/-- common/intconv/bytes.go:124-143 `SafeBytesToInt64` (int64 as `BitVec 64`, read with `toInt`). -/
def goSafeBytesToInt64 (bs : Bytes) : Option (BitVec 64) :=
  match bs with
  | [] => some 0
  | b :: _ =>
    if bs.length > 8 then none
    else if b &&& 0x80 ≠ 0 then
      some (-(accBytes 0 (bs.map (· ^^^ 0xff))) - 1)
    else some (accBytes 0 bs)

/-- common/intconv/bytes.go:153-174 `Int64ToBytes`, loop (`>>` on int64 is arithmetic). -/
def i64Loop (target : BitVec 64) : Nat → BitVec 64 → Bytes → Bytes
  | 0, _, acc => acc
  | k + 1, v, acc =>
    let acc' := UInt8.ofNat (v &&& 0xff#64).toNat :: acc
    if v &&& (-0x80#64) = target then acc' else i64Loop target k (v.sshiftRight 8) acc'

/-- common/intconv/bytes.go:153-174 `Int64ToBytes`. -/
def goInt64ToBytes (v : BitVec 64) : Bytes :=
  if v = 0 then [0]
  else i64Loop (if v.toInt < 0 then -0x80#64 else 0) 8 v []

/-- common/intconv/string.go:41-54 `encodeHexNumber`. -/
def encodeHexNumber (neg : Bool) (b : Bytes) : List Char :=
  match hexEncode b with
  | [] => ['0', 'x', '0']
  | c :: s =>
    let s' := if c = '0' then s else c :: s
    if neg then '-' :: '0' :: 'x' :: s' else '0' :: 'x' :: s'

/-- common/intconv/string.go:12-14 `FormatBigInt`. -/
def formatBigInt (i : Int) : List Char := encodeHexNumber (i < 0) (natBytes i.natAbs)

end Verif.IntCodec
