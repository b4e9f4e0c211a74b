import Verif.Base.Bytes

/-! Specification of the integer wire format, independent of the codecs. -/

namespace Verif.IntCodec.Spec

/-- The two's-complement reading of a big-endian byte string: the first digit is signed. -/
def signedValue : Bytes → Int
  | [] => 0
  | b :: bs => (if b.toNat < 128 then (b.toNat : Int) else b.toNat - 256) * 256 ^ bs.length + beNat bs

/-- A byte string without a redundant leading sign byte. -/
def Canonical : Bytes → Prop
  | [] => False
  | [_] => True
  | a :: b :: _ => ¬ (a = 0x00 ∧ b.toNat < 128) ∧ ¬ (a = 0xff ∧ 128 ≤ b.toNat)

/-- value of a list of hexadecimal digits given as numbers -/
def hexValue (ds : List Nat) : Nat := ds.foldl (fun acc d => acc * 16 + d) 0

end Verif.IntCodec.Spec
