import Mathlib.Tactic.Linarith
import Mathlib.Tactic.Ring
import Verif.IntCodec.Props
import Verif.Rlp.Spec

/-! # Lemmas: headers -/

namespace Verif.Rlp
open Verif Verif.IntCodec

theorem u8_toNat_ofNat {n : Nat} (h : n < 256) : (UInt8.ofNat n).toNat = n := by
  simp only [UInt8.toNat_ofNat']; omega

theorem sizeToBytes_spec (n : Nat) (h : n < 2 ^ 63) (h0 : 0 < n) :
    beNat (sizeToBytes n) = n ∧ 1 ≤ (sizeToBytes n).length ∧ (sizeToBytes n).length ≤ 8 := by
  have hv : (BitVec.ofNat 64 n).toNat = n := by
    rw [BitVec.toNat_ofNat]; exact Nat.mod_eq_of_lt (by omega)
  have := C38_go_size_encoder (BitVec.ofNat 64 n)
  rw [hv] at this
  obtain ⟨h1, h2⟩ := this
  refine ⟨h1, ?_, ?_⟩
  · by_contra hc
    have : sizeToBytes n = [] := by
      have : (sizeToBytes n).length = 0 := by omega
      simpa using this
    unfold sizeToBytes at this
    rw [this] at h1
    simp [beNat] at h1
    omega
  · unfold sizeToBytes
    rcases h2 with h2 | h2 <;> rw [h2]
    · simp
    · unfold natBytes
      rw [beBytes_length]
      have hb := (bitLen_le_iff (n : Int) 64).2 (by simp only [Int.natAbs_natCast]; omega)
      omega

theorem bytesToSize_spec (bs : Bytes) (h : bs.length ≤ 8) (h2 : beNat bs < 2 ^ 63) :
    bytesToSize bs = some (beNat bs) := by
  unfold bytesToSize goSafeBytesToSize64
  by_cases h0 : bs.length = 0
  · have : bs = [] := by simpa using h0
    subst this
    simp [beNat]
  · rw [if_neg h0, if_neg (by omega)]
    simp only [accBytes_zero bs h]
    rw [if_pos (by omega)]

theorem readAll_append (a r : Bytes) : readAll a.length (a ++ r) = some (a, r) := by
  unfold readAll
  rw [if_pos (by simp)]
  simp

theorem readSize_sizeToBytes (n : Nat) (h : n < 2 ^ 63) (h0 : 0 < n) (r : Bytes) :
    readSize (sizeToBytes n).length (sizeToBytes n ++ r) = some (n, r) := by
  obtain ⟨h1, h2, h3⟩ := sizeToBytes_spec n h h0
  unfold readSize
  rw [readAll_append]
  simp only [bytesToSize_spec _ h3 (by omega), h1]

theorem readBytes_writeBytes (max : Nat) (b r : Bytes) (tr : Bool)
    (hm : b.length ≤ max ∨ b.length ≤ 55) (hl : b.length < 2 ^ 63) :
    readBytes max (writeBytes b ++ r) tr = .ok b r := by
  unfold writeBytes
  by_cases h0 : b.length = 0
  · have : b = [] := by simpa using h0
    subst this
    rfl
  rw [if_neg h0]
  by_cases h1 : b.length = 1 ∧ ∀ x ∈ b, x < 0x80
  · rw [if_pos h1]
    obtain ⟨x, rfl⟩ := List.length_eq_one_iff.1 h1.1
    have hx : x < 0x80 := h1.2 x (by simp)
    have : x.toNat < 0x80 := hx
    simp only [readBytes, List.cons_append, List.nil_append]
    rw [if_pos this]
  rw [if_neg h1]
  by_cases h2 : b.length ≤ 55
  · rw [if_pos h2]
    simp only [readBytes, List.cons_append]
    rw [u8_toNat_ofNat (by omega), if_neg (by omega), if_pos (by omega),
      show 128 + b.length - 128 = b.length by omega, readAll_append]
  · rw [if_neg h2]
    obtain ⟨e1, e2, e3⟩ := sizeToBytes_spec b.length hl (by omega)
    simp only [readBytes, List.cons_append, List.append_assoc]
    rw [u8_toNat_ofNat (by omega), if_neg (by omega), if_neg (by omega), if_pos (by omega),
      show 128 + 55 + (sizeToBytes b.length).length - 183 = (sizeToBytes b.length).length by omega,
      readSize_sizeToBytes _ hl (by omega)]
    simp only
    rw [if_neg (by omega), readAll_append]

theorem readListHeader_writeList (b r : Bytes) (tr : Bool) (hl : b.length < 2 ^ 63) :
    readListHeader (writeList b ++ r) tr = .ok b.length (b ++ r) := by
  unfold writeList
  by_cases h0 : b.length = 0
  · have : b = [] := by simpa using h0
    subst this
    rfl
  rw [if_neg h0]
  by_cases h2 : b.length ≤ 55
  · rw [if_pos h2]
    simp only [readListHeader, List.cons_append]
    rw [u8_toNat_ofNat (by omega), if_neg (by omega), if_pos (by omega),
      show 192 + b.length - 192 = b.length by omega]
  · rw [if_neg h2]
    obtain ⟨e1, e2, e3⟩ := sizeToBytes_spec b.length hl (by omega)
    simp only [readListHeader, List.cons_append, List.append_assoc]
    rw [u8_toNat_ofNat (by omega), if_neg (by omega), if_neg (by omega),
      show 192 + 55 + (sizeToBytes b.length).length - 247 = (sizeToBytes b.length).length by omega,
      readSize_sizeToBytes _ hl (by omega)]
    simp only
    rw [if_neg (by omega)]

theorem readBytes_null (max : Nat) (r : Bytes) (tr : Bool) :
    readBytes max (nullSequence ++ r) tr = .nil r := by
  simp only [nullSequence, List.cons_append, List.nil_append, readBytes]
  rw [if_neg (by decide), if_neg (by decide), if_neg (by decide), if_pos (by decide)]
  have : readSize 1 (0 :: r) = some (0, r) := by
    simp [readSize, readAll, bytesToSize, goSafeBytesToSize64, accBytes]
  rw [this]; rfl

theorem readListHeader_null (r : Bytes) (tr : Bool) :
    readListHeader (nullSequence ++ r) tr = .nil r := by
  simp only [nullSequence, List.cons_append, List.nil_append, readListHeader]
  rw [if_neg (by decide), if_neg (by decide)]
  have : readSize ((248 : UInt8).toNat - 247) (0 :: r) = some (0, r) := by
    show readSize 1 (0 :: r) = some (0, r)
    simp [readSize, readAll, bytesToSize, goSafeBytesToSize64, accBytes]
  rw [this]
  simp only []
  rw [if_pos ⟨by decide, trivial⟩]

theorem writeBytes_ne (b : Bytes) : writeBytes b ≠ [] := by
  unfold writeBytes
  split_ifs with h0 h1 h2
  · simp
  · intro hc; subst hc; simp at h0
  · simp
  · simp

theorem writeList_ne (b : Bytes) : writeList b ≠ [] := by
  unfold writeList
  split_ifs <;> simp

theorem writeBytes_length (b : Bytes) : b.length ≤ (writeBytes b).length := by
  unfold writeBytes
  split_ifs with h0 h1 h2
  · simp [h0]
  · exact le_refl _
  · simp
  · simp only [List.length_cons, List.length_append]; omega

theorem writeList_length (b : Bytes) : b.length < (writeList b).length := by
  unfold writeList
  split_ifs with h0 h1
  · simp [h0]
  · simp
  · simp only [List.length_cons, List.length_append]; omega

/-! ## Integers -/

theorem toUint_enc (w n : Nat) (hw : w ≤ 64) (h : n < 2 ^ w) :
    toUint w (goUint64ToBytes (BitVec.ofNat 64 n)) = some n := by
  have hlt : n < 2 ^ 64 := lt_of_lt_of_le h (Nat.pow_le_pow_right (by omega) hw)
  have hv : (BitVec.ofNat 64 n).toNat = n := by
    rw [BitVec.toNat_ofNat]; exact Nat.mod_eq_of_lt hlt
  unfold toUint
  rw [C38_go_uint64_decoder.2]
  simp only [hv]
  rw [if_pos (Nat.mod_eq_of_lt h).symm]

theorem toBool_enc (b : Bool) : toBool [if b then 1 else 0] = some b := by
  cases b <;> rfl

theorem pow63_le {w : Nat} (hw : w ≤ 64) : (2 : Int) ^ (w - 1) ≤ 2 ^ 63 :=
  pow_le_pow_right₀ (by omega) (by omega)

theorem ofInt_toInt {w : Nat} {z : Int} (h1 : 1 ≤ w) (ha : -(2 ^ (w - 1)) ≤ z) (hb : z < 2 ^ (w - 1)) :
    (BitVec.ofInt w z).toInt = z := by
  rw [BitVec.toInt_ofInt]
  obtain ⟨k, rfl⟩ : ∃ k, w = k + 1 := ⟨w - 1, by omega⟩
  simp only [Nat.add_sub_cancel] at ha hb
  have e : (2 ^ (k + 1) : Nat) = 2 * 2 ^ k := by ring
  have e2 : ((2 ^ k : Nat) : Int) = (2 : Int) ^ k := by push_cast; rfl
  rw [← e2] at ha hb
  rw [e]
  apply Int.bmod_eq_of_le <;> omega

theorem goInt64_length (v : BitVec 64) : (goInt64ToBytes v).length ≤ 8 := by
  rw [(C38_go_int64_encoders v).2, goBigIntToBytes_eq, enc_length, pyByteLength_le_iff _ _ (by omega)]
  unfold Fits
  have := toInt_cases v
  have := v.isLt
  norm_num
  omega

theorem goUint64_length (v : BitVec 64) : (goUint64ToBytes v).length ≤ 9 := by
  rw [(C38_go_int64_encoders v).1, goBigIntToBytes_eq, enc_length, pyByteLength_le_iff _ _ (by omega)]
  unfold Fits
  have := v.isLt
  norm_num; omega

theorem toInt_enc (w : Nat) (z : Int) (h1 : 1 ≤ w) (hw : w ≤ 64)
    (ha : -(2 ^ (w - 1)) ≤ z) (hb : z < 2 ^ (w - 1)) :
    toInt w (goInt64ToBytes (BitVec.ofInt 64 z)) = some z := by
  have hp := pow63_le hw
  have hz : (BitVec.ofInt 64 z).toInt = z := ofInt_toInt (by omega) (by omega) (by omega)
  obtain ⟨v, e1, e2⟩ := (C38_go_int64_decoder _).1 (goInt64_length (BitVec.ofInt 64 z))
  rw [← decode_eq_signedValue, (C38_go_int64_encoders _).2, ← goBigIntSetBytes_eq, C38_go_roundtrip,
    hz] at e2
  unfold toInt
  rw [e1]
  simp only [e2]
  rw [if_pos (ofInt_toInt h1 ha hb).symm]

end Verif.Rlp
