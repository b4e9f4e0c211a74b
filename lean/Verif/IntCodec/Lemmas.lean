import Verif.IntCodec.Model

namespace Verif.IntCodec

theorem bitLen_le_iff (z : Int) (k : Nat) : bitLen z ≤ k ↔ z.natAbs < 2 ^ k := by
  unfold bitLen
  split
  · subst_vars; simp
  · rename_i h
    have h0 : z.natAbs ≠ 0 := by omega
    rw [Nat.add_one_le_iff, Nat.log2_lt h0]

theorem pow256 (n : Nat) : (256 : Nat) ^ n = 2 ^ (8 * n) := by
  rw [Nat.pow_mul]

theorem pow256i (n : Nat) : (256 : Int) ^ n = 2 ^ (8 * n) := by
  exact_mod_cast pow256 n

/-- fits in `k` bytes of two's complement -/
def Fits (v : Int) (k : Nat) : Prop := -(2 ^ (8 * k) : Int) ≤ 2 * v ∧ 2 * v < 2 ^ (8 * k)

theorem pyByteLength_le_iff (v : Int) (k : Nat) (hk : 0 < k) :
    pyByteLength v ≤ k ↔ Fits v k := by
  obtain ⟨m, hm⟩ : ∃ m, 8 * k = m + 1 := ⟨8 * k - 1, by omega⟩
  have key : pyByteLength v ≤ k ↔ bitLen (v + if v < 0 then 1 else 0) ≤ m := by
    unfold pyByteLength; omega
  rw [key, bitLen_le_iff]
  unfold Fits
  rw [hm]
  have e : ((2 ^ m : Nat) : Int) = (2 : Int) ^ m := by norm_cast
  have e2 : (2 : Int) ^ (m + 1) = 2 * 2 ^ m := by ring
  rw [e2, ← e]
  generalize 2 ^ m = P
  split <;> constructor <;> intro h <;> omega

theorem pyByteLength_pos (v : Int) : 0 < pyByteLength v := by
  unfold pyByteLength; omega

theorem fits_pyByteLength (v : Int) : Fits v (pyByteLength v) :=
  (pyByteLength_le_iff v _ (pyByteLength_pos v)).1 (le_refl _)

/-- the bytes written -/
def enc (v : Int) (n : Nat) : Bytes := beBytes n (v % (256 ^ n : Int)).toNat

theorem pyIntToBytes_eq (v : Int) : pyIntToBytes v = some (enc v (pyByteLength v)) := by
  unfold pyIntToBytes toBytesSigned
  have := fits_pyByteLength v
  unfold Fits at this
  rw [if_pos this]; rfl

theorem pyBytesToInt_eq (bs : Bytes) :
    pyBytesToInt bs = if 2 * beNat bs ≥ 256 ^ bs.length then (beNat bs : Int) - 256 ^ bs.length
      else beNat bs := by
  cases bs with
  | nil => simp [pyBytesToInt, beNat]
  | cons b bs =>
    simp only [pyBytesToInt]
    have h1 := beNat_lt bs
    have hp : 0 < 256 ^ bs.length := Nat.pow_pos (by omega)
    have : (b.toNat ≥ 0x80) ↔ 2 * beNat (b :: bs) ≥ 256 ^ (b :: bs).length := by
      simp only [beNat, List.length_cons, pow_succ]
      constructor
      · intro h; nlinarith
      · intro h
        by_contra hc
        have : b.toNat ≤ 127 := by omega
        nlinarith
    simp only [this]

theorem pyBytesToInt_fits (bs : Bytes) : Fits (pyBytesToInt bs) bs.length := by
  rw [pyBytesToInt_eq]
  have h1 := beNat_lt bs
  unfold Fits
  rw [pow256] at *
  have e : ((2 ^ (8 * bs.length) : Nat) : Int) = (2 : Int) ^ (8 * bs.length) := by norm_cast
  rw [pow256i]
  rw [← e]
  generalize 2 ^ (8 * bs.length) = P at *
  split <;> constructor <;> omega

theorem enc_length (v : Int) (n : Nat) : (enc v n).length = n := by simp [enc]

theorem decode_enc {v : Int} {n : Nat} (h : Fits v n) : pyBytesToInt (enc v n) = v := by
  rw [pyBytesToInt_eq, enc_length]
  unfold enc
  have e : ((256 ^ n : Nat) : Int) = (256 : Int) ^ n := by norm_cast
  unfold Fits at h
  rw [← pow256i] at h
  have hp : (0 : Int) < 256 ^ n := by positivity
  have hm := Int.emod_nonneg v (b := 256 ^ n) (by omega)
  have hm2 := Int.emod_lt_of_pos v hp
  have hlt : (v % (256 ^ n : Int)).toNat < 256 ^ n := by
    apply Int.ofNat_lt.mp; rw [e]; omega
  rw [beNat_beBytes_of_lt hlt]
  by_cases hv : 0 ≤ v
  · have : v % 256 ^ n = v := Int.emod_eq_of_lt hv (by omega)
    rw [this]
    rw [if_neg]
    · omega
    · intro hc
      have : (2 * v.toNat : Int) ≥ ((256 ^ n : Nat) : Int) := by exact_mod_cast hc
      rw [e] at this; omega
  · have : v % 256 ^ n = v + 256 ^ n := by
      rw [← Int.add_emod_right, Int.emod_eq_of_lt (by omega) (by omega)]
    rw [this]
    rw [if_pos]
    · omega
    · apply Int.ofNat_le.mp
      push_cast
      omega

theorem decode_inj {a b : Bytes} (hl : a.length = b.length)
    (h : pyBytesToInt a = pyBytesToInt b) : a = b := by
  apply beNat_inj hl
  rw [pyBytesToInt_eq, pyBytesToInt_eq, hl] at h
  have b1 := beNat_lt a
  have b2 := beNat_lt b
  rw [hl] at b1
  have e : ((256 ^ b.length : Nat) : Int) = (256 : Int) ^ b.length := by norm_cast
  rw [← e] at h
  generalize 256 ^ b.length = P at *
  split at h <;> split at h <;> omega

theorem enc_decode (bs : Bytes) : enc (pyBytesToInt bs) bs.length = bs :=
  decode_inj (enc_length _ _) (decode_enc (pyBytesToInt_fits bs))

theorem pyIntToBytes_some {v : Int} {bs : Bytes} (h : pyIntToBytes v = some bs) :
    bs = enc v (pyByteLength v) := by
  rw [pyIntToBytes_eq] at h; exact (Option.some.inj h).symm

end Verif.IntCodec
