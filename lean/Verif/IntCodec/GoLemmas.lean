import Verif.IntCodec.Lemmas

namespace Verif.IntCodec

set_option maxRecDepth 4000 in
theorem u8_top (b : UInt8) : b &&& 0x80 ≠ 0 ↔ b.toNat ≥ 0x80 := by
  have h : ∀ n, n < 256 → ((n &&& 0x80 ≠ 0) ↔ n ≥ 0x80) := by decide
  have := h b.toNat b.toNat_lt
  rw [← this, ← not_iff_not]
  push Not
  rw [← UInt8.toNat_inj]
  simp

theorem bitLen_eq {z : Int} {k : Nat} (h1 : z.natAbs < 2 ^ (k + 1)) (h2 : 2 ^ k ≤ z.natAbs) :
    bitLen z = k + 1 := by
  have a := (bitLen_le_iff z (k + 1)).2 h1
  have b := (bitLen_le_iff z k).not.2 (by omega)
  omega

theorem enc_nonneg {v : Int} {n : Nat} (h0 : 0 ≤ v) (h : v.toNat < 256 ^ n) :
    enc v n = beBytes n v.toNat := by
  unfold enc
  congr 2
  apply Int.emod_eq_of_lt h0
  have e : ((256 ^ n : Nat) : Int) = (256 : Int) ^ n := by norm_cast
  rw [← e]; omega

theorem enc_neg {v : Int} {n : Nat} (h0 : v < 0) (h : Fits v n) :
    enc v n = beBytes n (v + 256 ^ n).natAbs := by
  unfold enc
  unfold Fits at h
  rw [← pow256i] at h
  have : v % 256 ^ n = v + 256 ^ n := by
    rw [← Int.add_emod_right, Int.emod_eq_of_lt (by omega) (by omega)]
  rw [this]
  congr 1
  omega

theorem goBigIntToBytes_eq (v : Int) : goBigIntToBytes v = enc v (pyByteLength v) := by
  have hfit := fits_pyByteLength v
  unfold goBigIntToBytes
  split
  · subst_vars; rfl
  · rename_i hz
    split
    · rename_i hpos
      have hlt : ¬ v < 0 := by omega
      have hbl : pyByteLength v = (bitLen v + 8) / 8 := by simp [pyByteLength, hlt]
      have hb := (bitLen_le_iff v (bitLen v)).1 (le_refl _)
      have e1 : (v.toNat : Int) = v := by omega
      have e2 : v.natAbs = v.toNat := by omega
      have hb1 : 1 ≤ bitLen v := by unfold bitLen; split <;> omega
      have hlt2 : v.toNat < 256 ^ ((bitLen v + 7) / 8) := by
        rw [pow256, ← e2]
        exact lt_of_lt_of_le hb (Nat.pow_le_pow_right (by omega) (by omega))
      have hnb : natBytes v.toNat = beBytes ((bitLen v + 7) / 8) v.toNat := by
        unfold natBytes; rw [e1]
      simp only [hnb]
      split
      · rename_i hm
        have : (bitLen v + 8) / 8 = (bitLen v + 7) / 8 + 1 := by omega
        rw [hbl, this]
        rw [enc_nonneg (by omega)]
        · simp only [beBytes]
          rw [Nat.div_eq_of_lt hlt2]; rfl
        · rw [pow_succ]; omega
      · rename_i hm
        have : (bitLen v + 8) / 8 = (bitLen v + 7) / 8 := by omega
        rw [hbl, this, enc_nonneg (by omega) hlt2]
    · rename_i hneg
      have hlt : v < 0 := by omega
      have hbl : pyByteLength v = (bitLen (v + 1) + 8) / 8 := by simp [pyByteLength, hlt]
      simp only
      rw [← hbl]
      rw [enc_neg hlt hfit]
      have hp := pyByteLength_pos v
      generalize pyByteLength v = n at *
      unfold Fits at hfit
      rw [pow256i, show n * 8 = 8 * n by ring, Int.add_comm]
      have : bitLen ((v + 2 ^ (8 * n)).natAbs) = 8 * n := by
        obtain ⟨m, hm⟩ : ∃ m, 8 * n = m + 1 := ⟨8 * n - 1, by omega⟩
        rw [hm] at hfit ⊢
        have e : ((2 ^ m : Nat) : Int) = (2 : Int) ^ m := by norm_cast
        have e2 : (2 : Int) ^ (m + 1) = 2 * 2 ^ m := by ring
        have e3 : (2 : Nat) ^ (m + 1) = 2 * 2 ^ m := by ring
        rw [e2, ← e] at hfit ⊢
        apply bitLen_eq
        · rw [e3, Int.natAbs_natCast]; generalize 2 ^ m = P at *; omega
        · rw [Int.natAbs_natCast]; generalize 2 ^ m = P at *; omega
      unfold natBytes
      rw [this]
      congr 1
      omega

theorem goBigIntSetBytes_eq (bs : Bytes) : goBigIntSetBytes bs = pyBytesToInt bs := by
  unfold goBigIntSetBytes pyBytesToInt
  cases bs with
  | nil => simp [beNat]
  | cons b bs =>
    simp only [u8_top]
    split
    · rename_i hb
      have hlt := beNat_lt (b :: bs)
      have : bitLen (beNat (b :: bs) : Int) = 8 * (b :: bs).length := by
        obtain ⟨m, hm⟩ : ∃ m, 8 * (b :: bs).length = m + 1 :=
          ⟨8 * (b :: bs).length - 1, by simp; omega⟩
        rw [pow256, hm] at hlt
        rw [hm]
        apply bitLen_eq
        · simpa using hlt
        · have h2 : 2 ^ (m + 1) = 256 * 256 ^ bs.length := by
            rw [← hm, ← pow256]; simp [pow_succ]; ring
          have h3 : 2 ^ (m + 1) = 2 * 2 ^ m := by ring
          simp only [Int.natAbs_natCast, beNat]
          have : 128 * 256 ^ bs.length ≤ b.toNat * 256 ^ bs.length := Nat.mul_le_mul_right _ hb
          omega
      rw [this, pow256i]
    · rfl

/-! ### 64-bit functions -/

theorem accBytes_eq (bs : Bytes) (v : BitVec 64) (k : Nat) (hv : v.toNat < 256 ^ k)
    (hk : k + bs.length ≤ 8) : (accBytes v bs).toNat = v.toNat * 256 ^ bs.length + beNat bs := by
  induction bs generalizing v k with
  | nil => simp [accBytes, beNat]
  | cons b bs ih =>
    simp only [List.length_cons] at hk
    simp only [accBytes, beNat, List.length_cons]
    have hb : b.toNat < 256 := b.toNat_lt
    have hle : 256 ^ (k + 1) ≤ 256 ^ 8 := Nat.pow_le_pow_right (by omega) (by omega)
    have hpow : (256 : Nat) ^ (k + 1) = 256 * 256 ^ k := by ring
    have e8 : (256 : Nat) ^ 8 = 2 ^ 64 := by norm_num
    have hstep : ((v <<< 8) ||| BitVec.ofNat 64 b.toNat).toNat = v.toNat * 256 + b.toNat := by
      rw [BitVec.toNat_or, BitVec.toNat_shiftLeft, BitVec.toNat_ofNat]
      rw [Nat.shiftLeft_eq, Nat.mod_eq_of_lt (a := b.toNat) (by omega),
        Nat.mod_eq_of_lt (by omega), ← Nat.shiftLeft_eq,
        Nat.shiftLeft_add_eq_or_of_lt (by omega) v.toNat |>.symm, Nat.shiftLeft_eq]
    rw [ih _ (k + 1) (by rw [hstep]; omega) (by omega), hstep]
    ring

theorem accBytes_zero (bs : Bytes) (h : bs.length ≤ 8) : (accBytes 0 bs).toNat = beNat bs := by
  have := accBytes_eq bs 0 0 (by simp) (by omega)
  simpa using this

set_option maxRecDepth 4000 in
theorem map_compl_beNat (bs : Bytes) : beNat (bs.map (· ^^^ 0xff)) + beNat bs + 1 = 256 ^ bs.length := by
  have hx : ∀ b : UInt8, (b ^^^ 0xff).toNat = 255 - b.toNat := by
    intro b
    have h : ∀ n, n < 256 → (n ^^^ 0xff) = 255 - n := by decide
    simp only [UInt8.toNat_xor]
    exact h b.toNat b.toNat_lt
  induction bs with
  | nil => simp [beNat]
  | cons b bs ih =>
    simp only [List.map_cons, beNat, List.length_map, List.length_cons, hx]
    have hb : b.toNat < 256 := b.toNat_lt
    have : (255 - b.toNat) * 256 ^ bs.length + b.toNat * 256 ^ bs.length = 255 * 256 ^ bs.length := by
      rw [← Nat.add_mul]; congr 1; omega
    rw [pow_succ]
    omega

theorem u8_low (v : BitVec 64) : (UInt8.ofNat (v &&& 0xff#64).toNat) = UInt8.ofNat (v.toNat % 256) := by
  congr 1
  rw [BitVec.toNat_and]
  simp
  exact Nat.and_two_pow_sub_one_eq_mod v.toNat 8

theorem shr8 (v : BitVec 64) : (v >>> 8).toNat = v.toNat / 256 := by
  rw [BitVec.toNat_ushiftRight, Nat.shiftRight_eq_div_pow]

/-- little steps: prepend the low byte of `v` in front of `k` more significant bytes -/
theorem beBytes_snoc (n v : Nat) : beBytes (n + 1) v = beBytes n (v / 256) ++ [UInt8.ofNat (v % 256)] := by
  induction n generalizing v with
  | zero => simp [beBytes]
  | succ n ih =>
    rw [beBytes, ih]
    conv => rhs; rw [beBytes]
    simp only [List.cons_append]
    congr 2
    rw [Nat.div_div_eq_div_mul, pow_succ, Nat.mul_comm 256]

theorem sizeLoop_eq (k : Nat) (v : BitVec 64) (acc : Bytes) (hk : v.toNat < 256 ^ k) (hv : v ≠ 0) :
    sizeLoop k v acc = natBytes v.toNat ++ acc := by
  induction k generalizing v acc with
  | zero =>
    exfalso; apply hv; apply BitVec.eq_of_toNat_eq; simp at hk ⊢; omega
  | succ k ih =>
    have hv0 : v.toNat ≠ 0 := by
      intro h; apply hv; apply BitVec.eq_of_toNat_eq; simpa using h
    simp only [sizeLoop, u8_low]
    have hnb : natBytes v.toNat = natBytes (v.toNat / 256) ++ [UInt8.ofNat (v.toNat % 256)] := by
      have : (bitLen (v.toNat : Int) + 7) / 8 = (bitLen ((v.toNat / 256 : Nat) : Int) + 7) / 8 + 1 := by
        by_cases h : v.toNat / 256 = 0
        · rw [h]
          have h1 : bitLen (v.toNat : Int) ≤ 8 := by
            rw [bitLen_le_iff]; simp; omega
          have h2 : 1 ≤ bitLen (v.toNat : Int) := by
            unfold bitLen; split <;> omega
          have h3 : bitLen ((0 : Nat) : Int) = 0 := rfl
          omega
        · have h2 : bitLen (v.toNat : Int) = bitLen ((v.toNat / 256 : Nat) : Int) + 8 := by
            have a1 := (bitLen_le_iff ((v.toNat / 256 : Nat) : Int) _).1 (le_refl _)
            have hb1 : 1 ≤ bitLen ((v.toNat / 256 : Nat) : Int) := by
              unfold bitLen; split <;> omega
            obtain ⟨m, hm⟩ : ∃ m, bitLen ((v.toNat / 256 : Nat) : Int) = m + 1 :=
              ⟨bitLen ((v.toNat / 256 : Nat) : Int) - 1, by omega⟩
            have a2 := (bitLen_le_iff ((v.toNat / 256 : Nat) : Int) m).not.1 (by omega)
            rw [hm] at a1 ⊢
            have e : 2 ^ (m + 8) = 256 * 2 ^ m := by ring
            have e' : 2 ^ (m + 8 + 1) = 256 * 2 ^ (m + 1) := by ring
            rw [show m + 1 + 8 = m + 8 + 1 by ring]
            apply bitLen_eq
            · rw [e']; simp only [Int.natAbs_natCast] at *; omega
            · rw [e]; simp only [Int.natAbs_natCast] at *; omega
          omega
      unfold natBytes
      rw [this, beBytes_snoc]
    split
    · rename_i h
      have : v.toNat / 256 = 0 := by rw [← shr8, h]; rfl
      rw [hnb, this]
      simp [natBytes, bitLen, beBytes]
    · rename_i h
      rw [ih _ _ (by rw [shr8]; rw [pow_succ] at hk; omega) h, shr8, hnb]
      simp

/-- length of the two's complement form of the quotient -/
theorem pyByteLength_div (v : Int) (h : ¬ Fits v 1) :
    pyByteLength v = pyByteLength (v / 256) + 1 := by
  have key : ∀ k, 0 < k → (Fits v (k + 1) ↔ Fits (v / 256) k) := by
    intro k hk
    unfold Fits
    obtain ⟨m, hm⟩ : ∃ m, 8 * k = m + 1 := ⟨8 * k - 1, by omega⟩
    have e : (2 : Int) ^ (8 * (k + 1)) = 512 * 2 ^ m := by
      rw [show 8 * (k + 1) = m + 9 by omega]; ring
    have e2 : (2 : Int) ^ (8 * k) = 2 * 2 ^ m := by rw [hm]; ring
    rw [e, e2]
    generalize (2 : Int) ^ m = P
    omega
  have p1 := pyByteLength_pos v
  have p2 := pyByteLength_pos (v / 256)
  have h1 : ¬ pyByteLength v ≤ 1 := fun hc => h ((pyByteLength_le_iff v 1 (by omega)).1 hc)
  have a1 := (pyByteLength_le_iff v (pyByteLength (v / 256) + 1) (by omega)).2
    ((key _ p2).2 (fits_pyByteLength _))
  have a2 := (pyByteLength_le_iff (v / 256) (pyByteLength v - 1) (by omega)).2
    ((key _ (by omega)).1 (by
      have := fits_pyByteLength v
      rwa [show pyByteLength v - 1 + 1 = pyByteLength v by omega]))
  omega

theorem enc_snoc (v : Int) (n : Nat) :
    enc v (n + 1) = enc (v / 256) n ++ [UInt8.ofNat (v % 256).toNat] := by
  unfold enc
  have hp : (0 : Int) < 256 ^ n := by positivity
  have hp1 : (0 : Int) < 256 ^ (n + 1) := by positivity
  have e : v % 256 ^ (n + 1) = (v / 256 % 256 ^ n) * 256 + v % 256 := by
    have q : v / 256 / 256 ^ n = v / 256 ^ (n + 1) := by
      rw [Int.ediv_ediv_of_nonneg (by omega), pow_succ, Int.mul_comm]
    rw [Int.emod_def, Int.emod_def (v / 256), Int.emod_def v 256, q, pow_succ]
    ring
  have n1 := Int.emod_nonneg (v / 256) (b := 256 ^ n) (by omega)
  have n2 := Int.emod_nonneg v (b := 256) (by omega)
  have n3 := Int.emod_lt_of_pos v (b := 256) (by omega)
  rw [beBytes_snoc]
  have e' : (v % 256 ^ (n + 1)).toNat = (v / 256 % 256 ^ n).toNat * 256 + (v % 256).toNat := by
    rw [e]; omega
  rw [e']
  congr 2
  · omega
  · congr 1; omega

/-- one step of the byte loops: the encoding of `v` is the encoding of `v / 256` and the low byte -/
theorem enc_min_snoc (v : Int) (h : ¬ Fits v 1) :
    enc v (pyByteLength v) =
      enc (v / 256) (pyByteLength (v / 256)) ++ [UInt8.ofNat (v % 256).toNat] := by
  rw [pyByteLength_div v h, enc_snoc]

theorem enc_min_single (v : Int) (h : Fits v 1) :
    enc v (pyByteLength v) = [UInt8.ofNat (v % 256).toNat] := by
  have : pyByteLength v = 1 := by
    have := (pyByteLength_le_iff v 1 (by omega)).2 h
    have := pyByteLength_pos v
    omega
  rw [this, enc_snoc]; rfl

theorem fits1 (v : Int) : Fits v 1 ↔ -128 ≤ v ∧ v < 128 := by
  unfold Fits; norm_num; omega

theorem u64Loop_eq (k : Nat) (v : BitVec 64) (acc : Bytes) (hk : 2 * v.toNat < 256 ^ k)
    (h0 : 0 < k) : u64Loop k v acc = enc v.toNat (pyByteLength v.toNat) ++ acc := by
  induction k generalizing v acc with
  | zero => omega
  | succ k ih =>
    simp only [u64Loop, u8_low]
    have hcond : (v >>> 8 = 0 ∧ UInt8.ofNat (v.toNat % 256) &&& 0x80 = 0) ↔ Fits (v.toNat : Int) 1 := by
      rw [fits1]
      have h1 : v >>> 8 = 0 ↔ v.toNat / 256 = 0 := by
        rw [← shr8]
        constructor
        · intro h; rw [h]; rfl
        · intro h; apply BitVec.eq_of_toNat_eq; simpa using h
      have h2 : UInt8.ofNat (v.toNat % 256) &&& 0x80 = 0 ↔ ¬ v.toNat % 256 ≥ 0x80 := by
        have := u8_top (UInt8.ofNat (v.toNat % 256))
        have h3 : (UInt8.ofNat (v.toNat % 256)).toNat = v.toNat % 256 := by simp
        rw [h3] at this
        rw [← this]; simp
      rw [h1, h2]
      omega
    have hlow : UInt8.ofNat (v.toNat % 256) = UInt8.ofNat ((v.toNat : Int) % 256).toNat := by
      congr 1
    split
    · rename_i h
      rw [enc_min_single _ (hcond.1 h), hlow]; rfl
    · rename_i h
      have hf : ¬ Fits (v.toNat : Int) 1 := fun hc => h (hcond.2 hc)
      have hge : 128 ≤ v.toNat := by rw [fits1] at hf; omega
      have hk0 : 0 < k := by
        by_contra hc
        have : k = 0 := by omega
        subst this
        omega
      rw [ih _ _ (by rw [shr8]; rw [pow_succ] at hk; omega) hk0, enc_min_snoc _ hf, hlow, shr8]
      simp

theorem and_mask (v : BitVec 64) : v &&& (-0x80#64) = (v >>> 7) <<< 7 := by
  rw [show (-0x80#64 : BitVec 64) = BitVec.allOnes 64 <<< 7 by decide]
  ext i hi
  simp only [BitVec.getElem_and, BitVec.getElem_shiftLeft, BitVec.getElem_allOnes]
  by_cases h : i < 7
  · simp [h]
  · simp [h, show 7 + (i - 7) = i by omega, BitVec.getElem_eq_testBit_toNat]

theorem and_mask_toNat (v : BitVec 64) : (v &&& (-0x80#64)).toNat = v.toNat / 128 * 128 := by
  rw [and_mask, BitVec.toNat_shiftLeft, BitVec.toNat_ushiftRight, Nat.shiftRight_eq_div_pow,
    Nat.shiftLeft_eq]
  have := v.isLt
  rw [Nat.mod_eq_of_lt]
  norm_num; omega

theorem toInt_cases (v : BitVec 64) :
    (v.toInt = v.toNat ∧ v.toNat < 2 ^ 63) ∨ (v.toInt = (v.toNat : Int) - 2 ^ 64 ∧ 2 ^ 63 ≤ v.toNat) := by
  rw [BitVec.toInt_eq_toNat_cond]
  split
  · left; constructor
    · rfl
    · omega
  · right; constructor
    · norm_num
    · omega

theorem i64Loop_eq (t : BitVec 64) (k : Nat) (v : BitVec 64) (acc : Bytes)
    (ht : t = if v.toInt < 0 then -0x80#64 else 0) (hf : Fits v.toInt k) (h0 : 0 < k) :
    i64Loop t k v acc = enc v.toInt (pyByteLength v.toInt) ++ acc := by
  induction k generalizing v acc with
  | zero => omega
  | succ k ih =>
    simp only [i64Loop, u8_low]
    have hc := toInt_cases v
    have hcond : v &&& (-0x80#64) = t ↔ Fits v.toInt 1 := by
      rw [fits1, ht, ← BitVec.toNat_inj, and_mask_toNat]
      have := v.isLt
      split
      · rw [show (-0x80#64 : BitVec 64).toNat = 2 ^ 64 - 128 by decide]; omega
      · rw [show (0 : BitVec 64).toNat = 0 by decide]; omega
    have hlow : UInt8.ofNat (v.toNat % 256) = UInt8.ofNat (v.toInt % 256).toNat := by
      congr 1; omega
    split
    · rename_i h
      rw [enc_min_single _ (hcond.1 h), hlow]; rfl
    · rename_i h
      have hf1 : ¬ Fits v.toInt 1 := fun hc => h (hcond.2 hc)
      have hsh : (v.sshiftRight 8).toInt = v.toInt / 256 := by
        rw [BitVec.toInt_sshiftRight, Int.shiftRight_eq_div_pow]; norm_num
      have hk0 : 0 < k := by
        by_contra hc
        have : k = 0 := by omega
        subst this
        exact hf1 hf
      rw [ih _ _ _ _ hk0, enc_min_snoc _ hf1, hlow, hsh]
      · simp
      · rw [ht, hsh]
        congr 1
        simp only [eq_iff_iff]; omega
      · rw [hsh]
        unfold Fits at hf ⊢
        rw [show 8 * (k + 1) = 8 * k + 8 by ring, pow_add] at hf
        obtain ⟨m, hm⟩ : ∃ m, 8 * k = m + 1 := ⟨8 * k - 1, by omega⟩
        have e2 : (2 : Int) ^ (8 * k) = 2 * 2 ^ m := by rw [hm]; ring
        rw [e2] at hf ⊢
        norm_num at hf
        generalize (2 : Int) ^ m = P at *
        omega

end Verif.IntCodec
