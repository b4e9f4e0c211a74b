import Mathlib.Data.Nat.Digits.Lemmas
import Verif.Rlp.Typed

/-! # The wire format -/

namespace Verif.Rlp
open Verif Verif.IntCodec

theorem numeral_step (n : Nat) (h : 0 < n) :
    numeral n = numeral (n / 256) ++ [UInt8.ofNat (n % 256)] := by
  unfold numeral
  rw [Nat.digits_def' (by norm_num) h]
  simp

theorem sizeLoop_numeral (k : Nat) (v : BitVec 64) (acc : Bytes) (hk : v.toNat < 256 ^ k)
    (hv : v ≠ 0) : sizeLoop k v acc = numeral v.toNat ++ acc := by
  induction k generalizing v acc with
  | zero =>
    exfalso; apply hv
    have : v.toNat = 0 := by simpa using hk
    exact BitVec.eq_of_toNat_eq (by simpa using this)
  | succ k ih =>
    have h0 : 0 < v.toNat := by
      rcases Nat.eq_zero_or_pos v.toNat with h | h
      · exact absurd (BitVec.eq_of_toNat_eq (by simpa using h)) hv
      · exact h
    simp only [sizeLoop, u8_low]
    rw [numeral_step _ h0]
    have hs := shr8 v
    split_ifs with hz
    · rw [hz] at hs
      have : v.toNat / 256 = 0 := by rw [← hs]; rfl
      rw [this]
      simp [numeral]
    · rw [ih _ _ (by rw [hs]; rw [pow_succ] at hk; exact Nat.div_lt_of_lt_mul (by omega)) hz, hs]
      simp

theorem sizeToBytes_numeral (n : Nat) (h0 : 0 < n) (h : n < 2 ^ 63) : sizeToBytes n = numeral n := by
  have hv : (BitVec.ofNat 64 n).toNat = n := by
    rw [BitVec.toNat_ofNat]; exact Nat.mod_eq_of_lt (by omega)
  have hne : BitVec.ofNat 64 n ≠ 0 := by
    intro hc
    rw [hc] at hv
    simp at hv
    omega
  unfold sizeToBytes goSizeToBytes
  rw [if_neg hne, sizeLoop_numeral 8 _ _ (by rw [hv]; norm_num; omega) hne, hv]
  simp

theorem writeBytes_rlp (b : Bytes) (h : b.length < 2 ^ 63) : writeBytes b = rlp (.bytes b) := by
  cases b with
  | nil => rfl
  | cons x r =>
    cases r with
    | nil =>
      simp only [rlp, writeBytes]
      by_cases hx : x.toNat < 128
      · rw [if_neg (by simp), if_pos ⟨rfl, fun y hy => by rw [List.mem_singleton.1 hy]; exact hx⟩, if_pos hx]
      · rw [if_neg (by simp), if_neg (by rintro ⟨_, hc⟩; exact hx (hc x (by simp))), if_neg hx]
        rfl
    | cons y r =>
      simp only [rlp, writeBytes, withLength]
      rw [if_neg (by simp), if_neg (by simp)]
      by_cases hl : (x :: y :: r).length ≤ 55
      · rw [if_pos hl, if_pos hl]
      · rw [if_neg hl, if_neg hl, sizeToBytes_numeral _ (by simp) h]

theorem writeList_rlp (b : Bytes) (h : b.length < 2 ^ 63) : writeList b = withLength 192 b := by
  simp only [writeList, withLength]
  by_cases h0 : b.length = 0
  · have : b = [] := by simpa using h0
    subst this
    rfl
  rw [if_neg h0]
  by_cases hl : b.length ≤ 55
  · rw [if_pos hl, if_pos hl]
  · rw [if_neg hl, if_neg hl, sizeToBytes_numeral _ (by omega) h]

theorem encodeKey_rlp (k : KeyTy) (hw : KeyWf k) (key : Key) (hk : KeyOk k key)
    (h : (encodeKey key).length < 2 ^ 63) : encodeKey key = rlp (keyItem key) := by
  cases k <;> cases key <;> simp only [KeyOk] at hk
  · rename_i b
    simp only [encodeKey] at h ⊢
    have := writeBytes_length b
    exact writeBytes_rlp b (by omega)
  · rename_i w n
    simp only [encodeKey, keyItem] at h ⊢
    have h1 := goUint64_length (BitVec.ofNat 64 n)
    rw [writeBytes_rlp _ (by omega), (C38_go_int64_encoders _).1, BitVec.toNat_ofNat,
      Nat.mod_eq_of_lt (lt_of_lt_of_le hk (Nat.pow_le_pow_right (by omega) hw.2))]
    rfl
  · rename_i w z
    simp only [encodeKey, keyItem] at h ⊢
    have h1 := goInt64_length (BitVec.ofInt 64 z)
    have hp := pow63_le hw.2
    rw [writeBytes_rlp _ (by omega), (C38_go_int64_encoders _).2,
      ofInt_toInt (by omega) (by omega) (by omega)]
    rfl

theorem rlps_items (t : Ty) (vs : List Val) (h : ∀ v ∈ vs, HasTy t v)
    (ih : ∀ v, HasTy t v → (encode v).length < 2 ^ 63 → encode v = rlp (item v))
    (hl : ((vs.map encode).flatten).length < 2 ^ 63) : (vs.map encode).flatten = rlps (items vs) := by
  induction vs with
  | nil => simp [items, rlps]
  | cons v vs ihv =>
    simp only [List.map_cons, List.flatten_cons, List.length_append] at hl
    simp only [List.map_cons, List.flatten_cons, items, rlps]
    rw [ih v (h v List.mem_cons_self) (by omega), ihv (fun w hw => h w (List.mem_cons_of_mem _ hw)) (by omega)]

theorem rlps_interleave (k : KeyTy) (hw : KeyWf k) (t : Ty) (ks : List Key) (vs : List Val)
    (hk : ∀ key ∈ ks, KeyOk k key) (h : ∀ v ∈ vs, HasTy t v)
    (ih : ∀ v, HasTy t v → (encode v).length < 2 ^ 63 → encode v = rlp (item v))
    (hl : (((ks.zip vs).map (fun e => encodeKey e.1 ++ encode e.2)).flatten).length < 2 ^ 63) :
    ((ks.zip vs).map (fun e => encodeKey e.1 ++ encode e.2)).flatten = rlps (interleave ks (items vs)) := by
  induction ks generalizing vs with
  | nil => simp [interleave, rlps]
  | cons key ks ihk =>
    cases vs with
    | nil => simp [interleave, items, rlps]
    | cons v vs =>
      simp only [List.zip_cons_cons, List.map_cons, List.flatten_cons, List.length_append] at hl
      simp only [List.zip_cons_cons, List.map_cons, List.flatten_cons, items, interleave, rlps]
      rw [ih v (h v List.mem_cons_self) (by omega),
        encodeKey_rlp k hw key (hk _ List.mem_cons_self) (by omega),
        ihk vs (fun w hw => hk w (List.mem_cons_of_mem _ hw)) (fun w hw => h w (List.mem_cons_of_mem _ hw))
          (by omega)]
      simp

theorem encode_rlp (t : Ty) (hw : WfTy t) :
    ∀ v, HasTy t v → (encode v).length < 2 ^ 63 → encode v = rlp (item v) := by
  induction t using Ty.rec (motive_2 := fun ts => WfTys ts → ∀ vs, HasTys ts vs →
      ((vs.map encode).flatten).length < 2 ^ 63 → (vs.map encode).flatten = rlps (items vs)) with
  | bool =>
    intro v h _
    cases v <;> simp only [HasTy] at h
    simp only [encode, item]; exact writeBytes_rlp _ (by simp)
  | uint w =>
    intro v h hl
    simp only [WfTy] at hw
    cases v <;> simp only [HasTy] at h
    rename_i n
    have h1 := goUint64_length (BitVec.ofNat 64 n)
    simp only [encode, item]
    rw [writeBytes_rlp _ (by omega), (C38_go_int64_encoders _).1, BitVec.toNat_ofNat,
      Nat.mod_eq_of_lt (lt_of_lt_of_le h (Nat.pow_le_pow_right (by omega) hw.2))]
    rfl
  | int w =>
    intro v h hl
    simp only [WfTy] at hw
    cases v <;> simp only [HasTy] at h
    rename_i z
    have h1 := goInt64_length (BitVec.ofInt 64 z)
    have hp := pow63_le hw.2
    simp only [encode, item]
    rw [writeBytes_rlp _ (by omega), (C38_go_int64_encoders _).2,
      ofInt_toInt (by omega) (by omega) (by omega)]
    rfl
  | str =>
    intro v h hl
    cases v <;> simp only [HasTy] at h
    rename_i b
    simp only [encode, item] at hl ⊢
    have := writeBytes_length b
    exact writeBytes_rlp _ (by omega)
  | big =>
    intro v h hl
    cases v <;> simp only [HasTy] at h
    rename_i z
    simp only [encode, item] at hl ⊢
    have := writeBytes_length (goBigIntToBytes z)
    exact writeBytes_rlp _ (by omega)
  | bytes =>
    intro v h hl
    cases v <;> simp only [HasTy] at h
    · simp only [encode, item]; rfl
    · rename_i b
      simp only [encode, item] at hl ⊢
      have := writeBytes_length b
      exact writeBytes_rlp _ (by omega)
  | bytesN n =>
    intro v h hl
    cases v <;> simp only [HasTy] at h
    rename_i b
    simp only [encode, item] at hl ⊢
    have := writeBytes_length b
    exact writeBytes_rlp _ (by omega)
  | slice t ih =>
    intro v h hl
    simp only [WfTy] at hw
    cases v <;> simp only [HasTy] at h
    · simp only [encode, item]; rfl
    · rename_i vs
      simp only [encode, item, encodeAll_eq, rlp] at hl ⊢
      have := writeList_length (vs.map encode).flatten
      rw [writeList_rlp _ (by omega), rlps_items t vs h (ih hw) (by omega)]
  | array n t ih =>
    intro v h hl
    simp only [WfTy] at hw
    cases v <;> simp only [HasTy] at h
    rename_i vs
    simp only [encode, item, encodeAll_eq, rlp] at hl ⊢
    have := writeList_length (vs.map encode).flatten
    rw [writeList_rlp _ (by omega), rlps_items t vs h.2 (ih hw) (by omega)]
  | ptr t ih =>
    intro v h hl
    simp only [WfTy] at hw
    cases v <;> simp only [HasTy] at h
    · simp only [encode, item]; rfl
    · simp only [encode, item] at hl ⊢; exact ih hw.2 _ h hl
  | struct ts ih =>
    intro v h hl
    simp only [WfTy] at hw
    cases v <;> simp only [HasTy] at h
    rename_i vs
    simp only [encode, item, encodeAll_eq, rlp] at hl ⊢
    have := writeList_length (vs.map encode).flatten
    rw [writeList_rlp _ (by omega), ih hw vs h (by omega)]
  | map k t ih =>
    intro v h hl
    simp only [WfTy] at hw
    cases v <;> simp only [HasTy] at h
    · simp only [encode, item]; rfl
    · rename_i ks vs
      rw [encode_map_sorted ks vs h.2.2.1] at hl ⊢
      simp only [item, rlp]
      have := writeList_length ((ks.zip vs).map (fun e => encodeKey e.1 ++ encode e.2)).flatten
      rw [writeList_rlp _ (by omega), rlps_interleave k hw.1 t ks vs h.2.1 h.2.2.2 (ih hw.2) (by omega)]
  | nil => rename_i hw vs h hl; cases vs <;> simp_all [HasTys, items, rlps]
  | cons t ts ih1 ih2 =>
    rename_i hw vs h hl
    cases vs with
    | nil => simp [HasTys] at h
    | cons v vs =>
      simp only [HasTys] at h
      simp only [WfTys] at hw
      simp only [List.map_cons, List.flatten_cons, List.length_append] at hl
      simp only [List.map_cons, List.flatten_cons, items, rlps]
      rw [ih1 hw.1 v h.1 (by omega), ih2 hw.2 vs h.2 (by omega)]

end Verif.Rlp
