import Verif.IntCodec.GoLemmas
import Verif.IntCodec.Spec

/-! # C01, C02, C38 (binary part): integer codecs -/

namespace Verif.IntCodec
open Spec

theorem cast256 (n : Nat) : ((256 ^ n : Nat) : Int) = (256 : Int) ^ n := by norm_cast

theorem decode_eq_signedValue (bs : Bytes) : pyBytesToInt bs = signedValue bs := by
  cases bs with
  | nil => rfl
  | cons b bs =>
    simp only [pyBytesToInt, signedValue, beNat, List.length_cons]
    push_cast
    by_cases h : b.toNat ≥ 0x80
    · rw [if_pos h, if_neg (by omega)]; ring
    · rw [if_neg h, if_pos (by omega)]

/-- **C01.** Every integer is encoded (the overflow check of `to_bytes` never fires) and decodes back
to itself. -/
theorem C01_int_roundtrip (v : Int) :
    ∃ bs, pyIntToBytes v = some bs ∧ pyBytesToInt bs = v :=
  ⟨_, pyIntToBytes_eq v, decode_enc (fits_pyByteLength v)⟩

/-- **C01** (meaning). The bytes written are the two's-complement form of the integer. -/
theorem C01_int_encoding_meaning (v : Int) (bs : Bytes) (h : pyIntToBytes v = some bs) :
    signedValue bs = v := by
  rw [← decode_eq_signedValue, pyIntToBytes_some h]
  exact decode_enc (fits_pyByteLength v)

example : pyIntToBytes (-129) = some [0xff, 0x7f] := by decide
example : pyIntToBytes 128 = some [0x00, 0x80] := by decide

/-- **C02.** The encoding is nonempty and no nonempty byte string with the same meaning is shorter,
and none of the same length is different. -/
theorem C02_int_encoding_shortest (v : Int) (bs : Bytes) (h : pyIntToBytes v = some bs) :
    bs ≠ [] ∧ ∀ bs', bs' ≠ [] → signedValue bs' = v →
      bs.length ≤ bs'.length ∧ (bs'.length = bs.length → bs' = bs) := by
  have hb := pyIntToBytes_some h
  have hl : bs.length = pyByteLength v := by rw [hb, enc_length]
  refine ⟨?_, ?_⟩
  · intro hc
    have := pyByteLength_pos v
    rw [hc] at hl; simp at hl; omega
  · intro bs' hne hv
    rw [← decode_eq_signedValue] at hv
    have hpos : 0 < bs'.length := List.length_pos_iff.2 hne
    refine ⟨?_, ?_⟩
    · rw [hl, pyByteLength_le_iff _ _ hpos, ← hv]
      exact pyBytesToInt_fits bs'
    · intro he
      apply decode_inj he
      rw [hv, hb, decode_enc (fits_pyByteLength v)]

theorem canonical_iff (bs : Bytes) (h : bs ≠ []) :
    Canonical bs ↔ pyByteLength (pyBytesToInt bs) = bs.length := by
  have hpos : 0 < bs.length := List.length_pos_iff.2 h
  have hle := (pyByteLength_le_iff _ _ hpos).2 (pyBytesToInt_fits bs)
  match bs, h with
  | [b], _ =>
    simp only [Canonical, List.length_singleton, true_iff] at *
    have := pyByteLength_pos (pyBytesToInt [b]); omega
  | a :: b :: r, _ =>
    have hfit : Fits (pyBytesToInt (a :: b :: r)) (r.length + 1) ↔
        (a = 0x00 ∧ b.toNat < 128) ∨ (a = 0xff ∧ 128 ≤ b.toNat) := by
      rw [decode_eq_signedValue]
      have ha : a.toNat < 256 := a.toNat_lt
      have hb : b.toNat < 256 := b.toNat_lt
      have hr := beNat_lt r
      have a0 : a = 0 ↔ a.toNat = 0 := by rw [← UInt8.toNat_inj]; rfl
      have a255 : a = 0xff ↔ a.toNat = 255 := by rw [← UInt8.toNat_inj]; rfl
      rw [a0, a255]
      unfold Fits
      rw [← pow256i]
      simp only [signedValue, beNat, List.length_cons]
      push_cast
      have e : ((256 ^ r.length : Nat) : Int) = (256 : Int) ^ r.length := by norm_cast
      rw [pow_succ, ← e]
      have hp : 0 < 256 ^ r.length := Nat.pow_pos (by omega)
      generalize 256 ^ r.length = P at *
      generalize beNat r = w at *
      generalize a.toNat = x at *
      generalize b.toNat = y at *
      constructor
      · rintro ⟨h1, h2⟩
        by_cases hx : x < 128
        · left
          rw [if_pos hx] at h1 h2
          have hx0 : x = 0 := by
            by_contra hc
            have : 1 ≤ x := by omega
            nlinarith
          subst hx0
          refine ⟨rfl, ?_⟩
          by_contra hc
          have : (128 : Int) ≤ y := by omega
          nlinarith
        · right
          rw [if_neg hx] at h1 h2
          have hx0 : x = 255 := by
            by_contra hc
            have : (x : Int) ≤ 254 := by omega
            nlinarith
          subst hx0
          refine ⟨rfl, ?_⟩
          by_contra hc
          have : (y : Int) ≤ 127 := by omega
          push_cast at h1
          nlinarith
      · rintro (⟨h1, h2⟩ | ⟨h1, h2⟩)
        · subst h1
          have : (y : Int) ≤ 127 := by omega
          simp
          constructor <;> nlinarith
        · subst h1
          have : (128 : Int) ≤ y := by omega
          have : (y : Int) ≤ 255 := by omega
          simp
          constructor <;> nlinarith
    simp only [Canonical, List.length_cons] at *
    have h2 := pyByteLength_le_iff (pyBytesToInt (a :: b :: r)) (r.length + 1) (by omega)
    rw [hfit] at h2
    constructor
    · intro hc
      have : ¬ (pyByteLength (pyBytesToInt (a :: b :: r)) ≤ r.length + 1) := by
        rw [h2]; tauto
      omega
    · intro hc
      have : ¬ (pyByteLength (pyBytesToInt (a :: b :: r)) ≤ r.length + 1) := by omega
      rw [h2] at this; tauto

/-- **C02.** Exactly the byte strings without redundant sign bytes are produced by the encoder. -/
theorem C02_int_encoding_canonical (bs : Bytes) :
    (∃ v, pyIntToBytes v = some bs) ↔ Canonical bs := by
  constructor
  · rintro ⟨v, h⟩
    have hb := pyIntToBytes_some h
    have hl : bs.length = pyByteLength v := by rw [hb, enc_length]
    have hne : bs ≠ [] := by
      intro hc
      have := pyByteLength_pos v
      rw [hc] at hl; simp at hl; omega
    rw [canonical_iff _ hne]
    rw [hl, hb, decode_enc (fits_pyByteLength v)]
  · intro h
    have hne : bs ≠ [] := by rintro rfl; exact h
    refine ⟨pyBytesToInt bs, ?_⟩
    rw [canonical_iff _ hne] at h
    rw [pyIntToBytes_eq, h, enc_decode]

/-- **C02.** Two integers with the same encoding are equal. -/
theorem C02_int_encoding_injective (v w : Int) (h : pyIntToBytes v = pyIntToBytes w) : v = w := by
  obtain ⟨bs, h1, h2⟩ := C01_int_roundtrip v
  obtain ⟨bs', h3, h4⟩ := C01_int_roundtrip w
  rw [h1, h3] at h
  rw [← h2, ← h4, Option.some.inj h]

/-- **C38.** Go's encoder produces the same bytes as the Python executor, and both decoders agree on
every byte string (canonical or not). -/
theorem C38_go_python_agree :
    (∀ v, pyIntToBytes v = some (goBigIntToBytes v)) ∧
    (∀ bs, goBigIntSetBytes bs = pyBytesToInt bs) :=
  ⟨fun v => by rw [pyIntToBytes_eq, goBigIntToBytes_eq], goBigIntSetBytes_eq⟩

/-- **C38.** Go round trip. -/
theorem C38_go_roundtrip (v : Int) : goBigIntSetBytes (goBigIntToBytes v) = v := by
  rw [goBigIntSetBytes_eq, goBigIntToBytes_eq, decode_enc (fits_pyByteLength v)]

/-- **C38.** `Uint64ToBytes`/`Int64ToBytes` agree with the big-integer codec on the value. -/
theorem C38_go_int64_encoders (v : BitVec 64) :
    goUint64ToBytes v = goBigIntToBytes v.toNat ∧ goInt64ToBytes v = goBigIntToBytes v.toInt := by
  constructor
  · unfold goUint64ToBytes
    split
    · subst_vars; rfl
    · rw [u64Loop_eq 9 v [] (by have := v.isLt; norm_num; omega) (by omega), goBigIntToBytes_eq]
      simp
  · unfold goInt64ToBytes
    split
    · subst_vars; rfl
    · rw [i64Loop_eq _ 8 v [] rfl _ (by omega), goBigIntToBytes_eq]
      · simp
      · unfold Fits
        have := toInt_cases v
        have := v.isLt
        norm_num
        omega

/-- **C38.** `SizeToBytes` writes the minimal unsigned form (one zero byte for 0). -/
theorem C38_go_size_encoder (v : BitVec 64) :
    beNat (goSizeToBytes v) = v.toNat ∧ (goSizeToBytes v = [0] ∨ goSizeToBytes v = natBytes v.toNat) := by
  unfold goSizeToBytes
  split
  · subst_vars; exact ⟨rfl, Or.inl rfl⟩
  · rename_i h
    have := sizeLoop_eq 8 v [] (by have := v.isLt; norm_num; omega) h
    rw [this]
    simp only [List.append_nil]
    refine ⟨?_, Or.inr trivial⟩
    unfold natBytes
    apply beNat_beBytes_of_lt
    rw [pow256]
    have hb := (bitLen_le_iff (v.toNat : Int) (bitLen (v.toNat : Int))).1 (le_refl _)
    simp only [Int.natAbs_natCast] at hb
    exact lt_of_lt_of_le hb (Nat.pow_le_pow_right (by omega) (by omega))

/-- **C38.** `SafeBytesToInt64` returns the two's-complement value of every string of at most eight
bytes and refuses longer ones; no wrap-around occurs. -/
theorem C38_go_int64_decoder (bs : Bytes) :
    (bs.length ≤ 8 → ∃ v, goSafeBytesToInt64 bs = some v ∧ v.toInt = signedValue bs) ∧
    (8 < bs.length → goSafeBytesToInt64 bs = none) := by
  constructor
  · intro hl
    match bs with
    | [] => exact ⟨0, rfl, rfl⟩
    | b :: r =>
      have hlt := beNat_lt (b :: r)
      have h8 : 256 ^ (b :: r).length ≤ 256 ^ 8 := Nat.pow_le_pow_right (by omega) hl
      have e8 : (256 : Nat) ^ 8 = 2 ^ 64 := by norm_num
      simp only [goSafeBytesToInt64, if_neg (show ¬ (b :: r).length > 8 by omega), u8_top]
      rw [← decode_eq_signedValue]
      have hpy := pyBytesToInt_eq (b :: r)
      split
      · rename_i hb
        refine ⟨_, rfl, ?_⟩
        have hc := map_compl_beNat (b :: r)
        have ha := accBytes_zero ((b :: r).map (· ^^^ 0xff)) (by simpa using hl)
        have hpy2 : pyBytesToInt (b :: r) = (beNat (b :: r) : Int) - 256 ^ (b :: r).length := by
          simp only [pyBytesToInt]; rw [if_pos hb]
        have hge : 2 * beNat (b :: r) ≥ 256 ^ (b :: r).length := by
          by_contra hcc
          rw [if_neg hcc] at hpy
          have : (0 : Int) < 256 ^ (b :: r).length := by positivity
          omega
        rw [hpy2]
        have e : ((256 ^ (b :: r).length : Nat) : Int) = (256 : Int) ^ (b :: r).length := cast256 _
        rw [← e]
        generalize accBytes 0 ((b :: r).map (· ^^^ 0xff)) = x at *
        generalize 256 ^ (b :: r).length = P at *
        generalize beNat (b :: r) = y at *
        have hx : (-x - 1).toNat = 2 ^ 64 - 1 - x.toNat := by
          rw [BitVec.toNat_sub, BitVec.toNat_neg]
          have : (1 : BitVec 64).toNat = 1 := rfl
          rw [this]
          omega
        rcases toInt_cases (-x - 1) with ⟨h1, h2⟩ | ⟨h1, h2⟩ <;> omega
      · rename_i hb
        refine ⟨_, rfl, ?_⟩
        have ha := accBytes_zero (b :: r) hl
        have hpy2 : pyBytesToInt (b :: r) = (beNat (b :: r) : Int) := by
          simp only [pyBytesToInt]; rw [if_neg hb]
        have hge : ¬ 2 * beNat (b :: r) ≥ 256 ^ (b :: r).length := by
          intro hcc
          rw [if_pos hcc] at hpy
          have : (0 : Int) < 256 ^ (b :: r).length := by positivity
          omega
        rw [hpy2]
        rcases toInt_cases (accBytes 0 (b :: r)) with ⟨h1, h2⟩ | ⟨h1, h2⟩ <;> omega
  · intro hl
    match bs with
    | [] => simp at hl
    | b :: r => simp only [goSafeBytesToInt64]; rw [if_pos hl]

example : ∃ v, goSafeBytesToInt64 [0x80, 0, 0, 0, 0, 0, 0, 0] = some v ∧ v.toInt = -(2 ^ 63) := ⟨_, rfl, by decide⟩

/-- **C38.** `SafeBytesToUint64` returns exactly the value of the bytes whenever it succeeds (never a
negative one), and it succeeds on every encoding of a `uint64`. -/
theorem C38_go_uint64_decoder :
    (∀ bs v, goSafeBytesToUint64 bs = some v → (v.toNat : Int) = signedValue bs) ∧
    (∀ v, goSafeBytesToUint64 (goUint64ToBytes v) = some v) := by
  have sound : ∀ bs v, goSafeBytesToUint64 bs = some v → (v.toNat : Int) = signedValue bs := by
    intro bs v h
    match bs with
    | [] => simp only [goSafeBytesToUint64, Option.some.injEq] at h; subst h; rfl
    | b :: r =>
      simp only [goSafeBytesToUint64] at h
      split at h
      · rename_i hb
        split at h
        · cases h
        · rename_i hl
          cases h
          rw [accBytes_zero r (by omega)]
          subst hb
          simp [signedValue]
      · split at h
        · cases h
        · rename_i hb
          split at h
          · cases h
          · rename_i hl
            cases h
            rw [accBytes_zero _ (by omega)]
            rw [u8_top] at hb
            simp only [signedValue, beNat]
            rw [if_pos (by omega)]
            push_cast; rfl
  refine ⟨sound, ?_⟩
  intro v
  have hval : pyBytesToInt (goUint64ToBytes v) = v.toNat := by
    rw [(C38_go_int64_encoders v).1, goBigIntToBytes_eq, decode_enc (fits_pyByteLength _)]
  have hlen : (goUint64ToBytes v).length ≤ 9 := by
    rw [(C38_go_int64_encoders v).1, goBigIntToBytes_eq, enc_length,
      pyByteLength_le_iff _ _ (by omega)]
    unfold Fits
    have := v.isLt
    norm_num; omega
  have hlt := v.isLt
  have hne : goUint64ToBytes v ≠ [] := by
    intro hc
    have : pyByteLength (v.toNat : Int) = (goUint64ToBytes v).length := by
      rw [(C38_go_int64_encoders v).1, goBigIntToBytes_eq, enc_length]
    have := pyByteLength_pos (v.toNat : Int)
    rw [hc] at *; simp at *; omega
  have hcan : Canonical (goUint64ToBytes v) := by
    rw [← C02_int_encoding_canonical]
    exact ⟨v.toNat, by rw [C38_go_python_agree.1, (C38_go_int64_encoders v).1]⟩
  have hsome : ∃ w, goSafeBytesToUint64 (goUint64ToBytes v) = some w := by
    generalize goUint64ToBytes v = bs at *
    match bs with
    | [] => exact ⟨_, rfl⟩
    | b :: r =>
      simp only [goSafeBytesToUint64]
      simp only [List.length_cons] at hlen
      split
      · rw [if_neg (by omega)]; exact ⟨_, rfl⟩
      · rename_i hb0
        have htop : ¬ b.toNat ≥ 0x80 := by
          intro hc
          have hb := beNat_lt (b :: r)
          simp only [pyBytesToInt] at hval
          rw [if_pos hc] at hval
          have e : ((256 ^ (b :: r).length : Nat) : Int) = (256 : Int) ^ (b :: r).length := cast256 _
          rw [← e] at hval
          omega
        rw [if_neg (by rw [u8_top]; exact htop)]
        have : ¬ (b :: r).length > 8 := by
          intro hc
          simp only [List.length_cons] at hc
          have hr : r.length = 8 := by omega
          simp only [pyBytesToInt] at hval
          rw [if_neg htop] at hval
          simp only [beNat, hr] at hval
          have hbne : b.toNat ≠ 0 := by
            intro h0; apply hb0; rw [← UInt8.toNat_inj]; exact h0
          norm_num at hval
          omega
        rw [if_neg this]
        exact ⟨_, rfl⟩
  obtain ⟨w, hw⟩ := hsome
  have := sound _ _ hw
  rw [← decode_eq_signedValue, hval] at this
  rw [hw]
  congr 1
  apply BitVec.eq_of_toNat_eq
  exact_mod_cast this

example : goSafeBytesToUint64 [0x00, 0xff, 0xff, 0xff, 0xff, 0xff, 0xff, 0xff, 0xff] = some (-1#64) := by decide

end Verif.IntCodec
