import Verif.Lzw.Model
import Mathlib.Logic.Function.Basic

/-! # Bits: what the writer packs the reader unpacks -/

namespace Verif.Lzw

open Verif

/-- The `w` lowest bits of a number, most significant first. -/
def bitsOf (w c : Nat) : List Bool := (List.range w).map (fun i => c.testBit (w - 1 - i))

/-- The `n` highest bits of a 32-bit buffer. -/
def top (bits n : Nat) : List Bool := (List.range n).map (fun i => bits.testBit (31 - i))

/-- The bits of a byte string. -/
def bitsOfBytes (bs : Bytes) : List Bool := bs.flatMap (fun b => bitsOf 8 b.toNat)

@[simp] theorem length_bitsOf (w c : Nat) : (bitsOf w c).length = w := by simp [bitsOf]

@[simp] theorem length_top (b n : Nat) : (top b n).length = n := by simp [top]

theorem length_bitsOfBytes (bs : Bytes) : (bitsOfBytes bs).length = 8 * bs.length := by
  induction bs with
  | nil => rfl
  | cons b bs ih =>
    simp only [bitsOfBytes, List.flatMap_cons, List.length_append, length_bitsOf, List.length_cons] at ih ⊢
    omega

theorem bitsOfBytes_append (a b : Bytes) : bitsOfBytes (a ++ b) = bitsOfBytes a ++ bitsOfBytes b := by
  simp [bitsOfBytes]

theorem testBit_of_lt {c w i : Nat} (h : c < 2 ^ w) (hi : w ≤ i) : c.testBit i = false :=
  Nat.testBit_lt_two_pow (lt_of_lt_of_le h (Nat.pow_le_pow_right (by omega) hi))

theorem bitsOf_inj {w a b : Nat} (ha : a < 2 ^ w) (hb : b < 2 ^ w) (h : bitsOf w a = bitsOf w b) :
    a = b := by
  refine Nat.eq_of_testBit_eq (fun i => ?_)
  by_cases hi : i < w
  · have h1 : (bitsOf w a)[w - 1 - i]? = (bitsOf w b)[w - 1 - i]? := by rw [h]
    have h2 : w - 1 - i < w := by omega
    have h3 : w - 1 - (w - 1 - i) = i := by omega
    simpa [bitsOf, h2, h3] using h1
  · rw [testBit_of_lt ha (by omega), testBit_of_lt hb (by omega)]

/-- The lower bits of the buffer are clear. -/
structure Clean (bits n : Nat) : Prop where
  low : ∀ i, i < 32 - n → bits.testBit i = false
  lt : bits < 2 ^ 32

theorem clean_zero (n : Nat) : Clean 0 n := ⟨fun i _ => by simp, by norm_num⟩

theorem u32_lt (n : Nat) : u32 n < 2 ^ 32 := Nat.mod_lt _ (by norm_num)

theorem testBit_u32 (n i : Nat) : (u32 n).testBit i = (decide (i < 32) && n.testBit i) :=
  Nat.testBit_mod_two_pow ..

/-- Appending `w` bits to the buffer. -/
theorem put_bits {bits n w c : Nat} (h : Clean bits n) (hn : n + w ≤ 32) (hc : c < 2 ^ w) :
    Clean (bits ||| u32 (c <<< (32 - w - n))) (n + w) ∧
    top (bits ||| u32 (c <<< (32 - w - n))) (n + w) = top bits n ++ bitsOf w c := by
  constructor
  · constructor
    · intro i hi
      rw [Nat.testBit_or, testBit_u32, Nat.testBit_shiftLeft, h.low i (by omega)]
      have : ¬ (32 - w - n ≤ i) := by omega
      simp [this]
    · exact Nat.or_lt_two_pow h.lt (u32_lt _)
  · refine List.ext_getElem (by simp) (fun i h1 h2 => ?_)
    simp only [length_top] at h1
    by_cases hi : i < n
    · rw [List.getElem_append_left (by simpa using hi)]
      simp only [top, List.getElem_map, List.getElem_range, Nat.testBit_or, testBit_u32,
        Nat.testBit_shiftLeft]
      have : c.testBit (31 - i - (32 - w - n)) = false := testBit_of_lt hc (by omega)
      rw [this]; simp
    · rw [List.getElem_append_right (by simpa using hi)]
      simp only [top, bitsOf, List.getElem_map, List.getElem_range, Nat.testBit_or, testBit_u32,
        Nat.testBit_shiftLeft, length_top]
      rw [h.low (31 - i) (by omega)]
      have e1 : 31 - i - (32 - w - n) = w - 1 - (i - n) := by
        omega
      have e2 : 32 - w - n ≤ 31 - i := by omega
      have e3 : 31 - i < 32 := by omega
      simp [e1, e2, e3, List.length_map]

/-- Taking `w` bits off the buffer. -/
theorem take_bits {bits n w : Nat} (h : Clean bits n) (hw : w ≤ n) (hn : n ≤ 32) :
    top bits n = bitsOf w (bits >>> (32 - w)) ++ top (u32 (bits <<< w)) (n - w) ∧
    Clean (u32 (bits <<< w)) (n - w) ∧ bits >>> (32 - w) < 2 ^ w := by
  refine ⟨?_, ⟨?_, u32_lt _⟩, ?_⟩
  · refine List.ext_getElem (by simp; omega) (fun i h1 h2 => ?_)
    simp only [length_top] at h1
    by_cases hi : i < w
    · rw [List.getElem_append_left (by simpa using hi)]
      simp only [top, bitsOf, List.getElem_map, List.getElem_range, Nat.testBit_shiftRight]
      congr 1; omega
    · rw [List.getElem_append_right (by simpa using hi)]
      simp only [top, List.getElem_map, List.getElem_range, testBit_u32, Nat.testBit_shiftLeft,
        length_bitsOf]
      have e1 : 31 - (i - w) < 32 := by omega
      have e2 : w ≤ 31 - (i - w) := by omega
      have e3 : 31 - (i - w) - w = 31 - i := by omega
      simp [e1, e2, e3]
  · intro i hi
    rw [testBit_u32, Nat.testBit_shiftLeft]
    by_cases hw' : w ≤ i
    · rw [h.low (i - w) (by omega)]; simp
    · simp [hw']
  · rw [Nat.shiftRight_eq_div_pow]
    have := h.lt
    rw [Nat.div_lt_iff_lt_mul (by positivity), ← pow_add]
    rwa [show w + (32 - w) = 32 by omega]

/-! ## The writer -/

/-- What a writer has written, with the bits it still holds. -/
def written (w : Writer) : List Bool := bitsOfBytes w.out ++ top w.bits w.nBits

/-- The bit buffer of a writer between two codes. -/
structure WBits (w : Writer) : Prop where
  clean : Clean w.bits w.nBits
  n : w.nBits < 8

theorem drain_spec : ∀ (fuel : Nat) (out : Bytes) (bits n : Nat), Clean bits n → n ≤ 32 → n ≤ fuel →
    bitsOfBytes (drain fuel out bits n).1 ++
        top (drain fuel out bits n).2.1 (drain fuel out bits n).2.2 =
      bitsOfBytes out ++ top bits n ∧
    Clean (drain fuel out bits n).2.1 (drain fuel out bits n).2.2 ∧
    (drain fuel out bits n).2.2 < 8 := by
  intro fuel
  induction fuel with
  | zero => intro out bits n h hn hf; refine ⟨rfl, h, ?_⟩; simp only [drain]; omega
  | succ fuel ih =>
    intro out bits n h hn hf
    simp only [drain]
    by_cases h8 : 8 ≤ n
    · rw [if_pos h8]
      obtain ⟨e, hc, hl⟩ := take_bits h h8 hn
      obtain ⟨a, b, c⟩ := ih (out ++ [UInt8.ofNat (bits >>> 24)]) (u32 (bits <<< 8)) (n - 8) hc
        (by omega) (by omega)
      refine ⟨?_, b, c⟩
      rw [a, bitsOfBytes_append, e, List.append_assoc]
      congr 1
      have : (UInt8.ofNat (bits >>> 24)).toNat = bits >>> (32 - 8) := by
        rw [UInt8.toNat_ofNat']
        exact Nat.mod_eq_of_lt hl
      simp only [bitsOfBytes, List.flatMap_cons, List.flatMap_nil, List.append_nil, this]
    · rw [if_neg h8]; refine ⟨rfl, h, ?_⟩; dsimp only; omega

/-- Writing a code appends its bits. -/
theorem write_spec {w : Writer} (h : WBits w) {c : Nat} (hw : w.width ≤ 12) (hc : c < 2 ^ w.width) :
    WBits (writeMSB w c) ∧ written (writeMSB w c) = written w ++ bitsOf w.width c ∧
    (writeMSB w c).width = w.width ∧ (writeMSB w c).hi = w.hi ∧
    (writeMSB w c).overflow = w.overflow ∧ (writeMSB w c).table = w.table ∧
    (writeMSB w c).savedCode = w.savedCode := by
  have hn := h.n
  obtain ⟨a, b⟩ := put_bits h.clean (w := w.width) (c := c) (by omega) hc
  obtain ⟨e1, e2, e3⟩ := drain_spec (w.nBits + w.width) w.out
    (w.bits ||| u32 (c <<< (32 - w.width - w.nBits))) (w.nBits + w.width) a (by omega) (le_refl _)
  refine ⟨⟨e2, e3⟩, ?_, rfl, rfl, rfl, rfl, rfl⟩
  change bitsOfBytes _ ++ top _ _ = _
  rw [written, List.append_assoc, ← b]
  exact e1

/-! ## The reader -/

/-- The bits a reader has not consumed. -/
def stream (r : RBits) : List Bool := top r.bits r.nBits ++ bitsOfBytes r.inp

theorem fill_spec (width : Nat) (hw : width ≤ 12) : ∀ (fuel : Nat) (r : RBits), Clean r.bits r.nBits →
    r.nBits < width + 8 → width ≤ r.nBits + fuel →
    (fill width fuel r = Option.none ∧ (stream r).length < width) ∨
    ∃ r', fill width fuel r = some r' ∧ Clean r'.bits r'.nBits ∧ width ≤ r'.nBits ∧
      r'.nBits < width + 8 ∧ stream r' = stream r := by
  intro fuel
  induction fuel with
  | zero => intro r h hn hf; exact Or.inr ⟨r, rfl, h, by omega, hn, rfl⟩
  | succ fuel ih =>
    intro r h hn hf
    simp only [fill]
    by_cases hlt : r.nBits < width
    · rw [if_pos hlt]
      rcases hi : r.inp with _ | ⟨x, inp⟩
      · left; refine ⟨rfl, ?_⟩; simp [stream, hi, bitsOfBytes, hlt]
      · dsimp only
        have hx : x.toNat < 2 ^ 8 := x.toNat_lt
        obtain ⟨a, b⟩ := put_bits h (w := 8) (c := x.toNat) (by omega) hx
        have e24 : 32 - 8 - r.nBits = 24 - r.nBits := by omega
        rw [e24] at a b
        have hs : stream { bits := r.bits ||| u32 (x.toNat <<< (24 - r.nBits)), nBits := r.nBits + 8,
                           inp := inp } = stream r := by
          simp only [stream, hi, b, bitsOfBytes, List.flatMap_cons, List.append_assoc]
        rcases ih { bits := r.bits ||| u32 (x.toNat <<< (24 - r.nBits)), nBits := r.nBits + 8,
                    inp := inp } a (by dsimp only; omega) (by dsimp only; omega) with
          ⟨e, hl⟩ | ⟨r', e, h1, h2, h3, h4⟩
        · left; rw [hs] at hl; exact ⟨e, hl⟩
        · right; exact ⟨r', e, h1, h2, h3, h4.trans hs⟩
    · rw [if_neg hlt]; exact Or.inr ⟨r, rfl, h, by omega, hn, rfl⟩

/-- The bit buffer of a reader between two codes. -/
structure RInv (r : RBits) : Prop where
  clean : Clean r.bits r.nBits
  n : r.nBits < 8

/-- Reading a code. -/
theorem read_spec {width : Nat} (hw : width ≤ 12) (h9 : 9 ≤ width) {r : RBits} (h : RInv r) :
    (readMSB width r = Option.none ∧ (stream r).length < width) ∨
    ∃ c r', readMSB width r = some (c, r') ∧ RInv r' ∧ c < 2 ^ width ∧
      stream r = bitsOf width c ++ stream r' := by
  have hn := h.n
  rcases fill_spec width hw width r h.clean (by omega) (by omega) with ⟨e, hl⟩ | ⟨r', e, h1, h2, h3, h4⟩
  · left; exact ⟨by rw [readMSB, e], hl⟩
  · right
    obtain ⟨a, b, c⟩ := take_bits h1 h2 (by omega)
    refine ⟨_, _, by rw [readMSB, e], ⟨b, by dsimp only; omega⟩, c, ?_⟩
    rw [← h4, stream, a, stream, List.append_assoc]

/-- Reading a code whose bits come first. -/
theorem read_code {width c : Nat} (hw : width ≤ 12) (h9 : 9 ≤ width) (hc : c < 2 ^ width) {r : RBits}
    (h : RInv r) {rest : List Bool} (hs : stream r = bitsOf width c ++ rest) :
    ∃ r', readMSB width r = some (c, r') ∧ RInv r' ∧ stream r' = rest := by
  rcases read_spec hw h9 h with ⟨_, hl⟩ | ⟨c', r', e, hr, hc', hs'⟩
  · rw [hs] at hl; simp at hl
  · rw [hs] at hs'
    obtain ⟨e1, e2⟩ := List.append_inj hs' (by simp)
    have := bitsOf_inj hc hc' e1
    subst this
    exact ⟨r', e, hr, e2.symm⟩

end Verif.Lzw
