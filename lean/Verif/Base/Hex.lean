import Verif.Base.Bytes

/-! # Hexadecimal text (Go `encoding/hex`, Python `bytes.hex`/`bytes.fromhex`; standard library) -/

namespace Verif

/-- lower-case hexadecimal digit of `n < 16` -/
def hexDigit (n : Nat) : Char := if n < 10 then Char.ofNat (48 + n) else Char.ofNat (87 + n)

/-- value of a hexadecimal digit, either case (`bytes.fromhex`, `hex.DecodeString`) -/
def hexVal (c : Char) : Option Nat :=
  if '0' ≤ c ∧ c ≤ '9' then some (c.toNat - 48)
  else if 'a' ≤ c ∧ c ≤ 'f' then some (c.toNat - 87)
  else if 'A' ≤ c ∧ c ≤ 'F' then some (c.toNat - 55)
  else none

/-- `hex.EncodeToString` / `bytes.hex()` -/
def hexEncode : Bytes → List Char
  | [] => []
  | b :: bs => hexDigit (b.toNat / 16) :: hexDigit (b.toNat % 16) :: hexEncode bs

/-- `hex.DecodeString` / `bytes.fromhex` (without Python's tolerance for white space, which the callers
exclude beforehand); `none` is the error. -/
def hexDecode : List Char → Option Bytes
  | [] => some []
  | [_] => none
  | a :: b :: r =>
    match hexVal a, hexVal b, hexDecode r with
    | some x, some y, some bs => some (UInt8.ofNat (x * 16 + y) :: bs)
    | _, _, _ => none

/-- a character of `[0-9a-f]` -/
def isLowerHex (c : Char) : Bool := ('0' ≤ c ∧ c ≤ '9') ∨ ('a' ≤ c ∧ c ≤ 'f')

theorem hexDigit_spec : ∀ n, n < 16 → hexVal (hexDigit n) = some n ∧ isLowerHex (hexDigit n) = true := by
  decide

theorem hexDigit_inj_val (c : Char) (h : isLowerHex c = true) :
    ∃ n, n < 16 ∧ hexVal c = some n ∧ hexDigit n = c := by
  unfold isLowerHex at h
  simp only [decide_eq_true_eq] at h
  have key : ∀ k, k < 128 → ('0'.val.toNat ≤ k ∧ k ≤ '9'.val.toNat ∨ 'a'.val.toNat ≤ k ∧ k ≤ 'f'.val.toNat) →
      ∃ n, n < 16 ∧ hexVal (Char.ofNat k) = some n ∧ hexDigit n = Char.ofNat k := by decide
  have hc : Char.ofNat c.toNat = c := Char.ofNat_toNat c
  rw [← hc]
  apply key
  · rcases h with ⟨_, h⟩ | ⟨_, h⟩
    · have : c.toNat ≤ '9'.toNat := h
      have h9 : '9'.toNat = 57 := rfl
      omega
    · have : c.toNat ≤ 'f'.toNat := h
      have h9 : 'f'.toNat = 102 := rfl
      omega
  · exact h

@[simp] theorem hexEncode_length (bs : Bytes) : (hexEncode bs).length = 2 * bs.length := by
  induction bs with
  | nil => rfl
  | cons b bs ih => simp [hexEncode, ih]; omega

theorem hexDecode_encode (bs : Bytes) : hexDecode (hexEncode bs) = some bs := by
  induction bs with
  | nil => rfl
  | cons b bs ih =>
    have hb : b.toNat < 256 := b.toNat_lt
    simp only [hexEncode, hexDecode, ih, (hexDigit_spec (b.toNat / 16) (by omega)).1,
      (hexDigit_spec (b.toNat % 16) (by omega)).1]
    congr 2
    rw [show b.toNat / 16 * 16 + b.toNat % 16 = b.toNat by omega]
    simp

theorem hexEncode_lower (bs : Bytes) : (hexEncode bs).all isLowerHex = true := by
  induction bs with
  | nil => rfl
  | cons b bs ih =>
    have hb : b.toNat < 256 := b.toNat_lt
    simp only [hexEncode, List.all_cons, ih, (hexDigit_spec (b.toNat / 16) (by omega)).2,
      (hexDigit_spec (b.toNat % 16) (by omega)).2, Bool.and_self]

/-- every even-length lower-case hex text decodes, and printing gives it back -/
theorem hexDecode_lower : ∀ (cs : List Char) (n : Nat), cs.length = 2 * n → cs.all isLowerHex = true →
    ∃ bs, hexDecode cs = some bs ∧ hexEncode bs = cs ∧ bs.length = n
  | [], n, hl, _ => ⟨[], rfl, rfl, by simp at hl ⊢; omega⟩
  | [_], n, hl, _ => by simp at hl; omega
  | a :: b :: r, n, hl, h => by
    simp only [List.all_cons, Bool.and_eq_true] at h
    obtain ⟨x, hx, hx1, hx2⟩ := hexDigit_inj_val a h.1
    obtain ⟨y, hy, hy1, hy2⟩ := hexDigit_inj_val b h.2.1
    obtain ⟨bs, e1, e2, e3⟩ := hexDecode_lower r (n - 1) (by simp at hl; omega) h.2.2
    refine ⟨UInt8.ofNat (x * 16 + y) :: bs, ?_, ?_, ?_⟩
    · simp [hexDecode, hx1, hy1, e1]
    · have hv : (UInt8.ofNat (x * 16 + y)).toNat = x * 16 + y := by
        simp; omega
      simp only [hexEncode, hv, e2]
      rw [show (x * 16 + y) / 16 = x by omega, show (x * 16 + y) % 16 = y by omega, hx2, hy2]
    · simp at hl ⊢; omega

theorem hexEncode_inj {a b : Bytes} (h : hexEncode a = hexEncode b) : a = b := by
  have := congrArg hexDecode h
  rw [hexDecode_encode, hexDecode_encode] at this
  exact Option.some.inj this

end Verif
