import Mathlib.Tactic.Ring
import Mathlib.Tactic.Linarith

/-!
# Byte strings

Shared vocabulary: byte strings are `List UInt8`; big-endian reading and writing of naturals.
These are the standard-library operations (`int.to_bytes`, `int.from_bytes`, `big.Int.Bytes`,
`big.Int.SetBytes`) the code calls; they are not code of the repository.
-/

namespace Verif

/-- Python `bytes` / Go `[]byte`. -/
abbrev Bytes := List UInt8

/-- Big-endian unsigned value: `int.from_bytes(bs, "big")`, Go `new(big.Int).SetBytes(bs)`. -/
def beNat : Bytes → Nat
  | [] => 0
  | b :: bs => b.toNat * 256 ^ bs.length + beNat bs

/-- Exactly `n` bytes, big-endian, of `v` modulo `256^n`. -/
def beBytes : Nat → Nat → Bytes
  | 0, _ => []
  | n + 1, v => UInt8.ofNat (v / 256 ^ n % 256) :: beBytes n v

@[simp] theorem beBytes_length (n v : Nat) : (beBytes n v).length = n := by
  induction n with
  | zero => rfl
  | succ n ih => simp [beBytes, ih]

theorem beNat_lt (bs : Bytes) : beNat bs < 256 ^ bs.length := by
  induction bs with
  | nil => simp [beNat]
  | cons b bs ih =>
    have hb : b.toNat < 256 := b.toNat_lt
    simp only [beNat, List.length_cons, pow_succ]
    nlinarith [Nat.pow_pos (n := bs.length) (show 0 < 256 by omega)]

theorem beNat_beBytes (n v : Nat) : beNat (beBytes n v) = v % 256 ^ n := by
  induction n with
  | zero => simp [beBytes, beNat, Nat.mod_one]
  | succ n ih =>
    have h : (UInt8.ofNat (v / 256 ^ n % 256)).toNat = v / 256 ^ n % 256 := by
      simp
    simp only [beBytes, beNat, beBytes_length, ih, h]
    rw [pow_succ, Nat.mod_mul]
    ring

theorem beNat_beBytes_of_lt {n v : Nat} (h : v < 256 ^ n) : beNat (beBytes n v) = v := by
  rw [beNat_beBytes, Nat.mod_eq_of_lt h]

theorem beBytes_beNat (bs : Bytes) : beBytes bs.length (beNat bs) = bs := by
  have key : ∀ (n v w : Nat), beBytes n (v * 256 ^ n + w) = beBytes n w := by
    intro n
    induction n with
    | zero => intros; rfl
    | succ n ih =>
      intro v w
      simp only [beBytes]
      have h1 : v * 256 ^ (n + 1) + w = (v * 256) * 256 ^ n + w := by ring
      rw [h1, ih]
      congr 2
      have hp : 0 < 256 ^ n := Nat.pow_pos (by omega)
      rw [Nat.add_comm, Nat.add_mul_div_right _ _ hp, Nat.add_mul_mod_self_right]
  induction bs with
  | nil => rfl
  | cons b bs ih =>
    simp only [List.length_cons, beBytes, beNat]
    rw [key, ih]
    congr 1
    have hp : 0 < 256 ^ bs.length := Nat.pow_pos (by omega)
    rw [Nat.add_comm, Nat.add_mul_div_right _ _ hp, Nat.div_eq_of_lt (beNat_lt bs)]
    simp

theorem beNat_inj {a b : Bytes} (hl : a.length = b.length) (h : beNat a = beNat b) : a = b := by
  rw [← beBytes_beNat a, ← beBytes_beNat b, hl, h]

theorem beNat_append (a b : Bytes) : beNat (a ++ b) = beNat a * 256 ^ b.length + beNat b := by
  induction a with
  | nil => simp [beNat]
  | cons x xs ih =>
    simp only [List.cons_append, beNat, ih, List.length_append, pow_add]
    ring

end Verif
