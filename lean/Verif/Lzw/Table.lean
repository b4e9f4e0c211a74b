import Verif.Lzw.Bits
import Mathlib.Data.Fintype.Card
import Mathlib.Data.Fintype.Basic

/-! # The hash table of the writer is a dictionary -/

namespace Verif.Lzw

open Verif

/-- A dictionary: what a code above the literals stands for, a shorter code and one more byte. -/
abbrev Ent := Nat → Option (Nat × UInt8)

/-- The entries of a dictionary whose highest code is `hi`. -/
structure EntOk (E : Ent) (hi : Nat) : Prop where
  dom : ∀ c p x, E c = some (p, x) → 258 ≤ c ∧ c ≤ hi ∧ p < c
  inj : ∀ c c' a, E c = some a → E c' = some a → c = c'

/-- The number stored for an entry. -/
def word (p : Nat) (x : UInt8) (c : Nat) : Nat := (p * 256 + x.toNat) * 4096 + c

/-- The table holds the entries, reachable by linear probing. -/
structure TInv (t : Nat → Nat) (E : Ent) : Prop where
  fwd : ∀ c p x, E c = some (p, x) → ∃ i, i < 16384 ∧
    (∀ j, j < i → t ((hashKey (p * 256 + x.toNat) + j) % 16384) ≠ 0) ∧
    t ((hashKey (p * 256 + x.toNat) + i) % 16384) = word p x c
  back : ∀ h, h < 16384 → t h ≠ 0 → ∃ c p x, E c = some (p, x) ∧ t h = word p x c
  once : ∀ h h', h < 16384 → h' < 16384 → t h ≠ 0 → t h = t h' → h = h'

theorem mask_eq (h : Nat) : h &&& tableMask = h % 16384 := Nat.and_two_pow_sub_one_eq_mod h 14

theorem max_eq (h : Nat) : h &&& maxCode = h % 4096 := Nat.and_two_pow_sub_one_eq_mod h 12

theorem hash_lt (k : Nat) : hashKey k < 16384 := by
  rw [hashKey, mask_eq]; exact Nat.mod_lt _ (by norm_num)

theorem key_eq {code : Nat} (h : code < 4096) (x : UInt8) :
    u32 (code <<< 8) ||| x.toNat = code * 256 + x.toNat := by
  have h1 : u32 (code <<< 8) = code <<< 8 := by
    rw [u32, Nat.shiftLeft_eq]; exact Nat.mod_eq_of_lt (by omega)
  rw [h1, ← Nat.shiftLeft_add_eq_or_of_lt x.toNat_lt, Nat.shiftLeft_eq]

theorem word_eq {p : Nat} (hp : p < 4096) (x : UInt8) {hi : Nat} (h : hi < 4096) :
    u32 ((p * 256 + x.toNat) <<< 12) ||| hi = word p x hi := by
  have hx := x.toNat_lt
  have h1 : u32 ((p * 256 + x.toNat) <<< 12) = (p * 256 + x.toNat) <<< 12 := by
    rw [u32, Nat.shiftLeft_eq]; exact Nat.mod_eq_of_lt (by omega)
  rw [h1, ← Nat.shiftLeft_add_eq_or_of_lt (by omega), Nat.shiftLeft_eq, word]

theorem word_shift {p c : Nat} {x : UInt8} (hc : c < 4096) : word p x c >>> 12 = p * 256 + x.toNat := by
  rw [Nat.shiftRight_eq_div_pow, word]; omega

theorem word_mod {p c : Nat} {x : UInt8} (hc : c < 4096) : word p x c % 4096 = c := by
  rw [word]; omega

theorem key_inj {p p' : Nat} {x x' : UInt8} (h : p * 256 + x.toNat = p' * 256 + x'.toNat) :
    p = p' ∧ x = x' := by
  have h1 := x.toNat_lt
  have h2 := x'.toNat_lt
  refine ⟨by omega, UInt8.toNat_inj.mp (by omega)⟩

theorem next_pos (h j : Nat) : ((h + j) % 16384 + 1) &&& tableMask = (h + (j + 1)) % 16384 := by
  rw [mask_eq]; omega

/-- An entry is found. -/
theorem lookup_some {t : Nat → Nat} {E : Ent} {hi : Nat} (O : EntOk E hi) (hhi : hi < 4096)
    (T : TInv t E) {c p : Nat} {x : UInt8} (h : E c = some (p, x)) :
    lookup t (p * 256 + x.toNat) tableSize (hashKey (p * 256 + x.toNat)) = some c := by
  obtain ⟨i, hi1, hne, he⟩ := T.fwd c p x h
  have hcd := O.dom c p x h
  generalize hk : hashKey (p * 256 + x.toNat) = h0 at *
  have gen : ∀ (k : Nat) (fuel j : Nat), i = j + k → k < fuel →
      lookup t (p * 256 + x.toNat) fuel ((h0 + j) % 16384) = some c := by
    intro k
    induction k with
    | zero =>
      intro fuel j hij hf
      obtain ⟨f, rfl⟩ : ∃ f, fuel = f + 1 := ⟨fuel - 1, by omega⟩
      have : j = i := by omega
      subst this
      simp only [lookup]
      rw [he, if_neg (by rw [word]; omega), word_shift (by omega), if_pos rfl, max_eq,
        word_mod (by omega)]
    | succ k ih =>
      intro fuel j hij hf
      obtain ⟨f, rfl⟩ : ∃ f, fuel = f + 1 := ⟨fuel - 1, by omega⟩
      have hnz := hne j (by omega)
      obtain ⟨c', p', x', h1, h2⟩ := T.back _ (Nat.mod_lt _ (by norm_num)) hnz
      have hcd' := O.dom c' p' x' h1
      simp only [lookup]
      rw [if_neg hnz]
      by_cases hk' : p * 256 + x.toNat = t ((h0 + j) % 16384) >>> 12
      · rw [if_pos hk']
        rw [h2, word_shift (by omega)] at hk'
        obtain ⟨rfl, rfl⟩ := key_inj hk'
        have := O.inj _ _ _ h h1
        subst this
        rw [h2, max_eq, word_mod (by omega)]
      · rw [if_neg hk', next_pos]
        exact ih f (j + 1) (by omega) (by omega)
  have := gen i tableSize 0 (by omega) (by rw [tableSize]; omega)
  rwa [Nat.add_zero, Nat.mod_eq_of_lt (by rw [← hk]; exact hash_lt _)] at this

/-- What is found is an entry. -/
theorem lookup_sound {t : Nat → Nat} {E : Ent} {hi : Nat} (O : EntOk E hi) (hhi : hi < 4096)
    (T : TInv t E) {c p : Nat} {x : UInt8} : ∀ (fuel h : Nat), h < 16384 →
    lookup t (p * 256 + x.toNat) fuel h = some c → E c = some (p, x) := by
  intro fuel
  induction fuel with
  | zero => intro h _ he; simp [lookup] at he
  | succ f ih =>
    intro h hlt he
    simp only [lookup] at he
    by_cases h0 : t h = 0
    · rw [if_pos h0] at he; simp at he
    · rw [if_neg h0] at he
      by_cases hk : p * 256 + x.toNat = t h >>> 12
      · rw [if_pos hk] at he
        obtain ⟨c', p', x', h1, h2⟩ := T.back h hlt h0
        have hcd' := O.dom c' p' x' h1
        rw [h2, word_shift (by omega)] at hk
        obtain ⟨rfl, rfl⟩ := key_inj hk
        rw [h2, max_eq, word_mod (by omega)] at he
        injection he with he
        rw [← he]; exact h1
      · rw [if_neg hk] at he
        refine ih _ ?_ he
        rw [mask_eq]; exact Nat.mod_lt _ (by norm_num)

/-- There is always a free place. -/
theorem free_place {t : Nat → Nat} {E : Ent} {hi : Nat} (O : EntOk E hi) (hhi : hi < 4096)
    (T : TInv t E) : ∃ h, h < 16384 ∧ t h = 0 := by
  by_contra hno
  push Not at hno
  have hlt : ∀ h, h < 16384 → t h % 4096 < 4096 := fun h _ => Nat.mod_lt _ (by norm_num)
  let f : Fin 16384 → Fin 4096 := fun h => ⟨t h.1 % 4096, hlt h.1 h.2⟩
  have hinj : Function.Injective f := by
    intro a b hab
    have e : t a.1 % 4096 = t b.1 % 4096 := congrArg Fin.val hab
    obtain ⟨c, p, x, h1, h2⟩ := T.back a.1 a.2 (hno a.1 a.2)
    obtain ⟨c', p', x', h1', h2'⟩ := T.back b.1 b.2 (hno b.1 b.2)
    have d1 := O.dom c p x h1
    have d2 := O.dom c' p' x' h1'
    rw [h2, h2', word_mod (by omega), word_mod (by omega)] at e
    subst e
    rw [h1] at h1'
    injection h1' with h1'
    injection h1' with e1 e2
    subst e1; subst e2
    exact Fin.ext (T.once _ _ a.2 b.2 (hno a.1 a.2) (h2.trans h2'.symm))
  have := Fintype.card_le_of_injective f hinj
  simp at this

/-- Inserting a new entry. -/
theorem insert_spec {t : Nat → Nat} {E : Ent} {hi : Nat} (O : EntOk E hi) (hhi : hi + 1 < 4096)
    (h257 : 257 ≤ hi) (T : TInv t E) {p : Nat} {x : UInt8} (hp : p ≤ hi)
    (hnew : ∀ c, E c ≠ some (p, x)) :
    EntOk (Function.update E (hi + 1) (some (p, x))) (hi + 1) ∧
    TInv (insert t (p * 256 + x.toNat) (hi + 1) tableSize (hashKey (p * 256 + x.toNat)))
      (Function.update E (hi + 1) (some (p, x))) := by
  have hfresh : E (hi + 1) = Option.none := by
    rcases h : E (hi + 1) with _ | ⟨p', x'⟩
    · rfl
    · have := O.dom _ _ _ h; omega
  have O' : EntOk (Function.update E (hi + 1) (some (p, x))) (hi + 1) := by
    constructor
    · intro c p' x' h
      by_cases hc : c = hi + 1
      · subst hc; rw [Function.update_self] at h
        injection h with h; injection h with e1 e2
        exact ⟨by omega, by omega, by omega⟩
      · rw [Function.update_of_ne hc] at h
        have := O.dom _ _ _ h
        exact ⟨by omega, by omega, by omega⟩
    · intro c c' a h h'
      by_cases hc : c = hi + 1
      · by_cases hc' : c' = hi + 1
        · rw [hc, hc']
        · subst hc
          rw [Function.update_self] at h
          rw [Function.update_of_ne hc'] at h'
          rw [← h] at h'; exact absurd h' (hnew c')
      · by_cases hc' : c' = hi + 1
        · subst hc'
          rw [Function.update_self] at h'
          rw [Function.update_of_ne hc] at h
          rw [← h'] at h; exact absurd h (hnew c)
        · rw [Function.update_of_ne hc] at h
          rw [Function.update_of_ne hc'] at h'
          exact O.inj _ _ _ h h'
  refine ⟨O', ?_⟩
  have hex : ∃ i, t ((hashKey (p * 256 + x.toNat) + i) % 16384) = 0 := by
    obtain ⟨q, hq, h0⟩ := free_place O (by omega) T
    have := hash_lt (p * 256 + x.toNat)
    refine ⟨q + 16384 - hashKey (p * 256 + x.toNat), ?_⟩
    have : (hashKey (p * 256 + x.toNat) + (q + 16384 - hashKey (p * 256 + x.toNat))) % 16384 = q := by
      omega
    rw [this]; exact h0
  have hlti : Nat.find hex < 16384 := by
    by_contra hge
    have h1 := Nat.find_spec hex
    refine Nat.find_min hex (m := Nat.find hex - 16384) (by omega) ?_
    have : (hashKey (p * 256 + x.toNat) + (Nat.find hex - 16384)) % 16384 =
        (hashKey (p * 256 + x.toNat) + Nat.find hex) % 16384 := by omega
    rw [this]; exact h1
  have hspec := Nat.find_spec hex
  have hmin : ∀ j, j < Nat.find hex → t ((hashKey (p * 256 + x.toNat) + j) % 16384) ≠ 0 :=
    fun j hj => Nat.find_min hex hj
  revert hlti hspec hmin
  generalize Nat.find hex = i
  intro hlti hspec hmin
  have hh := hash_lt (p * 256 + x.toNat)
  have hins : insert t (p * 256 + x.toNat) (hi + 1) tableSize (hashKey (p * 256 + x.toNat)) =
      Function.update t ((hashKey (p * 256 + x.toNat) + i) % 16384) (word p x (hi + 1)) := by
    generalize hashKey (p * 256 + x.toNat) = h0 at *
    have gen : ∀ (k fuel j : Nat), i = j + k → k < fuel →
        insert t (p * 256 + x.toNat) (hi + 1) fuel ((h0 + j) % 16384) =
          Function.update t ((h0 + i) % 16384) (word p x (hi + 1)) := by
      intro k
      induction k with
      | zero =>
        intro fuel j hij hf
        obtain ⟨f, rfl⟩ : ∃ f, fuel = f + 1 := ⟨fuel - 1, by omega⟩
        have : j = i := by omega
        subst this
        simp only [insert]
        rw [if_pos hspec, word_eq (by omega) x (by omega)]
      | succ k ih =>
        intro fuel j hij hf
        obtain ⟨f, rfl⟩ : ∃ f, fuel = f + 1 := ⟨fuel - 1, by omega⟩
        simp only [insert]
        rw [if_neg (hmin j (by omega)), next_pos]
        exact ih f (j + 1) (by omega) (by omega)
    have := gen i tableSize 0 (by omega) (by rw [tableSize]; omega)
    have e0 : (h0 + 0) % 16384 = h0 := by omega
    rwa [e0] at this
  rw [hins]
  have hwz : word p x (hi + 1) ≠ 0 := by rw [word]; omega
  have hkeep : ∀ q, t q ≠ 0 → Function.update t ((hashKey (p * 256 + x.toNat) + i) % 16384)
      (word p x (hi + 1)) q = t q := by
    intro q hq
    refine Function.update_of_ne ?_ _ _
    intro e; rw [e] at hq; exact hq hspec
  have hnz : ∀ q, t q ≠ 0 → Function.update t ((hashKey (p * 256 + x.toNat) + i) % 16384)
      (word p x (hi + 1)) q ≠ 0 := fun q hq => by rw [hkeep q hq]; exact hq
  constructor
  · intro c p' x' h
    by_cases hc : c = hi + 1
    · subst hc; rw [Function.update_self] at h
      injection h with h; injection h with e1 e2
      subst e1; subst e2
      exact ⟨i, hlti, fun j hj => hnz _ (hmin j hj), by rw [Function.update_self]⟩
    · rw [Function.update_of_ne hc] at h
      obtain ⟨i', h1, h2, h3⟩ := T.fwd c p' x' h
      refine ⟨i', h1, fun j hj => hnz _ (h2 j hj), ?_⟩
      have hd := O.dom _ _ _ h
      rw [hkeep _ (by rw [h3, word]; omega), h3]
  · intro q hq h0
    by_cases hqe : q = (hashKey (p * 256 + x.toNat) + i) % 16384
    · subst hqe
      exact ⟨hi + 1, p, x, Function.update_self .., Function.update_self ..⟩
    · rw [Function.update_of_ne hqe] at h0 ⊢
      obtain ⟨c, p', x', h1, h2⟩ := T.back q hq h0
      have hd := O.dom _ _ _ h1
      exact ⟨c, p', x', by rw [Function.update_of_ne (by omega)]; exact h1, h2⟩
  · intro q q' hq hq' h0 he
    have key : ∀ q, q < 16384 → q ≠ (hashKey (p * 256 + x.toNat) + i) % 16384 → t q ≠ 0 →
        t q ≠ word p x (hi + 1) := by
      intro q hq _ h0 he
      obtain ⟨c, p', x', h1, h2⟩ := T.back q hq h0
      have hd := O.dom _ _ _ h1
      have : word p' x' c % 4096 = word p x (hi + 1) % 4096 := by rw [← h2, he]
      rw [word_mod (by omega), word_mod (by omega)] at this
      omega
    by_cases h1 : q = (hashKey (p * 256 + x.toNat) + i) % 16384
    · by_cases h2 : q' = (hashKey (p * 256 + x.toNat) + i) % 16384
      · rw [h1, h2]
      · rw [h1, Function.update_self, Function.update_of_ne h2] at he
        refine absurd he.symm (key q' hq' h2 ?_)
        rw [← he]; exact hwz
    · by_cases h2 : q' = (hashKey (p * 256 + x.toNat) + i) % 16384
      · rw [Function.update_of_ne h1] at h0
        rw [h2, Function.update_self, Function.update_of_ne h1] at he
        exact absurd he (key q hq h1 h0)
      · rw [Function.update_of_ne h1] at h0
        rw [Function.update_of_ne h1, Function.update_of_ne h2] at he
        exact T.once _ _ hq hq' h0 he

theorem tinv_empty : TInv (fun _ => 0) (fun _ => Option.none) :=
  ⟨by simp, by simp, by simp⟩

theorem entOk_empty (hi : Nat) : EntOk (fun _ => Option.none) hi := ⟨by simp, by simp⟩

end Verif.Lzw
