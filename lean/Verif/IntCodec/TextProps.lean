import Verif.IntCodec.Text
import Verif.IntCodec.Props
import Mathlib.Data.List.Induction

/-! # C38: numbers as text -/
namespace Verif.IntCodec

/-! ### Specification -/

/-- `DigitsOf b s n`: `s` is a text of digits in base `b` (letters of both cases) with value `n`. -/
inductive DigitsOf (b : ℕ) : List Char → ℕ → Prop
  | nil : DigitsOf b [] 0
  | snoc {s : List Char} {n d : ℕ} {c : Char} : DigitsOf b s n → d < b → d < 36 →
      (c = Char.ofNat (48 + d) ∧ d < 10 ∨ 10 ≤ d ∧ (c = Char.ofNat (87 + d) ∨ c = Char.ofNat (55 + d))) →
      DigitsOf b (s ++ [c]) (n * b + d)

/-- The text of a natural number: decimal digits (leading zeros allowed), or `0x` and hexadecimal digits. -/
def NatText (s : List Char) (n : ℕ) : Prop :=
  (s ≠ [] ∧ DigitsOf 10 s n) ∨ ∃ r, s = '0' :: 'x' :: r ∧ r ≠ [] ∧ DigitsOf 16 r n

/-- The text of an integer: the same, possibly after a minus sign. -/
def IntText (s : List Char) (v : ℤ) : Prop :=
  (∃ n : ℕ, NatText s n ∧ v = n) ∨ ∃ r, ∃ n : ℕ, s = '-' :: r ∧ NatText r n ∧ v = -n

/-! ### Lemmas -/

theorem digitVal_iff (c : Char) (d : ℕ) : digitVal c = some d ↔
    d < 36 ∧ (c = Char.ofNat (48 + d) ∧ d < 10 ∨ 10 ≤ d ∧ (c = Char.ofNat (87 + d) ∨ c = Char.ofNat (55 + d))) := by
  constructor
  · intro h
    have hc : Char.ofNat c.toNat = c := Char.ofNat_toNat c
    rw [digitVal] at h
    have conv : ∀ a b : Char, a ≤ b ↔ a.toNat ≤ b.toNat := fun a b => Iff.rfl
    simp only [conv, show '0'.toNat = 48 from rfl, show '9'.toNat = 57 from rfl, show 'a'.toNat = 97 from rfl,
      show 'z'.toNat = 122 from rfl, show 'A'.toNat = 65 from rfl, show 'Z'.toNat = 90 from rfl] at h
    split_ifs at h with h1 h2 h3
    · simp only [Option.some.injEq] at h
      subst h
      refine ⟨by omega, Or.inl ⟨?_, by omega⟩⟩
      rw [show 48 + (c.toNat - 48) = c.toNat by omega, hc]
    · simp only [Option.some.injEq] at h
      subst h
      refine ⟨by omega, Or.inr ⟨by omega, Or.inl ?_⟩⟩
      rw [show 87 + (c.toNat - 87) = c.toNat by omega, hc]
    · simp only [Option.some.injEq] at h
      subst h
      refine ⟨by omega, Or.inr ⟨by omega, Or.inr ?_⟩⟩
      rw [show 55 + (c.toNat - 55) = c.toNat by omega, hc]
  · rintro ⟨h36, h⟩
    have k1 : ∀ d, d < 36 → d < 10 → digitVal (Char.ofNat (48 + d)) = some d := by decide
    have k2 : ∀ d, d < 36 → 10 ≤ d → digitVal (Char.ofNat (87 + d)) = some d := by decide
    have k3 : ∀ d, d < 36 → 10 ≤ d → digitVal (Char.ofNat (55 + d)) = some d := by decide
    rcases h with ⟨rfl, h⟩ | ⟨h, rfl | rfl⟩
    · exact k1 d h36 h
    · exact k2 d h36 h
    · exact k3 d h36 h

theorem digitsOf_snoc_iff {b : ℕ} {s : List Char} {c : Char} {m : ℕ} :
    DigitsOf b (s ++ [c]) m ↔ ∃ n d, DigitsOf b s n ∧ digitVal c = some d ∧ d < b ∧ m = n * b + d := by
  constructor
  · intro h
    generalize ht : s ++ [c] = t at h
    cases h with
    | nil => simp at ht
    | snoc h1 h2 h3 h4 =>
      obtain ⟨rfl, h⟩ := List.append_inj' ht rfl
      simp only [List.cons.injEq, and_true] at h
      subst h
      exact ⟨_, _, h1, (digitVal_iff _ _).mpr ⟨h3, h4⟩, h2, rfl⟩
  · rintro ⟨n, d, h1, h2, h3, rfl⟩
    obtain ⟨h4, h5⟩ := (digitVal_iff _ _).mp h2
    exact .snoc h1 h3 h4 h5

theorem digitsOf_nil {b m : ℕ} (h : DigitsOf b [] m) : m = 0 := by
  generalize ht : ([] : List Char) = t at h
  cases h with
  | nil => rfl
  | snoc => simp at ht

theorem digit_ne_under {c : Char} {d : ℕ} (h : digitVal c = some d) : c ≠ '_' := by
  rintro rfl
  revert h
  decide +revert

/-- Scanning a text without separators. -/
theorem scanLoop_iff {b : ℕ} {base0 : Bool} : ∀ (s p : List Char) (acc : ℕ) (prev : Prev) (v k : ℕ), prev ≠ .sep → '_' ∉ s →
    DigitsOf b p acc →
    (scanLoop b base0 prev acc p.length s = some (v, k) ↔ DigitsOf b (p ++ s) v ∧ k = (p ++ s).length)
  | [], p, acc, prev, v, k, hp, _, hd => by
    rw [scanLoop, if_neg hp, List.append_nil]
    simp only [Option.some.injEq, Prod.mk.injEq]
    constructor
    · rintro ⟨rfl, rfl⟩; exact ⟨hd, rfl⟩
    · rintro ⟨h, rfl⟩
      refine ⟨?_, rfl⟩
      clear hp
      have : ∀ (p : List Char) (a c : ℕ), DigitsOf b p a → DigitsOf b p c → a = c := by
        intro p
        induction p using List.reverseRecOn with
        | nil => intro a c h1 h2; rw [digitsOf_nil h1, digitsOf_nil h2]
        | append_singleton p x ih =>
          intro a c h1 h2
          obtain ⟨n1, d1, e1, e2, _, rfl⟩ := digitsOf_snoc_iff.mp h1
          obtain ⟨n2, d2, e3, e4, _, rfl⟩ := digitsOf_snoc_iff.mp h2
          rw [e2] at e4
          cases e4
          rw [ih _ _ e1 e3]
      exact this p acc v hd h
  | c :: s, p, acc, prev, v, k, hp, hu, hd => by
    have hc : c ≠ '_' := fun h => hu (by simp [h])
    have hu' : '_' ∉ s := fun h => hu (by simp [h])
    rw [scanLoop, if_neg (by tauto)]
    have hsplit : p ++ c :: s = (p ++ [c]) ++ s := by simp
    have hpre : ∀ (q s : List Char) (v : ℕ), DigitsOf b (q ++ s) v → ∃ a, DigitsOf b q a := by
      intro q s
      induction s using List.reverseRecOn with
      | nil => intro v h; exact ⟨v, by simpa using h⟩
      | append_singleton s x ih =>
        intro v h
        rw [← List.append_assoc] at h
        obtain ⟨n, d, h1, _⟩ := digitsOf_snoc_iff.mp h
        exact ih n h1
    rcases hdv : digitVal c with _ | d
    · simp only [reduceCtorEq, false_iff]
      rintro ⟨h, _⟩
      rw [hsplit] at h
      obtain ⟨a, ha⟩ := hpre _ _ _ h
      obtain ⟨_, d, _, hd', _⟩ := digitsOf_snoc_iff.mp ha
      rw [hdv] at hd'; cases hd'
    · simp only []
      by_cases hb : d ≥ b
      · rw [if_pos hb]
        simp only [reduceCtorEq, false_iff]
        rintro ⟨h, _⟩
        rw [hsplit] at h
        obtain ⟨a, ha⟩ := hpre _ _ _ h
        obtain ⟨_, d', _, hd', hlt, _⟩ := digitsOf_snoc_iff.mp ha
        rw [hdv] at hd'; cases hd'; omega
      · rw [if_neg hb, hsplit, show p.length + 1 = (p ++ [c]).length by simp]
        exact scanLoop_iff s (p ++ [c]) _ .digit v k (by decide) hu'
          (digitsOf_snoc_iff.mpr ⟨acc, d, hd, hdv, by omega, rfl⟩)

theorem scan_iff {b : ℕ} {base0 : Bool} {s : List Char} {prev : Prev} (hp : prev ≠ .sep) (hu : '_' ∉ s) (v : ℕ) :
    needDigits (scanLoop b base0 prev 0 0 s) = some v ↔ s ≠ [] ∧ DigitsOf b s v := by
  have key := fun k => scanLoop_iff (b := b) (base0 := base0) s [] 0 prev v k hp hu .nil
  simp only [List.length_nil, List.nil_append] at key
  constructor
  · intro h
    rcases hs : scanLoop b base0 prev 0 0 s with _ | ⟨a, _ | k⟩
    · rw [hs] at h; cases h
    · rw [hs] at h; cases h
    · rw [hs] at h
      simp only [needDigits, Option.some.injEq] at h
      subst h
      have := (key (k + 1)).mp hs
      refine ⟨fun he => ?_, this.1⟩
      rw [he] at this
      simp at this
  · rintro ⟨h1, h2⟩
    have := (key s.length).mpr ⟨h2, rfl⟩
    rw [this]
    cases s with
    | nil => exact absurd rfl h1
    | cons c s => rfl

theorem removeUnder_id : ∀ {s : List Char}, '_' ∉ s → removeUnder s = s
  | [], _ => rfl
  | [c], _ => rfl
  | c :: d :: r, h => by
    rw [removeUnder, if_neg (fun hc => h (by simp [hc.1])), removeUnder_id (fun hm => h (by
      simp only [List.mem_cons] at hm ⊢; tauto))]

theorem digitsOf_head {b : ℕ} {c : Char} {s : List Char} {v : ℕ} (h : DigitsOf b (c :: s) v) : ∃ d, digitVal c = some d ∧ d < b := by
  have : ∀ (s : List Char) (v : ℕ), DigitsOf b (c :: s) v → ∃ d, digitVal c = some d ∧ d < b := by
    intro s
    induction s using List.reverseRecOn with
    | nil =>
      intro v h
      obtain ⟨_, d, _, h1, h2, _⟩ := digitsOf_snoc_iff (s := []).mp h
      exact ⟨d, h1, h2⟩
    | append_singleton s x ih =>
      intro v h
      rw [← List.cons_append] at h
      obtain ⟨n, _, h1, _⟩ := digitsOf_snoc_iff.mp h
      exact ih n h1
  exact this s v h

theorem digitsOf_second {b : ℕ} {c c' : Char} {s : List Char} {v : ℕ} (h : DigitsOf b (c :: c' :: s) v) :
    ∃ d, digitVal c' = some d ∧ d < b := by
  have : ∀ (s : List Char) (v : ℕ), DigitsOf b (c :: c' :: s) v → ∃ d, digitVal c' = some d ∧ d < b := by
    intro s
    induction s using List.reverseRecOn with
    | nil =>
      intro v h
      obtain ⟨_, d, _, h1, h2, _⟩ := digitsOf_snoc_iff (s := [c]).mp h
      exact ⟨d, h1, h2⟩
    | append_singleton s x ih =>
      intro v h
      rw [← List.cons_append, ← List.cons_append] at h
      obtain ⟨n, _, h1, _⟩ := digitsOf_snoc_iff.mp h
      exact ih n h1
  exact this s v h

theorem digitsOf_mem {b : ℕ} {s : List Char} {v : ℕ} {c : Char} (h : DigitsOf b s v) (hm : c ∈ s) :
    ∃ d, digitVal c = some d ∧ d < b := by
  induction h with
  | nil => cases hm
  | snoc h1 h2 h3 h4 ih =>
    rcases List.mem_append.mp hm with hm | hm
    · exact ih hm
    · simp only [List.mem_singleton] at hm
      subst hm
      exact ⟨_, (digitVal_iff _ _).mpr ⟨h3, h4⟩, h2⟩

/-- The unsigned part of `ParseBigInt`. -/
def parseNat (s : List Char) : Option ℕ :=
  match s with
  | '0' :: c :: r =>
    if c = 'o' ∨ c = 'O' ∨ c = 'X' ∨ c = 'b' ∨ c = 'B' then none
    else if c = 'x' then needDigits (scanLoop 16 true .digit 0 0 r)
    else needDigits (scanLoop 10 false .start 0 0 ('0' :: c :: r))
  | s => needDigits (scanLoop 10 true .start 0 0 s)

theorem parseNat_iff {s : List Char} (hu : '_' ∉ s) (v : ℕ) : parseNat s = some v ↔ NatText s v := by
  rw [parseNat.eq_def]
  have nox : ∀ c, c = 'o' ∨ c = 'O' ∨ c = 'X' ∨ c = 'b' ∨ c = 'B' ∨ c = 'x' → ∀ d, digitVal c = some d → ¬ d < 10 := by
    intro c hc d hd
    rcases hc with rfl | rfl | rfl | rfl | rfl | rfl <;>
    · rw [digitVal] at hd
      revert hd
      simp only [Char.reduceLE, true_and, and_true, and_false, and_self, if_true, if_false, Option.some.injEq]
      rintro rfl
      decide
  split
  · rename_i c r
    have hu' : '_' ∉ r := fun h => hu (by simp [h])
    by_cases h1 : c = 'o' ∨ c = 'O' ∨ c = 'X' ∨ c = 'b' ∨ c = 'B'
    · rw [if_pos h1]
      simp only [reduceCtorEq, false_iff]
      rintro (⟨_, h⟩ | ⟨r', h, _⟩)
      · obtain ⟨d, hd, hlt⟩ := digitsOf_second h
        exact nox c (by tauto) d hd hlt
      · simp only [List.cons.injEq, true_and] at h
        rw [h.1] at h1
        revert h1
        decide
    · rw [if_neg h1]
      by_cases h2 : c = 'x'
      · rw [if_pos h2, scan_iff (by decide) hu']
        subst h2
        constructor
        · rintro ⟨a, b⟩; exact Or.inr ⟨r, rfl, a, b⟩
        · rintro (⟨_, h⟩ | ⟨r', h, a, b⟩)
          · obtain ⟨d, hd, hlt⟩ := digitsOf_second h
            exact absurd hlt (nox 'x' (by decide) d hd)
          · simp only [List.cons.injEq, true_and] at h
            subst h
            exact ⟨a, b⟩
      · rw [if_neg h2, scan_iff (by decide) hu]
        constructor
        · intro h; exact Or.inl h
        · rintro (h | ⟨r', h, _⟩)
          · exact h
          · simp only [List.cons.injEq, true_and] at h
            exact absurd h.1 h2
  · rename_i s' hne
    rw [scan_iff (by decide) hu]
    constructor
    · intro h; exact Or.inl h
    · rintro (h | ⟨r', h, _⟩)
      · exact h
      · exact absurd h (hne 'x' r')

theorem setString_minus (base : ℕ) (r : List Char) : setString base ('-' :: r) = (natScan base r).map (fun (n : ℕ) => -(n : ℤ)) := rfl

theorem setString_plain (base : ℕ) {s : List Char} (h1 : s.head? ≠ some '-') (h2 : s.head? ≠ some '+') :
    setString base s = (natScan base s).map (fun (n : ℕ) => (n : ℤ)) := by
  rw [setString.eq_def]
  split
  · exact absurd rfl h1
  · exact absurd rfl h2
  · rfl

theorem parseNat_other {s : List Char} (h : ∀ c r, s ≠ '0' :: c :: r) : parseNat s = needDigits (scanLoop 10 true .start 0 0 s) := by
  rw [parseNat.eq_def]
  split
  · rename_i c r; exact absurd rfl (h c r)
  · rfl

theorem natScan_other {s : List Char} (h : ∀ c r, s ≠ '0' :: c :: r) : natScan 0 s = needDigits (scanLoop 10 true .start 0 0 s) := by
  rw [natScan.eq_def, if_pos rfl]
  split
  · rename_i c r; exact absurd rfl (h c r)
  · rfl

theorem parseBigInt_other {s : List Char} (h : ∀ c r, dropMinus s ≠ '0' :: c :: r) : parseBigInt s = setString 0 s := by
  rw [parseBigInt.eq_def]
  split
  · rename_i c r he; exact absurd he (h c r)
  · rfl

theorem parseBigInt_zero {s : List Char} {c : Char} {r : List Char} (h : dropMinus s = '0' :: c :: r) : parseBigInt s =
    if c = 'o' ∨ c = 'O' ∨ c = 'X' ∨ c = 'b' ∨ c = 'B' then none
    else if c = 'x' then setString 0 s
    else setString 10 (removeUnder s) := by
  rw [parseBigInt, h]
  rfl

theorem parse_unsigned {s : List Char} (hu : '_' ∉ s) (hp : s.head? ≠ some '+') (hm : s.head? ≠ some '-') :
    parseBigInt s = (parseNat s).map (fun (n : ℕ) => (n : ℤ)) := by
  have hd : dropMinus s = s := by
    rw [dropMinus.eq_def]
    split
    · exact absurd rfl hm
    · rfl
  by_cases hz : ∃ c r, s = '0' :: c :: r
  · obtain ⟨c, r, rfl⟩ := hz
    rw [parseBigInt_zero hd, parseNat]
    by_cases h1 : c = 'o' ∨ c = 'O' ∨ c = 'X' ∨ c = 'b' ∨ c = 'B'
    · rw [if_pos h1, if_pos h1]; rfl
    · rw [if_neg h1, if_neg h1]
      by_cases h2 : c = 'x'
      · rw [if_pos h2, if_pos h2, setString_plain 0 hm hp]
        subst h2
        rfl
      · rw [if_neg h2, if_neg h2, removeUnder_id hu, setString_plain 10 hm hp, natScan, if_neg (by decide)]
  · have hne : ∀ c r, s ≠ '0' :: c :: r := fun c r h => hz ⟨c, r, h⟩
    rw [parseBigInt_other (by rw [hd]; exact hne), setString_plain 0 hm hp, natScan_other hne, parseNat_other hne]

theorem parse_minus {r : List Char} (hu : '_' ∉ r) : parseBigInt ('-' :: r) = (parseNat r).map (fun (n : ℕ) => -(n : ℤ)) := by
  have hu' : '_' ∉ '-' :: r := by simp [hu]
  have hd : dropMinus ('-' :: r) = r := rfl
  by_cases hz : ∃ c r', r = '0' :: c :: r'
  · obtain ⟨c, r, rfl⟩ := hz
    rw [parseBigInt_zero hd, parseNat]
    by_cases h1 : c = 'o' ∨ c = 'O' ∨ c = 'X' ∨ c = 'b' ∨ c = 'B'
    · rw [if_pos h1, if_pos h1]; rfl
    · rw [if_neg h1, if_neg h1]
      by_cases h2 : c = 'x'
      · rw [if_pos h2, if_pos h2, setString_minus]
        subst h2
        rfl
      · rw [if_neg h2, if_neg h2, removeUnder_id hu', setString_minus, natScan, if_neg (by decide)]
  · have hne : ∀ c r', r ≠ '0' :: c :: r' := fun c r' h => hz ⟨c, r', h⟩
    rw [parseBigInt_other (by rw [hd]; exact hne), setString_minus, natScan_other hne, parseNat_other hne]

theorem natText_head {s : List Char} {n : ℕ} (h : NatText s n) : s.head? ≠ some '-' ∧ s.head? ≠ some '+' := by
  rcases h with ⟨h0, h⟩ | ⟨r, rfl, _⟩
  · cases s with
    | nil => exact absurd rfl h0
    | cons c s =>
      obtain ⟨d, hd, hlt⟩ := digitsOf_head h
      constructor <;>
      · intro hc
        simp only [List.head?_cons, Option.some.injEq] at hc
        subst hc
        revert hd
        decide +revert
  · simp

/-- C38: the texts of integers without separators and without a plus sign are read exactly as what they denote: decimal
(also with leading zeros) and `0x` hexadecimal, with an optional minus; everything else is refused. -/
theorem C38_parse_exact (s : List Char) (hu : '_' ∉ s) (hp : s.head? ≠ some '+') (v : ℤ) :
    parseBigInt s = some v ↔ IntText s v := by
  by_cases hm : s.head? = some '-'
  · obtain ⟨r, rfl⟩ : ∃ r, s = '-' :: r := by
      cases s with
      | nil => simp at hm
      | cons c s => simp at hm; exact ⟨s, by rw [hm]⟩
    have hu' : '_' ∉ r := fun h => hu (by simp [h])
    rw [parse_minus hu', Option.map_eq_some_iff]
    constructor
    · rintro ⟨n, h, rfl⟩
      exact Or.inr ⟨r, n, rfl, (parseNat_iff hu' n).mp h, rfl⟩
    · rintro (⟨n, h, _⟩ | ⟨r', n, h, hn, rfl⟩)
      · exact absurd hm (natText_head h).1
      · simp only [List.cons.injEq, true_and] at h
        subst h
        exact ⟨n, (parseNat_iff hu' n).mpr hn, rfl⟩
  · rw [parse_unsigned hu hp hm, Option.map_eq_some_iff]
    constructor
    · rintro ⟨n, h, rfl⟩
      exact Or.inl ⟨n, (parseNat_iff hu n).mp h, rfl⟩
    · rintro (⟨n, h, rfl⟩ | ⟨r', n, rfl, _⟩)
      · exact ⟨n, (parseNat_iff hu n).mpr h, rfl⟩
      · exact absurd rfl hm

/-! ### Formatting -/

theorem hexDigit_digitVal (n : ℕ) (h : n < 16) : digitVal (hexDigit n) = some n := by
  revert n
  decide

theorem digitsOf_hexEncode_append : ∀ (bs : Bytes) (s : List Char) (n : ℕ), DigitsOf 16 s n →
    DigitsOf 16 (s ++ hexEncode bs) (n * 256 ^ bs.length + beNat bs)
  | [], s, n, h => by simpa [hexEncode, beNat] using h
  | b :: bs, s, n, h => by
    have hb : b.toNat < 256 := b.toNat_lt
    have h1 := digitsOf_snoc_iff.mpr ⟨n, b.toNat / 16, h, hexDigit_digitVal _ (by omega), by omega, rfl⟩
    have h2 := digitsOf_snoc_iff.mpr ⟨_, b.toNat % 16, h1, hexDigit_digitVal _ (by omega), by omega, rfl⟩
    have h3 := digitsOf_hexEncode_append bs _ _ h2
    rw [hexEncode]
    have e1 : s ++ hexDigit (b.toNat / 16) :: hexDigit (b.toNat % 16) :: hexEncode bs =
        s ++ [hexDigit (b.toNat / 16)] ++ [hexDigit (b.toNat % 16)] ++ hexEncode bs := by simp
    rw [e1]
    have e2 : n * 256 ^ (b :: bs).length + beNat (b :: bs) =
        ((n * 16 + b.toNat / 16) * 16 + b.toNat % 16) * 256 ^ bs.length + beNat bs := by
      have : (n * 16 + b.toNat / 16) * 16 + b.toNat % 16 = n * 256 + b.toNat := by omega
      rw [this, beNat, List.length_cons, pow_succ]
      ring
    rw [e2]
    exact h3

theorem digitsOf_hexEncode (bs : Bytes) : DigitsOf 16 (hexEncode bs) (beNat bs) := by
  have := digitsOf_hexEncode_append bs [] 0 .nil
  simpa using this

/-- Leading zeros may be dropped. -/
theorem digitsOf_drop_zero {b : ℕ} {s : List Char} {v : ℕ} (h : DigitsOf b ('0' :: s) v) : DigitsOf b s v := by
  have : ∀ (s : List Char) (v : ℕ), DigitsOf b ('0' :: s) v → DigitsOf b s v := by
    intro s
    induction s using List.reverseRecOn with
    | nil =>
      intro v h
      obtain ⟨n, d, h1, h2, _, rfl⟩ := digitsOf_snoc_iff (s := []).mp h
      rw [digitsOf_nil h1]
      obtain rfl : 0 = d := by simpa [digitVal] using h2
      simpa using DigitsOf.nil
    | append_singleton s x ih =>
      intro v h
      rw [← List.cons_append] at h
      obtain ⟨n, d, h1, h2, h3, rfl⟩ := digitsOf_snoc_iff.mp h
      exact digitsOf_snoc_iff.mpr ⟨n, d, ih n h1, h2, h3, rfl⟩
  exact this s v h

/-- What `encodeHexNumber` writes for bytes without a leading zero byte (or a single zero byte). -/
theorem encodeHexNumber_spec (neg : Bool) (bs : Bytes) (h0 : bs = [] → neg = false) (hb : bs = [] ∨ bs = [0] ∨ bs.head? ≠ some 0) :
    ∃ ds, encodeHexNumber neg bs = (if neg then ['-'] else []) ++ ['0', 'x'] ++ ds ∧ ds ≠ [] ∧ DigitsOf 16 ds (beNat bs) ∧
      ds.all isLowerHex = true ∧ (ds = ['0'] ∨ ds.head? ≠ some '0') := by
  cases bs with
  | nil =>
    refine ⟨['0'], ?_, by simp, ?_, by decide, Or.inl rfl⟩
    · rw [h0 rfl]; rfl
    · exact digitsOf_snoc_iff (s := []).mpr ⟨0, 0, .nil, rfl, by omega, rfl⟩
  | cons b bs =>
    have hlow := hexEncode_lower (b :: bs)
    have hdig := digitsOf_hexEncode (b :: bs)
    have hb256 : b.toNat < 256 := b.toNat_lt
    rw [encodeHexNumber]
    rw [hexEncode] at hlow hdig ⊢
    simp only []
    by_cases hz : hexDigit (b.toNat / 16) = '0'
    · rw [if_pos hz]
      rw [hz] at hdig hlow
      refine ⟨hexDigit (b.toNat % 16) :: hexEncode bs, by cases neg <;> rfl, by simp, digitsOf_drop_zero hdig, ?_, ?_⟩
      · rw [List.all_cons, Bool.and_eq_true] at hlow
        exact hlow.2
      · rcases hb with hb | hb | hb
        · cases hb
        · left
          simp only [List.cons.injEq] at hb
          rw [hb.1, hb.2]
          rfl
        · right
          simp only [List.head?_cons, ne_eq, Option.some.injEq] at hb ⊢
          intro hc
          apply hb
          have k : ∀ n, n < 16 → hexDigit n = '0' → n = 0 := by decide
          have h1 := k _ (by omega) hz
          have h2 := k _ (by omega) hc
          apply UInt8.toNat_inj.mp
          show b.toNat = 0
          omega
    · rw [if_neg hz]
      exact ⟨hexDigit (b.toNat / 16) :: hexDigit (b.toNat % 16) :: hexEncode bs, by cases neg <;> rfl, by simp, hdig, hlow,
        Or.inr (by simpa using hz)⟩

theorem natBytes_spec (n : ℕ) : beNat (natBytes n) = n ∧ (natBytes n = [] ↔ n = 0) ∧ (natBytes n).head? ≠ some 0 := by
  have hle := (bitLen_le_iff (n : ℤ) (bitLen n)).mp le_rfl
  simp only [Int.natAbs_natCast] at hle
  have hlt : n < 256 ^ ((bitLen n + 7) / 8) := by
    rw [pow256]
    exact lt_of_lt_of_le hle (Nat.pow_le_pow_right (by omega) (by omega))
  have hv : beNat (natBytes n) = n := by rw [natBytes, beNat_beBytes_of_lt hlt]
  have hn : natBytes n = [] ↔ n = 0 := by
    constructor
    · intro h; rw [h] at hv; simpa [beNat] using hv.symm
    · rintro rfl; rfl
  refine ⟨hv, hn, ?_⟩
  intro hh
  rcases hx : natBytes n with _ | ⟨b, bs⟩
  · rw [hx] at hh; simp at hh
  rw [hx] at hh
  simp only [List.head?_cons, Option.some.injEq] at hh
  subst hh
  have hl : (natBytes n).length = (bitLen n + 7) / 8 := by rw [natBytes, beBytes_length]
  rw [hx, List.length_cons] at hl
  rw [hx, beNat] at hv
  have hlt2 := beNat_lt bs
  have : n < 2 ^ (8 * bs.length) := by
    rw [← pow256]
    have : (0 : UInt8).toNat = 0 := rfl
    rw [this] at hv
    omega
  have := (bitLen_le_iff (n : ℤ) (8 * bs.length)).mpr (by simpa using this)
  omega

/-- The canonical text of an integer: `0x` and lower-case digits without leading zeros, after a minus if negative. -/
def CanonicalText (s : List Char) (v : ℤ) : Prop :=
  ∃ ds, s = (if v < 0 then ['-'] else []) ++ ['0', 'x'] ++ ds ∧ ds ≠ [] ∧ DigitsOf 16 ds v.natAbs ∧
    ds.all isLowerHex = true ∧ (ds = ['0'] ∨ ds.head? ≠ some '0')

theorem lowerHex_not_under {ds : List Char} (h : ds.all isLowerHex = true) : '_' ∉ ds := by
  intro hm
  have := List.all_eq_true.mp h _ hm
  revert this
  decide

/-- C38: integers are written in the canonical form. -/
theorem C38_format_canonical (v : ℤ) : CanonicalText (formatBigInt v) v := by
  obtain ⟨h1, h2, h3⟩ := natBytes_spec v.natAbs
  obtain ⟨ds, e1, e2, e3, e4, e5⟩ := encodeHexNumber_spec (decide (v < 0)) (natBytes v.natAbs)
    (fun h => by rw [h2] at h; simp; omega) (Or.inr (Or.inr h3))
  rw [h1] at e3
  refine ⟨ds, ?_, e2, e3, e4, e5⟩
  rw [formatBigInt, e1]
  simp

theorem canonical_intText {s : List Char} {v : ℤ} (h : CanonicalText s v) : IntText s v ∧ '_' ∉ s ∧ s.head? ≠ some '+' := by
  obtain ⟨ds, rfl, h1, h2, h3, _⟩ := h
  have hu := lowerHex_not_under h3
  by_cases hv : v < 0
  · rw [if_pos hv]
    refine ⟨Or.inr ⟨'0' :: 'x' :: ds, v.natAbs, rfl, Or.inr ⟨ds, rfl, h1, h2⟩, by omega⟩, by simp [hu], by simp⟩
  · rw [if_neg hv]
    exact ⟨Or.inl ⟨v.natAbs, Or.inr ⟨ds, rfl, h1, h2⟩, by omega⟩, by simp [hu], by simp⟩

/-- C38: reading gives back the integer that was written. -/
theorem C38_text_roundtrip (v : ℤ) : parseBigInt (formatBigInt v) = some v := by
  obtain ⟨h1, h2, h3⟩ := canonical_intText (C38_format_canonical v)
  exact (C38_parse_exact _ h2 h3 v).mpr h1

theorem sizeToBytes_head (v : BitVec 64) : goSizeToBytes v = [0] ∨ (goSizeToBytes v).head? ≠ some 0 := by
  rcases (C38_go_size_encoder v).2 with h | h
  · exact Or.inl h
  · right; rw [h]; exact (natBytes_spec _).2.2

theorem encodeHexNumber_zero (neg : Bool) : encodeHexNumber neg [0] = (if neg then ['-'] else []) ++ ['0', 'x', '0'] := by
  cases neg <;> rfl

/-- C38: the 64-bit formatters write what the big-integer formatter writes. -/
theorem C38_format_int64 (v : BitVec 64) : formatInt v = formatBigInt v.toInt ∧ formatUint v = formatBigInt v.toNat := by
  have key : ∀ w : BitVec 64, (w = 0 ∧ goSizeToBytes w = [0]) ∨ (w ≠ 0 ∧ goSizeToBytes w = natBytes w.toNat) := by
    intro w
    by_cases hw : w = 0
    · exact Or.inl ⟨hw, by rw [goSizeToBytes, if_pos hw]⟩
    · right
      refine ⟨hw, ?_⟩
      rcases (C38_go_size_encoder w) with ⟨h1, h | h⟩
      · rw [h] at h1
        exact absurd (BitVec.eq_of_toNat_eq (by rw [← h1]; rfl)) hw
      · exact h
  constructor
  · rw [formatInt, formatBigInt]
    by_cases hn : v.toInt < 0
    · rw [if_pos hn]
      have h2 : v.toInt.natAbs = (-v).toNat := by
        rw [BitVec.toNat_neg]
        rw [BitVec.toInt] at hn ⊢
        have := v.isLt
        split_ifs at hn ⊢ <;> omega
      rcases key (-v) with ⟨h, _⟩ | ⟨_, h⟩
      · rw [h] at h2
        simp at h2
        rw [h2] at hn
        simp at hn
      · rw [h, h2]
        simp [hn]
    · rw [if_neg hn]
      have h2 : v.toInt.natAbs = v.toNat := by
        rw [BitVec.toInt] at hn ⊢
        have := v.isLt
        split_ifs at hn ⊢ <;> omega
      rcases key v with ⟨h, h'⟩ | ⟨_, h⟩
      · rw [h', h]; rfl
      · rw [h, h2]; simp [hn]
  · rw [formatUint, formatBigInt]
    rcases key v with ⟨h, h'⟩ | ⟨_, h⟩
    · rw [h', h]; rfl
    · rw [h, decide_eq_false (by omega)]; simp

/-- C38, not as expected: a plus sign makes a leading zero (or `0b`, `0o`) change the base. -/
theorem C38_plus_changes_base : parseBigInt "0700".toList = some 700 ∧ parseBigInt "+0700".toList = some 448 ∧
    parseBigInt "0b11".toList = none ∧ parseBigInt "+0b11".toList = some 3 := by decide +kernel

/-- C38, not as expected: 64-bit (and smaller) fields read a leading zero as octal, big-integer fields as decimal. -/
theorem C38_leading_zero_differs : parseInt 64 "010".toList = some 8 ∧ parseBigInt "010".toList = some 10 := by
  decide +kernel

/-! ### `ParseInt` -/

theorem uintLoop_iff {b : ℕ} : ∀ (s p : List Char) (acc v : ℕ), '_' ∉ s → DigitsOf b p acc →
    (uintLoop b acc s = some v ↔ DigitsOf b (p ++ s) v) := by
  intro s p acc v hu hd
  have hs := scanLoop_iff (b := b) (base0 := false) s p acc .start v (p ++ s).length (by decide) hu hd
  have : ∀ (s : List Char) (acc n : ℕ) (prev : Prev), prev ≠ .sep → '_' ∉ s →
      uintLoop b acc s = (scanLoop b false prev acc n s).map (·.1) := by
    intro s
    induction s with
    | nil => intro acc n prev hp _; rw [uintLoop, scanLoop, if_neg hp]; rfl
    | cons c s ih =>
      intro acc n prev hp hu
      have hc : c ≠ '_' := fun h => hu (by simp [h])
      rw [uintLoop, scanLoop, if_neg hc, if_neg (by tauto)]
      cases digitVal c with
      | none => rfl
      | some d =>
        simp only []
        by_cases hb : d ≥ b
        · rw [if_pos hb, if_pos hb]; rfl
        · rw [if_neg hb, if_neg hb]
          exact ih _ _ .digit (by decide) (fun h => hu (by simp [h]))
  rw [this s acc p.length .start (by decide) hu, Option.map_eq_some_iff]
  constructor
  · rintro ⟨⟨a, k⟩, h, rfl⟩
    exact ((scanLoop_iff (b := b) (base0 := false) s p acc .start a k (by decide) hu hd).mp h).1
  · intro h
    exact ⟨(v, (p ++ s).length), hs.mpr ⟨h, rfl⟩, rfl⟩

/-- C38: 0x-texts that fit are read by the fixed-size parsers as by the big-integer parser, and those that do not fit
are refused. -/
theorem C38_parse_fixed_hex (bits : ℕ) (ds : List Char) (n : ℕ) (hd : DigitsOf 16 ds n) (h0 : ds ≠ []) :
    parseInt bits ('0' :: 'x' :: ds) = (if n < 2 ^ (bits - 1) then some (n : ℤ) else none) ∧
    parseInt bits ('-' :: '0' :: 'x' :: ds) = (if n ≤ 2 ^ (bits - 1) then some (-(n : ℤ)) else none) ∧
    parseUint bits ('0' :: 'x' :: ds) = (if n < 2 ^ bits then some n else none) := by
  have hu : '_' ∉ ds := by
    intro hm
    obtain ⟨d, hd', _⟩ := digitsOf_mem hd hm
    exact digit_ne_under hd' rfl
  have key : parseUint0 ('0' :: 'x' :: ds) = some n := by
    cases ds with
    | nil => exact absurd rfl h0
    | cons c ds =>
      rw [parseUint0]
      simp only [show lower 'x' = 'x' from by decide]
      rw [if_neg (by simp at hu ⊢; tauto), if_neg (by decide), if_neg (by decide), if_pos trivial]
      exact (uintLoop_iff (c :: ds) [] 0 n hu .nil).mpr hd
  refine ⟨?_, ?_, ?_⟩
  · rw [parseInt]
    · simp only [key]
    · intro r h; simp at h
    · intro r h; simp at h
  · rw [parseInt]
    simp only [key]
  · rw [parseUint, key]

/-- C38: the same for decimal texts without a leading zero. -/
theorem C38_parse_fixed_decimal (bits : ℕ) (c : Char) (ds : List Char) (n : ℕ) (hd : DigitsOf 10 (c :: ds) n) (hc : c ≠ '0') :
    parseInt bits (c :: ds) = (if n < 2 ^ (bits - 1) then some (n : ℤ) else none) ∧
    parseInt bits ('-' :: c :: ds) = (if n ≤ 2 ^ (bits - 1) then some (-(n : ℤ)) else none) ∧
    parseUint bits (c :: ds) = (if n < 2 ^ bits then some n else none) := by
  have hu : '_' ∉ c :: ds := by
    intro hm
    obtain ⟨d, hd', _⟩ := digitsOf_mem hd hm
    exact digit_ne_under hd' rfl
  have hsign := natText_head (n := n) (Or.inl ⟨List.cons_ne_nil c ds, hd⟩)
  have key : parseUint0 (c :: ds) = some n := by
    rw [parseUint0.eq_def]
    refine (if_neg (fun h => hu h.1)).trans ?_
    split
    · rename_i h; cases h
    · rename_i h; simp only [List.cons.injEq] at h; exact absurd h.1 hc
    · rename_i h; simp only [List.cons.injEq] at h; exact absurd h.1 hc
    · exact (uintLoop_iff (c :: ds) [] 0 n hu .nil).mpr hd
  refine ⟨?_, ?_, ?_⟩
  · rw [parseInt]
    · simp only [key]
    · intro r h; rw [h] at hsign; exact hsign.1 rfl
    · intro r h; rw [h] at hsign; exact hsign.2 rfl
  · rw [parseInt]
    simp only [key]
  · rw [parseUint, key]

example : IntText "-0x1F".toList (-31) :=
  Or.inr ⟨_, 31, rfl, Or.inr ⟨"1F".toList, rfl, by decide, by
    exact digitsOf_snoc_iff (s := ['1']).mpr ⟨1, 15, digitsOf_snoc_iff (s := []).mpr ⟨0, 1, .nil, rfl, by omega, rfl⟩, rfl, by omega, rfl⟩⟩, rfl⟩
example : parseBigInt "-0x1F".toList = some (-31) := by decide +kernel
example : parseBigInt "0x_1_1".toList = some 17 := by decide +kernel
example : parseBigInt "10__000".toList = none := by decide +kernel
example : formatBigInt (-256) = "-0x100".toList := by decide +kernel

end Verif.IntCodec
