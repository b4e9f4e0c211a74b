import Verif.Consensus.BitArray
import Mathlib.Tactic.Linarith

namespace Verif.Consensus.BitArray

/-- Bit `k` of a word list. -/
def bit (ws : List (BitVec 64)) (k : ℕ) : Bool := (ws[k / 64]?.getD 0#64).getLsbD (k % 64)

theorem tdiv_nat (i : ℕ) : (Int.tdiv (i : ℤ) 64).toNat = i / 64 := by
  have : Int.tdiv (i : ℤ) 64 = ((i / 64 : ℕ) : ℤ) := by
    rw [Int.tdiv_eq_ediv_of_nonneg (by omega)]; omega
  rw [this]; rfl

theorem tdiv_nonneg' (i : ℕ) : ¬ Int.tdiv (i : ℤ) 64 < 0 := by
  have : Int.tdiv (i : ℤ) 64 = ((i / 64 : ℕ) : ℤ) := by
    rw [Int.tdiv_eq_ediv_of_nonneg (by omega)]; omega
  rw [this]; omega

theorem maskOf_nat (i : ℕ) : maskOf (i : ℤ) = 1#64 <<< (i % 64) := by
  have : Int.tmod (i : ℤ) 64 = ((i % 64 : ℕ) : ℤ) := by
    rw [Int.tmod_eq_emod_of_nonneg (by omega)]; omega
  unfold maskOf
  rw [this, if_neg (by omega)]; rfl

theorem maskOf_bit (i j : ℕ) (hj : j < 64) :
    (maskOf (i : ℤ)).getLsbD j = decide (j = i % 64) := by
  rw [maskOf_nat, BitVec.getLsbD_shiftLeft]
  by_cases h : j = i % 64
  · subst h; simp [hj]; 
  · by_cases h2 : j < i % 64
    · simp [h2, h]
    · have : j - i % 64 ≠ 0 := by omega
      simp [h, h2, hj, BitVec.getLsbD_one, this]

theorem and_mask (w : BitVec 64) (i : ℕ) :
    decide (w &&& maskOf (i : ℤ) ≠ 0#64) = w.getLsbD (i % 64) := by
  have hlt : i % 64 < 64 := Nat.mod_lt _ (by omega)
  cases h : w.getLsbD (i % 64)
  · have : w &&& maskOf (i : ℤ) = 0#64 := by
      apply BitVec.eq_of_getLsbD_eq
      intro j hj
      rw [BitVec.getLsbD_and, maskOf_bit i j hj]
      by_cases e : j = i % 64
      · rw [e, h]; simp
      · simp [e]
    simp [this]
  · have : w &&& maskOf (i : ℤ) ≠ 0#64 := by
      intro e
      have := congrArg (fun x => BitVec.getLsbD x (i % 64)) e
      simp only [BitVec.getLsbD_and, maskOf_bit i _ hlt, h] at this
      simp at this
    simp [this]

theorem wordAt_nat (ws : List (BitVec 64)) (i : ℕ) :
    wordAt ws (Int.tdiv (i : ℤ) 64) = ws[i / 64]? := by
  unfold wordAt
  rw [if_neg (tdiv_nonneg' i), tdiv_nat]

theorem get_lt {n : ℕ} {ws : List (BitVec 64)} (hw : n ≤ ws.length * 64) {i : ℕ} (hi : i < n) :
    get ⟨(n : ℤ), ws⟩ (i : ℤ) = some (bit ws i) := by
  have hlt : i / 64 < ws.length := by omega
  unfold get bit
  rw [if_neg (by simp; omega)]
  simp only [wordAt_nat, List.getElem?_eq_getElem hlt, Option.getD_some]
  rw [and_mask]

theorem get_ge {b : BitArray} {i : ℤ} (hi : b.numBits ≤ i) : get b i = some false := by
  unfold get; rw [if_pos hi]

theorem set_lt {n : ℕ} {ws : List (BitVec 64)} (hw : n ≤ ws.length * 64) {i : ℕ} (hi : i < n) :
    ∃ ws', set ⟨(n : ℤ), ws⟩ (i : ℤ) = some ⟨n, ws'⟩ ∧ ws'.length = ws.length ∧
      ∀ k, bit ws' k = (bit ws k || decide (k = i)) := by
  have hlt : i / 64 < ws.length := by omega
  have hm : ∀ k, k % 64 < 64 := fun k => Nat.mod_lt _ (by omega)
  refine ⟨ws.set (i / 64) (ws[i / 64] ||| maskOf (i : ℤ)), ?_, by simp, ?_⟩
  · unfold set
    rw [if_neg (by simp; omega)]
    simp only [wordAt_nat, List.getElem?_eq_getElem hlt, tdiv_nat]
  · intro k
    unfold bit
    rw [List.getElem?_set]
    by_cases h : i / 64 = k / 64
    · rw [if_pos h, if_pos hlt, ← h, List.getElem?_eq_getElem hlt]
      simp only [Option.getD_some, BitVec.getLsbD_or, maskOf_bit i _ (hm k)]
      congr 1
      apply decide_eq_decide.2; omega
    · rw [if_neg h]
      have : k ≠ i := fun e => h (by rw [e])
      simp [this]

theorem unset_lt {n : ℕ} {ws : List (BitVec 64)} (hw : n ≤ ws.length * 64) {i : ℕ} (hi : i < n) :
    ∃ ws', unset ⟨(n : ℤ), ws⟩ (i : ℤ) = some ⟨n, ws'⟩ ∧ ws'.length = ws.length ∧
      ∀ k, bit ws' k = (bit ws k && !decide (k = i)) := by
  have hlt : i / 64 < ws.length := by omega
  have hm : ∀ k, k % 64 < 64 := fun k => Nat.mod_lt _ (by omega)
  refine ⟨ws.set (i / 64) (ws[i / 64] &&& ~~~ maskOf (i : ℤ)), ?_, by simp, ?_⟩
  · unfold unset
    rw [if_neg (by simp; omega)]
    simp only [wordAt_nat, List.getElem?_eq_getElem hlt, tdiv_nat]
  · intro k
    unfold bit
    rw [List.getElem?_set]
    by_cases h : i / 64 = k / 64
    · rw [if_pos h, if_pos hlt, ← h, List.getElem?_eq_getElem hlt]
      simp only [Option.getD_some, BitVec.getLsbD_and, BitVec.getLsbD_not, maskOf_bit i _ (hm k)]
      rw [decide_eq_true (hm k), Bool.true_and]
      congr 2
      apply decide_eq_decide.2; omega
    · rw [if_neg h]
      have : k ≠ i := fun e => h (by rw [e])
      simp [this]

/-! ### flip -/

theorem lowMask_bit (n j : ℕ) (hj : j < 64) :
    (maskOf (n : ℤ) - 1#64).getLsbD j = decide (j < n % 64) := by
  have hn : n % 64 < 64 := Nat.mod_lt _ (by omega)
  have e : maskOf (n : ℤ) - 1#64 = BitVec.ofNat 64 (2 ^ (n % 64) - 1) := by
    apply BitVec.eq_of_toNat_eq
    rw [maskOf_nat]
    have h1 : 2 ^ (n % 64) < 2 ^ 64 := Nat.pow_lt_pow_right (by omega) hn
    have h0 : 0 < 2 ^ (n % 64) := Nat.pow_pos (by omega)
    simp only [BitVec.toNat_sub, BitVec.toNat_shiftLeft, BitVec.toNat_ofNat, Nat.shiftLeft_eq,
      Nat.reducePow, Nat.one_mod]
    simp only [Nat.reducePow] at h1
    rw [Nat.one_mul, Nat.mod_eq_of_lt h1]
    omega
  rw [e, BitVec.getLsbD_ofNat, Nat.testBit_two_pow_sub_one]
  simp [hj]

theorem flip_numBits (b : BitArray) : (flip b).numBits = b.numBits := by
  unfold flip; simp only []; split <;> rfl

theorem flip_length (b : BitArray) : (flip b).words.length = b.words.length := by
  unfold flip; simp only []; split <;> simp

theorem bit_flip {n : ℕ} {ws : List (BitVec 64)} (hl : ws.length = (n + 63) / 64) (k : ℕ) :
    bit (flip ⟨(n : ℤ), ws⟩).words k =
      (decide (k < n) && !(bit ws k) && !(decide (n % 64 = 0 ∧ n ≤ k + 64))) := by
  have hm : k % 64 < 64 := Nat.mod_lt _ (by omega)
  unfold flip
  by_cases hws : ws = []
  · subst hws
    have : n = 0 := by simp at hl; omega
    subst this
    simp [bit]
  · have hlen : 0 < ws.length := List.length_pos_iff.2 hws
    have hlast : (ws.map (fun w => ~~~ w)).getLast? = some (~~~ (ws[ws.length - 1]'(by omega))) := by
      rw [List.getLast?_eq_getElem?]
      simp only [List.length_map, List.getElem?_map]
      rw [List.getElem?_eq_getElem (by omega)]
      rfl
    simp only [hlast]
    unfold bit
    rw [List.getElem?_set]
    simp only [List.length_map]
    by_cases h : ws.length - 1 = k / 64
    · rw [if_pos h, if_pos (by omega)]
      have e : ws[k / 64]? = some (ws[ws.length - 1]'(by omega)) := by
        rw [← h]; exact List.getElem?_eq_getElem (by omega)
      rw [e]
      simp only [Option.getD_some, BitVec.getLsbD_and, BitVec.getLsbD_not, lowMask_bit n _ hm]
      rw [decide_eq_true hm, Bool.true_and]
      cases (ws[ws.length - 1]'(by omega)).getLsbD (k % 64)
      · simp only [Bool.not_false, Bool.true_and, Bool.and_true]
        by_cases h0 : n % 64 = 0
        · have : n ≤ k + 64 := by omega
          simp [h0, this]
        · have : k % 64 < n % 64 ↔ k < n := by omega
          simp [h0, this]
      · simp
    · rw [if_neg h]
      simp only [List.getElem?_map]
      by_cases h2 : k / 64 < ws.length
      · rw [List.getElem?_eq_getElem h2]
        simp only [Option.map_some, Option.getD_some, BitVec.getLsbD_not]
        rw [decide_eq_true hm]
        have a : k < n := by omega
        have b : ¬ (n % 64 = 0 ∧ n ≤ k + 64) := by omega
        rw [decide_eq_true a, decide_eq_false b]; simp
      · rw [List.getElem?_eq_none (by omega)]
        have a : ¬ k < n := by omega
        simp [a]

/-! ### and -/

theorem andWords_spec : ∀ (a b : List (BitVec 64)), a.length ≤ b.length →
    ∃ c, andWords a b = some c ∧ c.length = a.length ∧ ∀ k, bit c k = (bit a k && bit b k) := by
  intro a
  induction a with
  | nil => intro b _; exact ⟨[], by cases b <;> rfl, rfl, by intro k; simp [bit]⟩
  | cons x xs ih =>
    intro b hb
    cases b with
    | nil => simp at hb
    | cons y ys =>
      obtain ⟨c, hc, hl, hk⟩ := ih ys (by simpa using hb)
      refine ⟨(x &&& y) :: c, by simp [andWords, hc], by simp [hl], ?_⟩
      intro k
      by_cases h : k / 64 = 0
      · simp [bit, h, BitVec.getLsbD_and]
      · have e1 : k / 64 = (k - 64) / 64 + 1 := by omega
        have e2 : k % 64 = (k - 64) % 64 := by omega
        have := hk (k - 64)
        unfold bit at this ⊢
        rw [e1, e2]
        simpa using this

theorem bit_take (ws : List (BitVec 64)) (m k : ℕ) :
    bit (ws.take m) k = (decide (k / 64 < m) && bit ws k) := by
  unfold bit
  rw [List.getElem?_take]
  by_cases h : k / 64 < m <;> simp [h]

/-! ### extensionality -/

theorem words_ext {a b : List (BitVec 64)} (hl : a.length = b.length)
    (h : ∀ k, bit a k = bit b k) : a = b := by
  apply List.ext_getElem hl
  intro i h1 h2
  apply BitVec.eq_of_getLsbD_eq
  intro j hj
  have := h (i * 64 + j)
  unfold bit at this
  rw [show (i * 64 + j) / 64 = i by omega, show (i * 64 + j) % 64 = j by omega,
    List.getElem?_eq_getElem h1, List.getElem?_eq_getElem h2] at this
  simpa using this

theorem eqWords_refl : ∀ a : List (BitVec 64), eqWords a a = some true
  | [] => rfl
  | x :: xs => by simp [eqWords, eqWords_refl xs]

theorem eqWords_spec : ∀ (a b : List (BitVec 64)), a.length = b.length →
    eqWords a b = some (decide (a = b))
  | [], [], _ => rfl
  | [], _ :: _, h => by simp at h
  | _ :: _, [], h => by simp at h
  | x :: xs, y :: ys, h => by
    unfold eqWords
    by_cases e : x = y
    · subst e
      simp only [ne_eq, not_true_eq_false, if_false]
      rw [eqWords_spec xs ys (by simpa using h)]
      simp
    · simp [e]

/-! ### new, copy -/

theorem new_nat (n : ℕ) :
    new (n : ℤ) = some ⟨n, List.replicate ((n + 63) / 64) 0#64⟩ := by
  have : Int.tdiv ((n : ℤ) + 64 - 1) 64 = (((n + 63) / 64 : ℕ) : ℤ) := by
    rw [Int.tdiv_eq_ediv_of_nonneg (by omega)]; omega
  unfold new
  rw [this, if_neg (by omega)]
  rfl

theorem bit_replicate (m k : ℕ) : bit (List.replicate m 0#64) k = false := by
  unfold bit
  rw [List.getElem?_replicate]
  split <;> simp

theorem copy_wf {n : ℕ} {ws : List (BitVec 64)} (hl : ws.length = (n + 63) / 64) :
    copy ⟨(n : ℤ), ws⟩ = some ⟨n, ws⟩ := by
  unfold copy
  rw [show (BitArray.mk (n : ℤ) ws).numBits = (n : ℤ) from rfl, new_nat]
  simp [copyInto, ← hl]

/-! ### pick -/

theorem filter_range'_shift (p : ℕ → Bool) (i : ℕ) :
    ((List.range' (i * 64) 64).filter p).length =
      ((List.range 64).filter (fun j => p (i * 64 + j))).length := by
  rw [List.range'_eq_map_range, List.filter_map, List.length_map]
  rfl

theorem onesCount_bit {ws : List (BitVec 64)} {i : ℕ} (hi : i < ws.length) :
    onesCount ws[i] = ((List.range' (i * 64) 64).filter (bit ws)).length := by
  rw [filter_range'_shift]
  unfold onesCount
  congr 1
  apply List.filter_congr
  intro j hj
  have hj : j < 64 := by simpa using hj
  unfold bit
  rw [show (i * 64 + j) / 64 = i by omega, show (i * 64 + j) % 64 = j by omega,
    List.getElem?_eq_getElem hi]
  rfl

theorem pickInner_spec {b : BitArray} {f : ℕ → Bool} :
    ∀ (l : List ℕ) (pick : ℕ), (∀ i ∈ l, b.get (i : ℤ) = some (f i)) →
      pickInner b l pick = some (match (l.filter f)[pick]? with
        | some i => .inl (i : ℤ)
        | none => .inr ((pick : ℤ) - (l.filter f).length)) := by
  intro l
  induction l with
  | nil => intro pick _; simp [pickInner]
  | cons x xs ih =>
    intro pick hf
    have hx := hf x (by simp)
    have hxs := fun i hi => hf i (List.mem_cons_of_mem _ hi)
    unfold pickInner
    rw [hx]
    cases e : f x
    · simp only [List.filter_cons, e]
      exact ih pick hxs
    · cases pick with
      | zero => simp [e]
      | succ m =>
        simp only []
        rw [if_neg (by omega), show ((m + 1 : ℕ) : ℤ) - 1 = (m : ℤ) by omega, ih m hxs]
        simp only [List.filter_cons, e, if_true, List.getElem?_cons_succ, List.length_cons]
        cases (xs.filter f)[m]? <;> simp

theorem range'_split (n i : ℕ) (h : i * 64 ≤ n) :
    List.range' (i * 64) (n - i * 64) =
      List.range' (i * 64) (min 64 (n - i * 64)) ++
        List.range' ((i + 1) * 64) (n - (i + 1) * 64) := by
  rw [show (i + 1) * 64 = i * 64 + 64 by ring]
  by_cases h2 : i * 64 + 64 ≤ n
  · rw [show min 64 (n - i * 64) = 64 by omega, List.range'_append_1]
    congr 1; omega
  · rw [show n - (i * 64 + 64) = 0 by omega, show min 64 (n - i * 64) = n - i * 64 by omega]
    simp

theorem clean_filter {n : ℕ} {ws : List (BitVec 64)} (hc : ∀ k, n ≤ k → bit ws k = false)
    (i : ℕ) :
    ((List.range' (i * 64) 64).filter (bit ws)).length =
      ((List.range' (i * 64) (min 64 (n - i * 64))).filter (bit ws)).length := by
  obtain ⟨m, hm⟩ : ∃ m, m = min 64 (n - i * 64) := ⟨_, rfl⟩
  rw [← hm]
  have e : List.range' (i * 64) 64 = List.range' (i * 64) m ++ List.range' (i * 64 + m) (64 - m) := by
    rw [List.range'_append_1]
    congr 1; omega
  rw [e, List.filter_append, List.length_append]
  have : (List.range' (i * 64 + m) (64 - m)).filter (bit ws) = [] := by
    rw [List.filter_eq_nil_iff]
    intro k hk
    rw [List.mem_range'_1] at hk
    rw [hc k (by omega)]; simp
  rw [this]; simp

theorem pickOuter_spec {n : ℕ} {ws : List (BitVec 64)} (hl : ws.length = (n + 63) / 64)
    (hc : ∀ k, n ≤ k → bit ws k = false) :
    ∀ (d i : ℕ), i + d = ws.length → ∀ (pick j : ℕ),
      ((List.range' (i * 64) (n - i * 64)).filter (bit ws))[pick]? = some j →
      pickOuter ⟨(n : ℤ), ws⟩ (ws.drop i) i pick = some (j : ℤ) := by
  intro d
  induction d with
  | zero =>
    intro i hi pick j h
    rw [show n - i * 64 = 0 by omega] at h
    simp at h
  | succ d ih =>
    intro i hi pick j h
    have hlt : i < ws.length := by omega
    have hge : i * 64 ≤ n := by omega
    rw [List.drop_eq_getElem_cons hlt]
    unfold pickOuter
    have hcnt : onesCount ws[i] =
        ((List.range' (i * 64) (min 64 (n - i * 64))).filter (bit ws)).length := by
      rw [onesCount_bit hlt, clean_filter hc]
    have hr : ((n : ℤ) - ((i * 64 : ℕ) : ℤ)).toNat = n - i * 64 := by omega
    by_cases hp : (pick : ℤ) < (onesCount ws[i] : ℤ)
    · rw [if_pos hp]
      simp only [hr]
      rw [pickInner_spec (f := bit ws) _ _ (by
        intro k hk
        rw [List.mem_range'_1] at hk
        exact get_lt (by omega) (by omega))]
      rw [h]
    · rw [if_neg hp]
      have hp' : onesCount ws[i] ≤ pick := by omega
      rw [show (pick : ℤ) - (onesCount ws[i] : ℤ) = ((pick - onesCount ws[i] : ℕ) : ℤ) by omega]
      apply ih (i + 1) (by omega)
      rw [range'_split n i hge, List.filter_append, List.getElem?_append_right (by omega)] at h
      rw [hcnt]; exact h

theorem countAll_zero {ws : List (BitVec 64)} :
    countAll ws = 0 ↔ ∀ k, bit ws k = false := by
  unfold countAll
  rw [List.sum_eq_zero_iff_forall_eq_nat]
  constructor
  · intro h k
    unfold bit
    cases e : ws[k / 64]? with
    | none => simp
    | some w =>
      have hw := h (onesCount w) (List.mem_map.2 ⟨w, List.mem_of_getElem? e, rfl⟩)
      unfold onesCount at hw
      rw [List.length_eq_zero_iff, List.filter_eq_nil_iff] at hw
      have := hw (k % 64) (by simp; omega)
      simpa using this
  · intro h x hx
    obtain ⟨w, hw, rfl⟩ := List.mem_map.1 hx
    obtain ⟨i, hi, rfl⟩ := List.getElem_of_mem hw
    rw [onesCount_bit hi, List.length_eq_zero_iff, List.filter_eq_nil_iff]
    intro k _
    rw [h k]; simp

theorem countAll_eq {n : ℕ} {ws : List (BitVec 64)} (hl : ws.length = (n + 63) / 64)
    (hc : ∀ k, n ≤ k → bit ws k = false) :
    countAll ws = ((List.range n).filter (bit ws)).length := by
  have key : ∀ (d i : ℕ), i + d = ws.length →
      ((ws.drop i).map onesCount).sum =
        ((List.range' (i * 64) (n - i * 64)).filter (bit ws)).length := by
    intro d
    induction d with
    | zero =>
      intro i hi
      rw [show n - i * 64 = 0 by omega, List.drop_eq_nil_of_le (by omega)]
      simp
    | succ d ih =>
      intro i hi
      have hlt : i < ws.length := by omega
      rw [List.drop_eq_getElem_cons hlt, List.map_cons, List.sum_cons, ih (i + 1) (by omega),
        range'_split n i (by omega), List.filter_append, List.length_append, onesCount_bit hlt,
        clean_filter hc]
  have := key ws.length 0 (by omega)
  simpa [countAll, List.range_eq_range'] using this

end Verif.Consensus.BitArray
