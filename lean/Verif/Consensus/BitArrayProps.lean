import Verif.Consensus.BitArrayLemmas

/-!
# C43: bit arrays hold exactly the bits that were put in them

`Made n S b` says: `b` was obtained by calls of the package's API starting from `NewBitArray`, and a
mathematical set of naturals, changed alongside, is now `S` (size `n`).
-/

namespace Verif.Consensus.BitArray

/-- What `Flip` leaves of a set: the complement, except that when the size is a multiple of 64 the
last 64 positions come out empty (see `C43_flip_drops_last_word`). -/
def flipped (n : ℕ) (S : ℕ → Prop) (i : ℕ) : Prop :=
  i < n ∧ ¬ S i ∧ (n % 64 = 0 → i + 64 < n)

/-- Arrays reachable through the API, with the set each should contain. -/
inductive Made : ℕ → (ℕ → Prop) → BitArray → Prop
  | new {n : ℕ} {b} : new (n : ℤ) = some b → Made n (fun _ => False) b
  | set {n S b b'} (i : ℕ) : Made n S b → b.set i = some b' →
      Made n (fun k => S k ∨ (k = i ∧ i < n)) b'
  | unset {n S b b'} (i : ℕ) : Made n S b → b.unset i = some b' →
      Made n (fun k => S k ∧ k ≠ i) b'
  | put {n S b b'} (i : ℕ) (v : Bool) : Made n S b → b.put i v = some b' →
      Made n (fun k => if k = i ∧ i < n then v = true else S k) b'
  | flip {n S b} : Made n S b → Made n (flipped n S) b.flip
  | assignAnd {n m S T b c d} : Made n S b → Made m T c → b.assignAnd c = some d →
      Made (min n m) (fun k => S k ∧ T k) d
  | copy {n S b b'} : Made n S b → b.copy = some b' → Made n S b'

/-- The representation invariant. -/
structure Good (n : ℕ) (S : ℕ → Prop) (b : BitArray) : Prop where
  num : b.numBits = n
  len : b.words.length = (n + 63) / 64
  bits : ∀ k, bit b.words k = true ↔ S k
  bound : ∀ k, S k → k < n

theorem Good.cover {n S b} (h : Good n S b) : n ≤ b.words.length * 64 := by
  have := h.len; omega

theorem Good.clean {n S b} (h : Good n S b) : ∀ k, n ≤ k → bit b.words k = false := by
  intro k hk
  cases e : bit b.words k
  · rfl
  · have := h.bound k ((h.bits k).1 e); omega

theorem Good.eta {n S b} (h : Good n S b) : b = ⟨(n : ℤ), b.words⟩ := by
  have := h.num; cases b; simp at this ⊢; exact this

theorem new_good (n : ℕ) : ∃ b, new (n : ℤ) = some b ∧ Good n (fun _ => False) b := by
  refine ⟨_, new_nat n, rfl, by simp, ?_, fun _ h => h.elim⟩
  intro k; rw [bit_replicate]; simp

theorem set_good {n S b} (h : Good n S b) (i : ℕ) :
    ∃ b', b.set i = some b' ∧ Good n (fun k => S k ∨ (k = i ∧ i < n)) b' := by
  by_cases hi : i < n
  · rw [h.eta]
    obtain ⟨ws', e, hl, hb⟩ := set_lt h.cover hi
    refine ⟨_, e, rfl, by rw [← h.len, ← hl], ?_, ?_⟩
    · intro k; rw [hb k]; simp [h.bits k, hi]
    · rintro k (hk | ⟨rfl, hk⟩)
      · exact h.bound k hk
      · exact hk
  · refine ⟨b, ?_, h.num, h.len, ?_, ?_⟩
    · unfold set; rw [if_pos (by rw [h.num]; omega)]
    · intro k; simp [h.bits k, hi]
    · rintro k (hk | ⟨_, hk⟩)
      · exact h.bound k hk
      · exact absurd hk hi

theorem unset_good {n S b} (h : Good n S b) (i : ℕ) :
    ∃ b', b.unset i = some b' ∧ Good n (fun k => S k ∧ k ≠ i) b' := by
  by_cases hi : i < n
  · rw [h.eta]
    obtain ⟨ws', e, hl, hb⟩ := unset_lt h.cover hi
    refine ⟨_, e, rfl, by rw [← h.len, ← hl], ?_, fun k hk => h.bound k hk.1⟩
    intro k; rw [hb k]; simp [h.bits k]
  · refine ⟨b, ?_, h.num, h.len, ?_, fun k hk => h.bound k hk.1⟩
    · unfold unset; rw [if_pos (by rw [h.num]; omega)]
    · intro k
      constructor
      · intro hk
        have := (h.bits k).1 hk
        exact ⟨this, fun e => hi (e ▸ h.bound k this)⟩
      · exact fun hk => (h.bits k).2 hk.1

theorem put_good {n S b} (h : Good n S b) (i : ℕ) (v : Bool) :
    ∃ b', b.put i v = some b' ∧
      Good n (fun k => if k = i ∧ i < n then v = true else S k) b' := by
  by_cases hi : i < n
  · have e : b.put i v = if v then b.set i else b.unset i := by
      unfold put; rw [if_neg (by rw [h.num]; omega)]
    rw [e]
    cases v
    · obtain ⟨b', h1, h2⟩ := unset_good h i
      refine ⟨b', by simpa using h1, h2.num, h2.len, ?_, ?_⟩
      · intro k; rw [h2.bits k]; by_cases hk : k = i <;> simp [hk, hi]
      · intro k; by_cases hk : k = i
        · simp [hk, hi]
        · simp only [hk, false_and, if_false]; exact h.bound k
    · obtain ⟨b', h1, h2⟩ := set_good h i
      refine ⟨b', by simpa using h1, h2.num, h2.len, ?_, ?_⟩
      · intro k; rw [h2.bits k]; by_cases hk : k = i <;> simp [hk, hi]
      · intro k; by_cases hk : k = i
        · intro _; rw [hk]; exact hi
        · simp only [hk, false_and, if_false]; exact h.bound k
  · refine ⟨b, ?_, h.num, h.len, ?_, ?_⟩
    · unfold put; rw [if_pos (by rw [h.num]; omega)]
    · intro k; simp [h.bits k, hi]
    · intro k; simp only [hi, and_false, if_false]; exact h.bound k

theorem flip_good {n S b} (h : Good n S b) : Good n (flipped n S) b.flip := by
  refine ⟨by rw [flip_numBits, h.num], by rw [flip_length, h.len], ?_, fun k hk => hk.1⟩
  intro k
  rw [h.eta, bit_flip h.len]
  have := h.bits k
  unfold flipped
  by_cases hk : k < n <;> cases e : bit b.words k <;> rw [e] at this <;>
    simp only [hk, decide_true, decide_false, Bool.not_false, Bool.not_true, Bool.true_and,
      Bool.and_true, Bool.false_and, Bool.and_false, Bool.not_eq_true', decide_eq_false_iff_not,
      true_and, false_and] <;> simp at this <;> simp [this]

theorem assignAnd_good {n m S T b c} (h : Good n S b) (h2 : Good m T c) :
    ∃ d, b.assignAnd c = some d ∧ Good (min n m) (fun k => S k ∧ T k) d := by
  have hl := h.len
  have hl2 := h2.len
  unfold assignAnd
  rw [h.num, h2.num]
  by_cases hnm : (n : ℤ) > m
  · rw [if_pos hnm, if_neg (by omega)]
    obtain ⟨ws, e, hlen, hb⟩ := andWords_spec (b.words.take c.words.length) c.words (by simp)
    rw [e]
    refine ⟨_, rfl, by simp; omega, ?_, ?_, fun k hk => ?_⟩
    · rw [hlen]; simp; omega
    · intro k
      show bit ws k = true ↔ _
      rw [hb k, bit_take]
      have hc := h2.clean k
      simp only [Bool.and_eq_true, decide_eq_true_eq, h.bits k, h2.bits k]
      constructor
      · rintro ⟨⟨_, h⟩, h'⟩; exact ⟨h, h'⟩
      · rintro ⟨hs, ht⟩; exact ⟨⟨by have := h2.bound k ht; omega, hs⟩, ht⟩
    · have := h.bound k hk.1; have := h2.bound k hk.2; omega
  · rw [if_neg hnm]
    obtain ⟨ws, e, hlen, hb⟩ := andWords_spec b.words c.words (by omega)
    rw [e]
    refine ⟨_, rfl, by simp; omega, ?_, ?_, fun k hk => ?_⟩
    · rw [hlen, h.len]; congr 2; omega
    · intro k
      show bit ws k = true ↔ _
      rw [hb k]; simp [h.bits k, h2.bits k]
    · have := h.bound k hk.1; have := h2.bound k hk.2; omega

theorem copy_good {n S b} (h : Good n S b) : b.copy = some b := by
  rw [h.eta]; exact copy_wf h.len

theorem Made.good {n S b} (h : Made n S b) : Good n S b := by
  induction h with
  | new e => obtain ⟨b, e', g⟩ := new_good _; rw [e] at e'; cases e'; exact g
  | set i _ e ih => obtain ⟨b, e', g⟩ := set_good ih i; rw [e] at e'; cases e'; exact g
  | unset i _ e ih => obtain ⟨b, e', g⟩ := unset_good ih i; rw [e] at e'; cases e'; exact g
  | put i v _ e ih => obtain ⟨b, e', g⟩ := put_good ih i v; rw [e] at e'; cases e'; exact g
  | flip _ ih => exact flip_good ih
  | assignAnd _ _ e ih1 ih2 =>
    obtain ⟨b, e', g⟩ := assignAnd_good ih1 ih2; rw [e] at e'; cases e'; exact g
  | copy _ e ih => rw [copy_good ih] at e; cases e; exact ih

/-! ## The properties -/

/-- **C43 (contents).** After any sequence of API calls, `Len` is the size, and `Get(i)` says exactly
whether `i` is in the set the calls describe; outside the size it says no. -/
theorem C43_contents {n S b} (h : Made n S b) :
    b.len = n ∧ ∀ i : ℕ, ∃ v, b.get i = some v ∧ (v = true ↔ S i ∧ i < n) := by
  have g := h.good
  refine ⟨g.num, fun i => ?_⟩
  by_cases hi : i < n
  · refine ⟨bit b.words i, ?_, ?_⟩
    · conv_lhs => rw [g.eta]
      exact get_lt g.cover hi
    · rw [g.bits i]; simp [hi]
  · exact ⟨false, get_ge (by rw [g.num]; omega), by simp [hi]⟩

/-- **C43 (no panic).** On arrays made through the API no operation panics, at any index. -/
theorem C43_no_panic {n S b} (h : Made n S b) :
    (∀ i : ℕ, (b.set i).isSome ∧ (b.unset i).isSome ∧ (∀ v, (b.put i v).isSome) ∧ (b.get i).isSome) ∧
    b.copy.isSome ∧ (∀ {m T c}, Made m T c → (b.assignAnd c).isSome ∧ (b.equal c).isSome) := by
  have g := h.good
  refine ⟨fun i => ⟨?_, ?_, fun v => ?_, ?_⟩, ?_, fun {m T c} hc => ⟨?_, ?_⟩⟩
  · obtain ⟨_, e, _⟩ := set_good g i; rw [e]; rfl
  · obtain ⟨_, e, _⟩ := unset_good g i; rw [e]; rfl
  · obtain ⟨_, e, _⟩ := put_good g i v; rw [e]; rfl
  · obtain ⟨_, e, _⟩ := (C43_contents h).2 i; rw [e]; rfl
  · rw [copy_good g]; rfl
  · obtain ⟨_, e, _⟩ := assignAnd_good g hc.good; rw [e]; rfl
  · unfold equal
    split
    · rfl
    · rename_i hn
      have g' := hc.good
      rw [eqWords_spec _ _ (by rw [g.len, g'.len]; have := g.num; have := g'.num; simp at hn; congr 2; omega)]
      rfl

open Classical in
/-- **C43 (pick).** `PickRandom` answers -1 exactly when no bit is set; otherwise, for the `r`-th value
of the random generator, it answers the `r`-th set index, the generator being asked for a number below
the number of set bits. So it can only answer set indices, and can answer each of them. -/
theorem C43_pick {n S b} (h : Made n S b) :
    countAll b.words = ((List.range n).filter (fun i => decide (S i))).length ∧
    ((∀ i, ¬ S i) → ∀ r, b.pickRandom r = some (-1)) ∧
    (∀ r i : ℕ, ((List.range n).filter (fun i => decide (S i)))[r]? = some i →
      b.pickRandom r = some (i : ℤ)) := by
  have g := h.good
  have ef : (List.range n).filter (fun i => decide (S i)) = (List.range n).filter (bit b.words) := by
    apply List.filter_congr
    intro k _
    cases e : bit b.words k
    · have : ¬ S k := fun hs => by rw [(g.bits k).2 hs] at e; exact Bool.noConfusion e
      simp [this]
    · simp [(g.bits k).1 e]
  refine ⟨?_, ?_, ?_⟩
  · rw [ef]; exact countAll_eq g.len g.clean
  · intro hn r
    unfold pickRandom
    rw [if_pos]
    rw [countAll_zero]
    intro k
    cases e : bit b.words k
    · rfl
    · exact absurd ((g.bits k).1 e) (hn k)
  · intro r i hr
    unfold pickRandom
    rw [ef] at hr
    rw [if_neg]
    · have := pickOuter_spec g.len g.clean b.words.length 0 (by omega) r i
        (by simpa [List.range_eq_range'] using hr)
      rw [← g.eta] at this
      exact this
    · rw [countAll_eq g.len g.clean]
      intro h0
      rw [List.length_eq_zero_iff] at h0
      rw [h0] at hr; simp at hr

/-- **C43 (equality).** `Equal` says yes exactly for the same size and the same set. -/
theorem C43_equal {n m S T b c} (h : Made n S b) (h2 : Made m T c) :
    ∃ v, b.equal c = some v ∧ (v = true ↔ n = m ∧ ∀ i, S i ↔ T i) := by
  have g := h.good
  have g' := h2.good
  unfold equal
  by_cases e : n = m
  · subst e
    rw [if_neg (by rw [g.num, g'.num]; simp), eqWords_spec _ _ (by rw [g.len, g'.len])]
    refine ⟨_, rfl, ?_⟩
    simp only [decide_eq_true_eq, true_and]
    constructor
    · intro e i; rw [← g.bits i, ← g'.bits i, e]
    · intro hs
      apply words_ext (by rw [g.len, g'.len])
      intro k
      have h1 := g.bits k
      have h2 := g'.bits k
      have h3 := hs k
      cases e1 : bit b.words k <;> cases e2 : bit c.words k <;> rw [e1] at h1 <;> rw [e2] at h2 <;>
        simp at h1 h2 ⊢ <;> tauto
  · rw [if_pos (by rw [g.num, g'.num]; omega)]
    exact ⟨false, rfl, by simp [e]⟩

/-- **C43 (complement).** When the size is not a multiple of 64, `Flip` is the complement. -/
theorem C43_flip {n S b} (h : Made n S b) (hn : n % 64 ≠ 0) (i : ℕ) (hi : i < n) :
    ∃ v w, b.get i = some v ∧ b.flip.get i = some w ∧ w = !v := by
  obtain ⟨v, e1, hv⟩ := (C43_contents h).2 i
  obtain ⟨w, e2, hw⟩ := (C43_contents h.flip).2 i
  refine ⟨v, w, e1, e2, ?_⟩
  unfold flipped at hw
  by_cases hs : S i
  · have : v = true := hv.2 ⟨hs, hi⟩
    subst this
    cases w
    · rfl
    · exact absurd hs (hw.1 rfl).1.2.1
  · have : w = true := hw.2 ⟨⟨hi, hs, fun h0 => absurd h0 hn⟩, hi⟩
    subst this
    cases v
    · rfl
    · exact absurd (hv.1 rfl).1 hs

/-- **Finding.** When the size is a positive multiple of 64, `Flip` clears the last 64 bits whatever
they were: the mask of a complete block of 64 parts, which is made by flipping an empty array
(`partset.go:249-250`), says that the node has none of the last 64 parts. -/
theorem C43_flip_drops_last_word {n S b} (h : Made n S b) (hn : n % 64 = 0) (i : ℕ)
    (hi : n ≤ i + 64) : b.flip.get i = some false := by
  obtain ⟨w, e2, hw⟩ := (C43_contents h.flip).2 i
  cases w
  · exact e2
  · have := (hw.1 rfl).1.2.2 hn; omega

/-- **Finding.** `Verify`, the only check made on an array received from a peer, accepts negative
sizes, for which `Copy` (called on it at `syncer.go:123`) panics. -/
theorem C43_verified_copy_panics (n : ℤ) (hn : n ≤ -127) (ws : List (BitVec 64)) :
    verify ⟨n, ws⟩ = true ∧ copy ⟨n, ws⟩ = none := by
  constructor
  · unfold verify; simp; omega
  · unfold copy new
    rw [if_pos]
    · rfl
    · show Int.tdiv (n + 64 - 1) 64 < 0
      have : n + 64 - 1 = -(-(n + 64 - 1)) := by omega
      rw [this, Int.neg_tdiv, Int.tdiv_eq_ediv_of_nonneg (by omega)]
      omega

/-! ## The hypotheses are met -/

/-- Bits 3 and 64 of 70, complemented, and-ed with bits 5 and 64 of 100. -/
example : ∃ b c d, (new 70).bind (fun b => (b.set 3).bind (fun b => b.set 64)) = some b ∧
    (new 100).bind (fun c => (c.set 5).bind (fun c => c.set 64)) = some c ∧
    b.flip.assignAnd c = some d ∧ d.get 5 = some true ∧ d.get 64 = some false ∧ d.len = 70 ∧
    d.pickRandom 0 = some 5 := by
  refine ⟨_, _, _, rfl, rfl, rfl, ?_⟩
  decide +kernel

example : ∃ S b, Made 70 S b ∧ S 3 ∧ ¬ S 4 := by
  obtain ⟨b, e, _⟩ := new_good 70
  obtain ⟨b', e', _⟩ := set_good (Made.new e).good 3
  exact ⟨fun k => False ∨ (k = 3 ∧ 3 < 70), b', (Made.new e).set 3 e', by simp, by simp⟩

/-- A complete set of 64 parts reports no part at all. -/
example : ∃ b, new 64 = some b ∧ ∀ i : Fin 64, b.flip.get (i.val : ℤ) = some false := by
  refine ⟨_, rfl, ?_⟩
  decide +kernel

end Verif.Consensus.BitArray
