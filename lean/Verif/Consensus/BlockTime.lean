import Mathlib.Data.List.Sort
import Mathlib.Data.Int.Order.Basic
import Mathlib.Tactic.Common
import Mathlib.Data.Finset.Card

/-!
# The time of a block (C66)

The time of a block is the median of the times in the votes for the block before it (`consensus/commitvotelist.go`).
-/

namespace Verif.BlockTime

/-- The value of an `int64` after an overflow. -/
def wrap (x : ℤ) : ℤ := (x + 2 ^ 63) % 2 ^ 64 - 2 ^ 63

/-- `Timestamp` (`commitvotelist.go:86-103`) of the times in the votes.  `sort.Slice` is modelled by insertion sort (sorted lists of the same
numbers are equal); the sum of the two middle ones may overflow, and the division rounds towards zero. -/
def median (ts : List ℤ) : ℤ :=
  let s := ts.insertionSort (· ≤ ·)
  let l := ts.length
  if l = 0 then 0
  else if l % 2 = 1 then s.getD (l / 2) 0
  else (wrap (s.getD (l / 2 - 1) 0 + s.getD (l / 2) 0)).tdiv 2

/-- `enoughVote` (`commitvotelist.go:73-79`). -/
def enoughVote (voted voters : ℕ) : Bool := if voters = 0 then true else decide (voted > voters * 2 / 3)

/-- A vote: the index of its validator, which the signature gives, and its time. -/
structure Vote where
  who : ℕ
  time : ℤ

/-- The votes that `VerifyBlock` accepts (`commitvotelist.go:41-71`): of validators, of no one twice, and enough. -/
def verifyBlock (n : ℕ) (vs : List Vote) : Bool :=
  vs.all (fun v => decide (v.who < n)) && decide ((vs.map Vote.who).Nodup) && enoughVote vs.length n

/-- `VerifyTimestamp` (`block/blockv2.go:353-363`) for heights above one. -/
def verifyTimestamp (prev time : ℤ) (vs : List Vote) : Bool :=
  decide (time = median (vs.map Vote.time)) && !decide (prev ≥ time)

/-- `voteTimestamp` (`consensus.go:1181-1198`) of a vote for a block, when there is no `timestamper`: `iota` is the minimal commit timeout in microseconds. -/
def voteTimestamp (blockTime iota now : ℤ) : ℤ := if now > blockTime + iota then now else blockTime + iota

/-- `CheckTxTimestamp` with the range of a block (`service/tschecker.go:18-28, 81-125`); overflow of the bounds is not modelled. -/
def checkTx (blockTime threshold ts : ℤ) : Bool :=
  !decide (ts ≤ blockTime - threshold) && !decide (ts > blockTime + threshold)

/-! ## Proofs -/

theorem wrap_id {x : ℤ} (h1 : -2 ^ 63 ≤ x) (h2 : x < 2 ^ 63) : wrap x = x := by
  unfold wrap
  omega

theorem getD_lt {s : List ℤ} {i : ℕ} (h : i < s.length) : s.getD i 0 = s[i] := by
  simp [h]

theorem sorted_mono {s : List ℤ} (hs : s.Pairwise (· ≤ ·)) {i j : ℕ} (hij : i ≤ j) (hj : j < s.length) : s[i] ≤ s[j] := by
  rcases Nat.lt_or_eq_of_le hij with h | rfl
  · exact List.pairwise_iff_getElem.mp hs i j (by omega) hj h
  · exact le_refl _

theorem count_above {s : List ℤ} (hs : s.Pairwise (· ≤ ·)) {i : ℕ} (hi : i < s.length) {b : ℤ} (h : b < s[i]) :
    s.length - i ≤ s.countP (fun x => decide (b < x)) := by
  have h1 : s.countP (fun x => decide (b < x)) = (s.take i).countP (fun x => decide (b < x)) + (s.drop i).countP (fun x => decide (b < x)) := by
    rw [← List.countP_append, List.take_append_drop]
  have h2 : (s.drop i).countP (fun x => decide (b < x)) = (s.drop i).length := by
    rw [List.countP_eq_length]
    intro x hx
    obtain ⟨k, hk, rfl⟩ := List.getElem_of_mem hx
    rw [List.getElem_drop]
    rw [List.length_drop] at hk
    have := sorted_mono hs (i := i) (j := i + k) (by omega) (by omega)
    simp; omega
  rw [h1, h2, List.length_drop]
  omega

theorem count_below {s : List ℤ} (hs : s.Pairwise (· ≤ ·)) {i : ℕ} (hi : i < s.length) {b : ℤ} (h : s[i] < b) :
    i + 1 ≤ s.countP (fun x => decide (x < b)) := by
  have h1 : s.countP (fun x => decide (x < b)) = (s.take (i + 1)).countP (fun x => decide (x < b)) +
      (s.drop (i + 1)).countP (fun x => decide (x < b)) := by
    rw [← List.countP_append, List.take_append_drop]
  have h2 : (s.take (i + 1)).countP (fun x => decide (x < b)) = (s.take (i + 1)).length := by
    rw [List.countP_eq_length]
    intro x hx
    obtain ⟨k, hk, rfl⟩ := List.getElem_of_mem hx
    rw [List.getElem_take]
    rw [List.length_take] at hk
    have := sorted_mono hs (i := k) (j := i) (by omega) (by omega)
    simp; omega
  rw [h1, h2, List.length_take]
  omega

/-- Halving, rounded towards zero, keeps bounds. -/
theorem tdiv_two {x lo hi : ℤ} (h1 : 2 * lo ≤ x) (h2 : x ≤ 2 * hi) : lo ≤ x.tdiv 2 ∧ x.tdiv 2 ≤ hi := by
  rcases le_total 0 x with h | h
  · rw [Int.tdiv_eq_ediv_of_nonneg h]; omega
  · have e : x.tdiv 2 = -((-x) / 2) := by
      rw [← Int.tdiv_eq_ediv_of_nonneg (by omega), Int.neg_tdiv, Int.neg_neg]
    rw [e]; omega

/-- The median is between bounds that more than half of the numbers keep. -/
theorem median_between {ts : List ℤ} {lo hi : ℤ} (hlo : -2 ^ 62 ≤ lo) (hhi : hi < 2 ^ 62)
    (h : 2 * ts.countP (fun x => !(decide (lo ≤ x) && decide (x ≤ hi))) < ts.length) : lo ≤ median ts ∧ median ts ≤ hi := by
  have hperm : (ts.insertionSort (· ≤ ·)).Perm ts := List.perm_insertionSort _ ts
  have hsort : (ts.insertionSort (· ≤ ·)).Pairwise (· ≤ ·) := List.pairwise_insertionSort _ ts
  have hlen : (ts.insertionSort (· ≤ ·)).length = ts.length := hperm.length_eq
  have hab : ∀ s : List ℤ, s.countP (fun x => decide (hi < x)) ≤ s.countP (fun x => !(decide (lo ≤ x) && decide (x ≤ hi))) := by
    intro s
    apply List.countP_mono_left
    intro x _ hx
    simp only [decide_eq_true_eq] at hx
    simp; omega
  have hbe : ∀ s : List ℤ, s.countP (fun x => decide (x < lo)) ≤ s.countP (fun x => !(decide (lo ≤ x) && decide (x ≤ hi))) := by
    intro s
    apply List.countP_mono_left
    intro x _ hx
    simp only [decide_eq_true_eq] at hx
    simp; omega
  have hcount := hperm.countP_eq (fun x => !(decide (lo ≤ x) && decide (x ≤ hi)))
  unfold median
  generalize hs : ts.insertionSort (· ≤ ·) = s at *
  rw [← hcount] at h
  have ha := hab s
  have hb := hbe s
  have hin : ∀ i, (hi' : i < s.length) → s.length ≤ 2 * (i + 1) → s.length ≤ 2 * (s.length - i) → lo ≤ s[i] ∧ s[i] ≤ hi := by
    intro i hi' h1 h2
    constructor
    · by_contra hc
      have := count_below hsort hi' (b := lo) (by omega)
      omega
    · by_contra hc
      have := count_above hsort hi' (b := hi) (by omega)
      omega
  dsimp only
  have hpos : 0 < ts.length := by omega
  rw [if_neg (by omega)]
  by_cases hodd : ts.length % 2 = 1
  · rw [if_pos hodd, getD_lt (by omega)]
    exact hin _ (by omega) (by omega) (by omega)
  · rw [if_neg hodd, getD_lt (by omega), getD_lt (by omega)]
    obtain ⟨a1, a2⟩ := hin (ts.length / 2 - 1) (by omega) (by omega) (by omega)
    obtain ⟨b1, b2⟩ := hin (ts.length / 2) (by omega) (by omega) (by omega)
    rw [wrap_id (by omega) (by omega)]
    exact tdiv_two (by omega) (by omega)

theorem countP_le_card {vs : List Vote} {bad : Finset ℕ} (hn : (vs.map Vote.who).Nodup) (p : Vote → Bool)
    (hp : ∀ v ∈ vs, p v = true → v.who ∈ bad) : vs.countP p ≤ bad.card := by
  rw [List.countP_eq_length_filter]
  have h1 : ((vs.filter p).map Vote.who).Nodup := (List.Sublist.map _ List.filter_sublist).nodup hn
  have h2 : ((vs.filter p).map Vote.who).toFinset ⊆ bad := by
    intro x hx
    rw [List.mem_toFinset, List.mem_map] at hx
    obtain ⟨v, hv, rfl⟩ := hx
    rw [List.mem_filter] at hv
    exact hp v hv.1 hv.2
  have := Finset.card_le_card h2
  rw [List.toFinset_card_of_nodup h1, List.length_map] at this
  exact this

/-- C66: if less than a third of the validators are faulty, the time of a block with verified votes is not before the earliest and not after the latest
time in a vote of a correct validator, and in particular no number of faulty validators below this can overflow the sum. -/
theorem C66_time {n : ℕ} {vs : List Vote} (hv : verifyBlock n vs = true) (hn : 0 < n) {bad : Finset ℕ} (hb : 3 * bad.card < n) {lo hi : ℤ}
    (hlo : -2 ^ 62 ≤ lo) (hhi : hi < 2 ^ 62) (hc : ∀ v ∈ vs, v.who ∉ bad → lo ≤ v.time ∧ v.time ≤ hi) :
    lo ≤ median (vs.map Vote.time) ∧ median (vs.map Vote.time) ≤ hi := by
  simp only [verifyBlock, Bool.and_eq_true, decide_eq_true_eq] at hv
  obtain ⟨⟨_, h2⟩, h3⟩ := hv
  rw [enoughVote, if_neg (by omega), decide_eq_true_eq] at h3
  apply median_between hlo hhi
  rw [List.countP_map, List.length_map]
  have := countP_le_card (bad := bad) h2 ((fun x : ℤ => !(decide (lo ≤ x) && decide (x ≤ hi))) ∘ Vote.time) (by
    intro v hv hp
    by_contra hnb
    obtain ⟨a, b⟩ := hc v hv hnb
    simp [a, b] at hp)
  omega

/-- C66: a block that a correct proposer makes of such votes passes the check of its time: it is later than the block before, if correct validators
vote with the times the code gives them and the minimal commit timeout is at least a microsecond. -/
theorem C66_accepted {n : ℕ} {vs : List Vote} (hv : verifyBlock n vs = true) (hn : 0 < n) {bad : Finset ℕ} (hb : 3 * bad.card < n)
    {prev iota hi : ℤ} (hi0 : 0 < iota) (hp : -2 ^ 62 ≤ prev) (hhi : hi < 2 ^ 62)
    (hc : ∀ v ∈ vs, v.who ∉ bad → v.time ≤ hi ∧ ∃ now, v.time = voteTimestamp prev iota now) :
    verifyTimestamp prev (median (vs.map Vote.time)) vs = true := by
  have := (C66_time hv hn hb (lo := prev + iota) (hi := hi) (by omega) hhi (fun v h1 h2 => by
    obtain ⟨a, now, e⟩ := hc v h1 h2
    refine ⟨?_, a⟩
    rw [e, voteTimestamp]
    split_ifs <;> omega)).1
  simp only [verifyTimestamp, decide_true, Bool.true_and, Bool.not_eq_true', decide_eq_false_iff_not]
  omega

/-- C66: times of accepted blocks strictly increase, and are determined by the votes. -/
theorem C66_increasing {prev time : ℤ} {vs : List Vote} (h : verifyTimestamp prev time vs = true) :
    prev < time ∧ time = median (vs.map Vote.time) := by
  simp only [verifyTimestamp, Bool.and_eq_true, decide_eq_true_eq, Bool.not_eq_true', decide_eq_false_iff_not] at h
  exact ⟨by omega, h.1⟩

/-- C66: the time does not depend on the order of the votes. -/
theorem C66_order {a b : List ℤ} (h : a.Perm b) : median a = median b := by
  have : a.insertionSort (· ≤ ·) = b.insertionSort (· ≤ ·) := by
    apply List.Perm.eq_of_pairwise (le := (· ≤ ·))
    · intro x y _ _ h1 h2; exact le_antisymm h1 h2
    · exact List.pairwise_insertionSort _ a
    · exact List.pairwise_insertionSort _ b
    · exact ((List.perm_insertionSort _ a).trans h).trans (List.perm_insertionSort _ b).symm
  unfold median
  rw [this, h.length_eq]

/-- C66: a transaction fits in a block exactly if its time is after the time of the block less the threshold and not after the time of the
block and the threshold. -/
theorem C66_tx (t th ts : ℤ) : checkTx t th ts = true ↔ t - th < ts ∧ ts ≤ t + th := by
  simp only [checkTx, Bool.and_eq_true, Bool.not_eq_true', decide_eq_false_iff_not]
  omega

/-- The bound cannot be dropped: with half of six validators faulty, the five votes that are enough may have a time that no correct validator gave. -/
theorem C66_bound_needed : ∃ vs : List Vote, verifyBlock 6 vs = true ∧ (∀ v ∈ vs, v.who ∉ ({0, 1, 2} : Finset ℕ) → v.time = 5) ∧
    median (vs.map Vote.time) = 1000000 :=
  ⟨[⟨0, 1000000⟩, ⟨1, 1000000⟩, ⟨2, 1000000⟩, ⟨3, 5⟩, ⟨4, 5⟩], by decide +kernel, by decide +kernel, by decide +kernel⟩

/-! ## The hypotheses are met -/

/-- Four votes, one with a wrong time. -/
def exVotes : List Vote := [⟨0, 99999999⟩, ⟨2, 104⟩, ⟨3, 107⟩, ⟨1, 103⟩]

example : verifyBlock 4 exVotes = true := by decide +kernel
example : median (exVotes.map Vote.time) = 105 := by decide +kernel
example : ∀ v ∈ exVotes, v.who ∉ ({0} : Finset ℕ) → 103 ≤ v.time ∧ v.time ≤ 107 := by decide +kernel
example : verifyTimestamp 104 105 exVotes = true := by decide +kernel

end Verif.BlockTime
