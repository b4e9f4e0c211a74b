import Verif.NetQueue.Spec
import Mathlib.Tactic.SplitIfs

/-!
# The ring buffer is a list
-/

namespace Verif.NetQueue

theorem wrap {a j n : Nat} (ha : a < n) (hj : j < n) : (a + j) % n = if a + j < n then a + j else a + j - n := by
  split_ifs with h
  · exact Nat.mod_eq_of_lt h
  · rw [Nat.mod_eq_sub_mod (by omega), Nat.mod_eq_of_lt (by omega)]

theorem wrap_lt {a j n : Nat} (ha : a < n) : (a + j) % n < n := Nat.mod_lt _ (by omega)

theorem wrap_inj {a j k n : Nat} (ha : a < n) (hj : j < n) (hk : k < n) (h : (a + j) % n = (a + k) % n) : j = k := by
  rw [wrap ha hj, wrap ha hk] at h
  split_ifs at h <;> omega

/-- A ring that holds these contexts; the other places are nil. -/
structure Rep (q : Ring) (xs : List Nat) : Prop where
  len : q.len = xs.length
  le : q.len ≤ q.size
  rd : q.size = 0 ∨ q.read < q.size
  wr : q.size = 0 ∨ q.write = (q.read + q.len) % q.size
  nil : q.buffer = none → q.len = 0
  blen : ∀ b, q.buffer = some b → b.length = q.size
  val : ∀ b, q.buffer = some b → ∀ j : Nat, j < q.size →
    b[(q.read + j) % q.size]? = some xs[j]?

theorem Rep.new (size : Nat) : Rep (Ring.new size) [] where
  len := rfl
  le := Nat.zero_le _
  rd := by simp only [Ring.new]; omega
  wr := by simp [Ring.new]
  nil := fun _ => rfl
  blen := fun b h => by simp [Ring.new] at h
  val := fun b h => by simp [Ring.new] at h

theorem Rep.push {q : Ring} {xs : List Nat} (R : Rep q xs) (c : Nat) :
    (q.len = q.size → q.push c = some (q, false)) ∧
    (q.len < q.size → ∃ q', q.push c = some (q', true) ∧ Rep q' (xs ++ [c]) ∧ q'.size = q.size) := by
  refine ⟨fun h => by unfold Ring.push; rw [if_pos h], fun h => ?_⟩
  have h0 : q.size ≠ 0 := by omega
  have hrd : q.read < q.size := R.rd.resolve_left h0
  have hwr := R.wr.resolve_left h0
  have hwlt : q.write < q.size := by rw [hwr]; exact wrap_lt hrd
  -- the buffer to write to
  have key : ∃ b : List (Option Nat), q.slots = b ∧ b.length = q.size ∧ ∀ j : Nat, j < q.size → b[(q.read + j) % q.size]? = some xs[j]? := by
    unfold Ring.slots
    cases hb : q.buffer with
    | none =>
      refine ⟨_, rfl, List.length_replicate, fun j hj => ?_⟩
      have hx : xs = [] := List.length_eq_zero_iff.1 (by rw [← R.len]; exact R.nil hb)
      subst hx
      rw [List.getElem?_replicate, if_pos (wrap_lt hrd)]
      simp
    | some b => exact ⟨b, rfl, R.blen b hb, R.val b hb⟩
  obtain ⟨b, hb, hbl, hbv⟩ := key
  have e : q.push c = some ({ q with
      buffer := some (b.set q.write (some c))
      len := q.len + 1
      write := (q.write + 1) % q.size }, true) := by
    unfold Ring.push
    rw [if_neg (by omega)]
    dsimp only
    rw [hb, if_pos ⟨by omega, h0⟩]
  refine ⟨_, e, ?_, rfl⟩
  exact {
    len := by simp [R.len]
    le := by dsimp only; omega
    rd := Or.inr hrd
    wr := Or.inr (by
      dsimp only
      rw [hwr, Nat.mod_add_mod]
      rfl)
    nil := fun h => by simp at h
    blen := fun b' h' => by
      simp only [Option.some.injEq] at h'
      rw [← h', List.length_set]; exact hbl
    val := fun b' h' j hj => by
      simp only [Option.some.injEq] at h'
      rw [← h']
      dsimp only at hj ⊢
      rw [List.getElem?_set]
      by_cases hjl : j = q.len
      · subst hjl
        rw [if_pos hwr, if_pos (by omega)]
        rw [R.len]
        simp
      · rw [if_neg (fun h' => hjl (wrap_inj hrd hj h (by rw [← hwr]; exact h'.symm)))]
        rw [hbv j hj]
        have := R.len
        by_cases hlt : j < xs.length
        · rw [List.getElem?_append_left hlt]
        · rw [List.getElem?_eq_none (by omega), List.getElem?_eq_none (by simp; omega)] }

theorem Rep.pop_nil {q : Ring} (R : Rep q []) : q.pop = some (q, none) := by
  unfold Ring.pop
  rw [if_pos (by have := R.len; simp at this; omega)]

theorem Rep.pop {q : Ring} {x : Nat} {xs : List Nat} (R : Rep q (x :: xs)) :
    ∃ q', q.pop = some (q', some x) ∧ Rep q' xs ∧ q'.size = q.size := by
  have hl := R.len
  have hle := R.le
  rw [List.length_cons] at hl
  have h0 : q.size ≠ 0 := by omega
  have hrd : q.read < q.size := R.rd.resolve_left h0
  have hwr := R.wr.resolve_left h0
  cases hb : q.buffer with
  | none => exact absurd (R.nil hb) (by omega)
  | some b =>
    have hbl := R.blen b hb
    have hbv := R.val b hb
    have h1 : b[q.read]? = some (some x) := by
      have := hbv 0 (by omega)
      rw [Nat.add_zero, Nat.mod_eq_of_lt hrd] at this
      rw [this]; rfl
    have e : q.pop = some ({ q with
        buffer := some (b.set q.read none)
        len := q.len - 1
        read := (q.read + 1) % q.size }, some x) := by
      unfold Ring.pop
      rw [if_neg (by omega), hb]
      dsimp only
      rw [h1]
      dsimp only
      rw [if_neg h0]
    refine ⟨_, e, ?_, rfl⟩
    exact {
      len := by dsimp only; omega
      le := by dsimp only; omega
      rd := Or.inr (wrap_lt hrd)
      wr := Or.inr (by
        dsimp only
        rw [hwr, Nat.mod_add_mod]
        congr 1
        omega)
      nil := fun h => by simp at h
      blen := fun b' h' => by
        simp only [Option.some.injEq] at h'
        rw [← h', List.length_set]; exact hbl
      val := fun b' h' j hj => by
        simp only [Option.some.injEq] at h'
        rw [← h']
        dsimp only at hj ⊢
        rw [Nat.mod_add_mod, List.getElem?_set]
        have hq : q.read + 1 + j = q.read + (j + 1) := by omega
        rw [hq]
        by_cases hjs : j + 1 = q.size
        · have : (q.read + (j + 1)) % q.size = q.read := by
            rw [hjs, Nat.add_mod_right, Nat.mod_eq_of_lt hrd]
          rw [this, if_pos rfl, if_pos (by omega), List.getElem?_eq_none (by omega)]
        · have hne : ¬ q.read = (q.read + (j + 1)) % q.size := by
            intro h
            have := wrap_inj hrd (show j + 1 < q.size by omega) (show 0 < q.size by omega) (by
              rw [← h, Nat.add_zero, Nat.mod_eq_of_lt hrd])
            omega
          rw [if_neg hne, hbv (j + 1) (by omega)]
          rfl }

/-- Push on a ring that holds `xs`. -/
theorem Rep.push_if {q : Ring} {xs : List Nat} (R : Rep q xs) (c : Nat) :
    ∃ q', q.push c = some (q', decide (xs.length < q.size)) ∧ q'.size = q.size ∧
      Rep q' (if xs.length < q.size then xs ++ [c] else xs) := by
  have hl := R.len
  have hle := R.le
  by_cases h : xs.length < q.size
  · obtain ⟨q', h1, h2, h3⟩ := (R.push c).2 (by omega)
    refine ⟨q', by rw [h1]; simp [h], h3, ?_⟩
    rw [if_pos h]; exact h2
  · refine ⟨q, by rw [(R.push c).1 (by omega)]; simp [h], rfl, ?_⟩
    rw [if_neg h]; exact R

end Verif.NetQueue
