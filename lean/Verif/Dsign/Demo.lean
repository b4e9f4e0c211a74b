import Verif.Dsign.Chain

/-!
# Double signs: runs
-/

namespace Verif.Dsign

/-- A hash of lists for the examples. -/
def hash0 : List Nat → Nat
  | [] => 0
  | a :: l => 2 ^ a * (2 * hash0 l + 1)

theorem hash0_inj : ∀ a b, hash0 a = hash0 b → a = b := by
  have key : ∀ (a b x y : Nat), 2 ^ a * (2 * x + 1) = 2 ^ b * (2 * y + 1) → a = b ∧ x = y := by
    intro a
    induction a with
    | zero =>
      intro b x y h
      cases b with
      | zero => omega
      | succ b => rw [Nat.pow_succ, Nat.mul_comm (2 ^ b) 2, Nat.mul_assoc] at h; omega
    | succ a ih =>
      intro b x y h
      cases b with
      | zero => rw [Nat.pow_succ, Nat.mul_comm (2 ^ a) 2, Nat.mul_assoc] at h; omega
      | succ b =>
        rw [Nat.pow_succ, Nat.pow_succ, Nat.mul_comm (2 ^ a) 2, Nat.mul_comm (2 ^ b) 2, Nat.mul_assoc, Nat.mul_assoc] at h
        obtain ⟨h1, h2⟩ := ih b x y (by omega)
        exact ⟨by omega, h2⟩
  intro a
  induction a with
  | nil =>
    intro b h
    cases b with
    | nil => rfl
    | cons y b =>
      have : 0 < 2 ^ y := Nat.pow_pos (by decide)
      simp only [hash0] at h
      have h2 : 0 < 2 ^ y * (2 * hash0 b + 1) := Nat.mul_pos this (by omega)
      omega
  | cons x a ih =>
    intro b h
    cases b with
    | nil =>
      have : 0 < 2 ^ x := Nat.pow_pos (by decide)
      simp only [hash0] at h
      have h2 : 0 < 2 ^ x * (2 * hash0 a + 1) := Nat.mul_pos this (by omega)
      omega
    | cons y b =>
      simp only [hash0] at h
      obtain ⟨h1, h2⟩ := key _ _ _ _ h
      rw [h1, ih b h2]

/-- The history after four blocks with two lists of validators. -/
def hist4 : History := [(10, hash0 [1, 2]), (12, hash0 [1, 3])]

theorem hist4_pushed : Pushed hist4 [(10, hash0 [1, 2]), (11, hash0 [1, 2]), (12, hash0 [1, 3]), (13, hash0 [1, 3])] :=
  .push (l := [(10, _), (11, _), (12, _)]) (.push (l := [(10, _), (11, _)]) (.push (l := [(10, _)]) (.push .nil (by simp) rfl)
    (by simp) rfl) (by simp) rfl) (by simp) rfl

/-- A vote of validator 2 for height 12 on network 5, and one for the same place on network 6. -/
def v5 : Msg := ⟨.vote 1, 12, 0, 2, 5, 100⟩
def v6 : Msg := ⟨.vote 1, 12, 0, 2, 6, 200⟩

/-- Two votes of validator 2 for one place. -/
def v5' : Msg := ⟨.vote 1, 12, 0, 2, 5, 300⟩

/-- A double sign is punished, and not with the wrong validators, too early, from outside, or twice the same message. -/
example : execute hash0 hist4 true 14 ⟨v5, v5', [1, 2]⟩ true = true ∧ execute hash0 hist4 true 14 ⟨v5, v5', [2, 1]⟩ true = false ∧
    execute hash0 hist4 true 11 ⟨v5, v5', [1, 2]⟩ true = false ∧ execute hash0 hist4 false 14 ⟨v5, v5', [1, 2]⟩ true = false ∧
    execute hash0 hist4 true 14 ⟨v5, v5, [1, 2]⟩ true = false := by decide +kernel

/-- Found in the Go code: `dsVote.IsConflictWith` takes both network ids from the first vote (doublesigndata.go:67-68), and
`ValidateNetwork` (doublesigndata.go:55-57, 107-109) is always true. So who signs one vote for each place of each network is
punished, for votes on two networks. -/
theorem found_networks : ∃ (h : History) (l : List (Int × Nat)) (r : Report), Pushed h l ∧
    execute hash0 h true 14 r true = true ∧ r.a.nid ≠ 0 ∧ r.b.nid ≠ 0 ∧ r.a.nid ≠ r.b.nid :=
  ⟨hist4, _, ⟨v5, v6, [1, 2]⟩, hist4_pushed, by decide +kernel, by decide, by decide, by decide⟩

/-- And a report can be executed again and again: it leaves the history as it is, and the handler asks for nothing else. -/
theorem found_again {h : History} {hash : List Nat → Nat} {bh bh' : Int} {r : Report} (hb : bh ≤ bh')
    (he : execute hash h true bh r true = true) : execute hash h true bh' r true = true := by
  unfold execute at he ⊢
  simp only [Bool.and_eq_true, Bool.not_eq_true', decide_eq_false_iff_not, Int.not_lt] at he ⊢
  obtain ⟨⟨⟨⟨⟨h1, h2⟩, h3⟩, h4⟩, h5⟩, h6⟩ := he
  exact ⟨⟨⟨⟨⟨h1, h2⟩, by omega⟩, h4⟩, h5⟩, h6⟩

/-- What a log says of some messages, with random numbers that are all `n`. -/
def logOf (cost : Msg → Nat) (cap n : Nat) : Caches.Rand Key Msg → List Msg → Option (List (Msg × Msg))
  | _, [] => some []
  | c, m :: ms =>
    match check cost c m fun _ => n with
    | none => none
    | some (c', none) => logOf cost cap n c' ms
    | some (c', some p) => (logOf cost cap n c' ms).map fun ps => p :: ps

/-- Votes of two networks are found, proposals of two networks are not; with a small log, a double sign is forgotten. -/
example : logOf (fun _ => 1) 10 0 (Caches.Rand.new 10) [v5, ⟨.proposal, 12, 0, 2, 5, 7⟩, v5, v6, ⟨.proposal, 12, 0, 2, 6, 8⟩] =
      some [(v5, v6)] ∧
    logOf (fun _ => 1) 2 0 (Caches.Rand.new 2) [v5, ⟨.vote 1, 13, 0, 2, 5, 7⟩, ⟨.vote 1, 14, 0, 2, 5, 7⟩, v5'] = some [] := by
  decide +kernel

/-- `log_caught` is about something: a log of three messages with a double sign. -/
example : ∃ c rs, Log (fun _ => 1) 10 c [v5, ⟨.vote 1, 13, 0, 2, 5, 7⟩, v5'] rs ∧ rs ≠ [] ∧ Double v5 v5' := by
  have h0 : Log (fun _ => 1) 10 (Caches.Rand.new 10) [] [] := .init
  obtain ⟨x1, e1, -⟩ := log_total h0 v5 fun _ => 0
  have d : Double v5 v5' := ⟨rfl, rfl, rfl, rfl, by decide⟩
  have step : ∀ {c ms rs} (L : Log (fun _ => 1) 10 c ms rs) (m : Msg), ∃ c' rs', Log (fun _ => 1) 10 c' (ms ++ [m]) rs' := by
    intro c ms rs L m
    obtain ⟨⟨c', o⟩, e, -⟩ := log_total L m fun _ => 0
    cases o with
    | none => exact ⟨c', rs, .quiet L e⟩
    | some p => exact ⟨c', _, .found L e⟩
  obtain ⟨c1, r1, L1⟩ := step h0 v5
  obtain ⟨c2, r2, L2⟩ := step L1 ⟨.vote 1, 13, 0, 2, 5, 7⟩
  obtain ⟨c3, r3, L3⟩ := step L2 v5'
  refine ⟨c3, r3, L3, ?_, d⟩
  obtain ⟨p, hp, -⟩ := log_caught L3 (by decide) (by decide) v5 (by simp) v5' (by simp) d
  intro h
  rw [h] at hp
  simp at hp

end Verif.Dsign
