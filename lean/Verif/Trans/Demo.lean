import Verif.Trans.Quiet

/-!
# A history in which all of it happens
-/

namespace Verif.Trans

/-- `Allowed`, as a check. -/
def allowedB (s : St) : Ev → Bool
  | .initial _ => true
  | .transit h _ _ _ _ | .propose h _ _ _ | .patch h _ _ _ | .sync h _ _ _ | .dup h _ | .dispose h =>
    decide (h < s.nHandle)
  | .report p r => decide (p < s.nImpl) && (s.impls p).canceler && (s.execs p).flight.isNone &&
      match r with
      | .val _ => (s.execs p).pc == 0
      | .exe _ => (s.execs p).pc == 1
  | .deliver p => decide (p < s.nImpl) && (s.execs p).flight.isSome
  | .term => true

theorem allowedB_sound (s : St) (e : Ev) (h : allowedB s e = true) : Allowed s e := by
  cases e with
  | report p r =>
    simp only [allowedB, Bool.and_eq_true, decide_eq_true_eq, Option.isNone_iff_eq_none] at h
    obtain ⟨⟨⟨h1, h2⟩, h3⟩, h4⟩ := h
    refine ⟨h1, h2, h3, ?_⟩
    cases r <;> simpa using h4
  | deliver p =>
    simp only [allowedB, Bool.and_eq_true, decide_eq_true_eq] at h
    exact h
  | _ => first | trivial | simpa [allowedB, Allowed] using h

/-- Two transitions are equal if they are the same number. -/
def same (a b : Nat) : Bool := a == b

/-- Runs events that can happen. -/
def run : St → List Ev → Option St
  | s, [] => some s
  | s, e :: es => if allowedB s e && !s.crashed then run (apply same s e).1 es else none

theorem run_reach (es : List Ev) : ∀ (w : World) (s' : St), Reach same w → run w.s es = some s' →
    ∃ A : Nat → List Rep, Reach same ⟨s', A⟩ := by
  induction es with
  | nil =>
    intro w s' R h
    simp only [run, Option.some.injEq] at h
    subst h
    exact ⟨w.arrived, R⟩
  | cons e es ih =>
    intro w s' R h
    simp only [run] at h
    by_cases hc : (allowedB w.s e && !w.s.crashed) = true
    · rw [if_pos hc] at h
      simp only [Bool.and_eq_true, Bool.not_eq_true'] at hc
      exact ih (step same w e) s' (Reach.step e R hc.2 (allowedB_sound _ _ hc.1)) h
    · rw [if_neg hc] at h; simp at h

/-- Handle 0: an initial transition. Handles 1 and 2 share the execution 1 of the transition 10, and it is
validated; handle 3 comes later; handle 1 is disposed. -/
def part1 : List Ev :=
  [.initial 0, .transit 0 (some 10) true true false, .transit 0 (some 10) true true false,
   .report 1 (.val none), .deliver 1, .dup 2 true, .dispose 1]

/-- A second execution on the initial transition (handle 4), which is given up; then the first one ends with an
error, and handle 2 asks for a sync execution (handle 5). -/
def part2 : List Ev :=
  part1 ++ [.transit 0 (some 11) true true false, .dispose 4, .report 1 (.exe (some 7)), .deliver 1,
    .sync 2 (some 10) true true]

/-- The initial transition is given up; the sync execution is orphaned. -/
def part3 : List Ev := part2 ++ [.dispose 0]

/-- After the first part: both handles were told, handle 3 at once, and handle 1 is on no execution. -/
example : (run St.empty part1).map (fun s => (told s 1, told s 2, told s 3, (s.impls 1).nRef, s.nImpl)) =
    some ([.val none], [.val none], [.val none], 2, 2) := by decide +kernel

/-- After the second part: execution 2 was stopped, handles 2 and 3 know the result, handle 1 does not; a request for
an equal transition joins the sync execution 3, not execution 1. -/
example : (run St.empty part2).map (fun s => (s.stops, told s 1, told s 2, told s 3)) =
    some ([2], [.val none], [.val none, .exe (some 7)], [.val none, .exe (some 7)]) := by decide +kernel

example : (run St.empty part2).map (fun s =>
    let P := transit same s 0 (some 10) true true false
    (P.2, (P.1.handles 6).ti, P.1.nImpl == s.nImpl)) = some (some 6, some 3, true) := by decide +kernel

/-- After the third part: `patch` on the sync execution is a nil dereference. -/
example : (run St.empty part3).map (fun s => (patch same s 5 12 false true).1.crashed) = some true := by
  decide +kernel

example : (run St.empty part2).map (fun s => (patch same s 5 12 false true).1.crashed) = some false := by
  decide +kernel

/-- The hypotheses of the theorems are met: after the second part, handle 5 holds the running execution 3, which was
made on execution 0, held by handle 0; the chain runs; execution 3 has not ended. -/
example : ∃ w : World, Reach same w ∧ w.s.running = true ∧ w.s.crashed = false ∧ Holds w.s 5 3 ∧ Holds w.s 0 0 ∧
    (w.s.impls 3).made = some 0 ∧ (w.s.handles 1).ti = none ∧ 1 < w.s.nHandle ∧ 2 ∈ w.s.stops ∧
    ended (w.arrived 3) = false ∧ Fits same w.s 0 10 1 ∧ Fits same w.s 0 10 3 := by
  obtain ⟨s, hs⟩ : ∃ s, run St.empty part2 = some s := by
    have : (run St.empty part2).isSome = true := by decide +kernel
    exact Option.isSome_iff_exists.1 this
  obtain ⟨A, R⟩ := run_reach part2 _ s Reach.init hs
  have ev : ∀ (f : St → Bool), ((run St.empty part2).map f) = some true → f s = true := by
    intro f hf
    rw [hs] at hf
    simpa using hf
  have h2 : Holds s 2 1 := ⟨by simpa using ev (fun s => decide (2 < s.nHandle)) (by decide +kernel),
    by simpa using ev (fun s => decide ((s.handles 2).ti = some 1)) (by decide +kernel)⟩
  have h5 : Holds s 5 3 := ⟨by simpa using ev (fun s => decide (5 < s.nHandle)) (by decide +kernel),
    by simpa using ev (fun s => decide ((s.handles 5).ti = some 3)) (by decide +kernel)⟩
  have w5 : (s.handles 5).wants = true := ev (fun s => (s.handles 5).wants) (by decide +kernel)
  have t5 : told s 5 = [] := by simpa using ev (fun s => decide (told s 5 = [])) (by decide +kernel)
  refine ⟨⟨s, A⟩, R, ?_, ?_, h5, ?_, ?_, ?_, ?_, ?_, ?_, ?_, ?_⟩
  · exact ev (fun s => s.running) (by decide +kernel)
  · simpa using ev (fun s => !s.crashed) (by decide +kernel)
  · exact ⟨by simpa using ev (fun s => decide (0 < s.nHandle)) (by decide +kernel),
      by simpa using ev (fun s => decide ((s.handles 0).ti = some 0)) (by decide +kernel)⟩
  · simpa using ev (fun s => decide ((s.impls 3).made = some 0)) (by decide +kernel)
  · simpa using ev (fun s => decide ((s.handles 1).ti = none)) (by decide +kernel)
  · simpa using ev (fun s => decide (1 < s.nHandle)) (by decide +kernel)
  · simpa using ev (fun s => decide (2 ∈ s.stops)) (by decide +kernel)
  · have := (told_all R).1 5 3 h5 w5
    dsimp only at this ⊢
    rw [← this, t5]; rfl
  · refine ⟨⟨2, h2⟩, ?_, 10, ?_, rfl⟩
    · simpa using ev (fun s => decide ((s.impls 1).made = some 0)) (by decide +kernel)
    · simpa using ev (fun s => decide ((s.impls 1).mtr = some 10)) (by decide +kernel)
  · refine ⟨⟨5, h5⟩, ?_, 10, ?_, rfl⟩
    · simpa using ev (fun s => decide ((s.impls 3).made = some 0)) (by decide +kernel)
    · simpa using ev (fun s => decide ((s.impls 3).mtr = some 10)) (by decide +kernel)

end Verif.Trans
