import Verif.Dsign.PoolInv
import Verif.Dsign.Demo

/-!
# What is proposed
-/

namespace Verif.Dsign.Pool

/-- What a block on top of tracker `i` proposes: what was added, was not committed, is not in the branch, is not below the first
height that was set, and is between the first height of the state and the height of the block. -/
theorem candidates_iff {s : Sys} {h : Hist} (r : Run s h) {i : Nat} {b : List Key} (hb : h.branch[i]? = some b) (f bh : Int)
    (k : Key) : k ∈ candidates s i (some f) bh ↔
      k ∈ h.added ∧ k ∉ h.committed ∧ k ∉ b ∧ h.first ≤ k.height ∧ f ≤ k.height ∧ k.height ≤ bh := by
  obtain ⟨M, T⟩ := r.inv
  obtain ⟨h1, h2⟩ := has_inv M T (i + 1) (k := k) (Nat.lt_succ_self i) hb
  have hf := M.first
  show k ∈ s.man.todo.filter (fun k => !(decide (k.height < f) || decide (bh < k.height)) && !(has s (i + 1) i k)) ↔ _
  rw [List.mem_filter, M.todo]
  simp only [Bool.and_eq_true, Bool.not_eq_true', Bool.or_eq_false_iff, decide_eq_false_iff_not, Int.not_lt]
  constructor
  · rintro ⟨⟨ha, hc, hl⟩, ⟨h3, h4⟩, h5⟩
    refine ⟨ha, hc, ?_, by omega, h3, h4⟩
    intro hk
    rw [h2 (.inl hk) (by omega)] at h5
    simp at h5
  · rintro ⟨ha, hc, hn, hl, h3, h4⟩
    refine ⟨⟨ha, hc, by omega⟩, ⟨h3, h4⟩, ?_⟩
    cases hh : has s (i + 1) i k with
    | false => rfl
    | true =>
      rcases h1 hh with h | h
      · exact absurd h hn
      · exact absurd h hc

/-- Each is proposed once, and lower heights come first. -/
theorem candidates_once {s : Sys} {h : Hist} (r : Run s h) (i : Nat) (f : Option Int) (bh : Int) :
    (candidates s i f bh).Nodup ∧ (candidates s i f bh).Pairwise fun a b => a.height ≤ b.height := by
  obtain ⟨M, T⟩ := r.inv
  cases f with
  | none => exact ⟨List.nodup_nil, List.Pairwise.nil⟩
  | some f => exact ⟨(List.nodup_append.1 M.nodup).1.filter _, M.sorted.filter _⟩

/-- When a report is refused. -/
theorem add_refused {s : Sys} {h : Hist} (r : Run s h) (height : Int) (conflict : Bool) (signer : Option Nat) :
    s.man.add height conflict signer = none ↔ h.first = -1 ∨ height < h.first ∨ conflict = false ∨ signer = none := by
  have hf := r.inv.1.first
  unfold Manager.add
  rw [hf]
  by_cases h1 : h.first = -1 ∨ height < h.first
  · rw [if_pos h1]
    constructor
    · intro _
      rcases h1 with h1 | h1
      · exact .inl h1
      · exact .inr (.inl h1)
    · intro _; rfl
  · rw [if_neg h1]
    cases conflict with
    | false => simp
    | true =>
      cases signer with
      | none => simp
      | some x =>
        simp only [Bool.not_true, Bool.false_eq_true, if_false, or_false, reduceCtorEq]
        constructor
        · intro h
          split at h <;> simp at h
        · intro h
          exact absurd (h.elim .inl .inr) h1

/-- A block never proposes what a block below it has, and what is in a branch stays. -/
theorem branch_child {s s' : Sys} {h h' : Hist} (st : Step s h s' h') {i : Nat} {b : List Key} (hb : h.branch[i]? = some b) :
    h'.branch[i]? = some b := by
  cases st with
  | add => exact hb
  | root => dsimp only; rw [List.getElem?_append_left (List.getElem?_eq_some_iff.1 hb).1]; exact hb
  | child => dsimp only; rw [List.getElem?_append_left (List.getElem?_eq_some_iff.1 hb).1]; exact hb
  | commit => exact hb
  | first => exact hb

/-- What can be executed is at least two heights above the first height of the history. -/
theorem too_early {h : History} {l : List (Int × Nat)} (P : Pushed h l) {f : Int} (hf : h.first = some f) (hash : List Nat → Nat)
    (system : Bool) (bh : Int) (r : Report) (score : Bool) (hr : r.a.height < f + 2) :
    execute hash h system bh r score = false := by
  cases he : execute hash h system bh r score with
  | false => rfl
  | true =>
    obtain ⟨_, _, _, _, _, _, ⟨g, hg, hle⟩, _⟩ := (execute_iff P hash system bh r score).1 he
    rw [hf, Option.some.injEq] at hg
    omega

/-- A run: reports of two heights, two branches, one of them committed. -/
def s0 : Sys := ⟨(Manager.new).setFirst 10, []⟩

theorem run0 : Run s0 ⟨[], [], [], 10⟩ := .step .init (.first 10)

theorem run1 : ∃ s h, Run s h ∧ h.branch = [[], [⟨12, 2⟩], []] ∧ h.added = [⟨13, 1⟩, ⟨12, 2⟩, ⟨10, 2⟩] ∧ h.committed = [] ∧
    h.first = 10 ∧ s.man.add 14 true (some 5) ≠ none := by
  have r1 := run0.step (.add 13 1 rfl)
  have r2 := r1.step (.add 12 2 rfl)
  have r3 := r2.step (.add 10 2 rfl)
  have r4 := r3.step .root
  have r5 := r4.step (.child 0 [⟨12, 2⟩] rfl)
  have r6 := r5.step (.child 0 [] rfl)
  exact ⟨_, _, r6, rfl, rfl, rfl, rfl, by decide⟩

/-- One branch proposes what the other one has; after the commit of that one nobody does. -/
example : ∃ s h, Run s h ∧ candidates s 1 (some 10) 12 = [⟨10, 2⟩] ∧ candidates s 2 (some 10) 12 = [⟨10, 2⟩, ⟨12, 2⟩] ∧
    candidates (commit 2 s 1) 2 (some 10) 13 = [⟨10, 2⟩, ⟨13, 1⟩] := by
  have r1 := run0.step (.add 13 1 rfl)
  have r2 := r1.step (.add 12 2 rfl)
  have r3 := r2.step (.add 10 2 rfl)
  have r4 := r3.step .root
  have r5 := r4.step (.child 0 [⟨12, 2⟩] rfl)
  have r6 := r5.step (.child 0 [] rfl)
  exact ⟨_, _, r6, by decide, by decide, by decide⟩

/-- Found in the Go code: `Candidate` takes a report from the first height of the history on (dsrmanager.go:200), but its execution
looks two heights below (dsrhandler.go:57-58), where the history gives nothing. The execution then gives an error, not a failed
receipt (doublesignreport.go, `dsrTxHandler.Execute`), and so does that of the block (transition_se.go:60-71): a node with such a
report proposes blocks that cannot be executed. -/
theorem found_block_fails : ∃ (s : Sys) (h : Hist) (hist : History) (l : List (Int × Nat)) (k : Key), Run s h ∧ Pushed hist l ∧
    k ∈ candidates s 0 hist.first 14 ∧
    ∀ (hash : List Nat → Nat) (r : Report) (system score : Bool), r.a.height = k.height →
      execute hash hist system 14 r score = false := by
  have r1 := run0.step (.add 11 2 rfl)
  have r2 := r1.step .root
  refine ⟨_, _, hist4, _, ⟨11, 2⟩, r2, hist4_pushed, by decide, ?_⟩
  intro hash r system score hr
  exact too_early hist4_pushed (f := 10) rfl hash system 14 r score (by rw [hr]; decide)

end Verif.Dsign.Pool
