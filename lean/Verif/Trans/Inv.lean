import Verif.Trans.Spec
import Mathlib.Data.List.Nodup
import Mathlib.Tactic.SplitIfs
import Mathlib.Tactic.Push

/-!
# The invariant of the transition layer, and what the loops do
-/

namespace Verif.Trans

/-- How far an executor is, given what arrived from it: it owes a report, or it is done. -/
def ExecOk (A : List Rep) (x : Exec) : Prop :=
  match x.flight with
  | none =>
    (x.pc = 0 ∧ A = [] ∧ (x.step = .validating ∨ x.step = .executing)) ∨
      (x.pc = 1 ∧ A = [.val none] ∧ x.step = .executing) ∨ (x.pc = 2 ∧ ended A = true)
  | some (.val e) => A = [] ∧ (x.pc = if e.isSome then 2 else 1) ∧ x.step = if e.isSome then .error else .executing
  | some (.exe e) => A = [.val none] ∧ x.pc = 2 ∧ x.step = if e.isSome then .error else .complete

structure Inv (w : World) : Prop where
  hti : ∀ h p : Nat, Holds w.s h p → p < w.s.nImpl ∧ (w.s.handles h).of = p
  hof : ∀ h : Nat, h < w.s.nHandle → (w.s.handles h).of < w.s.nImpl
  cnt : ∀ p : Nat, p < w.s.nImpl → (w.s.impls p).nRef = (holders w.s p : Int)
  mtr : ∀ p : Nat, p < w.s.nImpl → ((w.s.impls p).mtr.isSome = true ↔ Held w.s p)
  madeLt : ∀ p q : Nat, p < w.s.nImpl → (w.s.impls p).made = some q → q < p
  par : ∀ p : Nat, Held w.s p → ∀ q : Nat,
    (w.s.impls p).parent = some q ↔ ((w.s.impls p).made = some q ∧ Held w.s q)
  kids : ∀ q : Nat, q < w.s.nImpl → (w.s.impls q).children.Nodup ∧
    ∀ c : Nat, c ∈ (w.s.impls q).children ↔ (Held w.s q ∧ Held w.s c ∧ (w.s.impls c).made = some q)
  fresh : ∀ p : Nat, w.s.nImpl ≤ p → w.arrived p = []
  freshE : ∀ p : Nat, w.s.nImpl ≤ p → (w.s.execs p).flight = none
  cbsE : ∀ p : Nat, p < w.s.nImpl → ended (w.arrived p) = true → (w.s.impls p).cbs = []
  cbsN : ∀ p : Nat, p < w.s.nImpl → ended (w.arrived p) = false →
    (w.s.impls p).cbs.Nodup ∧ ∀ h : Nat, h ∈ (w.s.impls p).cbs ↔ Holds w.s h p
  root : ∀ p : Nat, p < w.s.nImpl → (w.s.impls p).canceler = false →
    ended (w.arrived p) = true ∧ (w.s.execs p).flight = none
  start : ∀ p : Nat, p < w.s.nImpl → ((w.s.impls p).canceler = true ↔ (w.s.impls p).made.isSome = true)
  arr : ∀ p : Nat, p < w.s.nImpl → w.arrived p =
    (w.s.impls p).valErr.toList.map Rep.val ++ (w.s.impls p).exeErr.toList.map Rep.exe
  arrv : ∀ p : Nat, p < w.s.nImpl → (w.s.impls p).exeErr.isSome = true → (w.s.impls p).valErr = some none
  cb : ∀ h : Nat, h < w.s.nHandle → (w.s.handles h).cb =
    ((w.s.handles h).wants && (w.s.handles h).ti.isSome && !ended (w.arrived (w.s.handles h).of))
  live : ∀ h p : Nat, Holds w.s h p →
    told w.s h = if (w.s.handles h).wants then w.arrived p else []
  pre : ∀ h : Nat, h < w.s.nHandle → told w.s h <+: w.arrived (w.s.handles h).of ∧
    ((w.s.handles h).wants = false → told w.s h = [])
  toldF : ∀ h : Nat, w.s.nHandle ≤ h → told w.s h = []
  stops : ∀ p : Nat, p ∈ w.s.stops ↔
    (p < w.s.nImpl ∧ (w.s.impls p).canceler = true ∧ ¬ Held w.s p ∧ ended (w.arrived p) = false)
  stopsN : w.s.stops.Nodup
  ex : ∀ p : Nat, w.s.running = true → Held w.s p → (w.s.impls p).canceler = true →
    ExecOk (w.arrived p) (w.s.execs p)

/-! ### Lists -/

theorem swapRemove_perm {cs : List Nat} {p : Nat} (h : p ∈ cs) : (swapRemove cs p).Perm (cs.erase p) := by
  have hne : cs ≠ [] := by rintro rfl; simp at h
  simp only [swapRemove, List.getLast?_eq_some_getLast hne, if_pos h]
  obtain ⟨l1, l2, rfl, hl⟩ := List.eq_append_cons_of_mem h
  have e1 : (l1 ++ p :: l2).idxOf p = l1.length := by
    rw [List.idxOf_append_of_notMem hl]; simp
  have e2 : (l1 ++ p :: l2).erase p = l1 ++ l2 := by
    rw [List.erase_append_right _ hl]; simp
  rw [e1, e2]
  rcases List.eq_nil_or_concat l2 with rfl | ⟨l3, x, e⟩
  · simp
  · rw [List.concat_eq_append] at e
    subst e
    have e3 : (l1 ++ p :: (l3 ++ [x])).getLast hne = x := by simp
    rw [e3]
    have e4 : (l1 ++ p :: (l3 ++ [x])).set l1.length x = (l1 ++ x :: l3) ++ [x] := by simp
    rw [e4, List.dropLast_concat, ← List.append_assoc]
    have : (l1 ++ x :: l3).Perm (x :: (l1 ++ l3)) := List.perm_middle
    exact this.trans (List.perm_append_singleton x (l1 ++ l3)).symm

theorem swapRemove_nodup {cs : List Nat} {p : Nat} (h : p ∈ cs) (hn : cs.Nodup) :
    (swapRemove cs p).Nodup ∧ ∀ x : Nat, x ∈ swapRemove cs p ↔ (x ∈ cs ∧ x ≠ p) := by
  have hp := swapRemove_perm h
  refine ⟨hp.nodup_iff.2 (hn.erase p), fun x => ?_⟩
  rw [hp.mem_iff, hn.mem_erase_iff]
  exact And.comm

theorem told_append (s : St) (l : List (Nat × Rep)) (h : Nat) :
    ((s.log ++ l).filter fun x => x.1 == h).map (·.2) =
      told s h ++ (l.filter fun x => x.1 == h).map (·.2) := by
  simp [told, List.filter_append, List.map_append]

theorem filter_pair_self (h : Nat) (A : List Rep) :
    ((A.map fun r => (h, r)).filter fun x => x.1 == h).map (·.2) = A := by
  induction A with
  | nil => rfl
  | cons a t ih => simp [ih]

theorem filter_pair_ne {h k : Nat} (hk : k ≠ h) (A : List Rep) :
    ((A.map fun r => (k, r)).filter fun x => x.1 == h).map (·.2) = [] := by
  induction A with
  | nil => rfl
  | cons a t ih => simp [hk, ih]

theorem filter_note (l : List Nat) (hn : l.Nodup) (r : Rep) (h : Nat) :
    ((l.map fun k => (k, r)).filter fun x => x.1 == h).map (·.2) = if h ∈ l then [r] else [] := by
  induction l with
  | nil => simp
  | cons a t ih =>
    have hn' := List.nodup_cons.1 hn
    by_cases ha : a = h
    · subst ha
      have := ih hn'.2
      rw [if_neg hn'.1] at this
      simp [this]
    · have := ih hn'.2
      have e : (h ∈ a :: t) ↔ h ∈ t := by simp [Ne.symm ha]
      simp only [e]
      rw [← this]
      simp [ha]

/-- The number of holders after one handle was given up. -/
theorem filter_drop (l : List Nat) (hn : l.Nodup) (f g : Nat → Bool) (x : Nat) (hx : x ∈ l)
    (h1 : f x = true) (h2 : g x = false) (h3 : ∀ y : Nat, y ≠ x → g y = f y) :
    (l.filter f).length = (l.filter g).length + 1 := by
  induction l with
  | nil => simp at hx
  | cons a t ih =>
    have hn' := List.nodup_cons.1 hn
    by_cases ha : a = x
    · subst ha
      have : t.filter g = t.filter f := by
        apply List.filter_congr
        intro y hy
        exact h3 y (by rintro rfl; exact hn'.1 hy)
      simp [h1, h2, this]
    · have hx' : x ∈ t := by
        rcases List.mem_cons.1 hx with h | h
        · exact absurd h.symm ha
        · exact h
      have := ih hn'.2 hx'
      simp only [List.filter_cons, h3 a ha]
      cases f a <;> simp [this]

theorem holders_pos (s : St) (p : Nat) : 0 < holders s p ↔ Held s p := by
  unfold holders Held Holds
  rw [List.length_pos_iff_exists_mem]
  simp [List.mem_filter]

/-! ### The calls of callbacks -/

/-- The state after the handles of a list were told `r`; `fin`: their callbacks are dropped. -/
def notify (s : St) (l : List Nat) (r : Rep) (fin : Bool) : St :=
  { s with
    handles := fun k => if fin = true ∧ k ∈ l then { s.handles k with cb := false } else s.handles k
    log := s.log ++ (l.filter fun k => (s.handles k).cb).map fun k => (k, r) }

theorem hOnValidate_eq (s : St) (h : Nat) (e : Err) : hOnValidate s h e = notify s [h] (.val e) e.isSome := by
  unfold hOnValidate notify St.modH
  cases e <;> cases hc : (s.handles h).cb <;> simp [hc]

theorem hOnExecute_eq (s : St) (h : Nat) (e : Err) : hOnExecute s h e = notify s [h] (.exe e) true := by
  unfold hOnExecute notify St.modH
  cases hc : (s.handles h).cb <;> simp [hc]

theorem notify_cons (s : St) (a : Nat) (l : List Nat) (r : Rep) (fin : Bool) (ha : a ∉ l) :
    notify (notify s [a] r fin) l r fin = notify s (a :: l) r fin := by
  unfold notify
  have e1 : (l.filter fun k => (if fin = true ∧ k ∈ [a] then { s.handles k with cb := false } else s.handles k).cb) =
      l.filter fun k => (s.handles k).cb := by
    apply List.filter_congr
    intro k hk
    have : k ≠ a := by rintro rfl; exact ha hk
    simp [this]
  congr 1
  · funext k
    by_cases hf : fin = true <;> by_cases h1 : k ∈ l <;> by_cases h2 : k = a <;> simp [hf, h1, h2]
  · rw [e1]
    cases hc : (s.handles a).cb <;> simp [hc]

theorem foldl_notify (f : St → Nat → St) (r : Rep) (fin : Bool) (hf : ∀ s h, f s h = notify s [h] r fin)
    (l : List Nat) (hn : l.Nodup) (s : St) : l.foldl f s = notify s l r fin := by
  induction l generalizing s with
  | nil => simp [notify]
  | cons a t ih =>
    have hn' := List.nodup_cons.1 hn
    rw [List.foldl_cons, hf, ih hn'.2, notify_cons _ _ _ _ _ hn'.1]

theorem orphan_impls (cs : List Nat) (s : St) (p : Nat) :
    (orphan s cs).impls p = if p ∈ cs then { s.impls p with parent := none } else s.impls p := by
  induction cs generalizing s with
  | nil => simp [orphan]
  | cons a t ih =>
    have : orphan s (a :: t) = orphan (s.mod a fun i => { i with parent := none }) t := rfl
    rw [this, ih]
    by_cases h1 : p ∈ t <;> by_cases h2 : p = a <;> simp [h1, h2, St.mod]

theorem orphan_rest (cs : List Nat) (s : St) : orphan s cs = { s with impls := (orphan s cs).impls } := by
  induction cs generalizing s with
  | nil => rfl
  | cons a t ih =>
    have : orphan s (a :: t) = orphan (s.mod a fun i => { i with parent := none }) t := rfl
    rw [this, ih]
    rfl

end Verif.Trans
