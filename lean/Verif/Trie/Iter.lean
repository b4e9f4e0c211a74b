import Verif.Trie.Inj
import Mathlib.Data.List.Lex
import Mathlib.Data.List.Forall2
import Mathlib.Data.List.Pairwise

/-!
# Iteration
-/

namespace Verif.Trie
open Verif

variable {H : Bytes → Bytes} {db : DB}

/-- All keys and values below a node reached by `k`, in order. -/
def entries : List Nib → Node → List (List Nib × Bytes)
  | _, .nil => []
  | _, .hash _ => []
  | k, .leaf k' v => [(k ++ k', v)]
  | k, .ext k' n => entries (k ++ k') n
  | k, .branch c v =>
    (match v with | some w => [(k, w)] | none => []) ++
      (nibs16.map (fun i => entries (k ++ [i]) (c i))).flatten

/-- The number of nodes. -/
def weight : Node → Nat
  | .nil => 0
  | .hash _ => 0
  | .leaf _ _ => 1
  | .ext _ n => weight n + 1
  | .branch c _ => (nibs16.map (fun i => weight (c i))).sum + 1

theorem mem_entries (t : Node) : ∀ k q v, (q, v) ∈ entries k t ↔ ∃ r, q = k ++ r ∧ find t r = some v := by
  induction t with
  | nil => intro k q v; simp [entries, find]
  | hash _ => intro k q v; simp [entries, find]
  | leaf k' w =>
    intro k q v
    simp only [entries, find, List.mem_cons, List.not_mem_nil, or_false, Prod.mk.injEq]
    constructor
    · rintro ⟨rfl, rfl⟩; exact ⟨k', rfl, by simp⟩
    · rintro ⟨r, rfl, hr⟩
      split_ifs at hr with h
      cases hr; subst h; exact ⟨rfl, rfl⟩
  | ext k' n ih =>
    intro k q v
    simp only [entries, find]
    rw [ih]
    constructor
    · rintro ⟨r, rfl, hr⟩
      refine ⟨k' ++ r, by simp, ?_⟩
      rw [if_pos (List.prefix_append _ _), List.drop_left]; exact hr
    · rintro ⟨r, rfl, hr⟩
      split_ifs at hr with h
      obtain ⟨r', rfl⟩ := h
      rw [List.drop_left] at hr
      exact ⟨r', by simp, hr⟩
  | branch c w ih =>
    intro k q v
    simp only [entries, List.mem_append, List.mem_flatten, List.mem_map]
    constructor
    · rintro (h | ⟨_, ⟨i, _, rfl⟩, h⟩)
      · cases w with
        | none => cases h
        | some w =>
          simp only [List.mem_cons, List.not_mem_nil, or_false, Prod.mk.injEq] at h
          exact ⟨[], by simp [h.1], by simp [find, h.2]⟩
      · obtain ⟨r, rfl, hr⟩ := (ih i _ _ _).1 h
        exact ⟨i :: r, by simp, hr⟩
    · rintro ⟨r, rfl, hr⟩
      cases r with
      | nil =>
        simp only [find] at hr
        subst hr
        left; simp
      | cons i r =>
        right
        exact ⟨_, ⟨i, List.mem_finRange i, rfl⟩, (ih i _ _ _).2 ⟨r, by simp, hr⟩⟩

theorem entries_prefix {t : Node} {k : List Nib} {e : List Nib × Bytes} (h : e ∈ entries k t) : k <+: e.1 := by
  obtain ⟨r, hr, _⟩ := (mem_entries t k e.1 e.2).1 h
  exact ⟨r, hr.symm⟩

/-- The keys come in increasing order. -/
theorem entries_sorted (t : Node) : ∀ k, (entries k t).Pairwise (fun a b => List.Lex (· < ·) a.1 b.1) := by
  induction t with
  | nil => intro k; exact List.Pairwise.nil
  | hash _ => intro k; exact List.Pairwise.nil
  | leaf _ _ => intro k; exact List.pairwise_singleton _ _
  | ext k' n ih => intro k; exact ih _
  | branch c w ih =>
    intro k
    simp only [entries]
    rw [List.pairwise_append]
    refine ⟨?_, ?_, ?_⟩
    · cases w with
      | none => exact List.Pairwise.nil
      | some w => exact List.pairwise_singleton _ _
    · rw [List.pairwise_flatten]
      refine ⟨?_, ?_⟩
      · intro l hl
        obtain ⟨i, _, rfl⟩ := List.mem_map.1 hl
        exact ih i _
      · rw [List.pairwise_map]
        refine List.Pairwise.imp ?_ (List.pairwise_lt_finRange 16)
        intro i j hij a ha b hb
        obtain ⟨r, hr⟩ := entries_prefix ha
        obtain ⟨s, hs⟩ := entries_prefix hb
        rw [← hr, ← hs, List.append_assoc, List.append_assoc]
        exact List.Lex.append_left _ (List.Lex.rel hij) k
    · intro a ha b hb
      obtain ⟨l, hl, hb⟩ := List.mem_flatten.1 hb
      obtain ⟨i, _, rfl⟩ := List.mem_map.1 hl
      obtain ⟨s, hs⟩ := entries_prefix hb
      cases w with
      | none => cases ha
      | some w =>
        simp only [List.mem_cons, List.not_mem_nil, or_false] at ha
        subst ha
        rw [← hs, List.append_assoc]
        have := List.Lex.append_left (· < ·) (List.Lex.nil (r := (· < ·)) (a := i) (l := s)) k
        rw [List.append_nil] at this
        exact this

/-- The stack of the iterator described by tries without hash nodes. -/
def Item1 (H : Bytes → Bytes) (db : DB) (x y : Item) : Prop :=
  x.1 = y.1 ∧ Canon x.2 ∧ Fits (find x.2) ∧ Den H db x.2 y.2

/-- The same, without a hash node on the stack. -/
def Item2 (H : Bytes → Bytes) (db : DB) (x y : Item) : Prop := Item1 H db x y ∧ ¬ IsHash y.2

theorem appendItems_spec (hH : Hash32 H) {L st : List Item} (h : List.Forall₂ (Item1 H db) L st) :
    ∃ st', appendItems db st = .ok st' ∧ List.Forall₂ (Item2 H db) L st' := by
  induction h with
  | nil => exact ⟨[], rfl, List.Forall₂.nil⟩
  | @cons x y L st hxy _ ih =>
    obtain ⟨st', e, h'⟩ := ih
    obtain ⟨k, n⟩ := y
    obtain ⟨h1, h2, h3, h4⟩ := hxy
    simp only at h1 h4
    have : ∃ m, realizeNode db n = .ok m ∧ Den H db x.2 m ∧ ¬ IsHash m := by
      by_cases hn : IsHash n
      · obtain ⟨a, b, c, d⟩ := realize_known hH h2 (bounded_of_fits _ h2 h3) (den_hash h4 hn).2
        exact ⟨_, by rw [a]; exact b, c, d⟩
      · exact ⟨n, by cases n <;> first | rfl | exact absurd trivial hn, h4, hn⟩
    obtain ⟨m, e1, e2, e3⟩ := this
    exact ⟨(k, m) :: st', by simp only [appendItems, e1, e], List.Forall₂.cons ⟨⟨h1, h2, h3, e2⟩, e3⟩ h'⟩

/-- What the iterator is to deliver from a stack. -/
def due (p : List Nib) (L : List Item) : List (List Nib × Bytes) :=
  (L.map (fun x => (entries x.1 x.2).filter (fun e => p.isPrefixOf e.1))).flatten

theorem due_cons (p : List Nib) (x : Item) (L : List Item) :
    due p (x :: L) = (entries x.1 x.2).filter (fun e => p.isPrefixOf e.1) ++ due p L := rfl

theorem due_append (p : List Nib) (L L' : List Item) : due p (L ++ L') = due p L ++ due p L' := by
  simp [due]

/-- Pruning what cannot have the prefix changes nothing. -/
theorem due_filter (p : List Nib) (L : List Item) :
    due p (L.filter (fun e => checkPrefix p e.1 true)) = due p L := by
  induction L with
  | nil => rfl
  | cons x L ih =>
    rw [List.filter_cons]
    by_cases h : checkPrefix p x.1 true = true
    · rw [if_pos h, due_cons, due_cons, ih]
    · rw [if_neg h, due_cons, ih]
      have : (entries x.1 x.2).filter (fun e => p.isPrefixOf e.1) = [] := by
        rw [List.filter_eq_nil_iff]
        intro e he hp
        have h1 := entries_prefix he
        have h2 : p <+: e.1 := List.isPrefixOf_iff_prefix.1 hp
        apply h
        unfold checkPrefix
        by_cases hl : x.1.length < p.length
        · rw [if_pos (by simp [hl])]
          exact List.isPrefixOf_iff_prefix.2 (List.prefix_of_prefix_length_le h1 h2 (by omega))
        · rw [if_neg (by simp [hl])]
          exact List.isPrefixOf_iff_prefix.2 (List.prefix_of_prefix_length_le h2 h1 (by omega))
      rw [this, List.nil_append]

/-- The children that are visited. -/
def below (k : List Nib) : Node → List Item
  | .ext k' n => [(k ++ k', n)]
  | .branch c _ => (alive c).map (fun i => (k ++ [i], c i))
  | _ => []

/-- The value found at a node. -/
def here (k : List Nib) : Node → Option (List Nib × Bytes)
  | .leaf k' v => some (k ++ k', v)
  | .branch _ v => v.map (fun w => (k, w))
  | _ => none

theorem due_all (p : List Nib) (L : List Item) (h : ∀ x ∈ L, p <+: x.1) :
    due p L = (L.map (fun x => entries x.1 x.2)).flatten := by
  unfold due
  congr 1
  apply List.map_congr_left
  intro x hx
  rw [List.filter_eq_self]
  intro e he
  exact List.isPrefixOf_iff_prefix.2 ((h x hx).trans (entries_prefix he))

theorem flatten_alive (c : Nib → Node) (f : Nib → List (List Nib × Bytes)) (h : ∀ i, c i = .nil → f i = []) :
    ((alive c).map f).flatten = (nibs16.map f).flatten := by
  unfold alive
  generalize nibs16 = l
  induction l with
  | nil => rfl
  | cons i l ih =>
    rw [List.filter_cons]
    cases hc : c i with
    | nil => simp [ih, h i hc]
    | _ => simp [ih]

theorem entries_eq (k : List Nib) (t : Node) :
    entries k t = (here k t).toList ++ ((below k t).map (fun x => entries x.1 x.2)).flatten := by
  cases t with
  | nil => rfl
  | hash _ => rfl
  | leaf _ _ => rfl
  | ext k' n => simp [entries, here, below]
  | branch c v =>
    simp only [entries, here, below, List.map_map]
    rw [show ((fun x : Item => entries x.1 x.2) ∘ fun i => (k ++ [i], c i))
      = fun i => entries (k ++ [i]) (c i) from rfl,
      flatten_alive c _ (fun i hi => by rw [hi]; rfl)]
    cases v <;> rfl

theorem sum_alive (c : Nib → Node) (f : Nib → Nat) (h : ∀ i, c i = .nil → f i = 0) :
    ((alive c).map f).sum = (nibs16.map f).sum := by
  unfold alive
  generalize nibs16 = l
  induction l with
  | nil => rfl
  | cons i l ih =>
    rw [List.filter_cons]
    cases hc : c i with
    | nil => simp [ih, h i hc]
    | _ => simp [ih]

/-- The number of nodes of a stack. -/
def weights (L : List Item) : Nat := (L.map (fun x => weight x.2)).sum

theorem weight_below (k : List Nib) {t : Node} (hc : Canon t) : weights (below k t) + 1 = weight t := by
  cases t with
  | nil => exact hc.elim
  | hash _ => exact hc.elim
  | leaf _ _ => rfl
  | ext k' n => simp [weights, below, weight]
  | branch c v =>
    simp only [weights, below, weight, List.map_map]
    rw [show ((fun x : Item => weight x.2) ∘ fun i => (k ++ [i], c i)) = fun i => weight (c i) from rfl,
      sum_alive c _ (fun i hi => by rw [hi]; rfl)]

theorem weights_filter (q : Item → Bool) (L : List Item) : weights (L.filter q) ≤ weights L := by
  induction L with
  | nil => exact le_refl _
  | cons x L ih =>
    rw [List.filter_cons]
    unfold weights at *
    split_ifs <;> simp <;> omega

theorem forall2_map {α : Type} (l : List α) (f g : α → Item) (R : Item → Item → Prop)
    (h : ∀ i ∈ l, R (f i) (g i)) : List.Forall₂ R (l.map f) (l.map g) := by
  induction l with
  | nil => exact List.Forall₂.nil
  | cons a l ih => exact List.Forall₂.cons (h a (by simp)) (ih (fun i hi => h i (by simp [hi])))

/-- Filtering by keys keeps the correspondence. -/
theorem forall2_filter {L st : List Item} (q : List Nib → Bool) (h : List.Forall₂ (Item1 H db) L st) :
    List.Forall₂ (Item1 H db) (L.filter (fun e => q e.1)) (st.filter (fun e => q e.1)) := by
  induction h with
  | nil => exact List.Forall₂.nil
  | @cons x y L st hxy _ ih =>
    rw [List.filter_cons, List.filter_cons, ← hxy.1]
    split_ifs
    · exact List.Forall₂.cons hxy ih
    · exact ih

theorem traverse_spec (k : List Nib) {t n : Node} (hc : Canon t) (hf : Fits (find t)) (hd : Den H db t n)
    (hn : ¬ IsHash n) : (traverse k n).1 = here k t ∧ List.Forall₂ (Item1 H db) (below k t) (traverse k n).2 := by
  cases t with
  | nil => exact hc.elim
  | hash _ => exact hc.elim
  | leaf k' v =>
    rw [den_leaf hd hn]
    exact ⟨rfl, List.Forall₂.nil⟩
  | ext k' t =>
    obtain ⟨m, rfl, hm⟩ := den_ext hd hn
    exact ⟨rfl, List.Forall₂.cons ⟨rfl, hc.2.2, fits_next hf, hm⟩ List.Forall₂.nil⟩
  | branch c v =>
    obtain ⟨d, rfl, hm⟩ := den_branch hd hn
    refine ⟨rfl, ?_⟩
    have e : (traverse k (.branch d v)).2 = (alive d).map (fun i => (k ++ [i], d i)) := rfl
    rw [e, alive_den hm]
    refine forall2_map _ _ _ _ (fun i hi => ⟨rfl, ?_, fits_child hf i, hm i⟩)
    rcases hc.1 i with h | h
    · exact absurd h ((mem_alive c i).1 hi)
    · exact h

theorem iterTraverse_spec (hH : Hash32 H) (p : List Nib) {x y : Item} (h : Item2 H db x y) :
    ∃ L l, iterTraverse db p y = .ok ((here x.1 x.2).filter (fun e => p.isPrefixOf e.1), l) ∧
      List.Forall₂ (Item2 H db) L l ∧ weights L + 1 ≤ weight x.2 ∧
      due p [x] = ((here x.1 x.2).filter (fun e => p.isPrefixOf e.1)).toList ++ due p L := by
  obtain ⟨⟨h1, h2, h3, h4⟩, h5⟩ := h
  obtain ⟨e1, e2⟩ := traverse_spec x.1 h2 h3 h4 h5
  have hw := weight_below x.1 h2
  have hdue : due p [x] = ((here x.1 x.2).filter (fun e => p.isPrefixOf e.1)).toList ++ due p (below x.1 x.2) := by
    have : due p [x] = (entries x.1 x.2).filter (fun e => p.isPrefixOf e.1) := by simp [due]
    rw [this, entries_eq, List.filter_append]
    congr 1
    · cases here x.1 x.2 with
      | none => rfl
      | some e =>
        simp only [List.filter_cons, Option.filter_some, List.filter_nil, Option.toList_some]
        split_ifs <;> rfl
    · rw [List.filter_flatten, List.map_map]
      rfl
  unfold iterTraverse
  rw [← h1]
  by_cases hp : p.length > 0 ∧ checkPrefix p x.1 false = false
  · rw [if_pos hp]
    obtain ⟨l, el, hl⟩ := appendItems_spec hH (forall2_filter (fun k => checkPrefix p k true) e2)
    refine ⟨_, l, ?_, hl, ?_, ?_⟩
    · simp only [el, e1]
      rfl
    · have := weights_filter (fun e => checkPrefix p e.1 true) (below x.1 x.2)
      omega
    · rw [due_filter]; exact hdue
  · rw [if_neg hp]
    obtain ⟨l, el, hl⟩ := appendItems_spec hH e2
    refine ⟨_, l, ?_, hl, by omega, hdue⟩
    simp only [el, e1]
    have hpx : p <+: x.1 := by
      by_cases hp0 : p.length > 0
      · have : ¬ checkPrefix p x.1 false = false := fun h => hp ⟨hp0, h⟩
        unfold checkPrefix at this
        simp only [Bool.false_and, Bool.false_eq_true, if_false, Bool.not_eq_false] at this
        exact List.isPrefixOf_iff_prefix.1 this
      · have : p = [] := by simpa using hp0
        rw [this]; exact List.nil_prefix
    congr 2
    cases hh : here x.1 x.2 with
    | none => rfl
    | some e =>
      have he : e ∈ entries x.1 x.2 := by rw [entries_eq, hh]; simp
      rw [Option.filter_some, if_pos (List.isPrefixOf_iff_prefix.2 (hpx.trans (entries_prefix he)))]

theorem iterate_spec (hH : Hash32 H) (p : List Nib) (fuel : Nat) : ∀ L st, List.Forall₂ (Item2 H db) L st →
    weights L ≤ fuel → iterate db p fuel st = .ok (due p L) := by
  induction fuel with
  | zero =>
    intro L st h hw
    cases h with
    | nil => rfl
    | @cons x y L st hxy _ =>
      exfalso
      have := weight_below x.1 hxy.1.2.1
      simp only [weights, List.map_cons, List.sum_cons] at hw this
      omega
  | succ fuel ih =>
    intro L st h hw
    cases h with
    | nil => rfl
    | @cons x y L st hxy hL =>
      obtain ⟨L', l, e1, e2, e3, e4⟩ := iterTraverse_spec hH p hxy
      have e5 := ih (L' ++ L) (l ++ st) (List.rel_append e2 hL) (by
        simp only [weights, List.map_cons, List.sum_cons, List.map_append, List.sum_append] at *
        omega)
      simp only [iterate, e1, e5]
      rw [show x :: L = [x] ++ L from rfl, due_append p [x] L, e4, due_append p L' L]
      cases (here x.1 x.2).filter (fun e => p.isPrefixOf e.1) <;> simp

theorem lex_nibs : ∀ a b : Bytes, List.Lex (· < ·) (bytesToNibs a) (bytesToNibs b) → List.Lex (· < ·) a b
  | [], [], h => by cases h
  | [], _ :: _, _ => List.Lex.nil
  | _ :: _, [], h => by cases h
  | x :: a, y :: b, h => by
    by_cases hxy : x = y
    · subst hxy
      refine List.Lex.cons (lex_nibs a b ?_)
      simp only [bytesToNibs, List.lex_cons_iff] at h
      exact h
    · refine List.Lex.rel ?_
      have hne : x.toNat ≠ y.toNat := fun h => hxy (UInt8.toNat_inj.1 h)
      have hx := x.toNat_lt
      have hy := y.toNat_lt
      show x.toNat < y.toNat
      simp only [bytesToNibs] at h
      generalize hA : (Fin.ofNat 16 (x.toNat / 16) : Nib) = A at h
      generalize hB : (Fin.ofNat 16 x.toNat : Nib) = B at h
      generalize hC : (Fin.ofNat 16 (y.toNat / 16) : Nib) = C at h
      generalize hD : (Fin.ofNat 16 y.toNat : Nib) = D at h
      have vA : A.val = x.toNat / 16 % 16 := by rw [← hA]; rfl
      have vB : B.val = x.toNat % 16 := by rw [← hB]; rfl
      have vC : C.val = y.toNat / 16 % 16 := by rw [← hC]; rfl
      have vD : D.val = y.toNat % 16 := by rw [← hD]; rfl
      cases h with
      | rel h => have : A.val < C.val := h; omega
      | cons h =>
        cases h with
        | rel h => have : B.val < D.val := h; omega
        | cons h => omega

end Verif.Trie
