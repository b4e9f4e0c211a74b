import Verif.Trie.Flush

/-!
# The hash determines the trie
-/

namespace Verif.Trie
open Verif

variable {H : Bytes → Bytes}

/-- Two different strings with the same hash, one in each list of entries. -/
def Coll (H : Bytes → Bytes) (l l' : List (Bytes × Bytes)) : Prop :=
  ∃ x ∈ l, ∃ y ∈ l', x.2 ≠ y.2 ∧ H x.2 = H y.2

theorem Coll.mono {l l' m m' : List (Bytes × Bytes)} (h : Coll H l l') (h1 : l ⊆ m) (h2 : l' ⊆ m') :
    Coll H m m' := by
  obtain ⟨x, hx, y, hy, h⟩ := h
  exact ⟨x, h1 hx, y, h2 hy, h⟩

theorem writes_self {t : Node} (h : Canon t) (root : Bool) (hr : (ser H t).length > 32 ∨ root = true) :
    (H (ser H t), ser H t) ∈ writes H root t := by
  cases t with
  | nil => exact h.elim
  | hash _ => exact h.elim
  | leaf k v => simp only [writes]; rw [if_pos hr]; simp
  | ext k n => simp only [writes]; rw [if_pos hr]; simp
  | branch c v => simp only [writes]; rw [if_pos hr]; simp

theorem writes_ext (root : Bool) (k : List Nib) (n : Node) : writes H false n ⊆ writes H root (.ext k n) := by
  simp only [writes]; exact List.subset_append_left _ _

theorem writes_branch (root : Bool) (c : Nib → Node) (v : Option Bytes) (i : Nib) :
    writes H false (c i) ⊆ writes H root (.branch c v) := by
  simp only [writes]
  intro e he
  exact List.mem_append_left _ (List.mem_flatten.2 ⟨_, List.mem_map.2 ⟨i, List.mem_finRange i, rfl⟩, he⟩)

theorem shallow_nil {t : Node} (h : Canon t) : shallow H t ≠ .nil := by
  cases t <;> first | exact h.elim | simp [shallow]

theorem ser_inj_step (hH : Hash32 H) {t t' : Node} (hc : Canon t) (hc' : Canon t') (hb : Bounded t)
    (hb' : Bounded t') (h : ser H t = ser H t') : shallow H t = shallow H t' := by
  have e1 := deser_ser H hH t hb (canon_not_nil hc) (canon_not_hash hc) _ (le_refl _)
  have e2 := deser_ser H hH t' hb' (canon_not_nil hc') (canon_not_hash hc') _ (le_refl _)
  rw [h, e2] at e1
  injection e1 with e1
  exact e1.symm

theorem stub_of {t : Node} (h : Canon t) : stub H t (ser H t) (shallow H t)
    = if (ser H t).length > 32 then .hash (H (ser H t)) else shallow H t := by
  cases t <;> first | exact h.elim | rfl

/-- Two tries of which one node looks the same. -/
theorem shallow_inj (hH : Hash32 H) (t : Node) : ∀ t' r r', Canon t → Canon t' → Bounded t → Bounded t' →
    shallow H t = shallow H t' → t = t' ∨ Coll H (writes H r t) (writes H r' t') := by
  have link : ∀ t t' : Node, (∀ r r', Canon t → Canon t' → Bounded t → Bounded t' →
      shallow H t = shallow H t' → t = t' ∨ Coll H (writes H r t) (writes H r' t')) →
      Canon0 t → Canon0 t' → Bounded t → Bounded t' →
      stub H t (ser H t) (shallow H t) = stub H t' (ser H t') (shallow H t') →
      t = t' ∨ Coll H (writes H false t) (writes H false t') := by
    intro t t' ih hc hc' hb hb' h
    rcases hc with rfl | hc <;> rcases hc' with rfl | hc'
    · exact Or.inl rfl
    · exfalso
      rw [stub_of hc'] at h
      simp only [stub] at h
      split_ifs at h
      exact shallow_nil hc' h.symm
    · exfalso
      rw [stub_of hc] at h
      simp only [stub] at h
      split_ifs at h
      exact shallow_nil hc h
    · rw [stub_of hc, stub_of hc'] at h
      split_ifs at h with h1 h2 h2
      · injection h with h
        by_cases he : ser H t = ser H t'
        · exact ih false false hc hc' hb hb' (ser_inj_step hH hc hc' hb hb' he)
        · exact Or.inr ⟨_, writes_self hc false (Or.inl h1), _, writes_self hc' false (Or.inl h2), he, h⟩
      · exact absurd (by rw [← h]; trivial) (shallow_not_hash (H := H) t' (canon_not_hash hc'))
      · exact absurd (by rw [h]; trivial) (shallow_not_hash (H := H) t (canon_not_hash hc))
      · exact ih false false hc hc' hb hb' h
  induction t with
  | nil => intro t' _ _ hc; exact hc.elim
  | hash _ => intro t' _ _ hc; exact hc.elim
  | leaf k v =>
    intro t' _ _ hc hc' hb hb' h
    left
    cases t' <;> first | exact hc'.elim | (simp only [shallow] at h; first | exact h | cases h)
  | ext k n ih =>
    intro t' r r' hc hc' hb hb' h
    cases t' with
    | nil => exact hc'.elim
    | hash _ => exact hc'.elim
    | leaf _ _ => simp only [shallow] at h; cases h
    | branch _ _ => simp only [shallow] at h; cases h
    | ext k' n' =>
      simp only [shallow, Node.ext.injEq] at h
      obtain ⟨rfl, h⟩ := h
      rcases link n n' (ih n') (Or.inr hc.2.2) (Or.inr hc'.2.2) hb.2 hb'.2 h with h | h
      · left; rw [h]
      · exact Or.inr (h.mono (writes_ext r k n) (writes_ext r' k n'))
  | branch c v ih =>
    intro t' r r' hc hc' hb hb' h
    cases t' with
    | nil => exact hc'.elim
    | hash _ => exact hc'.elim
    | leaf _ _ => simp only [shallow] at h; cases h
    | ext _ _ => simp only [shallow] at h; cases h
    | branch c' v' =>
      simp only [shallow, Node.branch.injEq] at h
      obtain ⟨h, rfl⟩ := h
      by_cases hcol : ∃ i, Coll H (writes H false (c i)) (writes H false (c' i))
      · obtain ⟨i, hi⟩ := hcol
        exact Or.inr (hi.mono (writes_branch r c v i) (writes_branch r' c' v i))
      · left
        congr 1
        funext i
        rcases link (c i) (c' i) (ih i (c' i)) (hc.1 i) (hc'.1 i) (hb.1 i) (hb'.1 i) (congrFun h i) with h | h
        · exact h
        · exact absurd ⟨i, h⟩ hcol

theorem rootHash_canon {t : Node} (h : Canon t) : rootHash H t = some (H (ser H t)) := by
  cases t <;> first | exact h.elim | rfl

/-- Equal root hashes. -/
theorem root_inj (hH : Hash32 H) {t t' : Node} (hc : Canon0 t) (hc' : Canon0 t')
    (hb : Bounded t) (hb' : Bounded t') (h : rootHash H t = rootHash H t') :
    t = t' ∨ Coll H (writes H true t) (writes H true t') := by
  rcases hc with rfl | hc <;> rcases hc' with rfl | hc'
  · exact Or.inl rfl
  · rw [rootHash_canon hc'] at h; cases h
  · rw [rootHash_canon hc] at h; cases h
  · rw [rootHash_canon hc, rootHash_canon hc'] at h
    injection h with h
    by_cases he : ser H t = ser H t'
    · exact shallow_inj hH t t' _ _ hc hc' hb hb' (ser_inj_step hH hc hc' hb hb' he)
    · exact Or.inr ⟨_, writes_self hc true (Or.inr rfl), _, writes_self hc' true (Or.inr rfl), he, h⟩

end Verif.Trie
