import Verif.Trie.Spec

/-!
# Keys, content and normal forms
-/

namespace Verif.Trie
open Verif

/-! ## compareKeys -/

theorem compareKeys_spec (a b : List Nib) :
    ∃ p a' b', a = p ++ a' ∧ b = p ++ b' ∧ (compareKeys a b).1 = p.length ∧
      (a' = [] ∨ b' = [] ∨ a'.head? ≠ b'.head?) ∧
      ((compareKeys a b).2 = true ↔ a' = [] ∧ b' = []) := by
  induction a generalizing b with
  | nil =>
    cases b with
    | nil => exact ⟨[], [], [], rfl, rfl, rfl, Or.inl rfl, by simp [compareKeys]⟩
    | cons y b => exact ⟨[], [], y :: b, rfl, rfl, rfl, Or.inl rfl, by simp [compareKeys]⟩
  | cons x a ih =>
    cases b with
    | nil => exact ⟨[], x :: a, [], rfl, rfl, rfl, Or.inr (Or.inl rfl), by simp [compareKeys]⟩
    | cons y b =>
      by_cases h : x = y
      · subst h
        obtain ⟨p, a', b', h1, h2, h3, h4, h5⟩ := ih b
        refine ⟨x :: p, a', b', by rw [h1]; rfl, by rw [h2]; rfl, ?_, h4, ?_⟩
        · simp [compareKeys, h3]
        · simp [compareKeys, h5]
      · refine ⟨[], x :: a, y :: b, rfl, rfl, ?_, Or.inr (Or.inr (by simpa using h)), ?_⟩
        · simp [compareKeys, h]
        · simp [compareKeys, h]

theorem compareKeys_match (a b : List Nib) : (compareKeys a b).2 = true ↔ a = b := by
  obtain ⟨p, a', b', rfl, rfl, h3, h4, h5⟩ := compareKeys_spec a b
  rw [h5]
  constructor
  · rintro ⟨rfl, rfl⟩; rfl
  · intro h
    have := List.append_cancel_left h
    subst this
    rcases h4 with h | h | h
    · exact ⟨h, h⟩
    · exact ⟨h, h⟩
    · exact absurd rfl h

theorem compareKeys_lt (a k : List Nib) : (compareKeys a k).1 < k.length ↔ ¬ k <+: a := by
  obtain ⟨p, a', b', rfl, rfl, h3, h4, h5⟩ := compareKeys_spec a k
  rw [h3]
  constructor
  · intro hl hp
    simp only [List.length_append] at hl
    rw [List.prefix_append_right_inj] at hp
    rcases h4 with h | h | h
    · subst h
      have := hp.length_le
      simp only [List.length_nil] at this
      omega
    · subst h; simp at hl
    · cases b' with
      | nil => simp at hl
      | cons y b' =>
        obtain ⟨s, hs⟩ := hp
        rw [← hs] at h
        simp at h
  · intro hp
    cases b' with
    | nil => exact absurd (by simp) hp
    | cons y b' => simp

theorem compareKeys_prefix (a k : List Nib) (h : k <+: a) : (compareKeys a k).1 = k.length := by
  have h1 : ¬ (compareKeys a k).1 < k.length := by rw [compareKeys_lt]; exact fun h' => h' h
  obtain ⟨p, a', b', rfl, rfl, h3, _, _⟩ := compareKeys_spec a k
  rw [h3] at h1 ⊢
  simp only [List.length_append] at *
  omega

theorem compareKeys_comm (a b : List Nib) : compareKeys a b = compareKeys b a := by
  induction a generalizing b with
  | nil => cases b <;> rfl
  | cons x a ih =>
    cases b with
    | nil => rfl
    | cons y b =>
      simp only [compareKeys, ih b]
      by_cases h : x = y
      · subst h; simp
      · rw [if_neg h, if_neg (fun e => h e.symm)]

/-! ## alive -/

theorem mem_alive (c : Nib → Node) (i : Nib) : i ∈ alive c ↔ c i ≠ .nil := by
  unfold alive nibs16
  rw [List.mem_filter]
  constructor
  · rintro ⟨_, h⟩ e
    rw [e] at h; cases h
  · intro h
    refine ⟨List.mem_finRange i, ?_⟩
    cases hc : c i <;> first | rfl | exact absurd hc h

theorem alive_nodup (c : Nib → Node) : (alive c).Nodup := (List.nodup_finRange 16).filter _

theorem put_self (c : Nib → Node) (i : Nib) : put c i (c i) = c := by
  funext j
  unfold put
  split
  · rename_i h; rw [h]
  · rfl

@[simp] theorem put_eq (c : Nib → Node) (i : Nib) (n : Node) : put c i n i = n := by simp [put]

theorem put_ne (c : Nib → Node) (i j : Nib) (n : Node) (h : j ≠ i) : put c i n j = c j := by
  simp [put, h]

/-! ## Content of canonical tries -/

theorem canon_find (t : Node) : Canon t → ∃ q v, find t q = some v := by
  induction t with
  | nil => intro h; exact h.elim
  | hash _ => intro h; exact h.elim
  | leaf k v => intro _; exact ⟨k, v, by simp [find]⟩
  | ext k n ih =>
    intro h
    obtain ⟨q, v, hq⟩ := ih h.2.2
    exact ⟨k ++ q, v, by simp [find, hq]⟩
  | branch c v ih =>
    intro h
    obtain ⟨h1, h2⟩ := h
    cases v with
    | some w => exact ⟨[], w, rfl⟩
    | none =>
      simp only [Option.isSome_none, Bool.false_eq_true, if_false, Nat.add_zero] at h2
      obtain ⟨i, hi⟩ := List.exists_mem_of_length_pos (by omega : 0 < (alive c).length)
      rw [mem_alive] at hi
      obtain ⟨q, w, hq⟩ := ih i ((h1 i).resolve_left hi)
      exact ⟨i :: q, w, hq⟩

/-- A canonical branch holds two keys with nothing in common. -/
theorem branch_div (c : Nib → Node) (v : Option Bytes) (h : Canon (.branch c v)) :
    ∃ q1 v1 q2 v2, find (.branch c v) q1 = some v1 ∧ find (.branch c v) q2 = some v2 ∧ q1 ≠ q2 ∧
      ∀ p, p <+: q1 → p <+: q2 → p = [] := by
  obtain ⟨h1, h2⟩ := h
  have ex : ∀ i ∈ alive c, ∃ q w, find (.branch c v) (i :: q) = some w := by
    intro i hi
    rw [mem_alive] at hi
    obtain ⟨q, w, hq⟩ := canon_find _ ((h1 i).resolve_left hi)
    exact ⟨q, w, hq⟩
  cases v with
  | some x =>
    simp only [Option.isSome_some, if_true] at h2
    obtain ⟨i, hi⟩ := List.exists_mem_of_length_pos (by omega : 0 < (alive c).length)
    obtain ⟨q, w, hq⟩ := ex i hi
    refine ⟨[], x, i :: q, w, rfl, hq, by simp, ?_⟩
    intro p hp _
    simpa using hp
  | none =>
    simp only [Option.isSome_none, Bool.false_eq_true, if_false, Nat.add_zero] at h2
    have hn := alive_nodup c
    match ha : alive c, h2, hn with
    | i :: j :: r, _, hn =>
      obtain ⟨q, w, hq⟩ := ex i (by rw [ha]; simp)
      obtain ⟨q', w', hq'⟩ := ex j (by rw [ha]; simp)
      have hij : i ≠ j := by
        intro e; subst e; simp at hn
      refine ⟨i :: q, w, j :: q', w', hq, hq', by simp [hij], ?_⟩
      intro p hp hp'
      cases p with
      | nil => rfl
      | cons x p =>
        simp only [List.cons_prefix_cons] at hp hp'
        exact absurd (hp.1.symm.trans hp'.1) hij
    | [], h2, _ => simp at h2
    | [_], h2, _ => simp at h2

theorem canon_find0 (t : Node) (h : Canon0 t) (hn : ∀ q, find t q = none) : t = .nil := by
  rcases h with h | h
  · exact h
  · obtain ⟨q, v, hq⟩ := canon_find t h
    rw [hn] at hq; cases hq

/-- A canonical trie is determined by what it holds. -/
theorem canon_unique (t : Node) : ∀ u, Canon t → Canon u → (∀ q, find t q = find u q) → t = u := by
  induction t with
  | nil => intro _ h; exact h.elim
  | hash _ => intro _ h; exact h.elim
  | leaf k v =>
    intro u _ hu he
    have single : ∀ q w, find u q = some w → q = k := by
      intro q w hq
      rw [← he] at hq
      simp only [find] at hq
      by_contra hne
      rw [if_neg hne] at hq; cases hq
    cases u with
    | nil => exact hu.elim
    | hash _ => exact hu.elim
    | leaf k' v' =>
      have h1 := he k
      simp only [find, if_true] at h1
      by_cases hk : k = k'
      · subst hk
        simp only [if_true, Option.some.injEq] at h1
        rw [h1]
      · rw [if_neg hk] at h1; cases h1
    | ext k' n =>
      obtain ⟨_, hb, hc⟩ := hu
      cases n with
      | branch c w =>
        obtain ⟨q1, v1, q2, v2, h1, h2, hne, _⟩ := branch_div c w hc
        have e1 := single (k' ++ q1) v1 (by rw [find]; simpa using h1)
        have e2 := single (k' ++ q2) v2 (by rw [find]; simpa using h2)
        exact absurd (List.append_cancel_left (e1.trans e2.symm)) hne
      | _ => exact hb.elim
    | branch c w =>
      obtain ⟨q1, v1, q2, v2, h1, h2, hne, _⟩ := branch_div c w hu
      exact absurd ((single _ _ h1).trans (single _ _ h2).symm) hne
  | ext k n ih =>
    intro u ht hu he
    obtain ⟨hk, hb, hc⟩ := ht
    cases n with
    | branch c w =>
      obtain ⟨q1, v1, q2, v2, h1, h2, hne, hd⟩ := branch_div c w hc
      have g1 : find u (k ++ q1) = some v1 := by rw [← he, find]; simpa using h1
      have g2 : find u (k ++ q2) = some v2 := by rw [← he, find]; simpa using h2
      cases u with
      | nil => exact hu.elim
      | hash _ => exact hu.elim
      | leaf k' v' =>
        simp only [find] at g1 g2
        have e1 : k ++ q1 = k' := by by_contra hh; rw [if_neg hh] at g1; cases g1
        have e2 : k ++ q2 = k' := by by_contra hh; rw [if_neg hh] at g2; cases g2
        exact absurd (List.append_cancel_left (e1.trans e2.symm)) hne
      | ext k' n' =>
        obtain ⟨hk', hb', hc'⟩ := hu
        have p1 : k' <+: k ++ q1 := by
          by_contra hh; rw [find, if_neg hh] at g1; cases g1
        have p2 : k' <+: k ++ q2 := by
          by_contra hh; rw [find, if_neg hh] at g2; cases g2
        have le1 : k' <+: k := by
          rcases Nat.le_total k'.length k.length with hl | hl
          · exact List.prefix_of_prefix_length_le p1 (List.prefix_append k q1) hl
          · obtain ⟨s, rfl⟩ := List.prefix_of_prefix_length_le (List.prefix_append k q1) p1 hl
            rw [List.prefix_append_right_inj] at p1 p2
            have := hd s p1 p2
            subst this
            simp
        cases n' with
        | branch c' w' =>
          obtain ⟨q1', v1', q2', v2', h1', h2', _, hd'⟩ := branch_div c' w' hc'
          have g1' : find (.ext k (.branch c w)) (k' ++ q1') = some v1' := by
            rw [he, find]; simpa using h1'
          have g2' : find (.ext k (.branch c w)) (k' ++ q2') = some v2' := by
            rw [he, find]; simpa using h2'
          have p1' : k <+: k' ++ q1' := by
            by_contra hh; rw [find, if_neg hh] at g1'; cases g1'
          have p2' : k <+: k' ++ q2' := by
            by_contra hh; rw [find, if_neg hh] at g2'; cases g2'
          obtain ⟨s, rfl⟩ := le1
          rw [List.prefix_append_right_inj] at p1' p2'
          have := hd' s p1' p2'
          subst this
          rw [List.append_nil] at *
          rw [ih _ hc hc' (fun q => ?_)]
          have := he (k' ++ q)
          rw [find, find] at this
          simpa using this
        | _ => exact hb'.elim
      | branch c' w' =>
        obtain ⟨q1', v1', q2', v2', h1', h2', _, hd'⟩ := branch_div c' w' hu
        have p1' : k <+: q1' := by
          by_contra hh; rw [← he, find, if_neg hh] at h1'; cases h1'
        have p2' : k <+: q2' := by
          by_contra hh; rw [← he, find, if_neg hh] at h2'; cases h2'
        exact absurd (hd' k p1' p2') hk
    | _ => exact hb.elim
  | branch c v ih =>
    intro u ht hu he
    obtain ⟨q1, v1, q2, v2, h1, h2, hne, hd⟩ := branch_div c v ht
    rw [he] at h1 h2
    cases u with
    | nil => exact hu.elim
    | hash _ => exact hu.elim
    | leaf k' v' =>
      simp only [find] at h1 h2
      have e1 : q1 = k' := by by_contra hh; rw [if_neg hh] at h1; cases h1
      have e2 : q2 = k' := by by_contra hh; rw [if_neg hh] at h2; cases h2
      exact absurd (e1.trans e2.symm) hne
    | ext k' n' =>
      have p1' : k' <+: q1 := by
        by_contra hh; rw [find, if_neg hh] at h1; cases h1
      have p2' : k' <+: q2 := by
        by_contra hh; rw [find, if_neg hh] at h2; cases h2
      exact absurd (hd k' p1' p2') hu.1
    | branch c' v' =>
      have hv := he []
      simp only [find] at hv
      subst hv
      congr 1
      funext i
      have hi : ∀ q, find (c i) q = find (c' i) q := fun q => he (i :: q)
      rcases ht.1 i with h0 | h0
      · rw [h0] at hi ⊢
        exact (canon_find0 _ (hu.1 i) (fun q => (hi q).symm)).symm
      · rcases hu.1 i with h0' | h0'
        · rw [h0'] at hi ⊢
          exact canon_find0 _ (ht.1 i) hi
        · exact ih i _ h0 h0' hi

theorem canon0_unique (t u : Node) (ht : Canon0 t) (hu : Canon0 u) (he : ∀ q, find t q = find u q) :
    t = u := by
  rcases ht with rfl | ht
  · exact (canon_find0 u hu (fun q => (he q).symm)).symm
  · rcases hu with rfl | hu
    · exact canon_find0 t (Or.inr ht) he
    · exact canon_unique t u ht hu he

end Verif.Trie
