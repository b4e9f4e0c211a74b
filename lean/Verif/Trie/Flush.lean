import Verif.Trie.Del

/-!
# Writing to the database
-/

namespace Verif.Trie
open Verif

variable {H : Bytes → Bytes} {db db' : DB}

/-- Everything in `db` is in `db'`. -/
def Keeps (db db' : DB) : Prop := ∀ h s, db h = some s → db' h = some s

theorem Keeps.refl (db : DB) : Keeps db db := fun _ _ h => h

theorem Keeps.trans {a b c : DB} (h : Keeps a b) (g : Keeps b c) : Keeps a c :=
  fun _ _ e => g _ _ (h _ _ e)

theorem stored_mono (hk : Keeps db db') (t : Node) : Stored H db t → Stored H db' t := by
  induction t with
  | nil => exact id
  | hash _ => exact id
  | leaf _ _ => exact id
  | ext k n ih => exact fun h => ⟨fun hl => hk _ _ (h.1 hl), ih h.2⟩
  | branch c v ih => exact fun h i => ⟨fun hl => hk _ _ ((h i).1 hl), ih i (h i).2⟩

theorem known_mono (hk : Keeps db db') {t n : Node} (h : Known H db t n) : Known H db' t n :=
  ⟨h.1, hk _ _ h.2.1, stored_mono hk _ h.2.2⟩

theorem den_mono (hk : Keeps db db') (t : Node) : ∀ n, Den H db t n → Den H db' t n := by
  induction t with
  | nil => exact fun _ h => h
  | hash _ => exact fun _ h => h
  | leaf k v => exact fun n h => h.imp id (fun h => ⟨h.1, known_mono hk h.2⟩)
  | ext k t ih =>
    intro n h
    rcases h with ⟨m, h1, h2⟩ | h
    · exact Or.inl ⟨m, h1, ih m h2⟩
    · exact Or.inr ⟨h.1, known_mono hk h.2⟩
  | branch c v ih =>
    intro n h
    rcases h with ⟨m, h1, h2⟩ | h
    · exact Or.inl ⟨m, h1, fun i => ih i _ (h2 i)⟩
    · exact Or.inr ⟨h.1, known_mono hk h.2⟩

theorem root_mono (hk : Keeps db db') {t n : Node} (h : Root H db t n) : Root H db' t n :=
  h.imp (den_mono hk t n) (fun h => ⟨h.1, known_mono hk h.2⟩)

/-- Some write in the list puts something else under a key already used. -/
def Clash (db : DB) : List (Bytes × Bytes) → Prop
  | [] => False
  | e :: l => (∃ s, db e.1 = some s ∧ s ≠ e.2) ∨ Clash (dbSet db e) l

theorem noClash_spec (l : List (Bytes × Bytes)) : ∀ db : DB, ¬ Clash db l →
    Keeps db (dbSets db l) ∧ ∀ e ∈ l, dbSets db l e.1 = some e.2 := by
  induction l with
  | nil => exact fun db _ => ⟨Keeps.refl db, fun e he => by cases he⟩
  | cons e l ih =>
    intro db h
    simp only [Clash, not_or, not_exists, not_and, not_not] at h
    obtain ⟨i1, i2⟩ := ih _ h.2
    have k1 : Keeps db (dbSet db e) := by
      intro x s hx
      unfold dbSet
      by_cases hxe : x = e.1
      · rw [if_pos hxe]; subst hxe; rw [h.1 s hx]
      · rw [if_neg hxe]; exact hx
    refine ⟨k1.trans i1, ?_⟩
    intro x hx
    rcases List.mem_cons.1 hx with rfl | hx
    · exact i1 _ _ (by simp [dbSet])
    · exact i2 x hx

theorem clash_take (l : List (Bytes × Bytes)) (n : Nat) : ∀ db : DB, Clash db (l.take n) → Clash db l := by
  induction l generalizing n with
  | nil => intro db h; simpa using h
  | cons e l ih =>
    intro db h
    cases n with
    | zero => exact h.elim
    | succ n => exact h.imp id (ih n _)

/-- What a flush of `n`, which stands for `t`, leaves in the database. -/
theorem flush_den (hk : Keeps db db') (t : Node) : ∀ n root, Canon0 t →
    (Den H db t n ∨ (root = true ∧ Known H db t n)) →
    (∀ e ∈ writes H root n, db' e.1 = some e.2) →
    Stored H db' t ∧ (((ser H t).length > 32 ∨ root = true) → t ≠ .nil →
      db' (H (ser H t)) = some (ser H t)) := by
  have hashCase : ∀ t n root, (Den H db t n ∨ (root = true ∧ Known H db t n)) → IsHash n →
      Stored H db' t ∧ (((ser H t).length > 32 ∨ root = true) → t ≠ .nil →
      db' (H (ser H t)) = some (ser H t)) := by
    intro t n root h hn
    have : Known H db t n := by
      rcases h with h | h
      · exact (den_hash h hn).2
      · exact h.2
    exact ⟨stored_mono hk t this.2.2, fun _ _ => hk _ _ this.2.1⟩
  induction t with
  | nil => intro n root _ _ _; exact ⟨trivial, fun _ h => absurd rfl h⟩
  | hash _ => intro n root h; rcases h with h | h <;> cases h
  | leaf k v =>
    intro n root hc h hw
    by_cases hn : IsHash n
    · exact hashCase _ n root h hn
    · have h : Den H db _ n := h.resolve_right (fun h => hn (known_isHash h.2))
      have := den_leaf h hn
      subst this
      refine ⟨trivial, fun hl _ => ?_⟩
      exact hw (H (ser H (.leaf k v)), ser H (.leaf k v)) (by simp only [writes]; rw [if_pos hl]; simp)
  | ext k t ih =>
    intro n root hc h hw
    have hc' : Canon t := by rcases hc with hc | hc; · cases hc
                             · exact hc.2.2
    by_cases hn : IsHash n
    · exact hashCase _ n root h hn
    · have h : Den H db _ n := h.resolve_right (fun h => hn (known_isHash h.2))
      have hs := (den_ser _ _ h).2 hn
      obtain ⟨m, rfl, hd⟩ := den_ext h hn
      have i := ih m false (Or.inr hc') (Or.inl hd) (fun e he => hw e (by simp only [writes]; exact List.mem_append_left _ he))
      refine ⟨⟨fun hl => i.2 (Or.inl hl) (canon_not_nil hc'), i.1⟩, fun hl _ => ?_⟩
      rw [← hs] at hl ⊢
      exact hw (H (ser H (.ext k m)), ser H (.ext k m)) (by simp only [writes]; rw [if_pos hl]; simp)
  | branch c v ih =>
    intro n root hc h hw
    have hc' : ∀ i, Canon0 (c i) := by rcases hc with hc | hc; · cases hc
                                       · exact hc.1
    by_cases hn : IsHash n
    · exact hashCase _ n root h hn
    · have h : Den H db _ n := h.resolve_right (fun h => hn (known_isHash h.2))
      have hs := (den_ser _ _ h).2 hn
      obtain ⟨d, rfl, hd⟩ := den_branch h hn
      refine ⟨fun j => ?_, fun hl _ => ?_⟩
      · have i := ih j (d j) false (hc' j) (Or.inl (hd j)) (fun e he => hw e (by
          simp only [writes]
          refine List.mem_append_left _ (List.mem_flatten.2 ⟨_, List.mem_map.2 ⟨j, List.mem_finRange j, rfl⟩, he⟩)))
        refine ⟨fun hl => i.2 (Or.inl hl) ?_, i.1⟩
        intro h0
        rw [h0] at hl
        simp [ser] at hl
      · rw [← hs] at hl ⊢
        exact hw (H (ser H (.branch d v)), ser H (.branch d v)) (by simp only [writes]; rw [if_pos hl]; simp)

theorem newMPT_hash (hH : Hash32 H) (x : Bytes) : newMPT (H x) = .hash (H x) := by
  unfold newMPT
  rw [if_neg (by rw [hH]; decide)]

/-- After a flush the trie can be opened by its root hash. -/
theorem flush_root (hH : Hash32 H) {t n : Node} (hc : Canon0 t) (h : Root H db t n)
    (hw : ¬ Clash db (writes H true n)) :
    Root H (Flush H db n) t n ∧ Root H (Flush H db n) t (newMPT ((rootHash H n).getD [])) := by
  obtain ⟨k1, k2⟩ := noClash_spec _ db hw
  refine ⟨root_mono k1 h, ?_⟩
  rw [rootHash_den hc h]
  rcases hc with rfl | hc
  · exact Or.inl rfl
  · have := flush_den (db' := Flush H db n) k1 t n true (Or.inr hc) (h.imp id (fun h => ⟨rfl, h.2⟩)) k2
    right
    refine ⟨canon_not_nil hc, ?_, this.2 (Or.inr rfl) (canon_not_nil hc), this.1⟩
    have e : rootHash H t = some (H (ser H t)) := by
      cases t <;> first | exact hc.elim | rfl
    rw [e, Option.getD_some, newMPT_hash hH]

/-! ## Interrupted writes -/

/-- The entry is a node whose whole trie is in the database. -/
def Whole (H : Bytes → Bytes) (db : DB) (e : Bytes × Bytes) : Prop :=
  ∃ t, Canon t ∧ Fits (find t) ∧ e = (H (ser H t), ser H t) ∧ Stored H db t

/-- Each entry is whole when those before it are in the database. -/
def Ordered (H : Bytes → Bytes) (db : DB) (l : List (Bytes × Bytes)) : Prop :=
  ∀ a e b, l = a ++ e :: b → ∀ db', Keeps db db' → (∀ x ∈ a, db' x.1 = some x.2) → Whole H db' e

theorem ordered_nil : Ordered H db [] := by
  intro a e b h; simp at h

theorem ordered_append {l l' : List (Bytes × Bytes)} (h : Ordered H db l) (h' : Ordered H db l') :
    Ordered H db (l ++ l') := by
  intro a e b he db' hk hx
  rcases List.append_eq_append_iff.1 he with ⟨r, h1, h2⟩ | ⟨r, h1, h2⟩
  · exact h' r e b h2 db' hk (fun x hm => hx x (by rw [h1]; exact List.mem_append_right _ hm))
  · cases r with
    | nil =>
      simp only [List.append_nil, List.nil_append] at h1 h2
      exact h' [] e b h2.symm db' hk (fun x hm => by cases hm)
    | cons y r =>
      simp only [List.cons_append, List.cons.injEq] at h2
      obtain ⟨rfl, h2⟩ := h2
      exact h a e r h1 db' hk hx

theorem ordered_flatten (L : List (List (Bytes × Bytes))) (h : ∀ l ∈ L, Ordered H db l) :
    Ordered H db L.flatten := by
  induction L with
  | nil => exact ordered_nil
  | cons l L ih =>
    rw [List.flatten_cons]
    exact ordered_append (h l (by simp)) (ih (fun l hl => h l (by simp [hl])))

theorem ordered_last {l : List (Bytes × Bytes)} {e : Bytes × Bytes} {p : Prop} [Decidable p]
    (h : Ordered H db l)
    (he : p → ∀ db', Keeps db db' → (∀ x ∈ l, db' x.1 = some x.2) → Whole H db' e) :
    Ordered H db (l ++ if p then [e] else []) := by
  by_cases hp : p
  · rw [if_pos hp]
    intro a x b heq db' hk hx
    rcases List.eq_nil_or_concat b with rfl | ⟨b', y, rfl⟩
    · have := List.append_inj' heq rfl
      obtain ⟨rfl, h2⟩ := this
      simp only [List.cons.injEq, and_true] at h2
      subst h2
      exact he hp db' hk hx
    · rw [List.concat_eq_append, ← List.cons_append, ← List.append_assoc] at heq
      exact h a x b' (List.append_inj' heq rfl).1 db' hk hx
  · rw [if_neg hp, List.append_nil]; exact h

/-- Nodes are written after everything below them. -/
theorem writes_ordered (t : Node) : ∀ n root, Canon0 t → Fits (find t) →
    (Den H db t n ∨ (root = true ∧ Known H db t n)) → Ordered H db (writes H root n) := by
  have self : ∀ t n root, Canon t → Fits (find t) → Den H db t n → ¬ IsHash n → ∀ l,
      writes H root n = l ++ (if (ser H n).length > 32 ∨ root then [(H (ser H n), ser H n)] else []) →
      Ordered H db l → Ordered H db (writes H root n) := by
    intro t n root hc hb h hn l hw hl
    rw [hw]
    refine ordered_last hl (fun hp db' hk hx => ⟨t, hc, hb, by rw [(den_ser _ _ h).2 hn], ?_⟩)
    cases t with
    | nil => exact hc.elim
    | hash _ => exact hc.elim
    | leaf k v => trivial
    | ext k t =>
      obtain ⟨m, rfl, hd⟩ := den_ext h hn
      have e : l = writes H false m := by
        simp only [writes] at hw
        exact (List.append_cancel_right hw).symm
      subst e
      have := flush_den hk t m false (Or.inr hc.2.2) (Or.inl hd) hx
      exact ⟨fun hl => this.2 (Or.inl hl) (canon_not_nil hc.2.2), this.1⟩
    | branch c v =>
      obtain ⟨d, rfl, hd⟩ := den_branch h hn
      have e : l = (nibs16.map (fun i => writes H false (d i))).flatten := by
        simp only [writes] at hw
        exact (List.append_cancel_right hw).symm
      subst e
      intro j
      have i := flush_den hk (c j) (d j) false (hc.1 j) (Or.inl (hd j)) (fun e he => hx e
        (List.mem_flatten.2 ⟨_, List.mem_map.2 ⟨j, List.mem_finRange j, rfl⟩, he⟩))
      refine ⟨fun hl => i.2 (Or.inl hl) ?_, i.1⟩
      intro h0
      rw [h0] at hl
      simp [ser] at hl
  have hashCase : ∀ n root, IsHash n → Ordered H db (writes H root n) := by
    intro n root hn
    cases n <;> first | exact hn.elim | exact ordered_nil
  induction t with
  | nil =>
    intro n root _ _ h
    rcases h with h | h
    · simp only [Den] at h; subst h; exact ordered_nil
    · exact hashCase n root (known_isHash h.2)
  | hash _ => intro n root h; rcases h with h | h <;> cases h
  | leaf k v =>
    intro n root hc hb h
    by_cases hn : IsHash n
    · exact hashCase n root hn
    · have h : Den H db _ n := h.resolve_right (fun h => hn (known_isHash h.2))
      have h' := den_leaf h hn
      subst h'
      exact self _ _ root (by trivial) hb h hn [] rfl ordered_nil
  | ext k t ih =>
    intro n root hc hb h
    by_cases hn : IsHash n
    · exact hashCase n root hn
    · have h : Den H db _ n := h.resolve_right (fun h => hn (known_isHash h.2))
      have hc : Canon (.ext k t) := hc.resolve_left (by simp)
      obtain ⟨m, rfl, hd⟩ := den_ext h hn
      exact self _ _ root hc hb h hn _ rfl (ih m false (Or.inr hc.2.2) (fits_next hb) (Or.inl hd))
  | branch c v ih =>
    intro n root hc hb h
    by_cases hn : IsHash n
    · exact hashCase n root hn
    · have h : Den H db _ n := h.resolve_right (fun h => hn (known_isHash h.2))
      have hc : Canon (.branch c v) := hc.resolve_left (by simp)
      obtain ⟨d, rfl, hd⟩ := den_branch h hn
      refine self _ _ root hc hb h hn _ rfl (ordered_flatten _ ?_)
      intro l hl
      obtain ⟨i, _, rfl⟩ := List.mem_map.1 hl
      exact ih i (d i) false (hc.1 i) (fits_child hb i) (Or.inl (hd i))

/-- An interrupted flush leaves only whole tries. -/
theorem interrupted {t n : Node} (hc : Canon0 t) (hb : Fits (find t)) (h : Root H db t n)
    (k : Nat) (hw : ¬ Clash db ((writes H true n).take k)) (e : Bytes × Bytes)
    (he : e ∈ (writes H true n).take k) : Whole H (dbSets db ((writes H true n).take k)) e := by
  obtain ⟨k1, k2⟩ := noClash_spec _ db hw
  obtain ⟨a, b, hab⟩ := List.append_of_mem he
  have hl : writes H true n = a ++ e :: (b ++ (writes H true n).drop k) := by
    conv_lhs => rw [← List.take_append_drop k (writes H true n), hab]
    simp
  exact writes_ordered t n true hc hb (h.imp id (fun h => ⟨rfl, h.2⟩)) a e _ hl _ k1
    (fun x hx => k2 x (by rw [hab]; exact List.mem_append_left _ hx))

end Verif.Trie
