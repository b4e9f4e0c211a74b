import Verif.Trie.Ser

/-!
# Partly loaded tries

`Den H db t n`: the node `n`, in which some subtries are only given by their hash, stands for the
trie `t` without hash nodes, given the database `db`.
-/

namespace Verif.Trie
open Verif

/-- All nodes below `t` that have a hash are in the database. -/
def Stored (H : Bytes → Bytes) (db : DB) : Node → Prop
  | .nil => True
  | .hash _ => False
  | .leaf _ _ => True
  | .ext _ n => ((ser H n).length > 32 → db (H (ser H n)) = some (ser H n)) ∧ Stored H db n
  | .branch c _ => ∀ i, ((ser H (c i)).length > 32 → db (H (ser H (c i))) = some (ser H (c i))) ∧
      Stored H db (c i)

/-- `n` is the hash node of `t`, and all of `t` is in the database. -/
def Known (H : Bytes → Bytes) (db : DB) (t n : Node) : Prop :=
  n = .hash (H (ser H t)) ∧ db (H (ser H t)) = some (ser H t) ∧ Stored H db t

/-- See above. -/
def Den (H : Bytes → Bytes) (db : DB) : Node → Node → Prop
  | .nil, n => n = .nil
  | .hash _, _ => False
  | .leaf k v, n => n = .leaf k v ∨ ((ser H (.leaf k v)).length > 32 ∧ Known H db (.leaf k v) n)
  | .ext k t, n =>
    (∃ m, n = .ext k m ∧ Den H db t m) ∨ ((ser H (.ext k t)).length > 32 ∧ Known H db (.ext k t) n)
  | .branch c v, n =>
    (∃ d, n = .branch d v ∧ ∀ i, Den H db (c i) (d i)) ∨
      ((ser H (.branch c v)).length > 32 ∧ Known H db (.branch c v) n)

variable {H : Bytes → Bytes} {db : DB}

theorem den_hash {t n : Node} (h : Den H db t n) (hn : IsHash n) :
    (ser H t).length > 32 ∧ Known H db t n := by
  cases t with
  | nil => simp only [Den] at h; subst h; exact hn.elim
  | hash _ => exact h.elim
  | leaf k v =>
    simp only [Den] at h
    rcases h with h | h
    · subst h; exact hn.elim
    · exact h
  | ext k t =>
    simp only [Den] at h
    rcases h with ⟨m, h, _⟩ | h
    · subst h; exact hn.elim
    · exact h
  | branch c v =>
    simp only [Den] at h
    rcases h with ⟨m, h, _⟩ | h
    · subst h; exact hn.elim
    · exact h

theorem known_isHash {t n : Node} (h : Known H db t n) : IsHash n := by rw [h.1]; trivial

theorem den_of_known {t n : Node} (h0 : t ≠ .nil) (h1 : ¬ IsHash t) (h : (ser H t).length > 32)
    (hk : Known H db t n) : Den H db t n := by
  cases t with
  | nil => exact absurd rfl h0
  | hash _ => exact absurd trivial h1
  | leaf k v => exact Or.inr ⟨h, hk⟩
  | ext k t => exact Or.inr ⟨h, hk⟩
  | branch c v => exact Or.inr ⟨h, hk⟩

theorem den_nil {n : Node} : Den H db .nil n ↔ n = .nil := Iff.rfl

theorem den_leaf {k : List Nib} {v : Bytes} {n : Node} (h : Den H db (.leaf k v) n)
    (hn : ¬ IsHash n) : n = .leaf k v := by
  simp only [Den] at h
  rcases h with h | h
  · exact h
  · exact absurd (known_isHash h.2) hn

theorem den_ext {k : List Nib} {t n : Node} (h : Den H db (.ext k t) n)
    (hn : ¬ IsHash n) : ∃ m, n = .ext k m ∧ Den H db t m := by
  simp only [Den] at h
  rcases h with h | h
  · exact h
  · exact absurd (known_isHash h.2) hn

theorem den_branch {c : Nib → Node} {v : Option Bytes} {n : Node} (h : Den H db (.branch c v) n)
    (hn : ¬ IsHash n) : ∃ d, n = .branch d v ∧ ∀ i, Den H db (c i) (d i) := by
  simp only [Den] at h
  rcases h with h | h
  · exact h
  · exact absurd (known_isHash h.2) hn

theorem den_ne_nil {t n : Node} (h : Den H db t n) : n = .nil ↔ t = .nil := by
  constructor
  · intro hn
    subst hn
    cases t with
    | nil => rfl
    | hash _ => exact h.elim
    | leaf k v => exact absurd (den_leaf h (by simp [IsHash])) (by simp)
    | ext k v => obtain ⟨m, hm, _⟩ := den_ext h (by simp [IsHash]); cases hm
    | branch k v => obtain ⟨m, hm, _⟩ := den_branch h (by simp [IsHash]); cases hm
  · intro ht; subst ht; exact h

theorem den_refl (t : Node) : Canon0 t → Den H db t t := by
  induction t with
  | nil => intro _; rfl
  | hash _ => rintro (h | h) <;> cases h
  | leaf k v => intro _; exact Or.inl rfl
  | ext k n ih =>
    rintro (h | h)
    · cases h
    · exact Or.inl ⟨n, rfl, ih (Or.inr h.2.2)⟩
  | branch c v ih =>
    rintro (h | h)
    · cases h
    · exact Or.inl ⟨c, rfl, fun i => ih i (h.1 i)⟩

theorem den_shallow (t : Node) : Stored H db t → Den H db t (shallow H t) := by
  have st : ∀ t : Node, (Stored H db t → Den H db t (shallow H t)) →
      (((ser H t).length > 32 → db (H (ser H t)) = some (ser H t)) ∧ Stored H db t) →
      Den H db t (stub H t (ser H t) (shallow H t)) := by
    intro t ih hs
    have : t ≠ .nil → ¬ IsHash t → (stub H t (ser H t) (shallow H t)
        = if (ser H t).length > 32 then .hash (H (ser H t)) else shallow H t) →
        Den H db t (stub H t (ser H t) (shallow H t)) := by
      intro h0 h1 he
      rw [he]
      by_cases h : (ser H t).length > 32
      · rw [if_pos h]
        exact den_of_known h0 h1 h ⟨rfl, hs.1 h, hs.2⟩
      · rw [if_neg h]
        exact ih hs.2
    cases t with
    | nil => rfl
    | hash _ => exact hs.2.elim
    | leaf k v => exact this (by simp) (by simp [IsHash]) rfl
    | ext k v => exact this (by simp) (by simp [IsHash]) rfl
    | branch k v => exact this (by simp) (by simp [IsHash]) rfl
  induction t with
  | nil => intro _; rfl
  | hash _ => intro h; exact h.elim
  | leaf k v => intro _; exact Or.inl rfl
  | ext k n ih => intro h; exact Or.inl ⟨_, rfl, st n ih h⟩
  | branch c v ih => intro h; exact Or.inl ⟨_, rfl, fun i => st (c i) (ih i) (h i)⟩

theorem shallow_not_hash (t : Node) (h : ¬ IsHash t) : ¬ IsHash (shallow H t) := by
  cases t <;> simp_all [shallow, IsHash]

theorem canon_not_hash {t : Node} (h : Canon t) : ¬ IsHash t := by
  cases t <;> simp_all [Canon, IsHash]

theorem canon_not_nil {t : Node} (h : Canon t) : t ≠ .nil := by
  rintro rfl; exact h

theorem ser_ne_nil {t : Node} (h : Canon t) : ser H t ≠ [] := by
  intro he
  cases t with
  | nil => exact h.elim
  | hash _ => exact h.elim
  | _ =>
    all_goals
      simp only [ser] at he
      have h1 := congrArg List.length he
      have h2 := (encodeList_length _).trans_eq h1
      simp at h2

/-- Reading a node whose hash is known. -/
theorem realize_known (hH : Hash32 H) {t n : Node} (hc : Canon t) (hb : Bounded t)
    (hk : Known H db t n) : n = .hash (H (ser H t)) ∧ realize db (H (ser H t)) = .ok (shallow H t) ∧
      Den H db t (shallow H t) ∧ ¬ IsHash (shallow H t) := by
  refine ⟨hk.1, ?_, den_shallow t hk.2.2, shallow_not_hash t (canon_not_hash hc)⟩
  unfold realize
  rw [hk.2.1]
  simp only
  rw [if_neg (ser_ne_nil hc)]
  exact deser_ser H hH t hb (canon_not_nil hc) (canon_not_hash hc) _ (by omega)

/-- A partly loaded node is serialized like the whole trie. -/
theorem den_ser (t : Node) : ∀ n, Den H db t n →
    linkOf H n (ser H n) = linkOf H t (ser H t) ∧ (¬ IsHash n → ser H n = ser H t) := by
  have key : ∀ t n : Node, Den H db t n → (¬ IsHash n → ser H n = ser H t) →
      linkOf H n (ser H n) = linkOf H t (ser H t) ∧ (¬ IsHash n → ser H n = ser H t) := by
    intro t n h hs
    refine ⟨?_, hs⟩
    by_cases hn : IsHash n
    · obtain ⟨h1, h2⟩ := den_hash h hn
      rw [h2.1]
      cases t with
      | nil => simp [ser] at h1
      | hash _ => exact h.elim
      | leaf k v => simp only [linkOf]; rw [if_pos h1]
      | ext k v => simp only [linkOf]; rw [if_pos h1]
      | branch k v => simp only [linkOf]; rw [if_pos h1]
    · rw [hs hn]
      cases t with
      | nil => rw [den_nil.1 h]
      | hash _ => exact h.elim
      | leaf k v => rw [den_leaf h hn]
      | ext k v => obtain ⟨m, rfl, _⟩ := den_ext h hn; rfl
      | branch k v => obtain ⟨m, rfl, _⟩ := den_branch h hn; rfl
  induction t with
  | nil => intro n h; exact key _ _ h (fun _ => by rw [den_nil.1 h])
  | hash _ => intro n h; exact h.elim
  | leaf k v => intro n h; exact key _ _ h (fun hn => by rw [den_leaf h hn])
  | ext k t ih =>
    intro n h
    refine key _ _ h (fun hn => ?_)
    obtain ⟨m, rfl, hm⟩ := den_ext h hn
    simp only [ser]
    rw [(ih m hm).1]
  | branch c v ih =>
    intro n h
    refine key _ _ h (fun hn => ?_)
    obtain ⟨d, rfl, hd⟩ := den_branch h hn
    simp only [ser]
    congr 2
    apply List.map_congr_left
    intro i _
    exact (ih i (d i) (hd i)).1

/-- A root: a partly loaded trie, or the hash of a stored one. -/
def Root (H : Bytes → Bytes) (db : DB) (t n : Node) : Prop :=
  Den H db t n ∨ (t ≠ .nil ∧ Known H db t n)

theorem rootHash_den {t n : Node} (hc : Canon0 t) (h : Root H db t n) :
    rootHash H n = rootHash H t := by
  by_cases hn : IsHash n
  · have hk : t ≠ .nil ∧ Known H db t n := by
      rcases h with h | h
      · have := den_hash h hn
        refine ⟨?_, this.2⟩
        rintro rfl
        rw [den_nil.1 h] at hn
        exact hn
      · exact h
    rw [hk.2.1]
    cases t with
    | nil => exact absurd rfl hk.1
    | hash _ => rcases hc with hc | hc <;> cases hc
    | _ => rfl
  · have hd : Den H db t n := h.resolve_right (fun hk => hn (known_isHash hk.2))
    have hs := (den_ser t n hd).2 hn
    cases t with
    | nil => rw [den_nil.1 hd]
    | hash _ => exact hd.elim
    | leaf k v => rw [den_leaf hd hn]
    | ext k v => obtain ⟨m, rfl, _⟩ := den_ext hd hn; simp only [rootHash, hs]
    | branch k v => obtain ⟨m, rfl, _⟩ := den_branch hd hn; simp only [rootHash, hs]

end Verif.Trie
