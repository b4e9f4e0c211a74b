import Verif.Trie.Ops
import Batteries.Data.List.Perm

/-!
# Removal on partly loaded tries
-/

namespace Verif.Trie
open Verif

variable {H : Bytes → Bytes} {db : DB}

/-- What `delete` has to do. -/
def DelOk (H : Bytes → Bytes) (db : DB) (t : Node) (keys : List Nib) (r : Res) : Prop :=
  r.err = none ∧ r.old = find t keys ∧ r.dirty = (find t keys).isSome ∧ ¬ IsHash r.node ∧
    ∃ t', Den H db t' r.node ∧ Canon0 t' ∧ ∀ q, find t' q = if q = keys then none else find t q

theorem alive_den {c d : Nib → Node} (h : ∀ i, Den H db (c i) (d i)) : alive d = alive c := by
  unfold alive
  apply List.filter_congr
  intro i _
  have := den_ne_nil (h i)
  cases hc : c i <;> cases hd : d i <;> first
    | rfl
    | (rw [hc, hd] at this; simp at this)

theorem collapse_ok (hH : Hash32 H) (n : Node) (c d : Nib → Node) (v ov : Option Bytes)
    (hden : ∀ i, Den H db (c i) (d i)) (hcan : ∀ i, Canon0 (c i)) (hf : Fits (find (.branch c v)))
    (h1 : 1 ≤ (alive c).length + (if v.isSome then 1 else 0)) :
    let r := collapse db n d v ov
    r.err = none ∧ r.old = ov ∧ r.dirty = true ∧ ¬ IsHash r.node ∧
      ∃ t', Den H db t' r.node ∧ Canon t' ∧ ∀ q, find t' q = find (.branch c v) q := by
  have stay : 2 ≤ (alive c).length + (if v.isSome then 1 else 0) →
      let r : Res := ⟨.branch d v, true, ov, none⟩
      r.err = none ∧ r.old = ov ∧ r.dirty = true ∧ ¬ IsHash r.node ∧
      ∃ t', Den H db t' r.node ∧ Canon t' ∧ ∀ q, find t' q = find (.branch c v) q := by
    intro h2
    exact ⟨rfl, rfl, rfl, by simp [IsHash], .branch c v, Or.inl ⟨d, rfl, hden⟩, ⟨hcan, h2⟩, fun _ => rfl⟩
  simp only
  unfold collapse
  rw [alive_den hden]
  match ha : alive c with
  | [] =>
    cases v with
    | none => rw [ha] at h1; simp at h1
    | some w =>
      simp only
      refine ⟨trivial, trivial, trivial, by simp [IsHash], .leaf [] w, Or.inl rfl, trivial, fun q => ?_⟩
      have hnil : ∀ i, c i = .nil := by
        intro i
        by_contra hne
        have := (mem_alive c i).2 hne
        rw [ha] at this; cases this
      cases q with
      | nil => simp [find]
      | cons j s => simp [find, hnil]
  | [i] =>
    cases v with
    | some w =>
      simp only
      have := stay (by rw [ha]; simp)
      simpa using this
    | none =>
      simp only
      have hi : c i ≠ .nil := (mem_alive c i).1 (by rw [ha]; simp)
      have hci := (hcan i).resolve_left hi
      have hothers : ∀ j, j ≠ i → c j = .nil := by
        intro j hj
        by_contra hne
        have := (mem_alive c j).2 hne
        rw [ha] at this
        simp only [List.mem_cons, List.not_mem_nil, or_false] at this
        exact hj this
      have hreal : ∃ m, realizeNode db (d i) = .ok m ∧
          Den H db (c i) m ∧ ¬ IsHash m := by
        by_cases hh : IsHash (d i)
        · have hk := den_hash (hden i) hh
          obtain ⟨k1, k2, k3, k4⟩ := realize_known hH hci (bounded_of_fits _ hci (fits_child hf i)) hk.2
          rw [k1]
          exact ⟨_, k2, k3, k4⟩
        · refine ⟨d i, ?_, hden i, hh⟩
          cases hd : d i <;> first | rfl | (rw [hd] at hh; exact absurd trivial hh)
      obtain ⟨m, hm, hdm, hnm⟩ := hreal
      rw [hm]
      simp only
      cases hcc : c i with
      | nil => exact absurd hcc hi
      | hash _ => rw [hcc] at hci; exact hci.elim
      | leaf k w =>
        rw [hcc] at hdm
        obtain rfl := den_leaf hdm hnm
        simp only [prepended]
        refine ⟨trivial, trivial, trivial, by simp [IsHash], .leaf (i :: k) w, Or.inl rfl, trivial, fun q => ?_⟩
        cases q with
        | nil => simp [find]
        | cons j s =>
          simp only [find, List.cons.injEq]
          by_cases hj : j = i
          · subst hj; rw [hcc]; simp [find]
          · rw [hothers j hj]; simp [hj, find]
      | ext k x =>
        rw [hcc] at hdm hci
        obtain ⟨y, rfl, hy⟩ := den_ext hdm hnm
        simp only [prepended]
        refine ⟨trivial, trivial, trivial, by simp [IsHash], .ext (i :: k) x, Or.inl ⟨y, rfl, hy⟩,
          ⟨by simp, hci.2⟩, fun q => ?_⟩
        cases q with
        | nil => simp [find]
        | cons j s =>
          simp only [find, List.cons_prefix_cons]
          by_cases hj : j = i
          · subst hj; rw [hcc]; simp [find]
          · rw [hothers j hj, if_neg (fun h => hj h.1.symm)]; rfl
      | branch e w =>
        rw [hcc] at hdm hci
        obtain ⟨y, rfl, hy⟩ := den_branch hdm hnm
        simp only
        refine ⟨trivial, trivial, trivial, by simp [IsHash], .ext [i] (.branch e w), Or.inl ⟨_, rfl, hdm⟩,
          ⟨by simp, trivial, hci⟩, fun q => ?_⟩
        cases q with
        | nil => simp [find]
        | cons j s =>
          simp only [find.eq_4, List.cons_prefix_cons]
          by_cases hj : j = i
          · subst hj
            rw [show find (.branch c none) (j :: s) = find (c j) s from rfl, hcc]; simp
          · rw [show find (.branch c none) (j :: s) = find (c j) s from rfl, hothers j hj,
              if_neg (fun h => hj h.1.symm)]; rfl
  | _ :: _ :: _ =>
    have := stay (by rw [ha]; simp; omega)
    simpa using this

theorem delete_any (hH : Hash32 H) {t : Node} (hc : Canon0 t) (hf : Fits (find t)) (ip : Bool)
    (top : ∀ n keys f, Den H db t n → ¬ IsHash n → 2 * keys.length + 1 ≤ f →
      DelOk H db t keys (delete db ip f n keys))
    (n : Node) (keys : List Nib) (f : Nat) (hn : Root H db t n) (hl : 2 * keys.length + 2 ≤ f) :
    DelOk H db t keys (delete db ip f n keys) := by
  by_cases h : IsHash n
  · have hk : t ≠ .nil ∧ Known H db t n := by
      rcases hn with hn | hn
      · have := den_hash hn h
        refine ⟨?_, this.2⟩
        rintro rfl
        rw [den_nil.1 hn] at h
        exact h
      · exact hn
    have hc' := hc.resolve_left hk.1
    obtain ⟨h1, h2, h3, h4⟩ := realize_known hH hc' (bounded_of_fits t hc' hf) hk.2
    obtain ⟨f, rfl⟩ : ∃ f', f = f' + 1 := ⟨f - 1, by omega⟩
    subst h1
    simp only [delete, h2]
    exact top _ keys f h3 h4 (by omega)
  · exact top n keys f (hn.resolve_right (fun hk => h (known_isHash hk.2))) h (by omega)

theorem delOk_same {t n : Node} {keys : List Nib} (hc : Canon0 t) (hd : Den H db t n) (hn : ¬ IsHash n)
    (h : find t keys = none) : DelOk H db t keys ⟨n, false, none, none⟩ := by
  refine ⟨rfl, h.symm, by rw [h]; rfl, hn, t, hd, hc, fun q => ?_⟩
  by_cases hq : q = keys
  · rw [if_pos hq, hq, h]
  · rw [if_neg hq]

theorem fits_del {f g : List Nib → Option Bytes} {keys : List Nib} (h : Fits f)
    (hg : ∀ q, g q = if q = keys then none else f q) : Fits g := by
  intro q v hq
  rw [hg] at hq
  by_cases hk : q = keys
  · rw [if_pos hk] at hq; cases hq
  · rw [if_neg hk] at hq; exact h q v hq

theorem delete_top (hH : Hash32 H) (t : Node) (ip : Bool) : Canon0 t → Fits (find t) →
    ∀ n keys f, Den H db t n → ¬ IsHash n → 2 * keys.length + 1 ≤ f →
      DelOk H db t keys (delete db ip f n keys) := by
  induction t with
  | nil =>
    intro hc _ n keys f hd hn hl
    obtain ⟨f, rfl⟩ : ∃ f', f = f' + 1 := ⟨f - 1, by omega⟩
    rw [den_nil.1 hd]
    exact delOk_same hc rfl (by simp [IsHash]) rfl
  | hash _ => rintro (h | h) <;> cases h
  | leaf k v =>
    intro hc _ n keys f hd hn hl
    obtain ⟨f, rfl⟩ : ∃ f', f = f' + 1 := ⟨f - 1, by omega⟩
    obtain rfl := den_leaf hd hn
    simp only [delete]
    by_cases h : keys = k
    · rw [if_pos ((compareKeys_match _ _).2 h)]
      subst h
      refine ⟨rfl, by simp [find], by simp [find], by simp [IsHash], .nil, rfl, Or.inl rfl, fun q => ?_⟩
      by_cases hq : q = keys <;> simp [find, hq]
    · rw [if_neg (fun h' => h ((compareKeys_match _ _).1 h'))]
      exact delOk_same hc hd hn (by simp [find, h])
  | ext k t ih =>
    intro hc0 hf n keys f hd hn hl
    have hc := hc0.resolve_left (by simp)
    obtain ⟨f, rfl⟩ : ∃ f', f = f' + 1 := ⟨f - 1, by omega⟩
    obtain ⟨m, rfl, hm⟩ := den_ext hd hn
    have hk := List.length_pos_iff.2 hc.1
    simp only [delete]
    by_cases h : k <+: keys
    · have hcp := compareKeys_prefix _ _ h
      have hle := h.length_le
      rw [if_neg (by rw [hcp]; omega), hcp]
      obtain ⟨r1, r2, r3, r4, t', r5, r6, r8⟩ := delete_any hH (Or.inr hc.2.2) (fits_next hf) ip
        (ih (Or.inr hc.2.2) (fits_next hf)) m (keys.drop k.length) f (Or.inl hm)
        (by simp only [List.length_drop]; omega)
      have hfk : find (.ext k t) keys = find t (keys.drop k.length) := by
        simp only [find]; rw [if_pos h]
      generalize delete db ip f m (keys.drop k.length) = r at *
      have sem : ∀ q, (if k <+: q then find t' (q.drop k.length) else none)
          = if q = keys then none else find (.ext k t) q := by
        intro q
        simp only [find]
        by_cases hq : k <+: q
        · rw [if_pos hq, if_pos hq, r8]
          obtain ⟨s, rfl⟩ := hq
          obtain ⟨u, rfl⟩ := h
          simp only [List.drop_left, List.append_cancel_left_eq]
        · rw [if_neg hq, if_neg hq]
          split_ifs <;> rfl
      cases hdi : r.dirty with
      | false =>
        rw [hdi] at r3
        have hnone : find t (keys.drop k.length) = none := by
          cases hx : find t (keys.drop k.length) with
          | none => rfl
          | some y => rw [hx] at r3; cases r3
        simp only [Bool.false_eq_true, if_false]
        have htt : t' = t := by
          apply canon0_unique t' t r6 (Or.inr hc.2.2)
          intro q
          rw [r8]
          by_cases hq : q = keys.drop k.length
          · rw [if_pos hq, hq, hnone]
          · rw [if_neg hq]
        rw [htt] at r5
        exact delOk_same hc0 (Or.inl ⟨_, rfl, r5⟩) (by simp [IsHash]) (by rw [hfk]; exact hnone)
      | true =>
        rw [hdi] at r3
        simp only [if_true]
        have old : r.old = find (.ext k t) keys := by rw [hfk]; exact r2
        have dd : true = (find (.ext k t) keys).isSome := by rw [hfk]; exact r3
        cases t' with
        | hash _ => rcases r6 with h | h <;> cases h
        | nil =>
          rw [den_nil.1 r5]
          simp only
          refine ⟨r1, old, dd, by simp [IsHash], .nil, rfl, Or.inl rfl, fun q => ?_⟩
          rw [← sem q]
          simp [find]
        | leaf k' w =>
          rw [den_leaf r5 r4]
          simp only [prepended]
          refine ⟨r1, old, dd, by simp [IsHash], .leaf (k ++ k') w, Or.inl rfl, Or.inr trivial, fun q => ?_⟩
          rw [← sem q]
          simp only [find]
          by_cases hq : k <+: q
          · rw [if_pos hq]
            obtain ⟨s, rfl⟩ := hq
            simp
          · rw [if_neg hq, if_neg]
            rintro rfl
            exact hq (by simp)
        | ext k' x =>
          obtain ⟨y, hy, hy'⟩ := den_ext r5 r4
          rw [hy]
          simp only [prepended]
          have hc' := r6.resolve_left (by simp)
          refine ⟨r1, old, dd, by simp [IsHash], .ext (k ++ k') x, Or.inl ⟨_, rfl, hy'⟩,
            Or.inr ⟨by simp [hc.1], hc'.2⟩, fun q => ?_⟩
          rw [← sem q]
          simp only [find]
          by_cases hq : k <+: q
          · rw [if_pos hq]
            obtain ⟨s, rfl⟩ := hq
            simp only [List.prefix_append_right_inj, List.drop_left, List.length_append]
            rw [← List.drop_drop, List.drop_left]
          · rw [if_neg hq, if_neg]
            intro h'
            exact hq ((List.prefix_append k k').trans h')
        | branch e w =>
          obtain ⟨y, hy, hy'⟩ := den_branch r5 r4
          have hden := r5
          rw [hy] at hden ⊢
          simp only
          have hc' := r6.resolve_left (by simp)
          refine ⟨r1, old, dd, by simp [IsHash], .ext k (.branch e w), Or.inl ⟨_, rfl, hden⟩,
            Or.inr ⟨hc.1, trivial, hc'⟩, fun q => ?_⟩
          rw [← sem q, find]
    · rw [if_pos ((compareKeys_lt keys k).2 h)]
      exact delOk_same hc0 hd hn (by simp only [find]; rw [if_neg h])
  | branch c v ih =>
    intro hc0 hf n keys f hd hn hl
    have hc := hc0.resolve_left (by simp)
    obtain ⟨f, rfl⟩ : ∃ f', f = f' + 1 := ⟨f - 1, by omega⟩
    obtain ⟨d, rfl, hm⟩ := den_branch hd hn
    cases keys with
    | nil =>
      simp only [delete]
      cases v with
      | none => exact delOk_same hc0 hd hn rfl
      | some w =>
        simp only
        have hsem : ∀ q, find (.branch c none) q = if q = [] then none else find (.branch c (some w)) q := by
          intro q; cases q <;> simp [find]
        obtain ⟨k1, k2, k3, k4, t', k5, k6, k7⟩ := collapse_ok hH
          (if ip = true then .branch d none else .branch d (some w)) c d none (some w) hm hc.1
          (fits_del hf hsem) (by
            have := hc.2
            simp only [Option.isSome_some, if_true] at this
            simp only [Option.isSome_none, Bool.false_eq_true, if_false]
            omega)
        refine ⟨k1, k2, k3, k4, t', k5, Or.inr k6, fun q => ?_⟩
        rw [k7, hsem]
    | cons i s =>
      simp only [List.length_cons] at hl
      simp only [delete]
      by_cases hnil : c i = .nil
      · have hdn : d i = .nil := (den_ne_nil (hm i)).2 hnil
        rw [hdn]
        exact delOk_same hc0 hd hn (by simp [find, hnil])
      · have hdn : d i ≠ .nil := fun h => hnil ((den_ne_nil (hm i)).1 h)
        obtain ⟨r1, r2, r3, r4, t', r5, r6, r8⟩ := delete_any hH (hc.1 i) (fits_child hf i) ip
          (ih i (hc.1 i) (fits_child hf i)) (d i) s f (Or.inl (hm i)) (by omega)
        generalize delete db ip f (d i) s = r at *
        have hden : ∀ j, Den H db (put c i t' j) (put d i r.node j) := by
          intro j; unfold put; split_ifs
          · exact r5
          · exact hm j
        have hcan : ∀ j, Canon0 (put c i t' j) := by
          intro j; unfold put; split_ifs
          · exact r6
          · exact hc.1 j
        have hsem : ∀ q, find (.branch (put c i t') v) q
            = if q = i :: s then none else find (.branch c v) q := by
          intro q
          rw [find_put]
          cases q with
          | nil => simp [find]
          | cons j u =>
            simp only [find, r8, List.cons.injEq]
            by_cases hj : j = i
            · subst hj; simp
            · simp [hj]
        have hfin : DelOk H db (.branch c v) (i :: s)
            (if r.dirty = true then
              collapse db (if ip = true then .branch (put d i r.node) v else .branch d v)
                (put d i r.node) v r.old
            else ⟨.branch (put d i r.node) v, false, none, r.err⟩) := by
          cases hdi : r.dirty with
          | false =>
            rw [hdi] at r3
            have hnone : find (c i) s = none := by
              cases hx : find (c i) s with
              | none => rfl
              | some y => rw [hx] at r3; cases r3
            simp only [Bool.false_eq_true, if_false]
            have htt : t' = c i := by
              apply canon0_unique t' (c i) r6 (hc.1 i)
              intro q
              rw [r8]
              by_cases hq : q = s
              · rw [if_pos hq, hq, hnone]
              · rw [if_neg hq]
            rw [r1]
            refine delOk_same hc0 (Or.inl ⟨_, rfl, fun j => ?_⟩) (by simp [IsHash]) hnone
            have := hden j
            rw [htt, put_self] at this
            exact this
          | true =>
            simp only [if_true]
            rw [hdi] at r3
            obtain ⟨k1, k2, k3, k4, t'', k5, k6, k7⟩ := collapse_ok hH
              (if ip = true then .branch (put d i r.node) v else .branch d v)
              (put c i t') (put d i r.node) v r.old hden hcan (fits_del hf hsem) (by
                have h2 := hc.2
                have hsub : (alive c).length ≤ (alive (put c i t')).length + 1 := by
                  have : (alive c).erase i ⊆ alive (put c i t') := by
                    intro j hj
                    have hji : j ≠ i := by
                      intro e; subst e
                      exact (List.Nodup.not_mem_erase (alive_nodup c)) hj
                    have := List.mem_of_mem_erase hj
                    rw [mem_alive] at this ⊢
                    rw [put_ne _ _ _ _ hji]; exact this
                  have hle := (List.subperm_of_subset ((alive_nodup c).erase i) this).length_le
                  rw [List.length_erase] at hle
                  split_ifs at hle <;> omega
                split_ifs at h2 ⊢ <;> omega)
            refine ⟨k1, by rw [k2]; exact r2, by rw [k3]; exact r3, k4, t'', k5, Or.inr k6, fun q => ?_⟩
            rw [k7, hsem]
        cases hdd : d i with
        | nil => exact absurd hdd hdn
        | _ => exact hfin

theorem delete_spec (hH : Hash32 H) {t n : Node} (hc : Canon0 t) (hf : Fits (find t))
    (hn : Root H db t n) (ip : Bool) (keys : List Nib) (f : Nat) (hl : 2 * keys.length + 2 ≤ f) :
    DelOk H db t keys (delete db ip f n keys) :=
  delete_any hH hc hf ip (delete_top hH t ip hc hf) n keys f hn hl

end Verif.Trie
