import Verif.Trie.Den

/-!
# Lookup, update and removal on partly loaded tries
-/

namespace Verif.Trie
open Verif

variable {H : Bytes → Bytes} {db : DB}

theorem fits_child {c : Nib → Node} {v : Option Bytes} (h : Fits (find (.branch c v))) (i : Nib) :
    Fits (find (c i)) := fits_sub [i] h (by intro q v hq; simpa [find] using hq)

theorem fits_next {k : List Nib} {n : Node} (h : Fits (find (.ext k n))) : Fits (find n) :=
  fits_sub k h (by intro q v hq; simpa [find] using hq)

/-! ## Lookup -/

/-- `get` on any representative, from `get` on those that are not hash nodes. -/
theorem get_any (hH : Hash32 H) {t : Node} (hc : Canon0 t) (hf : Fits (find t))
    (top : ∀ n keys f, Den H db t n → ¬ IsHash n → 2 * keys.length + 1 ≤ f →
      ∃ n', get db f n keys = (n', find t keys, none) ∧ Den H db t n' ∧ ¬ IsHash n')
    (n : Node) (keys : List Nib) (f : Nat) (hn : Root H db t n) (hl : 2 * keys.length + 2 ≤ f) :
    ∃ n', get db f n keys = (n', find t keys, none) ∧ Den H db t n' ∧ ¬ IsHash n' := by
  by_cases h : IsHash n
  · have hk : t ≠ .nil ∧ Known H db t n := by
      rcases hn with hn | hn
      · have := den_hash hn h
        refine ⟨?_, this.2⟩
        rintro rfl
        rw [den_nil.1 hn] at h
        exact h
      · exact hn
    have hc' := hc.resolve_left hk.1
    obtain ⟨h1, h2, h3, h4⟩ := realize_known hH hc' (bounded_of_fits t hc' hf) hk.2
    obtain ⟨f, rfl⟩ : ∃ f', f = f' + 1 := ⟨f - 1, by omega⟩
    subst h1
    simp only [get, h2]
    exact top _ keys f h3 h4 (by omega)
  · exact top n keys f (hn.resolve_right (fun hk => h (known_isHash hk.2))) h (by omega)

theorem get_top (hH : Hash32 H) (t : Node) : Canon0 t → Fits (find t) →
    ∀ n keys f, Den H db t n → ¬ IsHash n → 2 * keys.length + 1 ≤ f →
      ∃ n', get db f n keys = (n', find t keys, none) ∧ Den H db t n' ∧ ¬ IsHash n' := by
  induction t with
  | nil =>
    intro _ _ n keys f hd _ hl
    obtain ⟨f, rfl⟩ : ∃ f', f = f' + 1 := ⟨f - 1, by omega⟩
    rw [den_nil.1 hd]
    exact ⟨.nil, rfl, rfl, by simp [IsHash]⟩
  | hash _ => rintro (h | h) <;> cases h
  | leaf k v =>
    intro _ _ n keys f hd hn hl
    obtain ⟨f, rfl⟩ : ∃ f', f = f' + 1 := ⟨f - 1, by omega⟩
    obtain rfl := den_leaf hd hn
    refine ⟨_, ?_, hd, hn⟩
    simp only [get, find]
    by_cases h : keys = k
    · rw [if_pos ((compareKeys_match _ _).2 h), if_pos h]
    · rw [if_neg (fun h' => h ((compareKeys_match _ _).1 h')), if_neg h]
  | ext k t ih =>
    intro hc hf n keys f hd hn hl
    have hc := hc.resolve_left (by simp)
    obtain ⟨f, rfl⟩ : ∃ f', f = f' + 1 := ⟨f - 1, by omega⟩
    obtain ⟨m, rfl, hm⟩ := den_ext hd hn
    simp only [get, find]
    by_cases h : k <+: keys
    · rw [if_neg (by rw [compareKeys_lt]; exact fun h' => h' h), if_pos h, compareKeys_prefix _ _ h]
      have hk := List.length_pos_iff.2 hc.1
      have hle := h.length_le
      obtain ⟨n', h1, h2, h3⟩ := get_any hH (Or.inr hc.2.2) (fits_next hf)
        (ih (Or.inr hc.2.2) (fits_next hf)) m (keys.drop k.length) f (Or.inl hm)
        (by simp only [List.length_drop]; omega)
      rw [h1]
      exact ⟨_, rfl, Or.inl ⟨n', rfl, h2⟩, by simp [IsHash]⟩
    · rw [if_pos ((compareKeys_lt _ _).2 h), if_neg h]
      exact ⟨_, rfl, hd, hn⟩
  | branch c v ih =>
    intro hc hf n keys f hd hn hl
    have hc := hc.resolve_left (by simp)
    obtain ⟨f, rfl⟩ : ∃ f', f = f' + 1 := ⟨f - 1, by omega⟩
    obtain ⟨d, rfl, hm⟩ := den_branch hd hn
    cases keys with
    | nil => exact ⟨_, rfl, hd, hn⟩
    | cons i r =>
      simp only [List.length_cons] at hl
      simp only [get, find]
      obtain ⟨n', h1, h2, h3⟩ := get_any hH (hc.1 i) (fits_child hf i)
        (ih i (hc.1 i) (fits_child hf i)) (d i) r f (Or.inl (hm i)) (by omega)
      rw [h1]
      refine ⟨_, rfl, Or.inl ⟨_, rfl, fun j => ?_⟩, by simp [IsHash]⟩
      by_cases hj : j = i
      · rw [if_pos hj, hj]; exact h2
      · rw [if_neg hj]; exact hm j

theorem get_spec (hH : Hash32 H) {t n : Node} (hc : Canon0 t) (hf : Fits (find t))
    (hn : Root H db t n) (keys : List Nib) (f : Nat) (hl : 2 * keys.length + 2 ≤ f) :
    ∃ n', get db f n keys = (n', find t keys, none) ∧ Den H db t n' ∧ ¬ IsHash n' :=
  get_any hH hc hf (get_top hH t hc hf) n keys f hn hl

/-! ## Update -/

/-- An extension, unless its key is empty. -/
def wrap (p : List Nib) (n : Node) : Node :=
  match p with
  | [] => n
  | _ => .ext p n

theorem find_wrap (p : List Nib) (n : Node) (q : List Nib) :
    find (wrap p n) q = if p <+: q then find n (q.drop p.length) else none := by
  cases p with
  | nil => simp [wrap]
  | cons a p => rfl

theorem canon_wrap (p : List Nib) (n : Node) (h : Canon n) (hb : IsBranch n) : Canon (wrap p n) := by
  cases p with
  | nil => exact h
  | cons a p => exact ⟨by simp, hb, h⟩

theorem den_wrap (p : List Nib) (t n : Node) (h : Den H db t n) : Den H db (wrap p t) (wrap p n) := by
  cases p with
  | nil => exact h
  | cons a p => exact Or.inl ⟨n, rfl, h⟩

theorem two_le {l : List Nib} {i j : Nib} (hij : i ≠ j) (hi : i ∈ l) (hj : j ∈ l) : 2 ≤ l.length := by
  match l with
  | [] => cases hi
  | [x] =>
    simp only [List.mem_cons, List.not_mem_nil, or_false] at hi hj
    exact absurd (hi.trans hj.symm) hij
  | _ :: _ :: _ => simp

/-- What `set` has to do. -/
def SetOk (H : Bytes → Bytes) (db : DB) (t : Node) (keys : List Nib) (o : Bytes) (r : Res) : Prop :=
  r.err = none ∧ r.old = find t keys ∧ (r.dirty = false → find t keys = some o) ∧ ¬ IsHash r.node ∧
    ∃ t', Den H db t' r.node ∧ Canon t' ∧ (IsBranch t → IsBranch t') ∧
      ∀ q, find t' q = if q = keys then some o else find t q

theorem find_put (c : Nib → Node) (v : Option Bytes) (i : Nib) (n : Node) (q : List Nib) :
    find (.branch (put c i n) v) q = match q with
      | [] => v
      | j :: r => if j = i then find n r else find (c j) r := by
  cases q with
  | nil => rfl
  | cons j r =>
    simp only [find, put]
    split_ifs <;> rfl

theorem find_none (q : List Nib) (v : Option Bytes) (j : Nib) : find (.branch noChildren v) (j :: q) = none := rfl

/-- The branch where two keys part. `x` holds what comes after the nibble `i`. -/
theorem split_spec (x y : Node) (i : Nib) (a : List Nib) (o : Bytes) (hx : Canon x)
    (hd : Den H db x y) (ha : a.head? ≠ some i) :
    let c (z : Node) : Nib → Node := put (match a with | [] => noChildren | j :: s => put noChildren j (.leaf s o)) i z
    let v : Option Bytes := match a with | [] => some o | _ => none
    Den H db (.branch (c x) v) (.branch (c y) v) ∧ Canon (.branch (c x) v) ∧
      ∀ q, find (.branch (c x) v) q = if q = a then some o else
        match q with
        | [] => none
        | j :: r => if j = i then find x r else none := by
  cases a with
  | nil =>
    simp only
    refine ⟨Or.inl ⟨_, rfl, fun j => ?_⟩, ⟨fun j => ?_, ?_⟩, ?_⟩
    · unfold put; split_ifs
      · exact hd
      · rfl
    · unfold put; split_ifs
      · exact Or.inr hx
      · exact Or.inl rfl
    · have : i ∈ alive (put noChildren i x) := (mem_alive _ _).2 (by rw [put_eq]; exact canon_not_nil hx)
      have := List.length_pos_of_mem this
      simp only [Option.isSome_some, if_true]
      omega
    · intro q
      rw [find_put]
      cases q with
      | nil => simp
      | cons j r => simp [noChildren, find]
  | cons j s =>
    simp only [List.head?_cons, ne_eq, Option.some.injEq] at ha
    simp only
    refine ⟨Or.inl ⟨_, rfl, fun l => ?_⟩, ⟨fun l => ?_, ?_⟩, ?_⟩
    · unfold put; split_ifs
      · exact hd
      · exact Or.inl rfl
      · rfl
    · unfold put; split_ifs
      · exact Or.inr hx
      · exact Or.inr trivial
      · exact Or.inl rfl
    · have h1 : i ∈ alive (put (put noChildren j (.leaf s o)) i x) :=
        (mem_alive _ _).2 (by rw [put_eq]; exact canon_not_nil hx)
      have h2 : j ∈ alive (put (put noChildren j (.leaf s o)) i x) :=
        (mem_alive _ _).2 (by rw [put_ne _ _ _ _ ha, put_eq]; simp)
      have := two_le ha h2 h1
      simp only [Option.isSome_none, Bool.false_eq_true, if_false]
      omega
    · intro q
      rw [find_put]
      cases q with
      | nil => simp
      | cons l r =>
        simp only
        by_cases hl : l = i
        · rw [if_pos hl, if_pos hl, if_neg]
          intro he
          simp only [List.cons.injEq] at he
          exact ha (he.1.symm.trans hl)
        · rw [if_neg hl, if_neg hl]
          by_cases hj : l = j
          · subst hj
            rw [put_eq]
            simp [find]
          · rw [put_ne _ _ _ _ hj]
            simp [noChildren, find, hj]

theorem wrap_take (p s : List Nib) (n : Node) (h : p ≠ []) : Node.ext ((p ++ s).take p.length) n = wrap p n := by
  rw [List.take_left]
  cases p with
  | nil => exact absurd rfl h
  | cons _ _ => rfl

theorem put_comm (c : Nib → Node) (i j : Nib) (m n : Node) (h : i ≠ j) :
    put (put c i m) j n = put (put c j n) i m := by
  funext l
  unfold put
  by_cases h1 : l = j
  · rw [if_pos h1, if_neg (by rw [h1]; exact fun e => h e.symm), if_pos h1]
  · rw [if_neg h1, if_neg h1]

/-- The result of parting at `p`. -/
theorem wrap_split (p a b : List Nib) (i : Nib) (x y : Node) (o : Bytes) (t : Node) (hx : Canon x)
    (hd : Den H db x y) (ha : a.head? ≠ some i) (hb : b.head? = some i)
    (ht : ∀ q, find t q = if p <+: q then (match q.drop p.length with
      | [] => none
      | j :: r => if j = i then find x r else none) else none) (r : Res)
    (hr : r.node = wrap p (.branch (put (match a with | [] => noChildren | j :: s => put noChildren j (.leaf s o)) i y)
      (match a with | [] => some o | _ => none)))
    (he : r.err = none) (ho : r.old = none) (hdi : r.dirty = true) (hbr : ¬ IsBranch t) :
    SetOk H db t (p ++ a) o r := by
  obtain ⟨h1, h2, h3⟩ := split_spec x y i a o hx hd ha
  have hold : find t (p ++ a) = none := by
    rw [ht, if_pos (by simp), List.drop_left]
    cases a with
    | nil => rfl
    | cons j s =>
      simp only [List.head?_cons, ne_eq, Option.some.injEq] at ha
      simp only
      rw [if_neg ha]
  refine ⟨he, by rw [ho, hold], by rw [hdi]; simp, ?_, ?_⟩
  · rw [hr]
    cases p <;> simp [wrap, IsHash]
  · refine ⟨wrap p _, by rw [hr]; exact den_wrap p _ _ h1, canon_wrap p _ h2 trivial,
      fun h => absurd h hbr, ?_⟩
    intro q
    rw [find_wrap, ht]
    by_cases hp : p <+: q
    · rw [if_pos hp, if_pos hp, h3]
      obtain ⟨s, rfl⟩ := hp
      rw [List.drop_left]
      by_cases hs : s = a
      · rw [if_pos hs, if_pos (by rw [hs])]
      · rw [if_neg hs, if_neg (fun e => hs (List.append_cancel_left e))]
    · rw [if_neg hp, if_neg hp, if_neg]
      rintro rfl
      exact hp (by simp)

theorem setLeaf_ok (k : List Nib) (v : Bytes) (keys : List Nib) (o : Bytes) :
    SetOk H db (.leaf k v) keys o (setLeaf k v keys o) := by
  obtain ⟨p, a, b, rfl, rfl, h3, h4, h5⟩ := compareKeys_spec keys k
  have hm := h5
  -- the leaf seen from `p`, when there is something after it
  have hleaf : ∀ i r, b = i :: r → ∀ q, find (.leaf (p ++ b) v) q = if p <+: q then (match q.drop p.length with
      | [] => none
      | j :: s => if j = i then find (.leaf r v) s else none) else none := by
    intro i r hb q
    subst hb
    simp only [find]
    by_cases hp : p <+: q
    · obtain ⟨s, rfl⟩ := hp
      rw [if_pos (show p <+: p ++ s by simp), List.drop_left]
      cases s with
      | nil => simp
      | cons j s =>
        simp only [List.append_cancel_left_eq, List.cons.injEq]
        by_cases hj : j = i <;> simp [hj]
    · rw [if_neg hp, if_neg]
      rintro rfl
      exact hp (by simp)
  unfold setLeaf
  simp only [h3]
  by_cases hmt : (compareKeys (p ++ a) (p ++ b)).2 = true
  · -- same key
    obtain ⟨rfl, rfl⟩ := hm.1 hmt
    rw [if_neg (by rw [hmt]; simp), if_neg (by simp), if_neg (by simp)]
    by_cases hv : v = o
    · subst hv
      rw [if_pos rfl]
      refine ⟨rfl, by simp [find], fun _ => by simp [find], by simp [IsHash], .leaf (p ++ []) v, Or.inl rfl, trivial,
        fun h => h.elim, fun q => ?_⟩
      simp only [find]
      split_ifs <;> rfl
    · rw [if_neg hv]
      refine ⟨rfl, by simp [find], fun h => (by cases h), by simp [IsHash], .leaf (p ++ []) o, Or.inl rfl, trivial,
        fun h => h.elim, fun q => ?_⟩
      simp only [find]
      split_ifs <;> rfl
  · have hmf : (compareKeys (p ++ a) (p ++ b)).2 = false := by simpa using hmt
    rw [hmf]
    cases b with
    | cons i r =>
      have ha : a.head? ≠ some i := by
        rcases h4 with h | h | h
        · rw [h]; simp
        · cases h
        · simpa using h
      by_cases hp : p = []
      · subst hp
        rw [if_pos (by simp)]
        simp only [List.nil_append]
        refine wrap_split (H := H) (db := db) [] a (i :: r) i (.leaf r v) (.leaf r v) o _ trivial (Or.inl rfl) ha rfl
          (hleaf i r rfl) _ ?_ ?_ ?_ ?_ (by simp [IsBranch]) <;> cases a <;> rfl
      · have hlp := List.length_pos_iff.2 hp
        rw [if_neg (by rintro ⟨h, _⟩; omega), if_pos (by simp)]
        simp only [List.drop_left]
        refine wrap_split (H := H) (db := db) p a (i :: r) i (.leaf r v) (.leaf r v) o _ trivial (Or.inl rfl) ha rfl
          (hleaf i r rfl) _ ?_ ?_ ?_ ?_ (by simp [IsBranch])
        · simp only
          rw [wrap_take p a _ hp]
          cases a <;> rfl
        · rfl
        · rfl
        · rfl
    | nil =>
      -- the key goes on after the leaf
      cases a with
      | nil => rw [(h5.2 ⟨rfl, rfl⟩)] at hmf; cases hmf
      | cons j s =>
        have fin : ∀ r : Res, r.node = wrap p (.branch (put noChildren j (.leaf s o)) (some v)) → r.err = none →
            r.old = none → r.dirty = true → SetOk H db (.leaf (p ++ []) v) (p ++ j :: s) o r := by
          intro r hr he ho hdi
          have hcan : Canon (.branch (put noChildren j (.leaf s o)) (some v)) := by
            refine ⟨fun l => ?_, ?_⟩
            · unfold put; split_ifs
              · exact Or.inr trivial
              · exact Or.inl rfl
            · have : j ∈ alive (put noChildren j (.leaf s o)) := (mem_alive _ _).2 (by rw [put_eq]; simp)
              have := List.length_pos_of_mem this
              simp only [Option.isSome_some, if_true]
              omega
          refine ⟨he, ?_, by rw [hdi]; simp, ?_, wrap p (.branch (put noChildren j (.leaf s o)) (some v)), ?_,
            canon_wrap p _ hcan trivial, fun h => h.elim, ?_⟩
          · rw [ho]; simp [find]
          · rw [hr]; cases p <;> simp [wrap, IsHash]
          · rw [hr]; exact den_refl _ (Or.inr (canon_wrap p _ hcan trivial))
          · intro q
            rw [find_wrap]
            by_cases hp : p <+: q
            · obtain ⟨u, rfl⟩ := hp
              rw [if_pos (by simp), List.drop_left, find_put]
              simp only [find, List.append_nil, List.append_cancel_left_eq]
              cases u with
              | nil => simp
              | cons l u =>
                by_cases hl : l = j
                · subst hl; simp
                · simp [hl, noChildren, find]
            · rw [if_neg hp, if_neg]
              · simp only [find, List.append_nil]
                rw [if_neg]
                rintro rfl
                exact hp (by simp)
              · rintro rfl
                exact hp (by simp)
        by_cases hp : p = []
        · subst hp
          rw [if_pos (by simp)]
          apply fin <;> rfl
        · have hlp := List.length_pos_iff.2 hp
          rw [if_neg (by rintro ⟨h, _⟩; omega), if_neg (by simp), if_pos (by simp)]
          simp only [List.drop_left]
          apply fin
          · simp only [List.append_nil]
            cases p with
            | nil => exact absurd rfl hp
            | cons _ _ => rfl
          · rfl
          · rfl
          · rfl

theorem setExtSplit_ok (k : List Nib) (t n : Node) (keys : List Nib) (o : Bytes) (hk : ¬ k <+: keys)
    (hc : Canon (.ext k t)) (hd : Den H db t n) :
    SetOk H db (.ext k t) keys o (setExtSplit k n keys o (compareKeys keys k).1) := by
  obtain ⟨p, a, b, rfl, rfl, h3, h4, h5⟩ := compareKeys_spec keys k
  rw [h3]
  cases b with
  | nil => exact absurd (by simp) hk
  | cons i r =>
    have ha : a.head? ≠ some i := by
      rcases h4 with h | h | h
      · rw [h]; simp
      · cases h
      · simpa using h
    obtain ⟨_, hb, hc'⟩ := hc
    have hw : ∀ z : Node, (match r with | [] => z | _ => Node.ext r z) = wrap r z := by
      intro z; cases r <;> rfl
    have hx : Canon (wrap r t) := canon_wrap r t hc' hb
    have hdw : Den H db (wrap r t) (wrap r n) := den_wrap r t n hd
    have hfind : ∀ q, find (.ext (p ++ i :: r) t) q = if p <+: q then (match q.drop p.length with
        | [] => none
        | j :: s => if j = i then find (wrap r t) s else none) else none := by
      intro q
      simp only [find]
      by_cases hp : p <+: q
      · obtain ⟨s, rfl⟩ := hp
        rw [if_pos (show p <+: p ++ s by simp), List.drop_left]
        simp only [List.prefix_append_right_inj]
        cases s with
        | nil => simp
        | cons j s =>
          simp only [List.cons_prefix_cons, find_wrap]
          by_cases hj : j = i
          · subst hj
            simp only [true_and, if_true]
            by_cases hr : r <+: s
            · rw [if_pos hr, if_pos hr]
              congr 1
              rw [show p ++ j :: r = (p ++ [j]) ++ r by simp, show p ++ j :: s = (p ++ [j]) ++ s by simp,
                List.length_append, ← List.drop_drop, List.drop_left]
            · rw [if_neg hr, if_neg hr]
          · rw [if_neg (fun h => hj h.1.symm), if_neg hj]
      · rw [if_neg hp, if_neg]
        intro h
        exact hp ((List.prefix_append p (i :: r)).trans h)
    unfold setExtSplit
    simp only [List.drop_left, hw]
    by_cases hp : p = []
    · subst hp
      simp only [List.length_nil, if_true]
      refine wrap_split (H := H) (db := db) [] a (i :: r) i (wrap r t) (wrap r n) o _ hx hdw ha rfl hfind _
        ?_ ?_ ?_ ?_ (by simp [IsBranch]) <;> cases a <;> rfl
    · have hlp := List.length_pos_iff.2 hp
      rw [if_neg (by omega)]
      refine wrap_split (H := H) (db := db) p a (i :: r) i (wrap r t) (wrap r n) o _ hx hdw ha rfl hfind _
        ?_ rfl rfl rfl (by simp [IsBranch])
      simp only
      rw [wrap_take p _ _ hp]
      cases a with
      | nil => rfl
      | cons j s =>
        simp only [List.head?_cons, ne_eq, Option.some.injEq] at ha
        simp only
        rw [put_comm _ _ _ _ _ (fun e => ha e.symm)]
        cases r <;> rfl

theorem set_any (hH : Hash32 H) {t : Node} (hc : Canon0 t) (hf : Fits (find t)) (o : Bytes)
    (top : ∀ n keys f, Den H db t n → ¬ IsHash n → 2 * keys.length + 1 ≤ f →
      SetOk H db t keys o (set db f n keys o))
    (n : Node) (keys : List Nib) (f : Nat) (hn : Root H db t n) (hl : 2 * keys.length + 2 ≤ f) :
    SetOk H db t keys o (set db f n keys o) := by
  by_cases h : IsHash n
  · have hk : t ≠ .nil ∧ Known H db t n := by
      rcases hn with hn | hn
      · have := den_hash hn h
        refine ⟨?_, this.2⟩
        rintro rfl
        rw [den_nil.1 hn] at h
        exact h
      · exact hn
    have hc' := hc.resolve_left hk.1
    obtain ⟨h1, h2, h3, h4⟩ := realize_known hH hc' (bounded_of_fits t hc' hf) hk.2
    obtain ⟨f, rfl⟩ : ∃ f', f = f' + 1 := ⟨f - 1, by omega⟩
    subst h1
    simp only [set, h2]
    exact top _ keys f h3 h4 (by omega)
  · exact top n keys f (hn.resolve_right (fun hk => h (known_isHash hk.2))) h (by omega)

theorem set_top (hH : Hash32 H) (t : Node) (o : Bytes) : Canon0 t → Fits (find t) →
    ∀ n keys f, Den H db t n → ¬ IsHash n → 2 * keys.length + 1 ≤ f →
      SetOk H db t keys o (set db f n keys o) := by
  induction t with
  | nil =>
    intro _ _ n keys f hd _ hl
    obtain ⟨f, rfl⟩ : ∃ f', f = f' + 1 := ⟨f - 1, by omega⟩
    rw [den_nil.1 hd]
    refine ⟨rfl, rfl, fun h => (by cases h), by simp [set, IsHash], .leaf keys o, Or.inl rfl, trivial,
      fun h => h.elim, fun q => ?_⟩
    simp [find]
  | hash _ => rintro (h | h) <;> cases h
  | leaf k v =>
    intro _ _ n keys f hd hn hl
    obtain ⟨f, rfl⟩ : ∃ f', f = f' + 1 := ⟨f - 1, by omega⟩
    obtain rfl := den_leaf hd hn
    simp only [set]
    exact setLeaf_ok k v keys o
  | ext k t ih =>
    intro hc hf n keys f hd hn hl
    have hc := hc.resolve_left (by simp)
    obtain ⟨f, rfl⟩ : ∃ f', f = f' + 1 := ⟨f - 1, by omega⟩
    obtain ⟨m, rfl, hm⟩ := den_ext hd hn
    have hk := List.length_pos_iff.2 hc.1
    simp only [set]
    by_cases h : k <+: keys
    · have hcp := compareKeys_prefix _ _ h
      have hle := h.length_le
      rw [if_neg (by rw [hcp]; omega), hcp]
      obtain ⟨r1, r2, r3, r4, t', r5, r6, r7, r8⟩ := set_any hH (Or.inr hc.2.2) (fits_next hf) o
        (ih (Or.inr hc.2.2) (fits_next hf)) m (keys.drop k.length) f (Or.inl hm)
        (by simp only [List.length_drop]; omega)
      have hfk : find (.ext k t) keys = find t (keys.drop k.length) := by
        simp only [find]; rw [if_pos h]
      refine ⟨r1, by rw [hfk]; exact r2, by rw [hfk]; exact r3, by simp [IsHash], .ext k t', Or.inl ⟨_, rfl, r5⟩,
        ⟨hc.1, r7 hc.2.1, r6⟩, fun h => h.elim, fun q => ?_⟩
      simp only [find]
      by_cases hq : k <+: q
      · rw [if_pos hq, if_pos hq, r8]
        obtain ⟨s, rfl⟩ := hq
        obtain ⟨u, rfl⟩ := h
        simp only [List.drop_left, List.append_cancel_left_eq]
      · rw [if_neg hq, if_neg hq, if_neg]
        rintro rfl
        exact hq h
    · have hlt := (compareKeys_lt keys k).2 h
      rw [if_pos (Or.inr hlt)]
      exact setExtSplit_ok k t m keys o h hc hm
  | branch c v ih =>
    intro hc hf n keys f hd hn hl
    have hc := hc.resolve_left (by simp)
    obtain ⟨f, rfl⟩ : ∃ f', f = f' + 1 := ⟨f - 1, by omega⟩
    obtain ⟨d, rfl, hm⟩ := den_branch hd hn
    cases keys with
    | nil =>
      simp only [set]
      by_cases hv : v = some o
      · rw [if_pos hv]
        refine ⟨rfl, rfl, fun _ => hv, hn, .branch c v, hd, hc, fun h => h, fun q => ?_⟩
        cases q with
        | nil => simpa [find] using hv
        | cons _ _ => simp
      · rw [if_neg hv]
        refine ⟨rfl, rfl, fun h => (by cases h), by simp [IsHash], .branch c (some o), Or.inl ⟨d, rfl, hm⟩, ⟨hc.1, ?_⟩,
          fun h => h, fun q => ?_⟩
        · have := hc.2
          simp only [Option.isSome_some, if_true]
          split_ifs at this <;> omega
        · cases q with
          | nil => simp [find]
          | cons _ _ => simp [find]
    | cons i s =>
      simp only [List.length_cons] at hl
      simp only [set]
      obtain ⟨r1, r2, r3, r4, t', r5, r6, _, r8⟩ := set_any hH (hc.1 i) (fits_child hf i) o
        (ih i (hc.1 i) (fits_child hf i)) (d i) s f (Or.inl (hm i)) (by omega)
      refine ⟨r1, r2, r3, by simp [IsHash], .branch (put c i t') v, Or.inl ⟨_, rfl, fun j => ?_⟩, ⟨fun j => ?_, ?_⟩,
        fun h => trivial, fun q => ?_⟩
      · unfold put; split_ifs
        · exact r5
        · exact hm j
      · unfold put; split_ifs
        · exact Or.inr r6
        · exact hc.1 j
      · have hsub : (alive c).length ≤ (alive (put c i t')).length := by
          unfold alive
          apply List.Sublist.length_le
          apply List.monotone_filter_right
          intro j hj
          unfold put
          by_cases hji : j = i
          · rw [if_pos hji]
            have := canon_not_nil r6
            cases t' <;> first | rfl | exact absurd rfl this
          · rw [if_neg hji]; exact hj
        have := hc.2
        omega
      · rw [find_put]
        cases q with
        | nil => simp [find]
        | cons j r =>
          simp only [find, r8, List.cons.injEq]
          by_cases hj : j = i
          · subst hj; simp
          · simp [hj]

theorem set_spec (hH : Hash32 H) {t n : Node} (hc : Canon0 t) (hf : Fits (find t))
    (hn : Root H db t n) (keys : List Nib) (o : Bytes) (f : Nat) (hl : 2 * keys.length + 2 ≤ f) :
    SetOk H db t keys o (set db f n keys o) :=
  set_any hH hc hf o (set_top hH t o hc hf) n keys f hn hl

end Verif.Trie
