import Verif.VList.Inv

/-! # The validator list: what each operation does to the memory -/

namespace Verif.VList

/-! ### Lists -/

theorem Distinct.eq_of {l : List Vd} (hd : Distinct l) {i j : Nat} (hi : i < l.length) (hj : j < l.length)
    (e : l[i].addr = l[j].addr) : i = j := by
  have e2 : (l.map (·.addr))[i]'(by simpa using hi) = (l.map (·.addr))[j]'(by simpa using hj) := by simp [e]
  exact (List.Nodup.getElem_inj_iff hd).1 e2

theorem distinct_append {l : List Vd} {v : Vd} (hd : Distinct l) (h : ¬ Present l v.addr) : Distinct (l ++ [v]) := by
  unfold Distinct at *
  rw [List.map_append, List.nodup_append]
  refine ⟨hd, by simp, ?_⟩
  intro a ha b hb e
  simp only [List.map_cons, List.map_nil, List.mem_singleton] at hb
  obtain ⟨u, hu, hua⟩ := List.mem_map.1 ha
  exact h ⟨u, hu, by rw [hua, e, hb]⟩

theorem pos_append {l : List Vd} {v : Vd} (h : ¬ Present l v.addr) (a : Bytes) :
    pos (l ++ [v]) a = if a = v.addr then some l.length else pos l a := by
  unfold pos
  rw [List.findIdx?_append]
  by_cases e : a = v.addr
  · subst e
    have := pos_none.2 h
    unfold pos at this
    rw [this, if_pos rfl]
    simp [List.findIdx?_cons]
  · rw [if_neg e]
    have e' : v.addr ≠ a := Ne.symm e
    cases List.findIdx? (fun v => decide (v.addr = a)) l <;> simp [List.findIdx?_cons, e']

theorem distinct_set {l : List Vd} {v : Vd} (hd : Distinct l) (h : ¬ Present l v.addr) (i : Nat) :
    Distinct (l.set i v) := by
  unfold Distinct at *
  rw [List.map_set]
  refine List.Nodup.set hd ?_
  intro hm
  obtain ⟨u, hu, e⟩ := List.mem_map.1 hm
  exact h ⟨u, hu, e⟩

theorem pos_set {l : List Vd} {v : Vd} (hd : Distinct l) (h : ¬ Present l v.addr) {i : Nat} (hi : i < l.length)
    (a : Bytes) :
    pos (l.set i v) a = if a = v.addr then some i else if a = l[i].addr then none else pos l a := by
  have hd' := distinct_set hd h i
  apply Option.ext
  intro j
  rw [pos_some hd']
  by_cases e : a = v.addr
  · subst e
    rw [if_pos rfl]
    constructor
    · rintro ⟨h1, h2⟩
      rw [List.length_set] at h1
      by_cases ej : i = j
      · rw [ej]
      · rw [List.getElem_set_ne ej] at h2
        exact absurd ⟨l[j], List.getElem_mem _, h2⟩ h
    · intro hj; cases hj
      exact ⟨by simpa using hi, by simp⟩
  · rw [if_neg e]
    by_cases e2 : a = l[i].addr
    · rw [if_pos e2]
      constructor
      · rintro ⟨h1, h2⟩
        rw [List.length_set] at h1
        by_cases ej : i = j
        · subst ej; simp only [List.getElem_set_self] at h2; exact absurd h2.symm e
        · rw [List.getElem_set_ne ej] at h2
          exact absurd (hd.eq_of hi h1 (by rw [h2, e2])) ej
      · intro hj; cases hj
    · rw [if_neg e2, pos_some hd]
      constructor
      · rintro ⟨h1, h2⟩
        rw [List.length_set] at h1
        by_cases ej : i = j
        · subst ej; simp only [List.getElem_set_self] at h2; exact absurd h2.symm e
        · rw [List.getElem_set_ne ej] at h2
          exact ⟨h1, h2⟩
      · rintro ⟨h1, h2⟩
        have ej : i ≠ j := by rintro rfl; exact e2 h2.symm
        exact ⟨by simpa using h1, by rw [List.getElem_set_ne ej]; exact h2⟩

theorem filter_addr {a : Bytes} : ∀ {l : List Vd}, Distinct l → ∀ {i : Nat} (hi : i < l.length), l[i].addr = a →
    l.filter (fun u => !(decide (u.addr = a))) = l.take i ++ l.drop (i + 1)
  | v :: l, hd, 0, _, h => by
    have hnot : v.addr ∉ l.map (·.addr) := (List.nodup_cons.1 (show (v.addr :: l.map (·.addr)).Nodup from hd)).1
    have h' : v.addr = a := by simpa using h
    simp only [List.filter_cons, h', decide_true, Bool.not_true, Bool.false_eq_true, if_false, List.take_zero,
      List.nil_append, List.drop_succ_cons, List.drop_zero]
    rw [List.filter_eq_self]
    intro u hu
    simp only [Bool.not_eq_true', decide_eq_false_iff_not]
    intro e
    exact hnot (List.mem_map.2 ⟨u, hu, by simp [e, h']⟩)
  | v :: l, hd, i + 1, hi, h => by
    obtain ⟨hnot, hd'⟩ := List.nodup_cons.1 (show (v.addr :: l.map (·.addr)).Nodup from hd)
    have hi' : i < l.length := by simpa using hi
    have h' : l[i].addr = a := by simpa using h
    have hv : v.addr ≠ a := by
      intro e
      exact hnot (List.mem_map.2 ⟨l[i], List.getElem_mem _, by simp [h', e]⟩)
    simp only [List.filter_cons, hv, decide_false, Bool.not_false, if_true, List.take_succ_cons, List.drop_succ_cons,
      List.cons_append]
    rw [filter_addr hd' hi' h']

theorem filter_absent {l : List Vd} {a : Bytes} (h : ¬ Present l a) :
    l.filter (fun u => !(decide (u.addr = a))) = l := by
  rw [List.filter_eq_self]
  intro u hu
  simp only [Bool.not_eq_true', decide_eq_false_iff_not]
  intro e
  exact h ⟨u, hu, e⟩

theorem map_addr {a : Bytes} {l : List Vd} (hd : Distinct l) {i : Nat} (hi : i < l.length) (h : l[i].addr = a)
    (v : Vd) : (l.map fun u => if u.addr = a then v else u) = l.set i v := by
  apply List.ext_getElem (by simp)
  intro j h1 h2
  have hj : j < l.length := by simpa using h1
  rw [List.getElem_map, List.getElem_set]
  by_cases e : i = j
  · subst e; rw [if_pos h, if_pos rfl]
  · rw [if_neg e, if_neg]
    intro e2; exact e (hd.eq_of hi hj (by rw [h, e2]))

/-! ### Writing an object -/

theorem inplace {w w' : World} (hs : Sep w) {r : Nat} {A' : List (Option Vd)} {o' : ListObj} {l' : List Vd}
    (hr : r < w.lists.length) (ha : w'.arrs = w.arrs.set (w.obj r).arr A') (hl : w'.lists = w.lists.set r o')
    (h1 : o'.arr = (w.obj r).arr) (h2 : o'.len = l'.length) (h3 : A'.take l'.length = l'.map some)
    (h4 : ∀ m, o'.amap = some m → ∀ a, mget m a = pos l' a) :
    Sep w' ∧ (∀ r' l, r' ≠ r → Holds w r' l → Holds w' r' l) ∧ Holds w' r l' := by
  have hb := hs.bound r hr
  have hlen : w'.arrs.length = w.arrs.length := by rw [ha, List.length_set]
  have ho : w'.obj r = o' := by
    have := obj_putObj w r r o'
    rw [if_pos ⟨rfl, hr⟩] at this
    rw [← this]; simp [World.obj, World.putObj, hl]
  refine ⟨hs.put hl (by omega) (by omega) (Or.inl h1), ?_, ?_⟩
  · intro r' l hne hh
    refine Holds.other hl (by omega) ?_ hne hh
    intro r2 hne2 hlt _
    rw [ha, List.getElem?_set_ne]
    intro e
    exact hne2 (hs.inj r2 r hlt hr e.symm)
  · refine ⟨by rw [hl, List.length_set]; exact hr, by rw [ho]; omega, by rw [ho]; exact h2, ?_, by rw [ho]; exact h4⟩
    rw [ho]
    simp only [World.cells, h1, h2, ha, List.getD_eq_getElem?_getD, List.getElem?_set_self hb, Option.getD_some, h3]

theorem fresh {w w' : World} (hs : Sep w) {r : Nat} {A' : List (Option Vd)} {o' : ListObj} {l' : List Vd}
    (hr : r < w.lists.length) (ha : w'.arrs = w.arrs ++ [A']) (hl : w'.lists = w.lists.set r o')
    (h1 : o'.arr = w.arrs.length) (h2 : o'.len = l'.length) (h3 : A'.take l'.length = l'.map some)
    (h4 : ∀ m, o'.amap = some m → ∀ a, mget m a = pos l' a) :
    Sep w' ∧ (∀ r' l, r' ≠ r → Holds w r' l → Holds w' r' l) ∧ Holds w' r l' := by
  have hlen : w'.arrs.length = w.arrs.length + 1 := by rw [ha]; simp
  have ho : w'.obj r = o' := by
    have := obj_putObj w r r o'
    rw [if_pos ⟨rfl, hr⟩] at this
    rw [← this]; simp [World.obj, World.putObj, hl]
  refine ⟨hs.put hl (by omega) (by omega) (Or.inr h1), ?_, ?_⟩
  · intro r' l hne hh
    refine Holds.other hl (by omega) ?_ hne hh
    intro r2 hne2 hlt hlt2
    rw [ha, List.getElem?_append_left hlt2]
  · refine ⟨by rw [hl, List.length_set]; exact hr, by rw [ho]; omega, by rw [ho]; exact h2, ?_, by rw [ho]; exact h4⟩
    rw [ho]
    simp only [World.cells, h1, h2, ha, List.getD_eq_getElem?_getD]
    simp [h3]

/-! ### The changing operations -/

theorem setObj_self (w : World) (r : Nat) : w.lists = w.lists.set r (w.obj r) := by
  apply List.ext_getElem?
  intro j
  rw [List.getElem?_set]
  by_cases e : r = j
  · subst e
    by_cases h : r < w.lists.length
    · simp [h, World.obj, List.getD_eq_getElem?_getD]
    · simp [h, List.getElem?_eq_none (show w.lists.length ≤ r by omega)]
  · simp [e]

theorem update_ne {p : Plain} {s : Nat} {x : List Vd × Option Nat} {l : List Vd} (h : l ≠ x.1) :
    p.update s x l = { p with states := p.states.set s (l, none) } := by
  rw [Plain.update, if_neg h]

theorem states_of {E : Env} {w : World} {p : Plain} (h : Rel E w p) {s : Nat} {st : St}
    (hst : w.states[s]? = some st) : ∃ x, p.states[s]? = some x := by
  have : s < p.states.length := by rw [← h.stl]; exact (List.getElem?_eq_some_iff.1 hst).1
  exact ⟨_, List.getElem?_eq_getElem this⟩

theorem doSet_spec {E : Env} {w : World} {p : Plain} (h : Rel E w p) {s : Nat} {st : St} {x : List Vd × Option Nat}
    (hst : w.states[s]? = some st) (hx : p.states[s]? = some x) (vl : List Vd) :
    (doSet w s st vl).2 = (specSt p s x (.set vl)).2 ∧ Rel E (doSet w s st vl).1 (specSt p s x (.set vl)).1 := by
  obtain ⟨hr, hd, hs, _⟩ := h.st s st x hst hx
  simp only [specSt]
  unfold doSet
  rw [hr.isSame]
  by_cases e : vl = x.1
  · subst e
    simp only [decide_true, if_true]
    rw [if_pos hd, Plain.update, if_pos rfl]
    exact ⟨rfl, h⟩
  · simp only [e, decide_false, Bool.false_eq_true, if_false]
    by_cases hdv : Distinct vl
    · rw [if_pos hdv, makeMapStrict_some hdv, update_ne e]
      refine ⟨rfl, ?_⟩
      dsimp only
      unfold updateValidators
      cases hsn : st.snap with
      | some k => exact h.detach hst vl hdv 0
      | none =>
        dsimp only
        obtain ⟨h1, h2, h3⟩ := fresh (w := w) (w' := (w.newArr (vl.map some) 0).1.putObj st.lst
            ⟨(w.newArr (vl.map some) 0).2, vl.length, some (makeMap vl)⟩) h.sep (r := st.lst)
            (A' := vl.map some ++ List.replicate 0 none) (l' := vl) hr.ref rfl rfl rfl rfl
            (by simp) (by intro m hm; cases hm; exact makeMap_get hdv)
        exact h.change hst hsn rfl rfl rfl h1 h2 h3 hdv
    · rw [if_neg hdv, makeMapStrict_none hdv]
      exact ⟨rfl, h⟩

theorem rel_set_set {E : Env} {w : World} {p : Plain} {s : Nat} {b : List Vd × Option Nat}
    (a : List Vd × Option Nat) (h : Rel E w { p with states := (p.states.set s a).set s b }) :
    Rel E w { p with states := p.states.set s b } := by
  rw [List.set_set] at h; exact h

theorem doAdd_spec {E : Env} {w : World} {p : Plain} (h : Rel E w p) {s : Nat} {st : St} {x : List Vd × Option Nat}
    (hst : w.states[s]? = some st) (hx : p.states[s]? = some x) (v : Vd) :
    (doAdd E w s st v).2 = (specSt p s x (.add v)).2 ∧ Rel E (doAdd E w s st v).1 (specSt p s x (.add v)).1 := by
  obtain ⟨hr, hd, hs, _⟩ := h.st s st x hst hx
  obtain ⟨i1, i2, i3, i4, i5⟩ := indexOf_spec h hr hd v.addr
  simp only [specSt]
  unfold doAdd
  revert i1 i2 i3 i4 i5
  generalize indexOf w st.lst v.addr = P
  obtain ⟨w1, idx⟩ := P
  intro i1 i2 i3 i4 i5
  dsimp only at i1 i2 i3 i4 i5 ⊢
  by_cases hp : Present x.1 v.addr
  · have : idx ≥ 0 := by
      rw [i1, position_eq]
      cases hq : pos x.1 v.addr with
      | some i => exact Int.natCast_nonneg i
      | none => exact absurd hp (pos_none.1 hq)
    rw [if_pos this, if_pos hp]
    exact ⟨rfl, i2⟩
  · have : ¬ idx ≥ 0 := by
      rw [i1, position_eq, pos_none.2 hp]; dsimp only; omega
    rw [if_neg this, if_neg hp]
    obtain ⟨w2, st2, b1, b2, b3, b4, b5⟩ := become_spec i2 (i4 ▸ hst) hx
    rw [b1]
    dsimp only
    have hd' := distinct_append hd hp
    rw [update_ne (by simp)]
    -- the object after the append
    have harr := b4.arr
    have hcells := b4.cells
    have hlen := b4.len
    unfold World.cells at hcells
    by_cases hroom : (w2.obj st2.lst).len < (w2.arrs.getD (w2.obj st2.lst).arr []).length
    · have e1 : appendTo E w2 st2.lst v =
          World.putObj { w2 with arrs := (w2.arrs.set (w2.obj st2.lst).arr
            ((w2.arrs.getD (w2.obj st2.lst).arr []).set (w2.obj st2.lst).len (some v))) } st2.lst
            { w2.obj st2.lst with len := (w2.obj st2.lst).len + 1 } := by
        unfold appendTo; rw [if_pos hroom]
      have ho : (appendTo E w2 st2.lst v).obj st2.lst =
          { w2.obj st2.lst with len := (w2.obj st2.lst).len + 1 } := by
        rw [e1, obj_putObj, if_pos ⟨rfl, b4.ref⟩]
      have htake : ((w2.arrs.getD (w2.obj st2.lst).arr []).set (w2.obj st2.lst).len (some v)).take
          (x.1 ++ [v]).length = (x.1 ++ [v]).map some := by
        have hl : (w2.obj st2.lst).len = x.1.length := hlen
        rw [List.length_append, List.length_singleton, ← hl, List.take_add_one]
        rw [List.take_set_of_le (le_refl _), hcells, List.getElem?_set_self hroom]
        simp
      rw [ho]
      dsimp only
      cases hm : (w2.obj st2.lst).amap with
      | none =>
        refine ⟨rfl, rel_set_set (x.1, none) ?_⟩
        dsimp only
        rw [e1]
        obtain ⟨g1, g2, g3⟩ := inplace (w := w2) (w' := World.putObj { w2 with arrs := (w2.arrs.set
          (w2.obj st2.lst).arr ((w2.arrs.getD (w2.obj st2.lst).arr []).set (w2.obj st2.lst).len (some v))) } st2.lst
            { w2.obj st2.lst with len := (w2.obj st2.lst).len + 1 }) b5.sep (r := st2.lst) (l' := x.1 ++ [v])
            b4.ref rfl rfl rfl (by dsimp only; rw [hlen]; simp) htake (by dsimp only; rw [hm]; intro m hm'; cases hm')
        exact b5.change b2 b3 rfl rfl rfl g1 g2 g3 hd'
      | some m =>
        refine ⟨rfl, rel_set_set (x.1, none) ?_⟩
        dsimp only
        rw [e1]
        obtain ⟨g1, g2, g3⟩ := inplace (w := w2) (w' := World.putObj (World.putObj { w2 with arrs := (w2.arrs.set
          (w2.obj st2.lst).arr ((w2.arrs.getD (w2.obj st2.lst).arr []).set (w2.obj st2.lst).len (some v))) } st2.lst
            { w2.obj st2.lst with len := (w2.obj st2.lst).len + 1 }) st2.lst
            { arr := (w2.obj st2.lst).arr, len := (w2.obj st2.lst).len + 1,
              amap := some (mput m v.addr ((w2.obj st2.lst).len + 1 - 1)) }) b5.sep (r := st2.lst) (l' := x.1 ++ [v])
            (o' := ⟨(w2.obj st2.lst).arr, (w2.obj st2.lst).len + 1,
              some (mput m v.addr ((w2.obj st2.lst).len + 1 - 1))⟩)
            b4.ref rfl (by simp [World.putObj, List.set_set]) rfl (by dsimp only; rw [hlen]; simp) htake
            (by
              intro m' hm' a
              cases hm'
              rw [mget_mput, pos_append hp, b4.map m hm, hlen]
              simp)
        exact b5.change b2 b3 rfl rfl rfl g1 g2 g3 hd'
    · have e1 : appendTo E w2 st2.lst v =
          World.putObj (w2.newArr (w2.cells (w2.obj st2.lst) ++ [some v]) (E.slack ((w2.obj st2.lst).len + 1))).1
            st2.lst { w2.obj st2.lst with arr := w2.arrs.length, len := (w2.obj st2.lst).len + 1 } := by
        unfold appendTo; rw [if_neg hroom]; rfl
      have ho : (appendTo E w2 st2.lst v).obj st2.lst =
          { w2.obj st2.lst with arr := w2.arrs.length, len := (w2.obj st2.lst).len + 1 } := by
        rw [e1, obj_putObj, if_pos ⟨rfl, b4.ref⟩]
      have htake : ((w2.cells (w2.obj st2.lst) ++ [some v]) ++
          List.replicate (E.slack ((w2.obj st2.lst).len + 1)) none).take
          (x.1 ++ [v]).length = (x.1 ++ [v]).map some := by
        rw [b4.cells]
        have : x.1.map some ++ [some v] = (x.1 ++ [v]).map some := by simp
        rw [this]
        apply List.take_left'
        simp
      rw [ho]
      dsimp only
      cases hm : (w2.obj st2.lst).amap with
      | none =>
        refine ⟨rfl, rel_set_set (x.1, none) ?_⟩
        dsimp only
        rw [e1]
        obtain ⟨g1, g2, g3⟩ := fresh (w := w2) (w' := World.putObj (w2.newArr (w2.cells (w2.obj st2.lst) ++ [some v])
            (E.slack ((w2.obj st2.lst).len + 1))).1
            st2.lst { w2.obj st2.lst with arr := w2.arrs.length, len := (w2.obj st2.lst).len + 1 })
            b5.sep (r := st2.lst) (l' := x.1 ++ [v])
            b4.ref rfl rfl rfl (by dsimp only; rw [hlen]; simp) htake (by dsimp only; rw [hm]; intro m hm'; cases hm')
        exact b5.change b2 b3 rfl rfl rfl g1 g2 g3 hd'
      | some m =>
        refine ⟨rfl, rel_set_set (x.1, none) ?_⟩
        dsimp only
        rw [e1]
        obtain ⟨g1, g2, g3⟩ := fresh (w := w2) (w' := World.putObj (World.putObj
            (w2.newArr (w2.cells (w2.obj st2.lst) ++ [some v]) (E.slack ((w2.obj st2.lst).len + 1))).1
            st2.lst { w2.obj st2.lst with arr := w2.arrs.length, len := (w2.obj st2.lst).len + 1 }) st2.lst
            { arr := w2.arrs.length, len := (w2.obj st2.lst).len + 1,
              amap := some (mput m v.addr ((w2.obj st2.lst).len + 1 - 1)) }) b5.sep (r := st2.lst) (l' := x.1 ++ [v])
            (o' := ⟨w2.arrs.length, (w2.obj st2.lst).len + 1,
              some (mput m v.addr ((w2.obj st2.lst).len + 1 - 1))⟩)
            b4.ref rfl (by simp [World.putObj, World.newArr, List.set_set]) rfl (by dsimp only; rw [hlen]; simp) htake
            (by
              intro m' hm' a
              cases hm'
              rw [mget_mput, pos_append hp, b4.map m hm, hlen]
              simp)
        exact b5.change b2 b3 rfl rfl rfl g1 g2 g3 hd'

theorem doRemove_spec {E : Env} {w : World} {p : Plain} (h : Rel E w p) {s : Nat} {st : St} {x : List Vd × Option Nat}
    (hst : w.states[s]? = some st) (hx : p.states[s]? = some x) (v : Vd) :
    (doRemove E w s st v).2 = (specSt p s x (.remove v)).2 ∧
      Rel E (doRemove E w s st v).1 (specSt p s x (.remove v)).1 := by
  obtain ⟨hr, hd, hs, _⟩ := h.st s st x hst hx
  obtain ⟨i1, i2, i3, i4, i5⟩ := indexOf_spec h hr hd v.addr
  simp only [specSt]
  unfold doRemove
  revert i1 i2 i3 i4 i5
  generalize indexOf w st.lst v.addr = P
  obtain ⟨w1, idx⟩ := P
  intro i1 i2 i3 i4 i5
  dsimp only at i1 i2 i3 i4 i5 ⊢
  cases hq : pos x.1 v.addr with
  | none =>
    have hp := pos_none.1 hq
    have : idx < 0 := by rw [i1, position_eq, hq]; dsimp only; omega
    rw [if_pos this, filter_absent hp, Plain.update, if_pos rfl]
    exact ⟨by simp [hp], i2⟩
  | some i =>
    have hp : Present x.1 v.addr := by
      by_contra hc; rw [pos_none.2 hc] at hq; cases hq
    have hi0 : idx = (i : Int) := by rw [i1, position_eq, hq]
    rw [if_neg (by omega)]
    obtain ⟨hi, hia⟩ := (pos_some hd).1 hq
    rw [filter_addr hd hi hia]
    obtain ⟨w2, st2, b1, b2, b3, b4, b5⟩ := become_spec i2 (i4 ▸ hst) hx
    rw [b1]
    dsimp only
    have hne : x.1.take i ++ x.1.drop (i + 1) ≠ x.1 := by
      intro e
      have := congrArg List.length e
      simp only [List.length_append, List.length_take, List.length_drop] at this
      omega
    have hd' : Distinct (x.1.take i ++ x.1.drop (i + 1)) := by
      rw [← filter_addr hd hi hia]
      unfold Distinct at hd ⊢
      exact List.Nodup.sublist (List.Sublist.map _ List.filter_sublist) hd
    rw [update_ne hne]
    refine ⟨by simp [hp], rel_set_set (x.1, none) ?_⟩
    have hidx : idx.toNat = i := by omega
    rw [hidx]
    unfold removeAt
    dsimp only
    have hc := b4.cells
    unfold World.cells at hc
    generalize hA : w2.arrs.getD (w2.obj st2.lst).arr [] = A at hc
    have hti : A.take i = (x.1.take i).map some := by
      have : (A.take (w2.obj st2.lst).len).take i = A.take i := by
        rw [List.take_take, Nat.min_eq_left]
        rw [b4.len]; omega
      rw [← this, hc, List.map_take]
    rw [hc]
    have hlen2 : i + ((x.1.map some).drop (i + 1)).length = (x.1.take i ++ x.1.drop (i + 1)).length := by
      simp only [List.length_drop, List.length_map, List.length_append, List.length_take]; omega
    obtain ⟨g1, g2, g3⟩ := inplace (w := w2) (w' := World.putObj { w2 with arrs := (w2.arrs.set
        (w2.obj st2.lst).arr (A.take i ++ (x.1.map some).drop (i + 1) ++ A.drop (i + ((x.1.map some).drop (i + 1)).length))) }
        st2.lst { w2.obj st2.lst with len := i + ((x.1.map some).drop (i + 1)).length, amap := none })
      b5.sep (r := st2.lst) (l' := x.1.take i ++ x.1.drop (i + 1)) b4.ref rfl rfl rfl hlen2
      (by
        rw [hti, ← List.map_drop, ← List.map_append]
        apply List.take_left'
        simp only [List.length_map])
      (by intro m hm; cases hm)
    exact b5.change b2 b3 rfl rfl rfl g1 g2 g3 hd'

theorem setAt_spec {E : Env} {w : World} {p : Plain} (h : Rel E w p) {s : Nat} {st : St} {x : List Vd × Option Nat}
    (hst : w.states[s]? = some st) (hx : p.states[s]? = some x) {i : Nat} (hi : i < x.1.length) {ov nv : Vd}
    (ho : x.1[i].addr = ov.addr) (hn : ¬ Present x.1 nv.addr) :
    (setAtInLock E w s st i ov nv).2 = .ok ∧
      Rel E (setAtInLock E w s st i ov nv).1 (p.update s x (x.1.set i nv)) := by
  obtain ⟨_, hd, _, _⟩ := h.st s st x hst hx
  obtain ⟨w2, st2, b1, b2, b3, b4, b5⟩ := become_spec h hst hx
  have hne : x.1.set i nv ≠ x.1 := by
    intro e
    apply hn
    have : nv ∈ x.1.set i nv := List.mem_set (by simpa using hi) nv
    rw [e] at this
    exact ⟨nv, this, rfl⟩
  have hd' := distinct_set hd hn i
  rw [update_ne hne]
  unfold setAtInLock
  rw [b1]
  dsimp only
  have hc := b4.cells
  unfold World.cells at hc
  generalize hA : w2.arrs.getD (w2.obj st2.lst).arr [] = A at hc
  have htake : (A.set i (some nv)).take (x.1.set i nv).length = (x.1.set i nv).map some := by
    rw [List.length_set, ← b4.len, List.take_set, hc, List.map_set]
  cases hm : (w2.obj st2.lst).amap with
  | none =>
    refine ⟨rfl, rel_set_set (x.1, none) ?_⟩
    dsimp only
    obtain ⟨g1, g2, g3⟩ := inplace (w := w2) (w' := { w2 with arrs := (w2.arrs.set
        (w2.obj st2.lst).arr (A.set i (some nv))) }) b5.sep (r := st2.lst) (l' := x.1.set i nv) b4.ref rfl
        (setObj_self w2 st2.lst) rfl (by rw [b4.len]; simp) htake (by rw [hm]; intro m hm; cases hm)
    exact b5.change b2 b3 rfl rfl rfl g1 g2 g3 hd'
  | some m =>
    refine ⟨rfl, rel_set_set (x.1, none) ?_⟩
    dsimp only
    obtain ⟨g1, g2, g3⟩ := inplace (w := w2) (w' := World.putObj { w2 with arrs := (w2.arrs.set
        (w2.obj st2.lst).arr (A.set i (some nv))) } st2.lst
        { w2.obj st2.lst with amap := some (mput (mdel m ov.addr) nv.addr i) }) b5.sep (r := st2.lst)
        (l' := x.1.set i nv) b4.ref rfl rfl rfl (by dsimp only; rw [b4.len]; simp) htake
        (by
          intro m' hm' a
          cases hm'
          rw [mget_mput, mget_mdel, pos_set hd hn hi, b4.map m hm, ho])
    exact b5.change b2 b3 rfl rfl rfl g1 g2 g3 hd'

theorem doReplace_spec {E : Env} {w : World} {p : Plain} (h : Rel E w p) {s : Nat} {st : St}
    {x : List Vd × Option Nat} (hst : w.states[s]? = some st) (hx : p.states[s]? = some x) (ov nv : Vd) :
    (doReplace E w s st ov nv).2 = (specSt p s x (.replace ov nv)).2 ∧
      Rel E (doReplace E w s st ov nv).1 (specSt p s x (.replace ov nv)).1 := by
  obtain ⟨hr, hd, hs, _⟩ := h.st s st x hst hx
  obtain ⟨i1, i2, i3, i4, i5⟩ := indexOf_spec h hr hd ov.addr
  simp only [specSt]
  unfold doReplace
  revert i1 i2 i3 i4 i5
  generalize indexOf w st.lst ov.addr = P
  obtain ⟨w1, idx⟩ := P
  intro i1 i2 i3 i4 i5
  dsimp only at i1 i2 i3 i4 i5 ⊢
  cases hq : pos x.1 ov.addr with
  | none =>
    have hp := pos_none.1 hq
    have : idx < 0 := by rw [i1, position_eq, hq]; dsimp only; omega
    rw [if_pos this, if_pos hp]
    exact ⟨rfl, i2⟩
  | some i =>
    have hp : Present x.1 ov.addr := by
      by_contra hc; rw [pos_none.2 hc] at hq; cases hq
    have hi0 : idx = (i : Int) := by rw [i1, position_eq, hq]
    rw [if_neg (by omega), if_neg (not_not.2 hp)]
    obtain ⟨hi, hia⟩ := (pos_some hd).1 hq
    by_cases he : ov.addr = nv.addr
    · rw [if_pos he, if_pos he]
      exact ⟨rfl, i2⟩
    · rw [if_neg he, if_neg he]
      obtain ⟨j1, j2, j3, j4, j5⟩ := indexOf_spec i2 i3 hd nv.addr
      revert j1 j2 j3 j4 j5
      generalize indexOf w1 st.lst nv.addr = P
      obtain ⟨w2, idx2⟩ := P
      intro j1 j2 j3 j4 j5
      dsimp only at j1 j2 j3 j4 j5 ⊢
      by_cases hpn : Present x.1 nv.addr
      · have : idx2 ≥ 0 := by
          rw [j1, position_eq]
          cases hq2 : pos x.1 nv.addr with
          | some i => exact Int.natCast_nonneg i
          | none => exact absurd hpn (pos_none.1 hq2)
        rw [if_pos this, if_pos hpn]
        exact ⟨rfl, j2⟩
      · have : ¬ idx2 ≥ 0 := by
          rw [j1, position_eq, pos_none.2 hpn]; dsimp only; omega
        rw [if_neg this, if_neg hpn, map_addr hd hi hia]
        have hidx : idx.toNat = i := by omega
        rw [hidx]
        exact setAt_spec j2 (by rw [j4, i4]; exact hst) hx hi hia hpn

theorem doSetAt_spec {E : Env} {w : World} {p : Plain} (h : Rel E w p) {s : Nat} {st : St}
    {x : List Vd × Option Nat} (hst : w.states[s]? = some st) (hx : p.states[s]? = some x) (i : Int) (v : Vd) :
    (doSetAt E w s st i v).2 = (specSt p s x (.setAt i v)).2 ∧
      Rel E (doSetAt E w s st i v).1 (specSt p s x (.setAt i v)).1 := by
  obtain ⟨hr, hd, hs, _⟩ := h.st s st x hst hx
  simp only [specSt]
  unfold doSetAt
  rw [hr.get i]
  cases he : elementAt x.1 i with
  | none => exact ⟨rfl, h⟩
  | some ov =>
    dsimp only
    by_cases ha : ov.addr = v.addr
    · rw [if_pos ha, if_pos ha]; exact ⟨rfl, h⟩
    · rw [if_neg ha, if_neg ha]
      obtain ⟨j1, j2, j3, j4, j5⟩ := indexOf_spec h hr hd v.addr
      revert j1 j2 j3 j4 j5
      generalize indexOf w st.lst v.addr = P
      obtain ⟨w2, idx2⟩ := P
      intro j1 j2 j3 j4 j5
      dsimp only at j1 j2 j3 j4 j5 ⊢
      by_cases hpn : Present x.1 v.addr
      · have : idx2 ≥ 0 := by
          rw [j1, position_eq]
          cases hq2 : pos x.1 v.addr with
          | some i => exact Int.natCast_nonneg i
          | none => exact absurd hpn (pos_none.1 hq2)
        rw [if_pos this, if_pos hpn]
        exact ⟨rfl, j2⟩
      · have : ¬ idx2 ≥ 0 := by
          rw [j1, position_eq, pos_none.2 hpn]; dsimp only; omega
        rw [if_neg this, if_neg hpn]
        unfold elementAt at he
        by_cases hi : i < 0
        · rw [if_pos hi] at he; cases he
        · rw [if_neg hi] at he
          obtain ⟨h1, h2⟩ := List.getElem?_eq_some_iff.1 he
          exact setAt_spec j2 (by rw [j4]; exact hst) hx h1 (by rw [h2]) hpn

end Verif.VList
