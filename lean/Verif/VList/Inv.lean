import Verif.VList.Spec
import Mathlib.Data.List.Dedup
import Mathlib.Data.Finset.Card
import Mathlib.Data.List.Nodup
import Mathlib.Data.List.ReduceOption

/-! # The validator list: how the memory stands for plain lists -/

namespace Verif.VList

/-- The position as an optional number. -/
abbrev pos (l : List Vd) (a : Bytes) : Option Nat := l.findIdx? (fun v => decide (v.addr = a))

/-! ### Maps -/

theorem mget_mdel (m : AMap) (k a : Bytes) : mget (mdel m k) a = if a = k then none else mget m a := by
  induction m with
  | nil => simp [mdel, mget]
  | cons e m ih =>
    obtain ⟨k', i⟩ := e
    unfold mdel at ih ⊢
    by_cases h : k' = k
    · simp only [List.filter_cons, h, decide_true, Bool.not_true, Bool.false_eq_true, if_false, ih, mget]
      by_cases ha : a = k
      · simp [ha]
      · simp [ha, Ne.symm ha]
    · simp only [List.filter_cons, h, decide_false, Bool.not_false, if_true, mget, ih]
      by_cases ha : a = k
      · subst ha; simp [h]
      · simp [ha]

theorem mget_mput (m : AMap) (k a : Bytes) (i : Nat) :
    mget (mput m k i) a = if a = k then some i else mget m a := by
  simp only [mput, mget, mget_mdel]
  by_cases h : a = k
  · simp [h]
  · simp [h, Ne.symm h]

theorem pos_none {l : List Vd} {a : Bytes} : pos l a = none ↔ ¬ Present l a := by
  simp [pos, Present]

theorem pos_some {l : List Vd} (hd : Distinct l) {a : Bytes} {i : Nat} :
    pos l a = some i ↔ ∃ h : i < l.length, l[i].addr = a := by
  unfold pos
  rw [List.findIdx?_eq_some_iff_getElem]
  constructor
  · rintro ⟨h, h1, _⟩; exact ⟨h, by simpa using h1⟩
  · rintro ⟨h, h1⟩
    refine ⟨h, by simpa using h1, ?_⟩
    intro j hj
    simp only [decide_eq_true_eq]
    intro e
    have h' : j < l.length := by omega
    have e2 : (l.map (·.addr))[j]'(by simpa using h') = (l.map (·.addr))[i]'(by simpa using h) := by
      simp [e, h1]
    have := (List.Nodup.getElem_inj_iff hd).1 e2
    omega

theorem fillMap_get (vl : List Vd) : ∀ (m : AMap) (n : Nat), Distinct vl → ∀ a,
    mget (fillMap m n vl) a = match pos vl a with | some j => some (n + j) | none => mget m a := by
  induction vl with
  | nil => intro m n _ a; simp [fillMap, pos]
  | cons v vl ih =>
    intro m n hd a
    have hd' : Distinct vl := (List.nodup_cons.1 (show (v.addr :: vl.map (·.addr)).Nodup from hd)).2
    have hnot : v.addr ∉ vl.map (·.addr) := (List.nodup_cons.1 (show (v.addr :: vl.map (·.addr)).Nodup from hd)).1
    simp only [fillMap]
    rw [ih _ _ hd' a]
    by_cases h : v.addr = a
    · have h1 : pos vl a = none := by
        rw [pos_none]; rintro ⟨u, hu, e⟩
        exact hnot (List.mem_map.2 ⟨u, hu, by simp [e, h]⟩)
      have h2 : pos (v :: vl) a = some 0 := by simp [pos, List.findIdx?_cons, h]
      simp [h1, h2, mget_mput, h]
    · have h2 : pos (v :: vl) a = (pos vl a).map (· + 1) := by simp [pos, List.findIdx?_cons, h]
      rw [h2]
      cases hp : pos vl a with
      | some j => simp; omega
      | none => simp [mget_mput, Ne.symm h]

theorem makeMap_get {vl : List Vd} (hd : Distinct vl) (a : Bytes) : mget (makeMap vl) a = pos vl a := by
  rw [makeMap, fillMap_get _ _ _ hd a]
  cases pos vl a <;> simp [mget]

theorem keys_mput (m : AMap) (k : Bytes) (i : Nat) (h : (m.map (·.1)).Nodup) :
    ((mput m k i).map (·.1)).Nodup ∧ ∀ a, a ∈ (mput m k i).map (·.1) ↔ a = k ∨ a ∈ m.map (·.1) := by
  have hsub : (mdel m k).map (·.1) = (m.map (·.1)).filter (fun x => !(decide (x = k))) := by
    simp only [mdel, List.filter_map]; rfl
  constructor
  · simp only [mput, List.map_cons, List.nodup_cons, hsub]
    exact ⟨by simp, h.filter _⟩
  · intro a
    simp only [mput, List.map_cons, List.mem_cons, hsub, List.mem_filter, Bool.not_eq_true', decide_eq_false_iff_not]
    by_cases e : a = k <;> simp [e]

theorem keys_fillMap (vl : List Vd) : ∀ (m : AMap) (n : Nat), (m.map (·.1)).Nodup →
    ((fillMap m n vl).map (·.1)).Nodup ∧
      ∀ a, a ∈ (fillMap m n vl).map (·.1) ↔ a ∈ m.map (·.1) ∨ a ∈ vl.map (·.addr) := by
  induction vl with
  | nil => intro m n h; simpa [fillMap] using h
  | cons v vl ih =>
    intro m n h
    obtain ⟨h1, h2⟩ := keys_mput m v.addr n h
    obtain ⟨h3, h4⟩ := ih _ (n + 1) h1
    refine ⟨h3, fun a => ?_⟩
    simp only [fillMap]
    rw [h4 a, h2 a, List.map_cons, List.mem_cons]
    tauto

theorem makeMap_length (vl : List Vd) : (makeMap vl).length = vl.length ↔ Distinct vl := by
  obtain ⟨h1, h2⟩ := keys_fillMap vl [] 0 (by simp)
  have e : ((makeMap vl).map (·.1)).toFinset = (vl.map (·.addr)).toFinset := by
    ext a; rw [List.mem_toFinset, List.mem_toFinset]; simpa [makeMap] using h2 a
  have hc : (makeMap vl).length = (vl.map (·.addr)).dedup.length := by
    rw [← List.card_toFinset, ← e]
    exact ((List.toFinset_card_of_nodup h1).trans (List.length_map ..)).symm
  rw [hc]
  constructor
  · intro h
    have : (vl.map (·.addr)).dedup = vl.map (·.addr) :=
      (List.dedup_sublist _).eq_of_length (by simp [h])
    unfold Distinct
    rw [← this]; exact List.nodup_dedup _
  · intro h
    rw [List.dedup_eq_self.2 h, List.length_map]

theorem makeMapStrict_some {vl : List Vd} (hd : Distinct vl) : makeMapStrict vl = some (makeMap vl) := by
  simp [makeMapStrict, (makeMap_length vl).2 hd]

theorem makeMapStrict_none {vl : List Vd} (hd : ¬ Distinct vl) : makeMapStrict vl = none := by
  unfold makeMapStrict
  rw [if_pos]
  intro h; exact hd ((makeMap_length vl).1 h)

theorem position_eq (l : List Vd) (a : Bytes) :
    position l a = match pos l a with | some i => (i : Int) | none => -1 := rfl

/-! ### Objects and the lists they stand for -/

/-- The object stands for the list. -/
structure Holds (w : World) (r : Nat) (l : List Vd) : Prop where
  ref : r < w.lists.length
  arr : (w.obj r).arr < w.arrs.length
  len : (w.obj r).len = l.length
  cells : w.cells (w.obj r) = l.map some
  map : ∀ m, (w.obj r).amap = some m → ∀ a, mget m a = pos l a

/-- Objects have arrays, and no two share one. -/
structure Sep (w : World) : Prop where
  bound : ∀ r, r < w.lists.length → (w.obj r).arr < w.arrs.length
  inj : ∀ r r', r < w.lists.length → r' < w.lists.length → (w.obj r).arr = (w.obj r').arr → r = r'

/-- The memory stands for the plain values. -/
structure Rel (E : Env) (w : World) (p : Plain) : Prop where
  sep : Sep w
  snl : w.snaps.length = p.snaps.length
  stl : w.states.length = p.states.length
  sn : ∀ (k : Nat) (sn : Snap) (y : List Vd × Bool), w.snaps[k]? = some sn → p.snaps[k]? = some y →
    Holds w sn.lst y.1 ∧ Distinct y.1 ∧ sn.dirty = y.2 ∧ (∀ b, sn.ser = some b → b = bytesOf E y.1) ∧
      (∀ h, sn.hash = some h → h = hashOf E y.1)
  st : ∀ (s : Nat) (st : St) (x : List Vd × Option Nat), w.states[s]? = some st → p.states[s]? = some x →
    Holds w st.lst x.1 ∧ Distinct x.1 ∧ st.snap = x.2 ∧
      (∀ k, st.snap = some k → ∃ sn : Snap, w.snaps[k]? = some sn ∧ sn.lst = st.lst)
  own : ∀ (s : Nat) (st : St), w.states[s]? = some st → st.snap = none →
    (∀ (k : Nat) (sn : Snap), w.snaps[k]? = some sn → sn.lst ≠ st.lst) ∧
      (∀ (s' : Nat) (st' : St), s' ≠ s → w.states[s']? = some st' → st'.lst ≠ st.lst)
  db : Stored E w.db p.db

/-- Holding does not depend on the states, snapshots and the database. -/
theorem Holds.congr {w w' : World} {r : Nat} {l : List Vd} (h : Holds w r l) (h1 : w'.arrs = w.arrs)
    (h2 : w'.lists = w.lists) : Holds w' r l := by
  have ho : w'.obj r = w.obj r := by simp [World.obj, h2]
  have hc : ∀ o, w'.cells o = w.cells o := by intro o; simp [World.cells, h1]
  exact ⟨by rw [h2]; exact h.ref, by rw [ho, h1]; exact h.arr, by rw [ho]; exact h.len,
    by rw [ho, hc]; exact h.cells, by rw [ho]; exact h.map⟩

theorem Sep.congr {w w' : World} (h : Sep w) (h1 : w.arrs.length ≤ w'.arrs.length) (h2 : w'.lists = w.lists) :
    Sep w' := by
  have ho : ∀ r, w'.obj r = w.obj r := by intro r; simp [World.obj, h2]
  refine ⟨fun r hr => ?_, fun r r' hr hr' e => ?_⟩
  · rw [ho]; rw [h2] at hr; exact Nat.lt_of_lt_of_le (h.bound r hr) h1
  · rw [ho, ho] at e; rw [h2] at hr hr'; exact h.inj r r' hr hr' e

theorem Holds.vals {w : World} {r : Nat} {l : List Vd} (h : Holds w r l) : w.vals (w.obj r) = l := by
  rw [World.vals, h.cells, List.reduceOption]
  simp

theorem Holds.get {w : World} {r : Nat} {l : List Vd} (h : Holds w r l) (i : Int) :
    getOf w r i = elementAt l i := by
  unfold getOf elementAt
  by_cases hi : i < 0
  · rw [if_pos (Or.inl hi), if_pos hi]
  · rw [if_neg hi]
    by_cases hl : i ≥ ((w.obj r).len : Int)
    · rw [if_pos (Or.inr hl)]
      rw [h.len] at hl
      rw [List.getElem?_eq_none (by omega)]
    · rw [if_neg (by tauto)]
      have hlt : i.toNat < (w.obj r).len := by omega
      have hc := h.cells
      unfold World.cells at hc
      have : ((w.arrs.getD (w.obj r).arr []).take (w.obj r).len)[i.toNat]? = (l.map some)[i.toNat]? := by rw [hc]
      rw [List.getElem?_take_of_lt hlt] at this
      rw [List.getD_eq_getElem?_getD, this]
      have hl2 : i.toNat < l.length := by rw [← h.len]; exact hlt
      simp [hl2]

theorem Holds.isSame {w : World} {r : Nat} {l : List Vd} (h : Holds w r l) (vl : List Vd) :
    isSame w r vl = decide (vl = l) := by
  unfold VList.isSame
  rw [h.cells, h.len]
  congr 1
  apply propext
  constructor
  · rintro ⟨_, h2⟩
    exact List.map_injective_iff.2 (Option.some_injective _) h2
  · rintro rfl; exact ⟨rfl, rfl⟩

/-! ### Frames -/

/-- Objects keep their lists, and nothing else changes. -/
theorem Rel.frame {E : Env} {w w' : World} {p : Plain} (h : Rel E w p) (h1 : w'.snaps = w.snaps)
    (h2 : w'.states = w.states) (h3 : w'.db = w.db) (hs : Sep w') (hh : ∀ r l, Distinct l → Holds w r l → Holds w' r l) :
    Rel E w' p where
  sep := hs
  snl := by rw [h1]; exact h.snl
  stl := by rw [h2]; exact h.stl
  sn := by
    intro k sn y e1 e2; rw [h1] at e1
    obtain ⟨a, b, c⟩ := h.sn k sn y e1 e2
    exact ⟨hh _ _ b a, b, c⟩
  st := by
    intro s st x e1 e2; rw [h2] at e1; rw [h1]
    obtain ⟨a, b, c⟩ := h.st s st x e1 e2
    exact ⟨hh _ _ b a, b, c⟩
  own := by rw [h1, h2]; exact h.own
  db := by rw [h3]; exact h.db

/-- The list of a state that owns its object changes. -/
theorem Rel.change {E : Env} {w w' : World} {p : Plain} (h : Rel E w p) {s : Nat} {st : St} {l' : List Vd}
    (hst : w.states[s]? = some st) (hn : st.snap = none) (h1 : w'.snaps = w.snaps)
    (h2 : w'.states = w.states) (h3 : w'.db = w.db) (hs : Sep w')
    (hh : ∀ r l, r ≠ st.lst → Holds w r l → Holds w' r l) (hl : Holds w' st.lst l') (hd : Distinct l') :
    Rel E w' { p with states := p.states.set s (l', none) } where
  sep := hs
  snl := by rw [h1]; exact h.snl
  stl := by simp [h2, h.stl]
  sn := by
    intro k sn y e1 e2; rw [h1] at e1
    obtain ⟨a, b⟩ := h.sn k sn y e1 e2
    exact ⟨hh _ _ ((h.own s st hst hn).1 k sn e1) a, b⟩
  st := by
    intro s' st' x e1 e2; rw [h2] at e1; rw [h1]
    by_cases e : s' = s
    · subst e
      rw [hst] at e1; cases e1
      have : s' < p.states.length := by rw [← h.stl]; exact (List.getElem?_eq_some_iff.1 hst).1
      simp only [List.getElem?_set_self this, Option.some.injEq] at e2
      subst e2
      exact ⟨hl, hd, hn, by rw [hn]; intro k hk; cases hk⟩
    · simp only [List.getElem?_set_ne (Ne.symm e)] at e2
      obtain ⟨a, b⟩ := h.st s' st' x e1 e2
      exact ⟨hh _ _ ((h.own s st hst hn).2 s' st' e e1) a, b⟩
  own := by rw [h1, h2]; exact h.own
  db := by rw [h3]; exact h.db

/-- Objects keep what they hold, whether or not it has duplicates (used where only arrays and objects are added). -/
theorem obj_putObj (w : World) (r r' : Nat) (o : ListObj) :
    (w.putObj r o).obj r' = if r = r' ∧ r < w.lists.length then o else w.obj r' := by
  simp only [World.obj, World.putObj, List.getD_eq_getElem?_getD, List.getElem?_set]
  by_cases e : r = r'
  · subst e
    by_cases h : r < w.lists.length
    · simp [h]
    · have : w.lists[r]? = none := List.getElem?_eq_none (by omega)
      simp [h, this]
  · simp [e]

theorem cells_of_lt {w w' : World} {o : ListObj} (h : w'.arrs[o.arr]? = w.arrs[o.arr]?) : w'.cells o = w.cells o := by
  simp only [World.cells, List.getD_eq_getElem?_getD, h]

/-- Replacing the object `r` and writing only arrays no other object has. -/
theorem Holds.other {w w' : World} {r : Nat} {o : ListObj} (hl : w'.lists = w.lists.set r o)
    (hlen : w.arrs.length ≤ w'.arrs.length)
    (ha : ∀ r', r' ≠ r → r' < w.lists.length → (w.obj r').arr < w.arrs.length →
      w'.arrs[(w.obj r').arr]? = w.arrs[(w.obj r').arr]?)
    {r' : Nat} {l : List Vd} (hr : r' ≠ r) (h : Holds w r' l) : Holds w' r' l := by
  have ho : w'.obj r' = w.obj r' := by
    have := obj_putObj w r r' o
    simp only [World.obj, World.putObj] at this ⊢
    rw [hl, this, if_neg]; tauto
  exact ⟨by rw [hl, List.length_set]; exact h.ref, by rw [ho]; exact Nat.lt_of_lt_of_le h.arr hlen,
    by rw [ho]; exact h.len, by rw [ho, cells_of_lt (ha r' hr h.ref h.arr)]; exact h.cells, by rw [ho]; exact h.map⟩

/-- Replacing the object `r` keeps the arrays apart if its new array is its old one or a new one. -/
theorem Sep.put {w w' : World} (h : Sep w) {r : Nat} {o : ListObj} (hl : w'.lists = w.lists.set r o)
    (hlen : w.arrs.length ≤ w'.arrs.length) (hb : o.arr < w'.arrs.length)
    (ho : o.arr = (w.obj r).arr ∨ o.arr = w.arrs.length) : Sep w' := by
  have hobj : ∀ x, w'.obj x = (w.putObj r o).obj x := by
    intro x; simp [World.obj, World.putObj, hl]
  refine ⟨fun x hx => ?_, fun a b ha hb e => ?_⟩
  · rw [hl, List.length_set] at hx
    rw [hobj, obj_putObj]
    by_cases h1 : r = x ∧ r < w.lists.length
    · rw [if_pos h1]; exact hb
    · rw [if_neg h1]; exact Nat.lt_of_lt_of_le (h.bound x hx) hlen
  rw [hl, List.length_set] at ha hb
  rw [hobj, hobj, obj_putObj, obj_putObj] at e
  have hba := h.bound a ha
  have hbb := h.bound b hb
  by_cases h1 : r = a <;> by_cases h2 : r = b
  · omega
  · subst h1
    rw [if_pos ⟨rfl, ha⟩, if_neg (by tauto)] at e
    rcases ho with ho | ho
    · exact h.inj r b ha hb (by rw [← ho, e])
    · omega
  · subst h2
    rw [if_neg (by tauto), if_pos ⟨rfl, hb⟩] at e
    rcases ho with ho | ho
    · exact h.inj a r ha hb (by rw [← ho, e])
    · omega
  · rw [if_neg (by tauto), if_neg (by tauto)] at e
    exact h.inj a b ha hb e

/-! ### New objects -/

/-- A new array and a new object for it. -/
def alloc (w : World) (l : List Vd) (extra : Nat) : World :=
  { w with arrs := w.arrs ++ [l.map some ++ List.replicate extra none],
           lists := w.lists ++ [⟨w.arrs.length, l.length, none⟩] }

theorem alloc_obj_old (w : World) (l : List Vd) (e r : Nat) (h : r < w.lists.length) :
    (alloc w l e).obj r = w.obj r := by
  simp only [World.obj, alloc, List.getD_eq_getElem?_getD, List.getElem?_append_left h]

theorem alloc_obj_new (w : World) (l : List Vd) (e : Nat) :
    (alloc w l e).obj w.lists.length = ⟨w.arrs.length, l.length, none⟩ := by
  simp [World.obj, alloc, List.getD_eq_getElem?_getD]

theorem Holds.alloc {w : World} {l' : List Vd} {e r : Nat} {l : List Vd} (h : Holds w r l) :
    Holds (alloc w l' e) r l := by
  have ho := alloc_obj_old w l' e r h.ref
  refine ⟨by simp only [VList.alloc, List.length_append]; have := h.ref; omega,
    by rw [ho]; simp only [VList.alloc, List.length_append]; have := h.arr; omega, by rw [ho]; exact h.len, ?_,
    by rw [ho]; exact h.map⟩
  rw [ho, cells_of_lt (w := w)]
  · exact h.cells
  · simp only [VList.alloc, List.getElem?_append_left h.arr]

theorem alloc_holds (w : World) (l : List Vd) (e : Nat) : Holds (alloc w l e) w.lists.length l := by
  have ho := alloc_obj_new w l e
  refine ⟨by simp [alloc], by rw [ho]; simp [alloc], by rw [ho], ?_, by rw [ho]; intro m hm; cases hm⟩
  rw [ho]
  simp only [World.cells, alloc, List.getD_eq_getElem?_getD]
  simp

theorem Sep.alloc {w : World} (h : Sep w) (l : List Vd) (e : Nat) : Sep (alloc w l e) := by
  have hl : (VList.alloc w l e).lists.length = w.lists.length + 1 := by simp [VList.alloc]
  have ha : (VList.alloc w l e).arrs.length = w.arrs.length + 1 := by simp [VList.alloc]
  have key : ∀ r, r < w.lists.length + 1 → (r = w.lists.length ∧ ((VList.alloc w l e).obj r).arr = w.arrs.length) ∨
      (r < w.lists.length ∧ ((VList.alloc w l e).obj r).arr = (w.obj r).arr ∧ (w.obj r).arr < w.arrs.length) := by
    intro r hr
    by_cases e1 : r = w.lists.length
    · left; refine ⟨e1, ?_⟩; rw [e1, alloc_obj_new]
    · right
      have : r < w.lists.length := by omega
      exact ⟨this, by rw [alloc_obj_old w l e r this], h.bound r this⟩
  refine ⟨fun r hr => ?_, fun r r' hr hr' e' => ?_⟩
  · rw [hl] at hr; rw [ha]
    rcases key r hr with ⟨_, h1⟩ | ⟨_, h1, h2⟩ <;> omega
  · rw [hl] at hr hr'
    rcases key r hr with ⟨h0, h1⟩ | ⟨h0, h1, h2⟩ <;> rcases key r' hr' with ⟨h0', h1'⟩ | ⟨h0', h1', h2'⟩
    · omega
    · omega
    · omega
    · exact h.inj r r' h0 h0' (by rw [← h1, ← h1', e'])

theorem Rel.alloc {E : Env} {w : World} {p : Plain} (h : Rel E w p) (l : List Vd) (e : Nat) :
    Rel E (alloc w l e) p :=
  h.frame rfl rfl rfl (h.sep.alloc l e) (fun _ _ _ hh => hh.alloc)

/-- References in use are old. -/
theorem Rel.sn_lt {E : Env} {w : World} {p : Plain} (h : Rel E w p) {k : Nat} {sn : Snap}
    (hk : w.snaps[k]? = some sn) : sn.lst < w.lists.length := by
  have : k < p.snaps.length := by rw [← h.snl]; exact (List.getElem?_eq_some_iff.1 hk).1
  exact (h.sn k sn _ hk (List.getElem?_eq_getElem this)).1.ref

theorem Rel.st_lt {E : Env} {w : World} {p : Plain} (h : Rel E w p) {s : Nat} {st : St}
    (hk : w.states[s]? = some st) : st.lst < w.lists.length := by
  have : s < p.states.length := by rw [← h.stl]; exact (List.getElem?_eq_some_iff.1 hk).1
  exact (h.st s st _ hk (List.getElem?_eq_getElem this)).1.ref

/-! ### The lazy map -/

theorem indexOf_spec {E : Env} {w : World} {p : Plain} (h : Rel E w p) {r : Nat} {l : List Vd} (hr : Holds w r l)
    (hd : Distinct l) (a : Bytes) :
    (indexOf w r a).2 = position l a ∧ Rel E (indexOf w r a).1 p ∧ Holds (indexOf w r a).1 r l ∧
      (indexOf w r a).1.states = w.states ∧ (indexOf w r a).1.snaps = w.snaps := by
  generalize hm : curMap w (w.obj r) = m
  have hm' := hm
  unfold curMap at hm'
  have hget : ∀ a, mget m a = pos l a := by
    intro a
    cases ho : (w.obj r).amap with
    | some m' => rw [ho] at hm'; dsimp only at hm'; subst hm'; exact hr.map m' ho a
    | none => rw [ho] at hm'; dsimp only at hm'; rw [← hm', hr.vals]; exact makeMap_get hd a
  have hi : indexOf w r a = (w.putObj r { w.obj r with amap := some m },
      match mget m a with | some i => (i : Int) | none => -1) := by
    unfold indexOf
    dsimp only
    rw [hm]
    cases mget m a <;> rfl
  have hr' : Holds (w.putObj r { w.obj r with amap := some m }) r l := by
    have ho : (w.putObj r { w.obj r with amap := some m }).obj r = { w.obj r with amap := some m } := by
      rw [obj_putObj, if_pos ⟨rfl, hr.ref⟩]
    refine ⟨by simp [World.putObj, hr.ref], by rw [ho]; exact hr.arr, by rw [ho]; exact hr.len,
      by rw [ho]; exact hr.cells, ?_⟩
    rw [ho]; intro m' hm'; cases hm'; exact hget
  have hsame : ∀ l', Distinct l' → Holds w r l' → l' = l := by
    intro l' _ hl'
    rw [← hl'.vals, ← hr.vals]
  refine ⟨by rw [hi, position_eq, hget], ?_, by rw [hi]; exact hr', by rw [hi]; rfl, by rw [hi]; rfl⟩
  rw [hi]
  refine h.frame rfl rfl rfl (h.sep.put rfl (le_refl _) (h.sep.bound r hr.ref) (Or.inl rfl)) ?_
  intro r' l' hd' h'
  by_cases e : r' = r
  · subst e
    rw [hsame l' hd' h']; exact hr'
  · exact Holds.other (w := w) (w' := w.putObj r { w.obj r with amap := some m }) rfl (le_refl _) (fun _ _ _ _ => rfl) e h'

/-! ### Becoming the only owner -/

/-- A state lets go of what it shares. -/
theorem Rel.detach {E : Env} {w : World} {p : Plain} (h : Rel E w p) {s : Nat} {st : St}
    (hst : w.states[s]? = some st) (l : List Vd) (hd : Distinct l) (e : Nat) :
    Rel E ((VList.alloc w l e).putSt s ⟨w.lists.length, none⟩) { p with states := p.states.set s (l, none) } := by
  have ha := h.alloc l e
  have hlt : s < w.states.length := (List.getElem?_eq_some_iff.1 hst).1
  have hlt' : s < p.states.length := by rw [← h.stl]; exact hlt
  have hc : ∀ {r l'}, Holds (VList.alloc w l e) r l' →
      Holds ((VList.alloc w l e).putSt s ⟨w.lists.length, none⟩) r l' := fun hh => hh.congr rfl rfl
  refine ⟨ha.sep.congr (le_refl _) rfl, h.snl, ?_, ?_, ?_, ?_, h.db⟩
  · simp [World.putSt, VList.alloc, h.stl]
  · intro k sn y e1 e2
    obtain ⟨a, b⟩ := ha.sn k sn y e1 e2
    exact ⟨hc a, b⟩
  · intro s' st' x e1 e2
    by_cases es : s' = s
    · subst es
      simp only [World.putSt, VList.alloc, List.getElem?_set_self hlt, Option.some.injEq] at e1
      simp only [List.getElem?_set_self hlt', Option.some.injEq] at e2
      subst e1; subst e2
      exact ⟨hc (alloc_holds w l e), hd, rfl, by intro k hk; cases hk⟩
    · simp only [World.putSt, VList.alloc, List.getElem?_set_ne (Ne.symm es)] at e1
      simp only [List.getElem?_set_ne (Ne.symm es)] at e2
      obtain ⟨a, b⟩ := ha.st s' st' x e1 e2
      exact ⟨hc a, b⟩
  · intro s' st' e1 hn
    by_cases es : s' = s
    · subst es
      simp only [World.putSt, VList.alloc, List.getElem?_set_self hlt, Option.some.injEq] at e1
      subst e1
      refine ⟨fun k sn hk => ?_, fun s2 st2 hne h2 => ?_⟩
      · have := h.sn_lt hk; dsimp only; omega
      · simp only [World.putSt, VList.alloc, List.getElem?_set_ne (Ne.symm hne)] at h2
        have := h.st_lt h2; dsimp only; omega
    · simp only [World.putSt, VList.alloc, List.getElem?_set_ne (Ne.symm es)] at e1
      obtain ⟨o1, o2⟩ := h.own s' st' e1 hn
      refine ⟨o1, fun s2 st2 hne h2 => ?_⟩
      by_cases e2 : s2 = s
      · subst e2
        simp only [World.putSt, VList.alloc, List.getElem?_set_self hlt, Option.some.injEq] at h2
        subst h2
        have := h.st_lt e1; dsimp only; omega
      · simp only [World.putSt, VList.alloc, List.getElem?_set_ne (Ne.symm e2)] at h2
        exact o2 s2 st2 hne h2

theorem clone_eq {E : Env} {w : World} {r : Nat} {l : List Vd} (hr : Holds w r l) :
    clone E w r = (alloc w l (E.slack l.length), w.lists.length) := by
  unfold clone World.newArr World.newList
  dsimp only
  rw [hr.cells, hr.len]
  rfl

theorem become_spec {E : Env} {w : World} {p : Plain} (h : Rel E w p) {s : Nat} {st : St} {x : List Vd × Option Nat}
    (hst : w.states[s]? = some st) (hx : p.states[s]? = some x) :
    ∃ w1 st1, becomeChangeable E w s st = (w1, st1) ∧ w1.states[s]? = some st1 ∧ st1.snap = none ∧
      Holds w1 st1.lst x.1 ∧ Rel E w1 { p with states := p.states.set s (x.1, none) } := by
  obtain ⟨hr, hd, hs, _⟩ := h.st s st x hst hx
  have hlt : s < w.states.length := (List.getElem?_eq_some_iff.1 hst).1
  unfold becomeChangeable
  cases hsn : st.snap with
  | some k =>
    dsimp only
    rw [clone_eq hr]
    dsimp only
    refine ⟨_, _, rfl, ?_, rfl, ?_, h.detach hst x.1 hd _⟩
    · simp [World.putSt, VList.alloc, List.getElem?_set_self hlt]
    · exact (alloc_holds w x.1 _).congr rfl rfl
  | none =>
    refine ⟨w, st, rfl, hst, hsn, hr, ?_⟩
    have hlt' : s < p.states.length := by rw [← h.stl]; exact hlt
    have : p.states.set s (x.1, none) = p.states := by
      apply List.ext_getElem?
      intro j
      by_cases e : j = s
      · subst e
        rw [List.getElem?_set_self hlt', hx]
        obtain ⟨x1, x2⟩ := x
        simp only at hs ⊢
        rw [← hs, hsn]
      · rw [List.getElem?_set_ne (Ne.symm e)]
    rw [this]
    exact h

end Verif.VList
