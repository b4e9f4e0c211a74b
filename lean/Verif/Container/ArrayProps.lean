import Verif.Container.Props

/-! # C07 ArrayDB, C09 isolation of containers -/

namespace Verif.Container
open Verif.Keys Verif.IntCodec Spec

/-! ## ArrayDB -/

/-- one ArrayDB operation as the SCORE sees it (an exception leaves the store) -/
def arrExec (H : Bytes → Bytes) (a : ArrayDB) (s : Store) : ArrOp → Store × Except Err PyVal
  | .put x => match a.put H s x with
    | .ok s' => (s', .ok .none)
    | .error e => (s, .error e)
  | .pop => match a.pop H s with
    | .ok (v, s') => (s', .ok v)
    | .error e => (s, .error e)
  | .get i => (s, a.getItem H s i)
  | .set i x => match a.setItem H s i x with
    | .ok s' => (s', .ok .none)
    | .error e => (s, .error e)
  | .len => (s, do let n ← a.size H s; pure (.int n))

/-- values written have the type of the array -/
def Spec.ArrOp.Typed (ty : VType) : ArrOp → Prop
  | .put x => WellTyped x ty
  | .set _ x => WellTyped x ty
  | _ => True

/-- the store holds the list `l` in array `a` -/
def ArrRel (H : Bytes → Bytes) (a : ArrayDB) (s : Store) (l : List PyVal) : Prop :=
  a.size H s = .ok l.length ∧
  ∀ i (h : i < l.length), ∃ x b, WellTyped x a.ty ∧ encodeValue x = .ok b ∧ l[i] = elem x ∧
    dbGet H a.db s (some (ib i)) = rep b

theorem elem_eq_seen (x : PyVal) : elem x = seen x := rfl

/-- result of the list specification as the SCORE sees it -/
def outcome : Option PyVal → Except Err PyVal
  | some v => .ok v
  | none => .error .invalidParams

section
variable (H : Bytes → Bytes) (hH : Function.Injective H) (a : ArrayDB)

theorem size_setSize (s : Store) (n : Int) : ∃ s', a.setSize H s n = .ok s' ∧ a.size H s' = .ok n ∧
    (∀ y, y ≠ H (a.db.slot none) → s' y = s y) := by
  refine ⟨dbPut H a.db s none (ib n), ?_, ?_, ?_⟩
  · simp [ArrayDB.setSize, encodeValue, intBytes_eq, pure, Except.pure]
  · simp only [ArrayDB.size, dbGet, dbPut, put_same, rep, if_neg (ib_ne_nil n), decodeObject, ib_decode]
  · intro y hy; exact put_other s _ hy

include hH in
theorem elem_slot_ne {i j : Nat} (hi : i < 2 ^ 64) (hj : j < 2 ^ 64) (h : i ≠ j) :
    H (a.db.slot (some (ib i))) ≠ H (a.db.slot (some (ib j))) := by
  intro hc
  have := slot_some_inj a.db (ib_sane (i := i) (by omega) (by exact_mod_cast hi))
    (ib_sane (i := j) (by omega) (by exact_mod_cast hj)) (hH hc)
  have := ib_inj this
  omega

include hH in
theorem elem_size_ne (i : Int) : H (a.db.slot (some (ib i))) ≠ H (a.db.slot none) := by
  intro hc
  exact slot_some_ne_none a.db _ (hH hc)

theorem putAt_ok (s : Store) (i : Int) {x : PyVal} {b : Bytes} (hb : encodeValue x = .ok b) :
    a.putAt H s i x = .ok (dbPut H a.db s (some (ib i)) b) := by
  simp [ArrayDB.putAt, hb, encodeKey, intBytes_eq, pure, Except.pure]

theorem size_put (s : Store) (k : Bytes) (b : Bytes) (hH : Function.Injective H) :
    a.size H (dbPut H a.db s (some k) b) = a.size H s := by
  unfold ArrayDB.size dbGet dbPut
  rw [put_other]
  intro hc; exact slot_some_ne_none a.db _ (hH hc).symm

theorem size_del (s : Store) (k : Bytes) (hH : Function.Injective H) :
    a.size H (dbDel H a.db s (some k)) = a.size H s := by
  unfold ArrayDB.size dbGet dbDel
  rw [del_other]
  intro hc; exact slot_some_ne_none a.db _ (hH hc).symm

theorem size_other (s s' : Store) (h : s' (H (a.db.slot none)) = s (H (a.db.slot none))) :
    a.size H s' = a.size H s := by
  unfold ArrayDB.size dbGet; rw [h]

include hH in
/-- `put` appends -/
theorem rel_put {s : Store} {l : List PyVal} (hr : ArrRel H a s l) {x : PyVal} (hx : WellTyped x a.ty)
    (hl : l.length < 2 ^ 64) :
    ∃ s', a.put H s x = .ok s' ∧ ArrRel H a s' (l ++ [elem x]) := by
  obtain ⟨b, hb⟩ := encodeValue_ok hx
  obtain ⟨s', h1, h2, h3⟩ := size_setSize H a (dbPut H a.db s (some (ib l.length)) b) (l.length + 1)
  refine ⟨s', ?_, ?_, ?_⟩
  · simp only [ArrayDB.put, hr.1, ok_bind, putAt_ok H a s _ hb, h1]
  · rw [h2]; simp
  · intro i hi
    simp only [List.length_append, List.length_cons, List.length_nil, Nat.zero_add] at hi
    have e1 : dbGet H a.db s' (some (ib i)) =
        dbGet H a.db (dbPut H a.db s (some (ib l.length)) b) (some (ib i)) :=
      h3 _ (elem_size_ne H hH a i)
    by_cases hil : i < l.length
    · obtain ⟨x', b', w1, w2, w3, w4⟩ := hr.2 i hil
      refine ⟨x', b', w1, w2, by simpa [List.getElem_append, hil] using w3, ?_⟩
      rw [e1, ← w4]
      exact put_other s b (elem_slot_ne H hH a (by omega) (by omega) (by omega))
    · have : i = l.length := by omega
      subst this
      refine ⟨x, b, hx, hb, by simp, ?_⟩
      rw [e1]; simp [dbGet, dbPut]

/-- reading an existing position -/
theorem rel_getAt {s : Store} {l : List PyVal} (hr : ArrRel H a s l) (k : Nat) (hk : k < l.length) :
    decodeObject (dbGet H a.db s (some (ib k))) a.ty = .ok l[k] := by
  obtain ⟨x, b, h1, h2, h3, h4⟩ := hr.2 k hk
  rw [h4, decode_rep h1 h2, h3, elem_eq_seen]

theorem rel_get {s : Store} {l : List PyVal} (hr : ArrRel H a s l) (i : Int) :
    a.getItem H s i = outcome ((position l.length i).bind (fun k => l[k]?)) := by
  simp only [ArrayDB.getItem, hr.1, ok_bind, ArrayDB.getAt, encodeKey, intBytes_eq]
  unfold position
  by_cases h0 : 0 ≤ i ∧ i < l.length
  · have h1 : ¬ i < 0 := by omega
    have h2 : i.toNat < l.length := by omega
    have h3 : i = (i.toNat : Int) := by omega
    rw [if_pos h0, if_neg h1, if_pos h0]
    have h4 := rel_getAt H a hr _ h2
    rw [← h3] at h4
    rw [h4]
    simp [outcome, List.getElem?_eq_getElem h2]
  · rw [if_neg h0]
    by_cases h1 : -(l.length : Int) ≤ i ∧ i < 0
    · have h2 : l.length - (-i).toNat < l.length := by omega
      have h3 : i + l.length = ((l.length - (-i).toNat : Nat) : Int) := by omega
      rw [if_pos h1, if_pos h1.2, if_pos (by omega), h3, rel_getAt H a hr _ h2]
      simp [outcome, List.getElem?_eq_getElem h2]
    · rw [if_neg h1]
      have : ¬ (0 ≤ (if i < 0 then i + (l.length : Int) else i) ∧
          (if i < 0 then i + (l.length : Int) else i) < l.length) := by split <;> omega
      rw [if_neg this]; rfl

include hH in
/-- `pop` removes and returns the last element; `None` on an empty array -/
theorem rel_pop {s : Store} {l : List PyVal} (hr : ArrRel H a s l) (hl : l.length < 2 ^ 64) :
    ∃ s', a.pop H s = .ok (l.getLast?.getD .none, s') ∧ ArrRel H a s' l.dropLast := by
  by_cases hn : l = []
  · subst hn
    refine ⟨s, ?_, ?_⟩
    · simp [ArrayDB.pop, hr.1, pure, Except.pure]
    · simpa using hr
  · have hpos : 0 < l.length := List.length_pos_iff.mpr hn
    obtain ⟨s', h1, h2, h3⟩ := size_setSize H a (dbDel H a.db s (some (ib (l.length - 1)))) (l.length - 1)
    have hg := rel_get H a hr ((l.length : Int) - 1)
    have hp : position l.length ((l.length : Int) - 1) = some (l.length - 1) := by
      unfold position; rw [if_pos (by omega)]; congr 1; omega
    rw [hp] at hg
    simp only [Option.bind_some, List.getElem?_eq_getElem (show l.length - 1 < l.length by omega),
      outcome] at hg
    refine ⟨s', ?_, ?_, ?_⟩
    · simp only [ArrayDB.pop, hr.1, ok_bind]
      rw [if_neg (by omega)]
      simp only [hg, ok_bind, encodeKey, intBytes_eq, h1, pure, Except.pure]
      rw [List.getLast?_eq_getElem?, List.getElem?_eq_getElem (show l.length - 1 < l.length by omega)]
      rfl
    · rw [h2, List.length_dropLast]; congr 1; omega
    · intro i hi
      rw [List.length_dropLast] at hi
      obtain ⟨x', b', w1, w2, w3, w4⟩ := hr.2 i (by omega)
      refine ⟨x', b', w1, w2, by simpa using w3, ?_⟩
      rw [← w4]
      have e1 := h3 (H (a.db.slot (some (ib i)))) (elem_size_ne H hH a i)
      unfold dbGet
      rw [e1]
      have e2 : ((l.length : Int) - 1) = ((l.length - 1 : Nat) : Int) := by omega
      rw [e2]
      exact del_other s (elem_slot_ne H hH a (by omega) (by omega) (by omega))

include hH in
/-- item assignment changes exactly the addressed element -/
theorem rel_set {s : Store} {l : List PyVal} (hr : ArrRel H a s l) {x : PyVal} (hx : WellTyped x a.ty)
    (hl : l.length < 2 ^ 64) (k : Nat) (hk : k < l.length) :
    ∃ s', a.putAt H s k x = .ok s' ∧ ArrRel H a s' (l.set k (elem x)) := by
  obtain ⟨b, hb⟩ := encodeValue_ok hx
  refine ⟨_, putAt_ok H a s _ hb, ?_, ?_⟩
  · rw [size_put H a s _ b hH, hr.1, List.length_set]
  · intro i hi
    rw [List.length_set] at hi
    by_cases hik : k = i
    · subst hik
      exact ⟨x, b, hx, hb, by simp, by simp [dbGet, dbPut]⟩
    · obtain ⟨x', b', w1, w2, w3, w4⟩ := hr.2 i hi
      refine ⟨x', b', w1, w2, by rw [List.getElem_set_ne hik]; exact w3, ?_⟩
      rw [← w4]
      exact put_other s b (elem_slot_ne H hH a (by omega) (by omega) (Ne.symm hik))

end

/-- **C07.** Whatever sequence of `put`, `pop`, item reads and assignments and `len` is applied, an
ArrayDB answers like a list: exceptions are raised exactly for indices out of range, and they change
nothing. `H` (SHA3-256) is assumed collision-free; the array stays shorter than 2^64. -/
theorem C07_arraydb_is_list (H : Bytes → Bytes) (hH : Function.Injective H) (a : ArrayDB)
    (ops : List ArrOp) :
    ∀ (s : Store) (l : List PyVal), ArrRel H a s l → l.length + ops.length < 2 ^ 64 →
      (∀ op ∈ ops, ArrOp.Typed a.ty op) →
      run (arrExec H a) s ops = (run arrStep l ops).map outcome ∧
      ArrRel H a (final (arrExec H a) s ops) (final arrStep l ops) := by
  induction ops with
  | nil => intro s l hr _ _; exact ⟨rfl, hr⟩
  | cons op ops ih =>
    intro s l hr hlen ht
    have ht' : ∀ op ∈ ops, ArrOp.Typed a.ty op := fun o ho => ht o (by simp [ho])
    have h0 := ht op (by simp)
    simp only [List.length_cons] at hlen
    -- one step
    have step : (arrExec H a s op).2 = outcome (arrStep l op).2 ∧
        ArrRel H a (arrExec H a s op).1 (arrStep l op).1 ∧ (arrStep l op).1.length ≤ l.length + 1 := by
      cases op with
      | put x =>
        obtain ⟨s', h1, h2⟩ := rel_put H hH a hr h0 (by omega)
        simp only [arrExec, h1, arrStep]
        exact ⟨rfl, h2, by simp⟩
      | pop =>
        obtain ⟨s', h1, h2⟩ := rel_pop H hH a hr (by omega)
        simp only [arrExec, h1, arrStep]
        exact ⟨rfl, h2, by simp; omega⟩
      | get i =>
        simp only [arrExec, arrStep]
        exact ⟨rel_get H a hr i, hr, by omega⟩
      | set i x =>
        have key : ∀ j : Int, (if i < 0 then i + (l.length : Int) else i) = j →
            a.setItem H s i x = if 0 ≤ j ∧ j < l.length then a.putAt H s j x
              else .error .invalidParams := by
          intro j hj
          simp only [ArrayDB.setItem, hr.1, ok_bind, hj]
        simp only [arrStep]
        cases hp : position l.length i with
        | none =>
          have hn : ¬ (0 ≤ (if i < 0 then i + (l.length : Int) else i) ∧
              (if i < 0 then i + (l.length : Int) else i) < l.length) := by
            unfold position at hp
            split at hp
            · simp at hp
            · split at hp
              · simp at hp
              · split <;> omega
          have e := key _ rfl
          rw [if_neg hn] at e
          simp only [arrExec, e]
          exact ⟨rfl, hr, by omega⟩
        | some k =>
          have hk : k < l.length ∧ (if i < 0 then i + (l.length : Int) else i) = (k : Int) := by
            unfold position at hp
            split at hp
            · simp at hp; subst hp; rw [if_neg (by omega)]; omega
            · split at hp
              · simp at hp; subst hp; rw [if_pos (by omega)]; omega
              · simp at hp
          have e := key _ hk.2
          rw [if_pos (by omega)] at e
          obtain ⟨s', h1, h2⟩ := rel_set H hH a hr h0 (by omega) k hk.1
          simp only [arrExec, e, h1]
          exact ⟨rfl, h2, by simp⟩
      | len =>
        simp only [arrExec, hr.1, arrStep]
        exact ⟨rfl, hr, by omega⟩
    obtain ⟨h1, h2, h3⟩ := step
    have := ih _ _ h2 (by omega) ht'
    simp only [run, final, List.map_cons, h1]
    exact ⟨by rw [this.1], this.2⟩

/-- A fresh ArrayDB is the empty list. -/
theorem C07_arraydb_fresh (H : Bytes → Bytes) (a : ArrayDB) : ArrRel H a (fun _ => none) [] := by
  refine ⟨rfl, ?_⟩
  intro i hi; simp at hi

/-- **C07** (iteration). Iterating gives exactly the elements of the list, in order. -/
theorem C07_iteration (H : Bytes → Bytes) (a : ArrayDB) (s : Store) (l : List PyVal)
    (hr : ArrRel H a s l) : a.toList H s = .ok l := by
  simp only [ArrayDB.toList, hr.1, ok_bind]
  have : ∀ n, n ≤ l.length → (List.range n).mapM (fun i => a.getAt H s l.length (i : Nat)) =
      .ok (l.take n) := by
    intro n
    induction n with
    | zero => intro _; rfl
    | succ n ih =>
      intro hn
      rw [List.range_succ, List.mapM_append, ih (by omega)]
      simp only [ok_bind, List.mapM_cons, List.mapM_nil]
      have hg : a.getAt H s l.length (n : Nat) = .ok l[n] := by
        simp only [ArrayDB.getAt, encodeKey, intBytes_eq, ok_bind]
        rw [if_neg (show ¬ ((n : Nat) : Int) < 0 by omega), if_pos (by omega), rel_getAt H a hr n (by omega)]
      rw [hg]
      simp only [ok_bind, pure, Except.pure]
      rw [List.take_add_one, List.getElem?_eq_getElem (by omega)]
      rfl
  have h := this l.length (le_refl _)
  simpa using h

theorem encodeValue_inj {x y : PyVal} {t : VType} {b : Bytes} (h : hasType x t = true)
    (h' : hasType y t = true) (e : encodeValue x = .ok b) (e' : encodeValue y = .ok b) : x = y := by
  have hx : ∀ z, encodeValue z = encodeKey z := by intro z; cases z <;> rfl
  exact encodeKey_inj h h' (by rw [← hx, ← hx, e, e'])

/-- **C07** (membership). For an item of the array's type, other than the empty text or empty bytes,
`item in array` tells exactly whether it is an element. -/
theorem C07_contains (H : Bytes → Bytes) (a : ArrayDB) (s : Store) (l : List PyVal)
    (hr : ArrRel H a s l) (x : PyVal) (hx : WellTyped x a.ty) (hne : x ≠ .str "" ∧ x ≠ .bytes []) :
    a.contains H s x = .ok (decide (x ∈ l)) := by
  obtain ⟨b, hb⟩ := encodeValue_ok hx
  have hbne : b ≠ [] := by
    rcases stored_cases hx hb with ⟨h1, _⟩ | ⟨_, h2⟩
    · simp [stored, hne.1, hne.2] at h1
    · exact h2
  have key : a.goContains H s l.length b = decide (x ∈ l) := by
    rw [Bool.eq_iff_iff]
    simp only [ArrayDB.goContains, List.any_eq_true, List.mem_range, decide_eq_true_eq]
    have hpy : ∀ i : Nat, pyIntToBytes (i : Int) = some (ib i) := fun i => pyIntToBytes_eq i
    constructor
    · rintro ⟨i, hi, h⟩
      simp only [hpy] at h
      obtain ⟨x', b', w1, w2, w3, w4⟩ := hr.2 i hi
      rw [w4] at h
      unfold rep at h
      split at h
      · simp at h
      · rename_i v hv
        simp only [beq_iff_eq] at h
        split at hv
        · simp at hv
        · simp only [Option.some.injEq] at hv
          subst hv; subst h
          have : x = x' := encodeValue_inj hx.1 w1.1 hb w2
          subst this
          have : elem x = x := by simp [elem, hne.2]
          rw [this] at w3
          rw [← w3]; exact List.getElem_mem hi
    · intro h
      obtain ⟨i, hi, he⟩ := List.getElem_of_mem h
      refine ⟨i, hi, ?_⟩
      simp only [hpy]
      obtain ⟨x', b', w1, w2, w3, w4⟩ := hr.2 i hi
      have hxx : x' = x := by
        rw [he] at w3
        unfold elem at w3
        split at w3
        · exfalso; subst w3; have := hx.1; cases h : a.ty <;> rw [h] at this <;> simp [hasType] at this
        · exact w3.symm
      subst hxx
      rw [hb] at w2; cases w2
      rw [w4]
      simp [rep, hbne]
  simp only [ArrayDB.contains, hx.1, if_true, hr.1, ok_bind]
  by_cases hz : l.length = 0
  · have : l = [] := List.length_eq_zero_iff.mp hz
    subst this
    simp [pure, Except.pure]
  · rw [if_neg (by omega)]
    simp only [hb, ok_bind, Int.toNat_natCast, key, pure, Except.pure]

/-- **C07** (limit). The empty text is never found, even when it is an element: after `put("")` the
array has one element equal to `""`, and `"" in array` is `False`. -/
theorem C07_empty_text_not_found (H : Bytes → Bytes) (hH : Function.Injective H) (a : ArrayDB)
    (hty : a.ty = .str) : ∃ s, a.put H (fun _ => none) (.str "") = .ok s ∧
      a.getItem H s 0 = .ok (.str "") ∧ a.contains H s (.str "") = .ok false := by
  obtain ⟨s, h1, h2⟩ := rel_put H hH a (C07_arraydb_fresh H a) (x := .str "")
    ⟨by rw [hty]; rfl, by simp⟩ (by simp)
  refine ⟨s, h1, ?_, ?_⟩
  · rw [rel_get H a h2]; rfl
  · simp only [ArrayDB.contains, hty, hasType, if_true, h2.1, ok_bind, List.nil_append, List.length_cons,
      List.length_nil, encodeValue]
    have hs : dbGet H a.db s (some (ib 0)) = none := by
      simp only [ArrayDB.put, (C07_arraydb_fresh H a).1, ok_bind, putAt_ok H a _ _ (x := .str "") rfl,
        List.length_nil] at h1
      obtain ⟨s', g1, _, g3⟩ := size_setSize H a (dbPut H a.db (fun _ => none) (some (ib 0)) (utf8 "")) 1
      have h1' : a.setSize H (dbPut H a.db (fun _ => none) (some (ib 0)) (utf8 "")) 1 = .ok s := h1
      rw [g1] at h1'
      cases h1'
      unfold dbGet
      rw [g3 _ (elem_size_ne H hH a 0)]
      simp only [dbPut, put_same]; rfl
    have hpy : pyIntToBytes (0 : Nat) = some (ib 0) := pyIntToBytes_eq 0
    have hg : a.goContains H s 1 (utf8 "") = false := by
      simp only [ArrayDB.goContains, List.range_succ, List.range_zero, List.nil_append, List.any_cons,
        List.any_nil, hpy, hs]
      rfl
    simpa [pure, Except.pure] using hg

example : run (arrExec id (ArrayDB.mk' [0x61] Db.root .int)) (fun _ => none)
    [.put (.int 5), .put (.int (-1)), .get (-1), .set 0 (.int 9), .pop, .get 0, .get 1, .len, .pop, .pop] =
    [.ok .none, .ok .none, .ok (.int (-1)), .ok .none, .ok (.int (-1)), .ok (.int 9),
     .error .invalidParams, .ok (.int 1), .ok (.int 9), .ok .none] :=
  (C07_arraydb_is_list id (fun _ _ h => h) (ArrayDB.mk' [0x61] Db.root .int) _ _ _
    (C07_arraydb_fresh _ _) (by simp) (by
      intro op hop
      simp only [List.mem_cons, List.not_mem_nil, or_false] at hop
      rcases hop with rfl | rfl | rfl | rfl | rfl | rfl | rfl | rfl | rfl | rfl <;>
        simp [ArrOp.Typed, WellTyped, hasType, ArrayDB.mk'])).1

end Verif.Container
