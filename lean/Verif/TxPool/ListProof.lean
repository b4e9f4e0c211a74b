import Verif.TxPool.Model
import Mathlib.Data.List.Nodup
import Batteries.Data.List.Perm

/-!
# The linked lists of the pool represent one list of transactions
-/

namespace Verif.TxPool

/-! ## Doubly linked lists -/

/-- `ps` is linked by `nx` and `pv`. -/
def DL (nx pv : ℕ → Option ℕ) (ps : List ℕ) : Prop := ∀ a p b, ps = a ++ p :: b → nx p = b.head? ∧ pv p = a.getLast?

theorem split_append {a b c d : List ℕ} {x : ℕ} (h : a ++ b = c ++ x :: d) :
    (∃ d', a = c ++ x :: d' ∧ d = d' ++ b) ∨ (∃ c', b = c' ++ x :: d ∧ c = a ++ c') := by
  rcases List.append_eq_append_iff.mp h with ⟨k, h1, h2⟩ | ⟨k, h1, h2⟩
  · exact Or.inr ⟨k, h2, h1⟩
  · cases k with
    | nil => exact Or.inr ⟨[], by simpa using h2.symm, by simpa using h1.symm⟩
    | cons y k =>
      rw [List.cons_append, List.cons.injEq] at h2
      obtain ⟨rfl, rfl⟩ := h2
      exact Or.inl ⟨k, h1, rfl⟩

theorem DL_insert {nx pv nx' pv' : ℕ → Option ℕ} {a b : List ℕ} {e : ℕ} (h : DL nx pv (a ++ b)) (hn : (a ++ b).Nodup)
    (h1 : nx' e = b.head?) (h2 : pv' e = a.getLast?)
    (h3 : ∀ x, a.getLast? = some x → nx' x = some e) (h4 : ∀ x ∈ a ++ b, a.getLast? ≠ some x → nx' x = nx x)
    (h5 : ∀ x, b.head? = some x → pv' x = some e) (h6 : ∀ x ∈ a ++ b, b.head? ≠ some x → pv' x = pv x) :
    DL nx' pv' (a ++ e :: b) := by
  intro c x d hs
  rcases split_append hs with ⟨d', rfl, rfl⟩ | ⟨c', hs', rfl⟩
  · obtain ⟨q1, q2⟩ := h c x (d' ++ b) (by simp)
    have hx : x ∈ (c ++ x :: d') ++ b := by simp
    have hb : b.head? ≠ some x := by
      intro hb
      have hxb : x ∈ b := List.mem_of_mem_head? hb
      rw [List.nodup_append] at hn
      exact hn.2.2 x (by simp) x hxb rfl
    refine ⟨?_, by rw [h6 x hx hb, q2]⟩
    cases d' with
    | nil => simpa using h3 x (by simp)
    | cons y d' =>
      rw [h4 x hx, q1]
      · simp
      · intro hl
        rw [List.getLast?_append, List.getLast?_cons_cons] at hl
        have hxd : x ∈ y :: d' := by
          cases hg : (y :: d').getLast? with
          | none => simp at hg
          | some z => rw [hg] at hl; simp at hl; subst hl; exact List.mem_of_getLast? hg
        rw [List.nodup_append] at hn
        have := hn.1
        rw [List.nodup_append] at this
        exact (List.nodup_cons.mp this.2.1).1 hxd
  · cases c' with
    | nil =>
      simp only [List.nil_append, List.cons.injEq] at hs'
      obtain ⟨rfl, rfl⟩ := hs'
      exact ⟨h1, by simpa using h2⟩
    | cons y c' =>
      rw [List.cons_append, List.cons.injEq] at hs'
      obtain ⟨rfl, rfl⟩ := hs'
      obtain ⟨q1, q2⟩ := h (a ++ c') x d (by simp)
      have hx : x ∈ a ++ (c' ++ x :: d) := by simp
      have ha : a.getLast? ≠ some x := by
        intro ha
        have hxa : x ∈ a := List.mem_of_getLast? ha
        rw [List.nodup_append] at hn
        exact hn.2.2 x hxa x (by simp) rfl
      refine ⟨by rw [h4 x hx ha, q1], ?_⟩
      cases c' with
      | nil => simpa using h5 x (by simp)
      | cons z c' =>
        rw [h6 x hx, q2]
        · rw [List.getLast?_append, List.getLast?_append, List.getLast?_cons_cons]
        · intro hh
          simp at hh
          subst hh
          rw [List.nodup_append] at hn
          have := hn.2.1
          simp at this

theorem DL_remove {nx pv nx' pv' : ℕ → Option ℕ} {a b : List ℕ} {e : ℕ} (h : DL nx pv (a ++ e :: b)) (hn : (a ++ e :: b).Nodup)
    (h3 : ∀ x, a.getLast? = some x → nx' x = b.head?) (h4 : ∀ x ∈ a ++ b, a.getLast? ≠ some x → nx' x = nx x)
    (h5 : ∀ x, b.head? = some x → pv' x = a.getLast?) (h6 : ∀ x ∈ a ++ b, b.head? ≠ some x → pv' x = pv x) :
    DL nx' pv' (a ++ b) := by
  intro c x d hs
  have hn' : (a ++ b).Nodup := hn.sublist (by simp)
  rcases split_append hs with ⟨d', rfl, rfl⟩ | ⟨c', rfl, rfl⟩
  · obtain ⟨q1, q2⟩ := h c x (d' ++ e :: b) (by simp)
    have hx : x ∈ (c ++ x :: d') ++ b := by simp
    have hb : b.head? ≠ some x := by
      intro hb
      have hxb : x ∈ b := List.mem_of_mem_head? hb
      rw [List.nodup_append] at hn'
      exact hn'.2.2 x (by simp) x hxb rfl
    refine ⟨?_, by rw [h6 x hx hb, q2]⟩
    cases d' with
    | nil => simpa using h3 x (by simp)
    | cons y d' =>
      rw [h4 x hx, q1]
      · simp
      · intro hl
        rw [List.getLast?_append, List.getLast?_cons_cons] at hl
        have hxd : x ∈ y :: d' := by
          cases hg : (y :: d').getLast? with
          | none => simp at hg
          | some z => rw [hg] at hl; simp at hl; subst hl; exact List.mem_of_getLast? hg
        rw [List.nodup_append] at hn'
        have := hn'.1
        rw [List.nodup_append] at this
        exact (List.nodup_cons.mp this.2.1).1 hxd
  · obtain ⟨q1, q2⟩ := h (a ++ e :: c') x d (by simp)
    have hx : x ∈ a ++ (c' ++ x :: d) := by simp
    have ha : a.getLast? ≠ some x := by
      intro ha
      have hxa : x ∈ a := List.mem_of_getLast? ha
      rw [List.nodup_append] at hn'
      exact hn'.2.2 x hxa x (by simp) rfl
    refine ⟨by rw [h4 x hx ha, q1], ?_⟩
    cases c' with
    | nil => simpa using h5 x (by simp)
    | cons z c' =>
      rw [h6 x hx, q2]
      · rw [List.getLast?_append, List.getLast?_append, List.getLast?_cons_cons]
      · intro hh
        simp at hh
        subst hh
        rw [List.nodup_append] at hn'
        have := hn'.2.1
        simp at this

theorem DL_congr {nx pv nx' pv' : ℕ → Option ℕ} {ps : List ℕ} (h : DL nx pv ps) (h1 : ∀ x ∈ ps, nx' x = nx x) (h2 : ∀ x ∈ ps, pv' x = pv x) :
    DL nx' pv' ps := by
  intro a p b hs
  have hp : p ∈ ps := by rw [hs]; simp
  rw [h1 p hp, h2 p hp]
  exact h a p b hs

/-! ## The representation -/

set_option linter.unusedSectionVars false

variable {I S : Type} [DecidableEq I] [DecidableEq S] [Inhabited I] [Inhabited S]

/-- The elements of a sender. -/
def ofSrc (l : TL I S) (s : S) (ps : List ℕ) : List ℕ := ps.filter (fun p => decide ((l.val p).src = s))

/-- The list `l` has the elements `ps`, in this order. -/
structure Rep (l : TL I S) (ps : List ℕ) : Prop where
  nodup : ps.Nodup
  lt : ∀ p ∈ ps, p < l.alloc
  owned : ∀ p, l.owned p = true ↔ p ∈ ps
  size : l.size = ps.length
  front : l.front = ps.head?
  back : l.back = ps.getLast?
  links : DL l.next l.prev ps
  srcLinks : ∀ s, DL l.srcNext l.srcPrev (ofSrc l s ps)
  srcLast : ∀ s, l.srcLast s = (ofSrc l s ps).getLast?
  ids : ∀ i p, l.idMap i = some p ↔ p ∈ ps ∧ (l.val p).id = i
  sorted : ps.Pairwise (fun p q => (l.val p).src = (l.val q).src → (l.val p).ts ≤ (l.val q).ts)

theorem rep_new : Rep (TL.new : TL I S) [] where
  nodup := List.nodup_nil
  lt _ h := by simp at h
  owned p := by simp [TL.new]
  size := rfl
  front := rfl
  back := rfl
  links := by intro a p b h; simp at h
  srcLinks s := by intro a p b h; simp [ofSrc] at h
  srcLast s := rfl
  ids i p := by simp [TL.new]
  sorted := List.Pairwise.nil

theorem walk_eq {l : TL I S} {ps : List ℕ} (h : DL l.next l.prev ps) : ∀ (b a : List ℕ) (n : ℕ), ps = a ++ b → b.length ≤ n → walk l n b.head? = b := by
  intro b
  induction b with
  | nil => intro a n _ _; cases n <;> rfl
  | cons p b ih =>
    intro a n hs hn
    cases n with
    | zero => simp at hn
    | succ n =>
      rw [List.head?_cons, walk, (h a p b hs).1, ih (a ++ [p]) n (by simp [hs]) (by simp at hn; omega)]

theorem length_le_alloc {l : TL I S} {ps : List ℕ} (h : Rep l ps) : ps.length ≤ l.alloc := by
  have h1 : ps ⊆ List.range l.alloc := by
    intro p hp
    rw [List.mem_range]
    exact h.lt p hp
  have := (List.subperm_of_subset h.nodup h1).length_le
  simpa using this

/-- What the loops visit are the elements. -/
theorem elems_eq {l : TL I S} {ps : List ℕ} (h : Rep l ps) : l.elems = ps := by
  unfold TL.elems
  rw [h.front]
  exact walk_eq h.links ps [] _ rfl (length_le_alloc h)

/-! ## Removing -/

theorem upd_self {A B : Type} [DecidableEq A] (f : A → B) (p : A) (v : B) : upd f p v p = v := by simp [upd]

theorem upd_ne {A B : Type} [DecidableEq A] (f : A → B) {p x : A} (v : B) (h : x ≠ p) : upd f p v x = f x := by simp [upd, h]

theorem setAt_of {f : ℕ → Option ℕ} {p v : Option ℕ} {x : ℕ} (h : p = some x) : setAt f p v x = v := by
  subst h; simp [setAt, upd]

theorem setAt_ne {f : ℕ → Option ℕ} {p v : Option ℕ} {x : ℕ} (h : p ≠ some x) : setAt f p v x = f x := by
  cases p with
  | none => rfl
  | some q => simp only [setAt]; rw [upd_ne]; rintro rfl; exact h rfl

theorem DL_unlink {nx pv : ℕ → Option ℕ} {a b : List ℕ} {t : ℕ} (h : DL nx pv (a ++ t :: b)) (hn : (a ++ t :: b).Nodup) :
    DL (upd (setAt nx (pv t) (nx t)) t none) (upd (setAt pv (nx t) (pv t)) t none) (a ++ b) := by
  obtain ⟨e1, e2⟩ := h a t b rfl
  have ht : ∀ x ∈ a ++ b, x ≠ t := by
    rintro x hx rfl
    have := List.nodup_middle.mp hn
    exact (List.nodup_cons.mp this).1 hx
  have hla : ∀ x, a.getLast? = some x → x ∈ a ++ b := fun x hx => List.mem_append_left _ (List.mem_of_getLast? hx)
  have hhb : ∀ x, b.head? = some x → x ∈ a ++ b := fun x hx => List.mem_append_right _ (List.mem_of_mem_head? hx)
  refine DL_remove h hn ?_ ?_ ?_ ?_
  · intro x hx
    rw [upd_ne _ _ (ht x (hla x hx)), setAt_of (by rw [e2, hx]), e1]
  · intro x hx hne
    rw [upd_ne _ _ (ht x hx), setAt_ne (by rw [e2]; exact hne)]
  · intro x hx
    rw [upd_ne _ _ (ht x (hhb x hx)), setAt_of (by rw [e1, hx]), e2]
  · intro x hx hne
    rw [upd_ne _ _ (ht x hx), setAt_ne (by rw [e1]; exact hne)]

/-- The links of other senders are not touched. -/
theorem DL_unlink_other {nx pv : ℕ → Option ℕ} {fs gs : List ℕ} {a b : List ℕ} {t : ℕ} (h : DL nx pv gs) (h' : DL nx pv fs) (hs : fs = a ++ t :: b)
    (hd : ∀ x ∈ gs, x ∉ fs) : DL (upd (setAt nx (pv t) (nx t)) t none) (upd (setAt pv (nx t) (pv t)) t none) gs := by
  obtain ⟨e1, e2⟩ := h' a t b hs
  subst hs
  refine DL_congr h ?_ ?_
  · intro x hx
    have hxf := hd x hx
    rw [upd_ne _ _ (by rintro rfl; exact hxf (by simp)), setAt_ne]
    rw [e2]; intro hc; exact hxf (by simp [List.mem_of_getLast? hc])
  · intro x hx
    have hxf := hd x hx
    rw [upd_ne _ _ (by rintro rfl; exact hxf (by simp)), setAt_ne]
    rw [e1]; intro hc; exact hxf (by simp [List.mem_of_mem_head? hc])

theorem remove_unowned {l : TL I S} {ps : List ℕ} (h : Rep l ps) {t : ℕ} (ht : t ∉ ps) : l.remove t = (l, false) := by
  have : l.owned t = false := by
    rw [← Bool.not_eq_true, h.owned]; exact ht
  simp [TL.remove, this]

theorem remove_rep {l : TL I S} {a b : List ℕ} {t : ℕ} (h : Rep l (a ++ t :: b)) :
    Rep (l.remove t).1 (a ++ b) ∧ (l.remove t).2 = true ∧ (l.remove t).1.val = l.val ∧ (l.remove t).1.alloc = l.alloc ∧ (l.remove t).1.err = l.err ∧
      (l.remove t).1.direct = l.direct ∧ (l.remove t).1.bloom = l.bloom ∧ (l.remove t).1.chains = l.chains := by
  have hm : t ∈ a ++ t :: b := by simp
  have ho : l.owned t = true := (h.owned t).mpr hm
  have hnd := h.nodup
  have hnot : t ∉ a ++ b := (List.nodup_cons.mp (List.nodup_middle.mp hnd)).1
  have hsub : (a ++ b).Sublist (a ++ t :: b) := by simp
  obtain ⟨e1, e2⟩ := h.links a t b rfl
  have hfil : ∀ s, ofSrc l s (a ++ b) = ofSrc l s a ++ ofSrc l s b := fun s => by simp [ofSrc]
  have hfil' : ofSrc l (l.val t).src (a ++ t :: b) = ofSrc l (l.val t).src a ++ t :: ofSrc l (l.val t).src b := by simp [ofSrc]
  have hsl := h.srcLinks (l.val t).src
  obtain ⟨s1, s2⟩ := hsl _ t _ hfil'
  unfold TL.remove
  simp only [ho, Bool.not_true, Bool.false_eq_true, if_false]
  refine ⟨?_, trivial, rfl, rfl, rfl, rfl, rfl, rfl⟩
  constructor
  · exact hnd.sublist hsub
  · intro p hp; exact h.lt p (hsub.subset hp)
  · intro p
    show upd l.owned t false p = true ↔ _
    by_cases hp : p = t
    · subst hp; simp [upd, hnot]
    · rw [upd_ne _ _ hp, h.owned p]; simp [hp]
  · show l.size - 1 = _
    rw [h.size]; simp; omega
  · show (if l.front = some t then l.next t else l.front) = _
    rw [h.front, e1]
    cases a with
    | nil => simp
    | cons x a =>
      have : x ≠ t := by rintro rfl; simp at hnot
      simp [this]
  · show (if l.back = some t then l.prev t else l.back) = _
    rw [h.back, e2]
    cases b with
    | nil => simp
    | cons x b =>
      have hb : (a ++ t :: x :: b).getLast? = (x :: b).getLast? := by
        rw [List.getLast?_append, List.getLast?_cons_cons]
        cases hg : (x :: b).getLast? with
        | none => simp at hg
        | some z => simp
      have hb' : (a ++ x :: b).getLast? = (x :: b).getLast? := by
        rw [List.getLast?_append]
        cases hg : (x :: b).getLast? with
        | none => simp at hg
        | some z => simp
      rw [hb, hb', if_neg]
      intro hc
      exact hnot (by simp [List.mem_of_getLast? hc])
  · exact DL_unlink h.links hnd
  · intro s
    show DL _ _ (ofSrc l s (a ++ b))
    by_cases hs : s = (l.val t).src
    · subst hs
      rw [hfil]
      exact DL_unlink (hfil' ▸ hsl) (hfil' ▸ hnd.sublist List.filter_sublist)
    · have : ofSrc l s (a ++ b) = ofSrc l s (a ++ t :: b) := by
        simp [ofSrc, Ne.symm hs]
      rw [this]
      refine DL_unlink_other (h.srcLinks s) hsl hfil' ?_
      intro x hx hx'
      simp only [ofSrc, List.mem_filter, decide_eq_true_eq] at hx hx'
      exact hs (by rw [← hx.2, hx'.2])
  · intro s
    show (if l.srcLast (l.val t).src = some t then upd l.srcLast (l.val t).src (l.srcPrev t) else l.srcLast) s = (ofSrc l s (a ++ b)).getLast?
    by_cases hs : s = (l.val t).src
    · subst hs
      rw [hfil, h.srcLast, hfil']
      have hnot' : t ∉ ofSrc l (l.val t).src b := by
        intro hc; exact hnot (by simp [(List.mem_filter.mp hc).1])
      cases hb : ofSrc l (l.val t).src b with
      | nil => simp [upd, s2]
      | cons x r =>
        have q : ∀ (u : List ℕ), (u ++ x :: r).getLast? = (x :: r).getLast? := by
          intro u
          rw [List.getLast?_append]
          cases hg : (x :: r).getLast? with
          | none => simp at hg
          | some z => simp
        rw [q, List.getLast?_append, List.getLast?_cons_cons]
        cases hg : (x :: r).getLast? with
        | none => simp at hg
        | some z =>
          have hz : z ≠ t := by
            rintro rfl
            exact hnot' (hb ▸ List.mem_of_getLast? hg)
          simp [hz]
          rw [h.srcLast, hfil', hb, List.getLast?_append, List.getLast?_cons_cons, hg]; rfl
    · have : ofSrc l s (a ++ b) = ofSrc l s (a ++ t :: b) := by
        simp [ofSrc, Ne.symm hs]
      rw [this, ← h.srcLast]
      split_ifs
      · rw [upd_ne _ _ hs]
      · rfl
  · intro i p
    show upd l.idMap (l.val t).id none i = some p ↔ _
    by_cases hi : i = (l.val t).id
    · subst hi
      rw [upd_self]
      simp only [reduceCtorEq, false_iff, not_and]
      intro hp hc
      have h1 := (h.ids (l.val t).id p).mpr ⟨hsub.subset hp, hc⟩
      have h2 := (h.ids (l.val t).id t).mpr ⟨hm, rfl⟩
      rw [h1] at h2
      simp at h2
      subst h2
      exact hnot hp
    · rw [upd_ne _ _ hi, h.ids]
      show _ ↔ p ∈ a ++ b ∧ (l.val p).id = i
      constructor
      · rintro ⟨h1, h2⟩
        refine ⟨?_, h2⟩
        have : p ≠ t := by rintro rfl; exact hi h2.symm
        simpa [this] using h1
      · rintro ⟨h1, h2⟩
        exact ⟨hsub.subset h1, h2⟩
  · exact h.sorted.sublist hsub

/-! ## Adding -/

theorem findPos_spec {l : TL I S} {fs : List ℕ} (h : DL l.srcNext l.srcPrev fs)
    (hs : fs.Pairwise (fun p q => (l.val p).ts ≤ (l.val q).ts)) (ts : ℤ) :
    ∀ (n : ℕ) (c : List ℕ) (pos : ℕ) (d : List ℕ), fs = c ++ pos :: d → c.length ≤ n → (l.val pos).ts > ts →
      ∃ c' d', fs = c' ++ findPos l ts n pos (l.srcPrev pos) :: d' ∧ (∀ x ∈ c', (l.val x).ts ≤ ts) ∧
        (l.val (findPos l ts n pos (l.srcPrev pos))).ts > ts := by
  intro n
  induction n with
  | zero =>
    intro c pos d hf hl hp
    have : c = [] := by cases c with
      | nil => rfl
      | cons _ _ => simp at hl
    subst this
    exact ⟨[], d, hf, by simp, hp⟩
  | succ n ih =>
    intro c pos d hf hl hp
    have e := (h c pos d hf).2
    cases hc : c.getLast? with
    | none =>
      rw [hc] at e
      rw [e]
      have : c = [] := by simpa using hc
      subst this
      exact ⟨[], d, hf, by simp, hp⟩
    | some t =>
      rw [hc] at e
      rw [e]
      obtain ⟨c0, rfl⟩ := List.getLast?_eq_some_iff.mp hc
      simp only [findPos]
      by_cases ht : (l.val t).ts > ts
      · rw [if_pos ht]
        exact ih c0 t (pos :: d) (by simp [hf]) (by simp at hl; omega) ht
      · rw [if_neg ht]
        refine ⟨c0 ++ [t], d, hf, ?_, hp⟩
        intro x hx
        rw [List.mem_append, List.mem_singleton] at hx
        rcases hx with hx | rfl
        · rw [hf, List.append_assoc] at hs
          have := (List.pairwise_append.mp hs).2.2 x hx t (by simp)
          omega
        · omega

/-- `x` must come after a new transaction. -/
def Later (l : TL I S) (tx : Tx I S) (x : ℕ) : Prop := (l.val x).src = tx.src ∧ tx.ts < (l.val x).ts

/-- Where a transaction is added: before the first later one of its sender. -/
structure Place (l : TL I S) (tx : Tx I S) (ps a b : List ℕ) (pos : Option ℕ) : Prop where
  split : ps = a ++ b
  before : ∀ x ∈ a, ¬ Later l tx x
  head : pos = b.head?
  at_ : ∀ q, pos = some q → Later l tx q

/-- What `linkSrc` has done. -/
structure SrcLinked (l l0 l1 : TL I S) (tx : Tx I S) (e : ℕ) (ps a b : List ℕ) : Prop where
  other : l1 = { l0 with srcNext := l1.srcNext, srcPrev := l1.srcPrev, srcLast := l1.srcLast }
  links : DL l1.srcNext l1.srcPrev (ofSrc l tx.src a ++ e :: ofSrc l tx.src b)
  links' : ∀ s, s ≠ tx.src → DL l1.srcNext l1.srcPrev (ofSrc l s ps)
  last : l1.srcLast tx.src = (ofSrc l tx.src a ++ e :: ofSrc l tx.src b).getLast?
  last' : ∀ s, s ≠ tx.src → l1.srcLast s = (ofSrc l s ps).getLast?

theorem getLast?_append_cons (a b : List ℕ) (x : ℕ) : (a ++ x :: b).getLast? = (x :: b).getLast? := by
  rw [List.getLast?_append]
  cases hg : (x :: b).getLast? with
  | none => simp at hg
  | some z => simp

theorem linkSrc_spec {l : TL I S} {ps : List ℕ} (h : Rep l ps) (tx : Tx I S) (dir : Bool) :
    ∃ a b, Place l tx ps a b (linkSrc (newElem l tx dir) l.alloc tx (l.srcLast tx.src)).2 ∧
      SrcLinked l (newElem l tx dir) (linkSrc (newElem l tx dir) l.alloc tx (l.srcLast tx.src)).1 tx l.alloc ps a b := by
  set e := l.alloc with he
  have hne : ∀ x ∈ ps, x ≠ e := fun x hx => Nat.ne_of_lt (h.lt x hx)
  have hnef : ∀ s, ∀ x ∈ ofSrc l s ps, x ≠ e := fun s x hx => hne x (List.mem_filter.mp hx).1
  have hfs := h.srcLinks tx.src
  have hlast := h.srcLast tx.src
  have hsort : (ofSrc l tx.src ps).Pairwise (fun p q => (l.val p).ts ≤ (l.val q).ts) := by
    have h1 := h.sorted.sublist (List.filter_sublist (p := fun p => decide ((l.val p).src = tx.src)) (l := ps))
    refine List.Pairwise.imp_of_mem ?_ h1
    intro x y hx hy hxy
    have hx := (List.mem_filter.mp hx).2
    have hy := (List.mem_filter.mp hy).2
    rw [decide_eq_true_eq] at hx hy
    exact hxy (by rw [hx, hy])
  have hdis : ∀ s, s ≠ tx.src → ∀ x ∈ ofSrc l s ps, x ∉ ofSrc l tx.src ps := by
    intro s hs x hx hx'
    simp only [ofSrc, List.mem_filter, decide_eq_true_eq] at hx hx'
    exact hs (by rw [← hx.2, hx'.2])
  cases hl : l.srcLast tx.src with
  | none =>
    rw [hl] at hlast
    have hnil : ofSrc l tx.src ps = [] := by simpa using hlast.symm
    refine ⟨ps, [], ⟨by simp, ?_, rfl, by simp [linkSrc]⟩, ⟨rfl, ?_, ?_, ?_, ?_⟩⟩
    · intro x hx hlat
      have : x ∈ ofSrc l tx.src ps := by
        simp only [ofSrc, List.mem_filter, decide_eq_true_eq]; exact ⟨hx, hlat.1⟩
      rw [hnil] at this; simp at this
    · rw [hnil]
      intro a p b hs
      have : a = [] ∧ p = e ∧ b = [] := by
        cases a with
        | nil => simpa [ofSrc, eq_comm] using hs
        | cons x a => simp [ofSrc] at hs
      obtain ⟨rfl, rfl, rfl⟩ := this
      simp [linkSrc, newElem, upd, he]
    · intro s hs
      refine DL_congr (h.srcLinks s) ?_ ?_ <;>
      · intro x hx
        simp only [linkSrc, newElem]
        rw [upd_ne _ _ (hnef s x hx)]
    · rw [hnil]; simp [linkSrc, upd, ofSrc]
    · intro s hs
      simp only [linkSrc, newElem]
      rw [upd_ne _ _ hs, h.srcLast]
  | some t2 =>
    rw [hl] at hlast
    obtain ⟨c, hc⟩ := List.getLast?_eq_some_iff.mp hlast.symm
    have ht2 : t2 ∈ ofSrc l tx.src ps := by rw [hc]; simp
    have hval : ∀ x ∈ ps, (newElem l tx dir).val x = l.val x := fun x hx => upd_ne _ _ (hne x hx)
    simp only [linkSrc]
    rw [hval t2 (List.mem_filter.mp ht2).1]
    by_cases hgt : (l.val t2).ts > tx.ts
    · simp only [if_pos hgt]
      set l0 := newElem l tx dir with hl0
      have hn0 : ∀ x ∈ ps, l0.srcNext x = l.srcNext x := fun x hx => upd_ne _ _ (hne x hx)
      have hp0 : ∀ x ∈ ps, l0.srcPrev x = l.srcPrev x := fun x hx => upd_ne _ _ (hne x hx)
      have hmem : ∀ s, ∀ x ∈ ofSrc l s ps, x ∈ ps := fun s x hx => (List.mem_filter.mp hx).1
      have hfs0 : DL l0.srcNext l0.srcPrev (ofSrc l tx.src ps) :=
        DL_congr hfs (fun x hx => hn0 x (hmem _ x hx)) (fun x hx => hp0 x (hmem _ x hx))
      have hsort0 : (ofSrc l tx.src ps).Pairwise (fun p q => (l0.val p).ts ≤ (l0.val q).ts) := by
        refine List.Pairwise.imp_of_mem ?_ hsort
        intro x y hx hy hxy
        rw [hval x (hmem _ x hx), hval y (hmem _ y hy)]; exact hxy
      have hlen : c.length ≤ l0.alloc := by
        have h1 : (ofSrc l tx.src ps).length ≤ ps.length := List.length_filter_le _ _
        have h2 := length_le_alloc h
        rw [hc] at h1
        simp only [List.length_append, List.length_singleton] at h1
        show c.length ≤ l.alloc + 1
        omega
      obtain ⟨c', d', hcd, hc', hpos⟩ := findPos_spec hfs0 hsort0 tx.ts l0.alloc c t2 [] hc hlen
        (by rw [hval t2 (hmem _ t2 ht2)]; exact hgt)
      generalize hP : findPos l0 tx.ts l0.alloc t2 (l0.srcPrev t2) = P at *
      have hPm : P ∈ ofSrc l tx.src ps := by rw [hcd]; simp
      have hPps := hmem _ P hPm
      have hPsrc : (l.val P).src = tx.src := by simpa [ofSrc] using (List.mem_filter.mp hPm).2
      obtain ⟨a1, b1, hps1, hfa1, hfb1⟩ := List.filter_eq_append_iff.mp (show ps.filter _ = c' ++ P :: d' from hcd)
      obtain ⟨u, b, hb1, hu, _, hfb⟩ := List.filter_eq_cons_iff.mp hfb1
      have hfu : u.filter (fun p => decide ((l.val p).src = tx.src)) = [] := by
        rw [List.filter_eq_nil_iff]; exact hu
      have hps : ps = (a1 ++ u) ++ (P :: b) := by rw [hps1, hb1]; simp
      have hfa : ofSrc l tx.src (a1 ++ u) = c' := by
        rw [ofSrc, List.filter_append, hfa1, hfu, List.append_nil]
      have hfb' : ofSrc l tx.src (P :: b) = P :: d' := by
        rw [ofSrc, List.filter_cons_of_pos (by simpa using hPsrc), hfb]
      have hnodup : (c' ++ P :: d').Nodup := by rw [← hcd]; exact h.nodup.sublist List.filter_sublist
      obtain ⟨g1, g2⟩ := hfs0 c' P d' hcd
      have heP : e ≠ P := (hnef _ P hPm).symm
      have hPc : P ∉ c' := fun hx => (List.nodup_append.mp hnodup).2.2 P hx P (by simp) rfl
      have hec : ∀ x ∈ c' ++ P :: d', x ≠ e := fun x hx => hnef tx.src x (by rw [hcd]; exact hx)
      refine ⟨a1 ++ u, P :: b, ⟨hps, ?_, rfl, ?_⟩, ?_⟩
      · rintro x hx ⟨h1, h2⟩
        have hx' : x ∈ ofSrc l tx.src (a1 ++ u) := by
          simp only [ofSrc, List.mem_filter, decide_eq_true_eq]; exact ⟨hx, h1⟩
        rw [hfa] at hx'
        have := hc' x hx'
        rw [hval x (by rw [hps]; simp only [List.mem_append] at hx ⊢; exact Or.inl hx)] at this
        omega
      · intro q hq
        simp only [Option.some.injEq] at hq
        subst hq
        refine ⟨hPsrc, ?_⟩
        rw [hval P hPps] at hpos
        omega
      · have key : ∀ Q, Q = l0.srcPrev P →
            DL (upd (linkSrcPrev l0 e Q).srcNext e (some P)) (upd (linkSrcPrev l0 e Q).srcPrev P (some e)) (c' ++ e :: P :: d') ∧
            (∀ s, s ≠ tx.src → DL (upd (linkSrcPrev l0 e Q).srcNext e (some P)) (upd (linkSrcPrev l0 e Q).srcPrev P (some e)) (ofSrc l s ps)) ∧
            (linkSrcPrev l0 e Q) = { l0 with srcNext := (linkSrcPrev l0 e Q).srcNext, srcPrev := (linkSrcPrev l0 e Q).srcPrev } := by
          intro Q hQ
          rw [g2] at hQ
          cases Q with
          | none =>
            have : c' = [] := by simpa using hQ.symm
            subst this
            refine ⟨?_, ?_, rfl⟩
            · refine DL_insert (hcd ▸ hfs0) hnodup ?_ ?_ ?_ ?_ ?_ ?_
              · show upd l0.srcNext e (some P) e = _
                rw [upd_self]; rfl
              · show upd l0.srcPrev P (some e) e = _
                rw [upd_ne _ _ heP]; exact upd_self _ _ _
              · intro x hx; simp at hx
              · intro x hx _
                show upd l0.srcNext e (some P) x = _
                rw [upd_ne _ _ (hec x hx)]
              · intro x hx
                simp only [List.head?_cons, Option.some.injEq] at hx
                subst hx
                exact upd_self _ _ _
              · intro x hx hx'
                show upd l0.srcPrev P (some e) x = _
                rw [upd_ne]; rintro rfl; exact hx' rfl
            · intro s hs
              refine DL_congr (h.srcLinks s) ?_ ?_
              · intro x hx
                show upd l0.srcNext e (some P) x = _
                rw [upd_ne _ _ (hnef s x hx), hn0 x (hmem s x hx)]
              · intro x hx
                show upd l0.srcPrev P (some e) x = _
                rw [upd_ne _ _ (by rintro rfl; exact hdis s hs _ hx hPm), hp0 x (hmem s x hx)]
          | some q =>
            have hqc : q ∈ c' := List.mem_of_getLast? hQ.symm
            have hqm : q ∈ ofSrc l tx.src ps := by rw [hcd]; simp [hqc]
            have hqe : q ≠ e := hnef _ q hqm
            have hqP : q ≠ P := by rintro rfl; exact hPc hqc
            refine ⟨?_, ?_, rfl⟩
            · refine DL_insert (hcd ▸ hfs0) hnodup ?_ ?_ ?_ ?_ ?_ ?_
              · show upd (upd l0.srcNext q (some e)) e (some P) e = _
                rw [upd_self]; rfl
              · show upd (upd l0.srcPrev e (some q)) P (some e) e = _
                rw [upd_ne _ _ heP, upd_self, hQ]
              · intro x hx
                rw [← hQ] at hx
                simp only [Option.some.injEq] at hx
                subst hx
                show upd (upd l0.srcNext q (some e)) e (some P) q = _
                rw [upd_ne _ _ hqe, upd_self]
              · intro x hx hx'
                show upd (upd l0.srcNext q (some e)) e (some P) x = _
                rw [upd_ne _ _ (hec x hx), upd_ne]
                rintro rfl; exact hx' hQ.symm
              · intro x hx
                simp only [List.head?_cons, Option.some.injEq] at hx
                subst hx
                exact upd_self _ _ _
              · intro x hx hx'
                show upd (upd l0.srcPrev e (some q)) P (some e) x = _
                rw [upd_ne _ _ (by rintro rfl; exact hx' rfl), upd_ne _ _ (hec x hx)]
            · intro s hs
              refine DL_congr (h.srcLinks s) ?_ ?_
              · intro x hx
                show upd (upd l0.srcNext q (some e)) e (some P) x = _
                rw [upd_ne _ _ (hnef s x hx), upd_ne _ _ (by rintro rfl; exact hdis s hs _ hx hqm), hn0 x (hmem s x hx)]
              · intro x hx
                show upd (upd l0.srcPrev e (some q)) P (some e) x = _
                rw [upd_ne _ _ (by rintro rfl; exact hdis s hs _ hx hPm), upd_ne _ _ (hnef s x hx), hp0 x (hmem s x hx)]
        obtain ⟨k1, k2, k3⟩ := key _ rfl
        refine ⟨?_, ?_, k2, ?_, ?_⟩
        · show _ = _
          dsimp only
          rw [k3]
        · rw [hfa, hfb']; exact k1
        · dsimp only
          rw [k3, hfa, hfb']
          show l.srcLast tx.src = _
          rw [h.srcLast, hcd, getLast?_append_cons, getLast?_append_cons, List.getLast?_cons_cons]
        · intro s hs
          dsimp only
          rw [k3]
          exact h.srcLast s
    · simp only [if_neg hgt]
      refine ⟨ps, [], ⟨by simp, ?_, rfl, by simp⟩, ⟨rfl, ?_, ?_, ?_, ?_⟩⟩
      · rintro x hx ⟨h1, h2⟩
        have hx' : x ∈ ofSrc l tx.src ps := by
          simp only [ofSrc, List.mem_filter, decide_eq_true_eq]; exact ⟨hx, h1⟩
        rw [hc] at hx' hsort
        rw [List.mem_append, List.mem_singleton] at hx'
        rcases hx' with hx' | rfl
        · have := (List.pairwise_append.mp hsort).2.2 x hx' t2 (by simp)
          omega
        · omega
      · show DL _ _ (ofSrc l tx.src ps ++ e :: [])
        refine DL_insert (by simpa using hfs) (by rw [List.append_nil]; exact h.nodup.sublist List.filter_sublist) ?_ ?_ ?_ ?_ ?_ ?_
        · show upd (upd l.srcNext e none) t2 (some e) e = none
          rw [upd_ne _ _ (hnef _ _ ht2).symm, upd_self]
        · show upd (upd l.srcPrev e none) e (some t2) e = _
          rw [upd_self, hlast]
        · intro x hx
          show upd (upd l.srcNext e none) t2 (some e) x = _
          rw [hlast.symm] at hx
          simp only [Option.some.injEq] at hx
          subst hx
          rw [upd_self]
        · intro x hx hx'
          show upd (upd l.srcNext e none) t2 (some e) x = _
          rw [upd_ne, upd_ne _ _ (hnef _ x (by simpa using hx))]
          rintro rfl; exact hx' hlast.symm
        · intro x hx; simp at hx
        · intro x hx _
          show upd (upd l.srcPrev e none) e (some t2) x = _
          rw [upd_ne _ _ (hnef _ x (by simpa using hx)), upd_ne _ _ (hnef _ x (by simpa using hx))]
      · intro s hs
        refine DL_congr (h.srcLinks s) ?_ ?_
        · intro x hx
          show upd (upd l.srcNext e none) t2 (some e) x = _
          rw [upd_ne _ _ (by rintro rfl; exact hdis s hs _ hx ht2), upd_ne _ _ (hnef s x hx)]
        · intro x hx
          show upd (upd l.srcPrev e none) e (some t2) x = _
          rw [upd_ne _ _ (hnef s x hx), upd_ne _ _ (hnef s x hx)]
      · show upd l.srcLast tx.src (some e) tx.src = _
        rw [upd_self]; simp [ofSrc]
      · intro s hs
        show upd l.srcLast tx.src (some e) s = _
        rw [upd_ne _ _ hs, h.srcLast]

/-- What `linkList` has done. -/
structure Linked (l1 l2 : TL I S) (e : ℕ) (a b : List ℕ) : Prop where
  other : l2 = { l1 with next := l2.next, prev := l2.prev, front := l2.front, back := l2.back }
  links : DL l2.next l2.prev (a ++ e :: b)
  front : l2.front = (a ++ e :: b).head?
  back : l2.back = (a ++ e :: b).getLast?

theorem linkList_spec {l1 : TL I S} {a b : List ℕ} {e : ℕ} (hn : (a ++ b).Nodup) (he : e ∉ a ++ b) (hd : DL l1.next l1.prev (a ++ b))
    (h1 : l1.next e = none) (h2 : l1.prev e = none) (hf : l1.front = (a ++ b).head?) (hb : l1.back = (a ++ b).getLast?) :
    Linked l1 (linkList l1 e b.head?) e a b := by
  have hec : ∀ x ∈ a ++ b, x ≠ e := by rintro x hx rfl; exact he hx
  cases b with
  | nil =>
    rw [List.append_nil] at hn he hd hf hb hec
    show Linked l1 { linkBack l1 e l1.back with back := some e } e a []
    rw [hb]
    cases ha : a.getLast? with
    | none =>
      have : a = [] := by simpa using ha
      subst this
      refine ⟨rfl, ?_, rfl, rfl⟩
      intro a p b hs
      have : a = [] ∧ p = e ∧ b = [] := by
        cases a with
        | nil => simpa [eq_comm] using hs
        | cons x a => simp at hs
      obtain ⟨rfl, rfl, rfl⟩ := this
      exact ⟨h1, h2⟩
    | some q =>
      have hq : q ∈ a := List.mem_of_getLast? ha
      refine ⟨rfl, ?_, ?_, ?_⟩
      · refine DL_insert (by simpa using hd) (by simpa using hn) ?_ ?_ ?_ ?_ ?_ ?_
        · show upd l1.next q (some e) e = _
          rw [upd_ne _ _ (hec q hq).symm, h1]; rfl
        · show upd l1.prev e (some q) e = _
          rw [upd_self, ha]
        · intro x hx
          rw [ha] at hx
          simp only [Option.some.injEq] at hx
          subst hx
          exact upd_self _ _ _
        · intro x hx hx'
          show upd l1.next q (some e) x = _
          rw [upd_ne]; rintro rfl; exact hx' ha
        · intro x hx; simp at hx
        · intro x hx _
          show upd l1.prev e (some q) x = _
          rw [upd_ne _ _ (hec x (by simpa using hx))]
      · show l1.front = _
        rw [hf]
        cases a with
        | nil => simp at hq
        | cons x a => rfl
      · show some e = _
        simp
  | cons P b =>
    have heP : e ≠ P := (hec P (by simp)).symm
    have hPa : P ∉ a := fun hx => (List.nodup_append.mp hn).2.2 P hx P (by simp) rfl
    have g := (hd a P b rfl).2
    show Linked l1 { linkBefore l1 e (l1.prev P) with
      next := upd (linkBefore l1 e (l1.prev P)).next e (some P), prev := upd (linkBefore l1 e (l1.prev P)).prev P (some e) } e a (P :: b)
    rw [g]
    cases ha : a.getLast? with
    | none =>
      have : a = [] := by simpa using ha
      subst this
      refine ⟨rfl, ?_, rfl, ?_⟩
      · refine DL_insert hd hn ?_ ?_ ?_ ?_ ?_ ?_
        · exact upd_self _ _ _
        · show upd l1.prev P (some e) e = _
          rw [upd_ne _ _ heP, h2]; rfl
        · intro x hx; simp at hx
        · intro x hx _
          show upd l1.next e (some P) x = _
          rw [upd_ne _ _ (hec x hx)]
        · intro x hx
          simp only [List.head?_cons, Option.some.injEq] at hx
          subst hx
          exact upd_self _ _ _
        · intro x hx hx'
          show upd l1.prev P (some e) x = _
          rw [upd_ne]; rintro rfl; exact hx' rfl
      · show l1.back = _
        rw [hb]; simp [List.getLast?_cons_cons]
    | some q =>
      have hq : q ∈ a := List.mem_of_getLast? ha
      have hqe : q ≠ e := hec q (by simp [hq])
      have hqP : q ≠ P := by rintro rfl; exact hPa hq
      refine ⟨rfl, ?_, ?_, ?_⟩
      · refine DL_insert hd hn ?_ ?_ ?_ ?_ ?_ ?_
        · exact upd_self _ _ _
        · show upd (upd l1.prev e (some q)) P (some e) e = _
          rw [upd_ne _ _ heP, upd_self, ha]
        · intro x hx
          rw [ha] at hx
          simp only [Option.some.injEq] at hx
          subst hx
          show upd (upd l1.next q (some e)) e (some P) q = _
          rw [upd_ne _ _ hqe, upd_self]
        · intro x hx hx'
          show upd (upd l1.next q (some e)) e (some P) x = _
          rw [upd_ne _ _ (hec x hx), upd_ne]
          rintro rfl; exact hx' ha
        · intro x hx
          simp only [List.head?_cons, Option.some.injEq] at hx
          subst hx
          exact upd_self _ _ _
        · intro x hx hx'
          show upd (upd l1.prev e (some q)) P (some e) x = _
          rw [upd_ne _ _ (by rintro rfl; exact hx' rfl), upd_ne _ _ (hec x hx)]
      · show l1.front = _
        rw [hf]
        cases a with
        | nil => simp at hq
        | cons x a => rfl
      · show l1.back = _
        rw [hb, getLast?_append_cons, getLast?_append_cons, List.getLast?_cons_cons]

/-- What `Add` does not change, and where it puts the transaction. -/
structure Added (w : I → ℕ × ℕ × ℕ) (l l' : TL I S) (tx : Tx I S) (dir : Bool) (ps a b : List ℕ) : Prop where
  split : ps = a ++ b
  before : ∀ x ∈ a, ¬ Later l tx x
  at_ : ∀ q, b.head? = some q → Later l tx q
  val : l'.val = upd l.val l.alloc tx
  err : l'.err = upd l.err l.alloc false
  direct : l'.direct = upd l.direct l.alloc dir
  alloc : l'.alloc = l.alloc + 1
  bloom : ∃ l2 : TL I S, l2.bloom = l.bloom ∧ l2.chains = l.chains ∧ l'.bloom = (updateBloom (w tx.id) l2 l.alloc a.getLast?).bloom ∧
    l'.chains = (updateBloom (w tx.id) l2 l.alloc a.getLast?).chains

theorem updateBloom_other (w : ℕ × ℕ × ℕ) (l : TL I S) (e : ℕ) (q : Option ℕ) :
    updateBloom w l e q = { l with bloom := (updateBloom w l e q).bloom, chains := (updateBloom w l e q).chains } := by
  cases q <;> rfl

theorem add_dup {l : TL I S} {ps : List ℕ} (h : Rep l ps) (w : I → ℕ × ℕ × ℕ) {tx : Tx I S} (dir : Bool) (hd : ∃ p ∈ ps, (l.val p).id = tx.id) :
    l.add w tx dir = (l, false) := by
  obtain ⟨p, hp, hid⟩ := hd
  have := (h.ids tx.id p).mpr ⟨hp, hid⟩
  simp [TL.add, this]

theorem add_rep {l : TL I S} {ps : List ℕ} (h : Rep l ps) (w : I → ℕ × ℕ × ℕ) {tx : Tx I S} (dir : Bool) (hd : ¬ ∃ p ∈ ps, (l.val p).id = tx.id) :
    (l.add w tx dir).2 = true ∧ ∃ a b, Added w l (l.add w tx dir).1 tx dir ps a b ∧ Rep (l.add w tx dir).1 (a ++ l.alloc :: b) := by
  have hnone : l.idMap tx.id = none := by
    cases hi : l.idMap tx.id with
    | none => rfl
    | some p => exact absurd ⟨p, (h.ids tx.id p).mp hi⟩ hd
  obtain ⟨a, b, hpl, hsl⟩ := linkSrc_spec h tx dir
  have hsplit := hpl.split
  have hne : ∀ x ∈ ps, x ≠ l.alloc := fun x hx => Nat.ne_of_lt (h.lt x hx)
  unfold TL.add
  rw [hnone]
  simp only [Option.isSome_none, Bool.false_eq_true, if_false]
  have e0 : (newElem l tx dir).srcLast tx.src = l.srcLast tx.src := rfl
  rw [e0]
  generalize hr : linkSrc (newElem l tx dir) l.alloc tx (l.srcLast tx.src) = r at *
  obtain ⟨l1, pos⟩ := r
  dsimp only at hpl hsl ⊢
  have ho := hsl.other
  have hpos := hpl.head
  rw [hpos]
  have hll : Linked l1 (linkList l1 l.alloc b.head?) l.alloc a b := by
    have hna : l.alloc ∉ a ++ b := fun hx => hne _ (hsplit ▸ hx) rfl
    apply linkList_spec (hsplit ▸ h.nodup) hna
    · rw [ho]
      refine DL_congr (hsplit ▸ h.links) ?_ ?_ <;>
      · intro x hx
        exact upd_ne _ _ (hne x (hsplit ▸ hx))
    · rw [ho]; exact upd_self _ _ _
    · rw [ho]; exact upd_self _ _ _
    · rw [ho, ← hsplit]; exact h.front
    · rw [ho, ← hsplit]; exact h.back
  generalize hl2 : linkList l1 l.alloc b.head? = l2 at *
  have hprev : l2.prev l.alloc = a.getLast? := (hll.links a l.alloc b rfl).2
  rw [hprev]
  have hu := updateBloom_other (w tx.id) l2 l.alloc a.getLast?
  have ho2 := hll.other
  have hv2 : l2.val = upd l.val l.alloc tx := by rw [ho2, ho]; rfl
  generalize hl3 : updateBloom (w tx.id) l2 l.alloc a.getLast? = l3 at *
  have hval3 : l3.val = upd l.val l.alloc tx := by rw [hu]; exact hv2
  have hvp : ∀ x ∈ ps, l3.val x = l.val x := fun x hx => by rw [hval3, upd_ne _ _ (hne x hx)]
  have hve : l3.val l.alloc = tx := by rw [hval3, upd_self]
  have hmemps : ∀ p, p ∈ a ++ l.alloc :: b ↔ p = l.alloc ∨ p ∈ ps := by
    intro p; rw [hsplit]; simp only [List.mem_append, List.mem_cons]; tauto
  have hfsub : ∀ (u : List ℕ), (∀ x ∈ u, x ∈ ps) → ∀ s, u.filter (fun p => decide ((l3.val p).src = s)) = ofSrc l s u := by
    intro u hu' s
    apply List.filter_congr
    intro x hx
    rw [hvp x (hu' x hx)]
  have hap : ∀ x ∈ a, x ∈ ps := fun x hx => by rw [hsplit]; simp [hx]
  have hbp : ∀ x ∈ b, x ∈ ps := fun x hx => by rw [hsplit]; simp [hx]
  have hfil : ∀ s, (a ++ l.alloc :: b).filter (fun p => decide ((l3.val p).src = s)) =
      if s = tx.src then ofSrc l tx.src a ++ l.alloc :: ofSrc l tx.src b else ofSrc l s ps := by
    intro s
    rw [List.filter_append, List.filter_cons, hve, hfsub a hap, hfsub b hbp]
    by_cases hs : s = tx.src
    · subst hs; simp
    · rw [if_neg hs, if_neg (by simpa using Ne.symm hs), hsplit, ofSrc, ofSrc, ofSrc, List.filter_append]
  have hsN : l3.srcNext = l1.srcNext := by rw [hu, ho2]
  have hsP : l3.srcPrev = l1.srcPrev := by rw [hu, ho2]
  have hsL : l3.srcLast = l1.srcLast := by rw [hu, ho2]
  refine ⟨trivial, a, b, ⟨hsplit, hpl.before, ?_, hval3, ?_, ?_, ?_, ⟨l2, ?_, ?_, by rw [hl3], by rw [hl3]⟩⟩, ?_⟩
  · intro q hq; exact hpl.at_ q (hpos.trans hq)
  · show l3.err = _
    rw [hu, ho2, ho]; rfl
  · show l3.direct = _
    rw [hu, ho2, ho]; rfl
  · show l3.alloc = _
    rw [hu, ho2, ho]; rfl
  · rw [ho2, ho]; rfl
  · rw [ho2, ho]; rfl
  · constructor
    · rw [List.nodup_middle, List.nodup_cons, ← hsplit]
      exact ⟨fun hx => hne _ hx rfl, h.nodup⟩
    · intro p hp
      show p < l3.alloc
      have : l3.alloc = l.alloc + 1 := by rw [hu, ho2, ho]; rfl
      rw [this]
      rcases (hmemps p).mp hp with rfl | hp
      · omega
      · have := h.lt p hp; omega
    · intro p
      show l3.owned p = true ↔ _
      have : l3.owned = upd l.owned l.alloc true := by rw [hu, ho2, ho]; rfl
      rw [this, hmemps]
      by_cases hp : p = l.alloc
      · subst hp; simp [upd_self]
      · rw [upd_ne _ _ hp, h.owned]; simp [hp]
    · show l3.size + 1 = _
      have : l3.size = l.size := by rw [hu, ho2, ho]; rfl
      rw [this, h.size, hsplit]; simp; omega
    · show l3.front = _
      have : l3.front = l2.front := by rw [hu]
      rw [this, hll.front]
    · show l3.back = _
      have : l3.back = l2.back := by rw [hu]
      rw [this, hll.back]
    · show DL l3.next l3.prev _
      have e1 : l3.next = l2.next := by rw [hu]
      have e2 : l3.prev = l2.prev := by rw [hu]
      rw [e1, e2]; exact hll.links
    · intro s
      show DL l3.srcNext l3.srcPrev ((a ++ l.alloc :: b).filter (fun p => decide ((l3.val p).src = s)))
      rw [hfil, hsN, hsP]
      by_cases hs : s = tx.src
      · rw [if_pos hs]; exact hsl.links
      · rw [if_neg hs]; exact hsl.links' s hs
    · intro s
      show l3.srcLast s = ((a ++ l.alloc :: b).filter (fun p => decide ((l3.val p).src = s))).getLast?
      rw [hfil, hsL]
      by_cases hs : s = tx.src
      · rw [if_pos hs, hs]; exact hsl.last
      · rw [if_neg hs]; exact hsl.last' s hs
    · intro i p
      show l3.idMap i = some p ↔ p ∈ a ++ l.alloc :: b ∧ (l3.val p).id = i
      have : l3.idMap = upd l.idMap tx.id (some l.alloc) := by rw [hu, ho2, ho]; rfl
      rw [this, hmemps]
      by_cases hi : i = tx.id
      · subst hi
        rw [upd_self]
        constructor
        · intro hp
          simp only [Option.some.injEq] at hp
          subst hp
          exact ⟨Or.inl rfl, by rw [hve]⟩
        · rintro ⟨rfl | hp, hid⟩
          · rfl
          · rw [hvp p hp] at hid
            exact absurd ⟨p, hp, hid⟩ hd
      · rw [upd_ne _ _ hi, h.ids]
        constructor
        · rintro ⟨hp, hid⟩
          exact ⟨Or.inr hp, by rw [hvp p hp]; exact hid⟩
        · rintro ⟨rfl | hp, hid⟩
          · rw [hve] at hid; exact absurd hid.symm hi
          · rw [hvp p hp] at hid; exact ⟨hp, hid⟩
    · show (a ++ l.alloc :: b).Pairwise (fun p q => (l3.val p).src = (l3.val q).src → (l3.val p).ts ≤ (l3.val q).ts)
      have hso := h.sorted
      rw [hsplit, List.pairwise_append] at hso
      rw [List.pairwise_append, List.pairwise_cons]
      refine ⟨?_, ⟨?_, ?_⟩, ?_⟩
      · refine List.Pairwise.imp_of_mem ?_ hso.1
        intro x y hx hy hxy
        rw [hvp x (hap x hx), hvp y (hap y hy)]; exact hxy
      · intro x hx hsrc
        rw [hve] at hsrc ⊢
        rw [hvp x (hbp x hx)] at hsrc ⊢
        cases b with
        | nil => simp at hx
        | cons q b =>
          obtain ⟨hq1, hq2⟩ := hpl.at_ q hpos
          rw [List.mem_cons] at hx
          rcases hx with rfl | hx
          · omega
          · have := (List.pairwise_cons.mp hso.2.1).1 x hx (by rw [hq1, hsrc])
            omega
      · refine List.Pairwise.imp_of_mem ?_ hso.2.1
        intro x y hx hy hxy
        rw [hvp x (hbp x hx), hvp y (hbp y hy)]; exact hxy
      · intro x hx y hy
        rw [List.mem_cons] at hy
        rcases hy with rfl | hy
        · intro hsrc
          rw [hve] at hsrc ⊢
          rw [hvp x (hap x hx)] at hsrc ⊢
          by_contra hc
          exact hpl.before x hx ⟨hsrc, by omega⟩
        · rw [hvp x (hap x hx), hvp y (hbp y hy)]
          exact hso.2.2 x hx y hy

end Verif.TxPool
