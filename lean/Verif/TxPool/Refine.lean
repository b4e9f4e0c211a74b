import Verif.TxPool.ListProof
import Verif.TxPool.Spec

/-!
# The operations of the pool are those of the specification
-/

namespace Verif.TxPool

set_option linter.unusedSectionVars false

variable {I S : Type} [DecidableEq I] [DecidableEq S] [Inhabited I] [Inhabited S] {W : Type}

/-- The entries that elements stand for. -/
def abs (l : TL I S) (ps : List ℕ) : List (Entry I S) := ps.map (fun p => ⟨p, l.val p, l.direct p⟩)

/-! ## Bloom filters -/

/-- All bits of `b` are in `b'`. -/
def Bloom.le (b b' : Bloom) : Prop := b.bits = b'.bits ∧ ∀ i, b.bloom.testBit i = true → b'.bloom.testBit i = true

theorem and_eq_left_iff {a b : ℕ} : a &&& b = a ↔ ∀ i, a.testBit i = true → b.testBit i = true := by
  constructor
  · intro h i hi
    rw [← h, Nat.testBit_and] at hi
    simp only [Bool.and_eq_true] at hi
    exact hi.2
  · intro h
    apply Nat.eq_of_testBit_eq
    intro i
    rw [Nat.testBit_and]
    cases ha : a.testBit i with
    | false => rfl
    | true => rw [h i ha]; rfl

theorem contains_iff {b : Bloom} {w : ℕ × ℕ × ℕ} :
    b.contains w = true ↔ b.bits ≠ 0 ∧ ∀ i, (filterOf w b.bits).testBit i = true → b.bloom.testBit i = true := by
  unfold Bloom.contains
  by_cases h : b.bits = 0
  · simp [h]
  · rw [if_neg h, decide_eq_true_eq, and_eq_left_iff]
    simp [h]

theorem contains_of_le {b b' : Bloom} {w : ℕ × ℕ × ℕ} (h : b.le b') (hc : b.contains w = true) : b'.contains w = true := by
  rw [contains_iff] at hc ⊢
  rw [← h.1]
  exact ⟨hc.1, fun i hi => h.2 i (hc.2 i hi)⟩

theorem containsAllOf_le {b b2 : Bloom} {w : ℕ × ℕ × ℕ} (h : b.containsAllOf b2 = true) (hc : b2.contains w = true) : b.contains w = true := by
  have hb := (contains_iff.mp hc).1
  unfold Bloom.containsAllOf at h
  rw [if_neg hb] at h
  by_cases he : b.bits = b2.bits
  · rw [if_neg (by simpa using he), decide_eq_true_eq, Nat.and_comm, and_eq_left_iff] at h
    exact contains_of_le ⟨he.symm, h⟩ hc
  · rw [if_pos he] at h; simp at h

theorem add_contains {b : Bloom} (w : ℕ × ℕ × ℕ) : (b.add w).contains w = true := by
  rw [contains_iff]
  unfold Bloom.add
  dsimp only
  refine ⟨by split_ifs with h <;> simp_all, ?_⟩
  intro i hi
  rw [Nat.testBit_or, hi, Bool.or_true]

theorem le_add {b : Bloom} (w : ℕ × ℕ × ℕ) (hb : b.bits = 12) : b.le (b.add w) := by
  unfold Bloom.add
  refine ⟨by simp [hb], ?_⟩
  intro i hi
  dsimp only
  rw [Nat.testBit_or, hi, Bool.true_or]

theorem le_refl' (b : Bloom) : b.le b := ⟨rfl, fun _ h => h⟩

theorem chainAdd_spec (w : ℕ × ℕ × ℕ) : ∀ r : List BEl, (∀ b ∈ r, b.bloom.bits = 12) →
    (∃ be, (chainAdd w r).2[(chainAdd w r).1]? = some be ∧ be.bloom.contains w = true) ∧
    (∀ b ∈ (chainAdd w r).2, b.bloom.bits = 12) ∧
    (∀ (j : ℕ) (be : BEl), r[j]? = some be → ∃ be', (chainAdd w r).2[j]? = some be' ∧ be.bloom.le be'.bloom) := by
  intro r
  induction r with
  | nil =>
    intro _
    refine ⟨⟨_, rfl, add_contains w⟩, ?_, by intro j be h; simp at h⟩
    intro b hb
    simp only [chainAdd, List.mem_singleton] at hb
    subst hb
    simp [BEl.put, Bloom.add]
  | cons b r ih =>
    intro hr
    have hb := hr b (by simp)
    simp only [chainAdd]
    by_cases hc : b.count ≥ maxInBloom
    · simp only [if_pos hc]
      obtain ⟨⟨be, h1, h2⟩, h3, h4⟩ := ih (fun x hx => hr x (by simp [hx]))
      refine ⟨⟨be, by simpa using h1, h2⟩, ?_, ?_⟩
      · intro x hx
        rw [List.mem_cons] at hx
        rcases hx with rfl | hx
        · exact hb
        · exact h3 x hx
      · intro j be' hj
        cases j with
        | zero =>
          simp only [List.getElem?_cons_zero, Option.some.injEq] at hj
          subst hj
          exact ⟨b, rfl, le_refl' _⟩
        | succ j =>
          simp only [List.getElem?_cons_succ] at hj ⊢
          exact h4 j be' hj
    · simp only [if_neg hc]
      refine ⟨⟨b.put w, rfl, add_contains w⟩, ?_, ?_⟩
      · intro x hx
        rw [List.mem_cons] at hx
        rcases hx with rfl | hx
        · simp [BEl.put, Bloom.add, hb]
        · exact hr x (by simp [hx])
      · intro j be' hj
        cases j with
        | zero =>
          simp only [List.getElem?_cons_zero, Option.some.injEq] at hj
          subst hj
          exact ⟨b.put w, rfl, le_add w hb⟩
        | succ j =>
          simp only [List.getElem?_cons_succ] at hj ⊢
          exact ⟨be', hj, le_refl' _⟩

/-- The filter of an element contains its id, and all filters have twelve bits. -/
structure BloomInv (w : I → ℕ × ℕ × ℕ) (l : TL I S) (ps : List ℕ) : Prop where
  bits : ∀ c ∈ l.chains, ∀ b ∈ c, b.bloom.bits = 12
  mem : ∀ p ∈ ps, ∃ c be, l.chains[(l.bloom p).1]? = some c ∧ c[(l.bloom p).2]? = some be ∧ be.bloom.contains (w (l.val p).id) = true

theorem bloomInv_sub {w : I → ℕ × ℕ × ℕ} {l : TL I S} {ps qs : List ℕ} (h : BloomInv w l ps) (hs : ∀ x ∈ qs, x ∈ ps) : BloomInv w l qs :=
  ⟨h.bits, fun p hp => h.mem p (hs p hp)⟩

theorem bloomOf_contains {w : I → ℕ × ℕ × ℕ} {l : TL I S} {ps : List ℕ} (h : BloomInv w l ps) {p : ℕ} (hp : p ∈ ps) :
    (bloomOf l (l.bloom p)).contains (w (l.val p).id) = true := by
  obtain ⟨c, be, h1, h2, h3⟩ := h.mem p hp
  simp only [bloomOf, List.getD_eq_getElem?_getD, h1, Option.getD_some, h2, Option.map_some]
  exact h3

theorem updateBloom_inv {w : I → ℕ × ℕ × ℕ} {l l2 l' : TL I S} {ps a b : List ℕ} {tx : Tx I S} (h : BloomInv w l ps) (hs : ps = a ++ b)
    (hlt : ∀ p ∈ ps, p ≠ l.alloc) (e1 : l2.bloom = l.bloom) (e2 : l2.chains = l.chains) (hv : l'.val = upd l.val l.alloc tx)
    (e3 : l'.bloom = (updateBloom (w tx.id) l2 l.alloc a.getLast?).bloom)
    (e4 : l'.chains = (updateBloom (w tx.id) l2 l.alloc a.getLast?).chains) : BloomInv w l' (a ++ l.alloc :: b) := by
  have hmem : ∀ p, p ∈ a ++ l.alloc :: b → p = l.alloc ∨ p ∈ ps := by
    intro p; rw [hs]; simp only [List.mem_append, List.mem_cons]; tauto
  cases ha : a.getLast? with
  | none =>
    rw [ha] at e3 e4
    simp only [updateBloom, e1, e2] at e3 e4
    obtain ⟨⟨be, c1, c2⟩, c3, _⟩ := chainAdd_spec (w tx.id) [] (by simp)
    refine ⟨?_, ?_⟩
    · intro c hc
      rw [e4, List.mem_append, List.mem_singleton] at hc
      rcases hc with hc | rfl
      · exact h.bits c hc
      · exact c3
    · intro p hp
      rcases hmem p hp with rfl | hp
      · refine ⟨(chainAdd (w tx.id) []).2, be, ?_, ?_, ?_⟩
        · rw [e3, e4, upd_self]; simp
        · rw [e3, upd_self]; exact c1
        · rw [hv, upd_self]; exact c2
      · obtain ⟨c, be', q1, q2, q3⟩ := h.mem p hp
        refine ⟨c, be', ?_, ?_, ?_⟩
        · rw [e3, e4, upd_ne _ _ (hlt p hp), List.getElem?_append_left]
          · exact q1
          · exact (List.getElem?_eq_some_iff.mp q1).1
        · rw [e3, upd_ne _ _ (hlt p hp)]; exact q2
        · rw [hv, upd_ne _ _ (hlt p hp)]; exact q3
  | some q =>
    have hq : q ∈ ps := by rw [hs]; simp [List.mem_of_getLast? ha]
    obtain ⟨ch, beq, r1, r2, _⟩ := h.mem q hq
    rw [ha] at e3 e4
    have hch : l.chains.getD (l.bloom q).1 [] = ch := by
      rw [List.getD_eq_getElem?_getD, r1]; rfl
    simp only [updateBloom, e1, e2, hch] at e3 e4
    have hchm : ch ∈ l.chains := List.mem_of_getElem? r1
    obtain ⟨⟨be, c1, c2⟩, c3, c4⟩ := chainAdd_spec (w tx.id) (ch.drop (l.bloom q).2) (fun b hb => h.bits ch hchm b (List.mem_of_mem_drop hb))
    generalize hca : chainAdd (w tx.id) (ch.drop (l.bloom q).2) = ca at *
    have hlen : (ch.take (l.bloom q).2).length = (l.bloom q).2 := by
      have := (List.getElem?_eq_some_iff.mp r2).1
      simp; omega
    have hclt : (l.bloom q).1 < l.chains.length := (List.getElem?_eq_some_iff.mp r1).1
    refine ⟨?_, ?_⟩
    · intro c hc
      rw [e4] at hc
      rcases List.mem_or_eq_of_mem_set hc with hc | rfl
      · exact h.bits c hc
      · intro x hx
        rw [List.mem_append] at hx
        rcases hx with hx | hx
        · exact h.bits ch hchm x (List.mem_of_mem_take hx)
        · exact c3 x hx
    · intro p hp
      rcases hmem p hp with rfl | hp
      · refine ⟨ch.take (l.bloom q).2 ++ ca.2, be, ?_, ?_, ?_⟩
        · rw [e3, e4, upd_self]
          dsimp only
          rw [List.getElem?_set_self hclt]
        · rw [e3, upd_self]
          dsimp only
          rw [List.getElem?_append_right (by omega), hlen]
          simpa using c1
        · rw [hv, upd_self]; exact c2
      · obtain ⟨c, be', q1, q2, q3⟩ := h.mem p hp
        rw [e3, e4, hv, upd_ne _ _ (hlt p hp), upd_ne _ _ (hlt p hp)]
        by_cases hcc : (l.bloom p).1 = (l.bloom q).1
        · rw [hcc] at q1 ⊢
          rw [q1] at r1
          simp only [Option.some.injEq] at r1
          subst r1
          rw [List.getElem?_set_self hclt]
          by_cases hj : (l.bloom p).2 < (l.bloom q).2
          · refine ⟨_, be', rfl, ?_, q3⟩
            rw [List.getElem?_append_left (by omega), List.getElem?_take, if_pos hj]
            exact q2
          · obtain ⟨be'', d1, d2⟩ := c4 ((l.bloom p).2 - (l.bloom q).2) be' (by
              rw [List.getElem?_drop]
              have : (l.bloom q).2 + ((l.bloom p).2 - (l.bloom q).2) = (l.bloom p).2 := by omega
              rw [this]; exact q2)
            refine ⟨_, be'', rfl, ?_, contains_of_le d2 q3⟩
            rw [List.getElem?_append_right (by omega), hlen]
            exact d1
        · rw [List.getElem?_set_ne (Ne.symm hcc)]
          exact ⟨c, be', q1, q2, q3⟩

/-! ## Lists -/

/-- What is kept when elements are removed. -/
structure Frame (l l' : TL I S) : Prop where
  val : l'.val = l.val
  direct : l'.direct = l.direct
  alloc : l'.alloc = l.alloc
  bloom : l'.bloom = l.bloom
  chains : l'.chains = l.chains
  err : ∀ n, l.err n = true → l'.err n = true

theorem Frame.refl (l : TL I S) : Frame l l := ⟨rfl, rfl, rfl, rfl, rfl, fun _ h => h⟩

theorem Frame.trans {l l' l'' : TL I S} (h : Frame l l') (h' : Frame l' l'') : Frame l l'' :=
  ⟨h'.val.trans h.val, h'.direct.trans h.direct, h'.alloc.trans h.alloc, h'.bloom.trans h.bloom, h'.chains.trans h.chains,
    fun n hn => h'.err n (h.err n hn)⟩

theorem abs_frame {l l' : TL I S} (h : Frame l l') (ps : List ℕ) : abs l' ps = abs l ps := by
  simp only [abs, h.val, h.direct]

theorem bloomInv_frame {w : I → ℕ × ℕ × ℕ} {l l' : TL I S} {ps : List ℕ} (h : Frame l l') (hb : BloomInv w l ps) : BloomInv w l' ps := by
  refine ⟨by rw [h.chains]; exact hb.bits, ?_⟩
  intro p hp
  rw [h.chains, h.bloom, h.val]
  exact hb.mem p hp

theorem rep_err {l : TL I S} {ps : List ℕ} (h : Rep l ps) (f : ℕ → Bool) : Rep { l with err := f } ps :=
  ⟨h.nodup, h.lt, h.owned, h.size, h.front, h.back, h.links, h.srcLinks, h.srcLast, h.ids, h.sorted⟩

theorem abs_filter (l : TL I S) (ps : List ℕ) (f : Entry I S → Bool) : (abs l ps).filter f = abs l (ps.filter (fun p => f ⟨p, l.val p, l.direct p⟩)) := by
  simp only [abs, List.filter_map]
  rfl

theorem filter_ne_split {a b : List ℕ} {t : ℕ} (hn : (a ++ t :: b).Nodup) : (a ++ t :: b).filter (fun x => decide (x ≠ t)) = a ++ b := by
  have hnot : t ∉ a ++ b := (List.nodup_cons.mp (List.nodup_middle.mp hn)).1
  rw [List.mem_append, not_or] at hnot
  rw [List.filter_append, List.filter_cons_of_neg (by simp)]
  congr 1
  · rw [List.filter_eq_self]; intro x hx; simp only [decide_eq_true_eq]; rintro rfl; exact hnot.1 hx
  · rw [List.filter_eq_self]; intro x hx; simp only [decide_eq_true_eq]; rintro rfl; exact hnot.2 hx

theorem remove_frame {l : TL I S} {ps : List ℕ} (h : Rep l ps) (t : ℕ) :
    Rep (l.remove t).1 (ps.filter (fun x => decide (x ≠ t))) ∧ ((l.remove t).2 = true ↔ t ∈ ps) ∧ Frame l (l.remove t).1 := by
  by_cases ht : t ∈ ps
  · obtain ⟨a, b, rfl⟩ := List.append_of_mem ht
    obtain ⟨h1, h2, h3, h4, h5, h6, h7, h8⟩ := remove_rep h
    rw [filter_ne_split h.nodup]
    exact ⟨h1, by simp [h2], ⟨h3, h6, h4, h7, h8, fun n hn => by rw [h5]; exact hn⟩⟩
  · rw [remove_unowned h ht]
    have : ps.filter (fun x => decide (x ≠ t)) = ps := by
      rw [List.filter_eq_self]; intro x hx; simp only [decide_eq_true_eq]; rintro rfl; exact ht hx
    rw [this]
    exact ⟨h, by simp [ht], Frame.refl l⟩

theorem removeTx_frame {l : TL I S} {ps : List ℕ} (h : Rep l ps) (id : I) :
    Rep (l.removeTx id).1 (ps.filter (fun x => decide ((l.val x).id ≠ id))) ∧ Frame l (l.removeTx id).1 := by
  unfold TL.removeTx
  cases hi : l.idMap id with
  | none =>
    have : ps.filter (fun x => decide ((l.val x).id ≠ id)) = ps := by
      rw [List.filter_eq_self]; intro x hx; simp only [decide_eq_true_eq]
      intro hc
      rw [(h.ids id x).mpr ⟨hx, hc⟩] at hi; simp at hi
    dsimp only
    rw [this]
    exact ⟨h, Frame.refl l⟩
  | some e =>
    dsimp only
    obtain ⟨h1, _, h3⟩ := remove_frame h e
    refine ⟨?_, h3⟩
    have : ps.filter (fun x => decide ((l.val x).id ≠ id)) = ps.filter (fun x => decide (x ≠ e)) := by
      apply List.filter_congr
      intro x hx
      have he := (h.ids id e).mp hi
      congr 1
      apply propext
      constructor
      · rintro k1 rfl; exact k1 he.2
      · intro k1 h2
        have := (h.ids id x).mpr ⟨hx, h2⟩
        rw [hi] at this
        simp at this
        exact k1 this.symm
    rw [this]; exact h1

theorem removeList_frame : ∀ (ids : List I) {l : TL I S} {ps : List ℕ}, Rep l ps →
    Rep (removeList l ids) (ps.filter (fun x => decide ((l.val x).id ∉ ids))) ∧ Frame l (removeList l ids) := by
  intro ids
  induction ids with
  | nil =>
    intro l ps h
    have : ps.filter (fun x => decide ((l.val x).id ∉ ([] : List I))) = ps := by simp
    rw [this]
    exact ⟨h, Frame.refl l⟩
  | cons id r ih =>
    intro l ps h
    obtain ⟨h1, h2⟩ := removeTx_frame h id
    obtain ⟨h3, h4⟩ := ih h1
    refine ⟨?_, h2.trans h4⟩
    rw [List.filter_filter, h2.val] at h3
    have : ps.filter (fun x => decide ((l.val x).id ∉ id :: r)) =
        ps.filter (fun x => decide ((l.val x).id ∉ r) && decide ((l.val x).id ≠ id)) := by
      apply List.filter_congr
      intro x _
      by_cases q1 : (l.val x).id = id <;> by_cases q2 : (l.val x).id ∈ r <;> simp [q1, q2]
    rw [this]; exact h3

theorem dropOld_frame (bts : ℤ) : ∀ (b : List ℕ) (a : List ℕ) (n : ℕ) (l : TL I S), Rep l (a ++ b) → b.length ≤ n →
    Rep (dropOld bts n l b.head?).1 (a ++ b.filter (fun x => decide (bts < (l.val x).ts))) ∧ Frame l (dropOld bts n l b.head?).1 ∧
      (dropOld bts n l b.head?).2 = (b.filter (fun x => decide ((l.val x).ts ≤ bts))).map (fun x => (l.val x).id) := by
  intro b
  induction b with
  | nil =>
    intro a n l h _
    cases n <;> exact ⟨by simpa [dropOld] using h, Frame.refl l, rfl⟩
  | cons p b ih =>
    intro a n l h hn
    cases n with
    | zero => simp at hn
    | succ n =>
      rw [List.head?_cons, dropOld]
      have e := (h.links a p b rfl).1
      by_cases hp : (l.val p).ts ≤ bts
      · obtain ⟨h1, h2, h3, h4, h5, h6, h7, h8⟩ := remove_rep h
        have hr : Rep { (l.remove p).1 with err := upd (l.remove p).1.err p true } (a ++ b) := rep_err h1 _
        obtain ⟨q1, q2, q3⟩ := ih a n _ hr (by simp at hn; omega)
        simp only [if_pos hp, e]
        rw [List.filter_cons_of_neg (by simpa using hp), List.filter_cons_of_pos (by simpa using hp)]
        have hv : ({ (l.remove p).1 with err := upd (l.remove p).1.err p true } : TL I S).val = l.val := h3
        rw [hv] at q1 q3
        refine ⟨q1, Frame.trans ?_ q2, ?_⟩
        · refine ⟨h3, h6, h4, h7, h8, ?_⟩
          intro x hx
          show upd (l.remove p).1.err p true x = true
          by_cases hxp : x = p
          · subst hxp; exact upd_self _ _ _
          · rw [upd_ne _ _ hxp, h5]; exact hx
        · rw [q3]; rfl
      · simp only [if_neg hp, e]
        rw [List.filter_cons_of_pos (by simpa using (not_le.mp hp)), List.filter_cons_of_neg (by simpa using hp)]
        obtain ⟨q1, q2, q3⟩ := ih (a ++ [p]) n l (by simpa using h) (by simp at hn; omega)
        exact ⟨by simpa using q1, q2, q3⟩

theorem dropTxs_frame : ∀ (nos : List ℕ) {l : TL I S} {ps : List ℕ}, Rep l ps → nos.Nodup → (∀ n ∈ nos, l.err n = true) →
    ∃ l', dropTxs l nos = some (l', nos.filterMap (fun n => if n ∈ ps then some (l.val n).id else none)) ∧
      Rep l' (ps.filter (fun x => decide (x ∉ nos))) ∧ Frame l l' := by
  intro nos
  induction nos with
  | nil =>
    intro l ps h _ _
    exact ⟨l, rfl, by simpa using h, Frame.refl l⟩
  | cons n r ih =>
    intro l ps h hn he
    obtain ⟨h1, h2, h3⟩ := remove_frame h n
    rw [List.nodup_cons] at hn
    have hfil : ps.filter (fun x => decide (x ∉ n :: r)) = (ps.filter (fun x => decide (x ≠ n))).filter (fun x => decide (x ∉ r)) := by
      rw [List.filter_filter]
      apply List.filter_congr
      intro x _
      by_cases q1 : x = n <;> by_cases q2 : x ∈ r <;> simp [q1, q2]
    simp only [dropTxs]
    by_cases hm : n ∈ ps
    · rw [if_pos (h2.mpr hm), if_pos (he n (by simp))]
      obtain ⟨l', q1, q2, q3⟩ := ih h1 hn.2 (fun x hx => h3.err x (he x (by simp [hx])))
      refine ⟨l', ?_, by rw [hfil]; exact q2, h3.trans q3⟩
      rw [q1, Option.map_some]
      rw [List.filterMap_cons_some (by rw [if_pos hm])]
      congr 3
      apply List.filterMap_congr
      intro x hx
      rw [h3.val]
      have : x ≠ n := by rintro rfl; exact hn.1 hx
      simp [this]
    · rw [if_neg (by rw [h2]; exact hm)]
      obtain ⟨l', q1, q2, q3⟩ := ih h hn.2 (fun x hx => he x (by simp [hx]))
      refine ⟨l', ?_, ?_, q3⟩
      · rw [q1, List.filterMap_cons_none (by rw [if_neg hm])]
      · have : ps.filter (fun x => decide (x ≠ n)) = ps := by
          rw [List.filter_eq_self]; intro x hx; simp only [decide_eq_true_eq]; rintro rfl; exact hm hx
        rw [hfil, this]; exact q2

/-! ## Choosing -/

theorem candLoop_spec (env : Env I S W) (mb mc : ℕ) {l : TL I S} {ps : List ℕ} (h : DL l.next l.prev ps) :
    ∀ (b a : List ℕ) (n : ℕ) (wc : W) (c : Cand I S), ps = a ++ b → b.length ≤ n →
      (candLoop env mb mc l n b.head? wc c).txs = c.txs ++ (choose env (mb - c.size) (mc - c.txs.length) wc (abs l b)).1 ∧
      (candLoop env mb mc l n b.head? wc c).dropped = c.dropped ++ (choose env (mb - c.size) (mc - c.txs.length) wc (abs l b)).2 ∧
      (∀ x, c.err x = true → (candLoop env mb mc l n b.head? wc c).err x = true) ∧
      (∀ x ∈ (choose env (mb - c.size) (mc - c.txs.length) wc (abs l b)).2, (candLoop env mb mc l n b.head? wc c).err x = true) := by
  intro b
  induction b with
  | nil =>
    intro a n wc c _ _
    cases n <;> simp [candLoop, choose, abs]
  | cons p b ih =>
    intro a n wc c hs hn
    cases n with
    | zero => simp at hn
    | succ n =>
      have e := (h a p b hs).1
      have hn' : b.length ≤ n := by simp at hn; omega
      have habs : abs l (p :: b) = ⟨p, l.val p, l.direct p⟩ :: abs l b := rfl
      rw [List.head?_cons, candLoop, habs, choose, e]
      by_cases hlim : c.size < mb ∧ c.txs.length < mc
      · have hl' : ¬ (mb - c.size = 0 ∨ mc - c.txs.length = 0) := by omega
        simp only [hlim, and_self, not_true_eq_false, if_false, hl']
        have IH := fun wc c => ih (a ++ [p]) n wc c (by simp [hs]) hn'
        have hdrop : ∀ wc', (candLoop env mb mc l n b.head? wc' { c with dropped := c.dropped ++ [p], err := upd c.err p true }).txs =
              c.txs ++ (choose env (mb - c.size) (mc - c.txs.length) wc' (abs l b)).1 ∧
            (candLoop env mb mc l n b.head? wc' { c with dropped := c.dropped ++ [p], err := upd c.err p true }).dropped =
              c.dropped ++ p :: (choose env (mb - c.size) (mc - c.txs.length) wc' (abs l b)).2 ∧
            (∀ x, c.err x = true → (candLoop env mb mc l n b.head? wc' { c with dropped := c.dropped ++ [p], err := upd c.err p true }).err x = true) ∧
            (∀ x ∈ p :: (choose env (mb - c.size) (mc - c.txs.length) wc' (abs l b)).2,
              (candLoop env mb mc l n b.head? wc' { c with dropped := c.dropped ++ [p], err := upd c.err p true }).err x = true) := by
          intro wc'
          obtain ⟨q1, q2, q3, q4⟩ := IH wc' { c with dropped := c.dropped ++ [p], err := upd c.err p true }
          refine ⟨q1, by rw [q2]; simp, ?_, ?_⟩
          · intro x hx
            apply q3
            show upd c.err p true x = true
            by_cases hxp : x = p
            · subst hxp; exact upd_self _ _ _
            · rw [upd_ne _ _ hxp]; exact hx
          · intro x hx
            rw [List.mem_cons] at hx
            rcases hx with rfl | hx
            · exact q3 _ (upd_self _ _ _)
            · exact q4 x hx
        unfold verdict
        dsimp only
        cases hr : env.range (l.val p) with
        | expired =>
          simp only [if_true]
          exact hdrop wc
        | future =>
          simp only [reduceCtorEq, if_false, if_true]
          exact IH wc c
        | fits =>
          simp only [reduceCtorEq, if_false]
          cases hrec : env.recent (l.val p) with
          | none =>
            simp only [if_true]
            exact IH wc c
          | some r =>
            cases r with
            | true =>
              simp only [reduceCtorEq, if_false, if_true]
              exact hdrop wc
            | false =>
              simp only [reduceCtorEq, if_false, Option.some.injEq, Bool.false_eq_true]
              rcases hpre : env.pre wc (l.val p) with ⟨wc', v⟩
              cases v with
              | ok =>
                simp only [if_true]
                by_cases hsz : c.size + (l.val p).size > mb
                · have : mb - c.size < (l.val p).size := by omega
                  rw [if_pos hsz, if_pos this]
                  simp
                · have : ¬ mb - c.size < (l.val p).size := by omega
                  rw [if_neg hsz, if_neg this]
                  obtain ⟨q1, q2, q3, q4⟩ := IH wc' { c with txs := c.txs ++ [l.val p], size := c.size + (l.val p).size }
                  dsimp only at q1 q2 q3 q4
                  have e1 : mb - (c.size + (l.val p).size) = mb - c.size - (l.val p).size := by omega
                  have e2 : mc - (c.txs ++ [l.val p]).length = mc - c.txs.length - 1 := by simp; omega
                  rw [e1, e2] at q1 q2 q4
                  exact ⟨by rw [q1]; simp, q2, q3, q4⟩
              | invalid =>
                simp only [reduceCtorEq, if_false, false_and]
                exact hdrop wc'
              | balance =>
                simp only [reduceCtorEq, if_false, true_and]
                cases hd : l.direct p with
                | false =>
                  simp only [Bool.false_eq_true, if_false]
                  exact hdrop wc'
                | true =>
                  simp only [if_true]
                  obtain ⟨q1, q2, q3, q4⟩ := IH wc' { c with err := upd c.err p true }
                  refine ⟨q1, q2, ?_, q4⟩
                  intro x hx
                  apply q3
                  show upd c.err p true x = true
                  by_cases hxp : x = p
                  · subst hxp; exact upd_self _ _ _
                  · rw [upd_ne _ _ hxp]; exact hx
      · have hl' : mb - c.size = 0 ∨ mc - c.txs.length = 0 := by omega
        rw [if_pos hlim, if_pos hl']
        simp

theorem choose_sub (env : Env I S W) : ∀ (es : List (Entry I S)) (x y : ℕ) (wc : W), (choose env x y wc es).2.Sublist (es.map Entry.no) := by
  intro es
  induction es with
  | nil => intro x y wc; simp [choose]
  | cons e r ih =>
    intro x y wc
    rw [choose, List.map_cons]
    by_cases hz : x = 0 ∨ y = 0
    · rw [if_pos hz]; simp
    · rw [if_neg hz]
      cases verdict env wc e with
      | take wc' =>
        dsimp only
        split_ifs
        · simp
        · exact (ih _ _ _).cons _
      | drop wc' => exact (ih _ _ _).cons_cons _
      | skip wc' => exact (ih _ _ _).cons _

/-! ## Filtering -/

theorem filterLoop_spec {w : I → ℕ × ℕ × ℕ} (recent : Tx I S → Bool) (b : Bloom) (max : ℕ) {l : TL I S} {ps : List ℕ} (h : DL l.next l.prev ps)
    (hb : BloomInv w l ps) :
    ∀ (u a : List ℕ) (n : ℕ) (working skip : Option (ℕ × ℕ)) (txs : List (Tx I S)), ps = a ++ u → u.length ≤ n →
      (∀ s, skip = some s → b.containsAllOf (bloomOf l s) = true) → txs.length ≤ max →
      filterLoop w recent b max l n u.head? working skip txs =
        txs ++ ((u.map l.val).filter (fun t => !b.contains (w t.id) && !recent t)).take (max - txs.length) := by
  intro u
  induction u with
  | nil =>
    intro a n working skip txs _ _ _ _
    cases n <;> simp [filterLoop]
  | cons p u ih =>
    intro a n working skip txs hs hn hsk hlen
    cases n with
    | zero => simp at hn
    | succ n =>
      have e := (h a p u hs).1
      have hn' : u.length ≤ n := by simp at hn; omega
      have hp : p ∈ ps := by rw [hs]; simp
      have IH := fun working skip txs => ih (a ++ [p]) n working skip txs (by simp [hs]) hn'
      rw [List.head?_cons, filterLoop, e, List.map_cons]
      by_cases hmax : txs.length < max
      · rw [if_neg (by simpa using hmax)]
        -- the transaction is looked at
        have look : ∀ working skip, (∀ s, skip = some s → b.containsAllOf (bloomOf l s) = true) →
            filterLoop w recent b max l n u.head? working skip
              (if !b.contains (w (l.val p).id) then (if recent (l.val p) then txs else txs ++ [l.val p]) else txs) =
            txs ++ ((l.val p :: u.map l.val).filter (fun t => !b.contains (w t.id) && !recent t)).take (max - txs.length) := by
          intro working skip hsk
          cases hc : b.contains (w (l.val p).id) with
          | true =>
            rw [List.filter_cons_of_neg (by simp [hc])]
            simp only [Bool.not_true, Bool.false_eq_true, if_false]
            exact IH working skip txs hsk hlen
          | false =>
            cases hr : recent (l.val p) with
            | true =>
              rw [List.filter_cons_of_neg (by simp [hr])]
              simp only [Bool.not_false, if_true]
              exact IH working skip txs hsk hlen
            | false =>
              rw [List.filter_cons_of_pos (by simp [hr, hc])]
              simp only [Bool.not_false, if_true, Bool.false_eq_true, if_false]
              rw [IH working skip (txs ++ [l.val p]) hsk (by simp; omega)]
              obtain ⟨k, hk⟩ : ∃ k, max - txs.length = k + 1 := ⟨max - txs.length - 1, by omega⟩
              have hk' : max - (txs ++ [l.val p]).length = k := by simp; omega
              rw [hk, hk', List.take_succ_cons]
              simp
        -- the transaction is skipped because its filter is contained
        have skipped : b.containsAllOf (bloomOf l (l.bloom p)) = true → ∀ working skip, (∀ s, skip = some s → b.containsAllOf (bloomOf l s) = true) →
            filterLoop w recent b max l n u.head? working skip txs =
            txs ++ ((l.val p :: u.map l.val).filter (fun t => !b.contains (w t.id) && !recent t)).take (max - txs.length) := by
          intro hall working skip hsk
          have hc := containsAllOf_le hall (bloomOf_contains hb hp)
          rw [List.filter_cons_of_neg (by simp [hc])]
          exact IH working skip txs hsk hlen
        dsimp only
        by_cases hw : working ≠ some (l.bloom p)
        · rw [if_pos hw]
          by_cases hsk' : some (l.bloom p) = skip
          · rw [if_pos hsk']
            exact skipped (hsk _ hsk'.symm) working skip hsk
          · rw [if_neg hsk']
            by_cases hall : b.containsAllOf (bloomOf l (l.bloom p)) = true
            · rw [if_pos hall]
              exact skipped hall working _ (by intro s hs'; simp only [Option.some.injEq] at hs'; subst hs'; exact hall)
            · rw [if_neg hall]
              exact look _ skip hsk
        · rw [if_neg hw]
          exact look working skip hsk
      · rw [if_pos (by simpa using hmax)]
        have : max - txs.length = 0 := by omega
        rw [this]; simp

/-! ## Adding -/

theorem insert_at {e : Entry I S} : ∀ (A B : List (Entry I S)), (∀ x ∈ A, ¬ (x.tx.src = e.tx.src ∧ e.tx.ts < x.tx.ts)) →
    (∀ x, B.head? = some x → x.tx.src = e.tx.src ∧ e.tx.ts < x.tx.ts) → insertEntry e (A ++ B) = A ++ e :: B := by
  intro A
  induction A with
  | nil =>
    intro B _ hB
    cases B with
    | nil => rfl
    | cons x B => rw [List.nil_append, insertEntry, if_pos (hB x rfl)]; rfl
  | cons y A ih =>
    intro B hA hB
    rw [List.cons_append, insertEntry, if_neg (hA y (by simp)), ih B (fun x hx => hA x (by simp [hx])) hB]
    rfl

/-! ## Simulation -/

/-- The code is in this state of the specification. -/
structure R (w : I → ℕ × ℕ × ℕ) (s : PS I S) (p : Pool I S) (ps : List ℕ) : Prop where
  rep : Rep s.l ps
  bl : BloomInv w s.l ps
  es : p.es = abs s.l ps
  no : p.no = s.l.alloc
  pend : p.pend = s.pend
  ok : ∀ d ∈ s.pend, d.Nodup ∧ ∀ n ∈ d, s.l.err n = true ∧ n < s.l.alloc

theorem R_frame {w : I → ℕ × ℕ × ℕ} {s : PS I S} {p : Pool I S} {ps qs : List ℕ} {l' : TL I S} (h : R w s p ps) (hf : Frame s.l l') (hr : Rep l' qs)
    (hs : ∀ x ∈ qs, x ∈ ps) : R w ⟨l', s.pend⟩ { p with es := abs s.l qs } qs where
  rep := hr
  bl := bloomInv_frame hf (bloomInv_sub h.bl hs)
  es := (abs_frame hf qs).symm
  no := h.no.trans hf.alloc.symm
  pend := h.pend
  ok d hd := ⟨(h.ok d hd).1, fun n hn => ⟨hf.err n ((h.ok d hd).2 n hn).1, by rw [hf.alloc]; exact ((h.ok d hd).2 n hn).2⟩⟩

theorem abs_length (l : TL I S) (ps : List ℕ) : (abs l ps).length = ps.length := by simp [abs]

theorem abs_no (l : TL I S) (ps : List ℕ) : (abs l ps).map Entry.no = ps := by
  simp only [abs, List.map_map]
  exact List.map_id ps

theorem abs_find (l : TL I S) (n : ℕ) : ∀ ps : List ℕ,
    ((abs l ps).find? (fun e => decide (e.no = n))).map (fun e => e.tx.id) = if n ∈ ps then some (l.val n).id else none := by
  intro ps
  induction ps with
  | nil => rfl
  | cons p ps ih =>
    have : abs l (p :: ps) = ⟨p, l.val p, l.direct p⟩ :: abs l ps := rfl
    rw [this, List.find?_cons]
    by_cases hp : p = n
    · subst hp; simp
    · simp only [hp, decide_false, Bool.false_eq_true]
      rw [ih]
      simp [Ne.symm hp]

theorem step_sim {w : I → ℕ × ℕ × ℕ} {cap : ℤ} {s : PS I S} {p : Pool I S} {ps : List ℕ} (h : R w s p ps) (o : Op I S W) :
    ∃ s' qs, s.step w cap o = some (s', (p.step w cap o).2) ∧ R w s' (p.step w cap o).1 qs := by
  have hlen : (p.es.length : ℤ) = s.l.size := by rw [h.es, abs_length, h.rep.size]
  cases o with
  | add tx d =>
    simp only [PS.step, Pool.step, poolAdd]
    by_cases hc : cap ≤ s.l.size
    · have hc' : cap ≤ (p.es.length : ℤ) := by rw [hlen]; exact hc
      rw [if_pos (show s.l.size ≥ cap from hc), if_pos hc']
      exact ⟨_, ps, rfl, h⟩
    · have hc' : ¬ cap ≤ (p.es.length : ℤ) := by rw [hlen]; exact hc
      rw [if_neg (show ¬ s.l.size ≥ cap from hc), if_neg hc']
      by_cases hd : ∃ q ∈ ps, (s.l.val q).id = tx.id
      · rw [add_dup h.rep w d hd]
        have : p.es.any (fun e => e.tx.id = tx.id) = true := by
          rw [h.es, List.any_eq_true]
          obtain ⟨q, hq, hid⟩ := hd
          exact ⟨⟨q, s.l.val q, s.l.direct q⟩, List.mem_map.mpr ⟨q, hq, rfl⟩, by simpa using hid⟩
        rw [if_pos this]
        simp only [Bool.false_eq_true, if_false]
        exact ⟨_, ps, rfl, h⟩
      · obtain ⟨h1, a, b, hA, hR⟩ := add_rep h.rep w d hd
        have hno : ¬ p.es.any (fun e => e.tx.id = tx.id) = true := by
          rw [h.es, List.any_eq_true]
          rintro ⟨x, hx, hid⟩
          obtain ⟨q, hq, rfl⟩ := List.mem_map.mp hx
          exact hd ⟨q, hq, by simpa using hid⟩
        rw [if_neg hno, if_pos h1]
        have hne : ∀ x ∈ ps, x ≠ s.l.alloc := fun x hx => Nat.ne_of_lt (h.rep.lt x hx)
        obtain ⟨l2, e1, e2, e3, e4⟩ := hA.bloom
        refine ⟨_, a ++ s.l.alloc :: b, rfl, ⟨hR, updateBloom_inv h.bl hA.split hne e1 e2 hA.val e3 e4, ?_, ?_, h.pend, ?_⟩⟩
        · dsimp only
          have habs : ∀ u : List ℕ, (∀ x ∈ u, x ∈ ps) → abs (s.l.add w tx d).1 u = abs s.l u := by
            intro u hu
            apply List.map_congr_left
            intro x hx
            rw [hA.val, hA.direct, upd_ne _ _ (hne x (hu x hx)), upd_ne _ _ (hne x (hu x hx))]
          have hsplit := hA.split
          rw [h.es, hsplit, h.no]
          have e5 : abs s.l (a ++ b) = abs s.l a ++ abs s.l b := by simp [abs]
          rw [e5, insert_at]
          · have e6 : abs (s.l.add w tx d).1 (a ++ s.l.alloc :: b) = abs (s.l.add w tx d).1 a ++
                ⟨s.l.alloc, (s.l.add w tx d).1.val s.l.alloc, (s.l.add w tx d).1.direct s.l.alloc⟩ :: abs (s.l.add w tx d).1 b := by simp [abs]
            rw [e6, habs a (fun x hx => by rw [hsplit]; simp [hx]), habs b (fun x hx => by rw [hsplit]; simp [hx]), hA.val, hA.direct,
              upd_self, upd_self]
          · intro x hx
            obtain ⟨q, hq, rfl⟩ := List.mem_map.mp hx
            exact hA.before q hq
          · intro x hx
            cases b with
            | nil => simp [abs] at hx
            | cons q b =>
              simp only [abs, List.map_cons, List.head?_cons, Option.some.injEq] at hx
              subst hx
              exact hA.at_ q rfl
        · dsimp only
          rw [hA.alloc, h.no]
        · intro u hu
          obtain ⟨q1, q2⟩ := h.ok u hu
          refine ⟨q1, ?_⟩
          intro n hn
          obtain ⟨q3, q4⟩ := q2 n hn
          rw [hA.err, hA.alloc, upd_ne _ _ (Nat.ne_of_lt q4)]
          exact ⟨q3, by omega⟩
  | removeList ids =>
    simp only [PS.step, Pool.step]
    obtain ⟨h1, h2⟩ := removeList_frame ids h.rep
    have hes : p.es.filter (fun e => decide (e.tx.id ∉ ids)) = abs s.l (ps.filter (fun x => decide ((s.l.val x).id ∉ ids))) := by
      rw [h.es, abs_filter]
    rw [hes]
    unfold poolRemoveList
    by_cases hz : s.l.size = 0
    · rw [if_pos hz]
      have : ps = [] := by
        have := h.rep.size
        rw [hz] at this
        exact List.length_eq_zero_iff.mp (by omega)
      subst this
      refine ⟨_, [], rfl, ?_⟩
      exact R_frame h (Frame.refl _) h.rep (by simp)
    · rw [if_neg hz]
      exact ⟨_, _, rfl, R_frame h h2 h1 (fun x hx => (List.mem_filter.mp hx).1)⟩
  | dropOld bts =>
    simp only [PS.step, Pool.step, poolDropOld]
    obtain ⟨h1, h2, h3⟩ := dropOld_frame bts ps [] s.l.alloc s.l h.rep (length_le_alloc h.rep)
    rw [← h.rep.front] at h1 h2 h3
    have hes : p.es.filter (fun e => decide (bts < e.tx.ts)) = abs s.l (ps.filter (fun x => decide (bts < (s.l.val x).ts))) := by
      rw [h.es, abs_filter]
    have hes' : (p.es.filter (fun e => decide (e.tx.ts ≤ bts))).map (fun e => e.tx.id) =
        (ps.filter (fun x => decide ((s.l.val x).ts ≤ bts))).map (fun x => (s.l.val x).id) := by
      rw [h.es, abs_filter, abs, List.map_map]; rfl
    rw [hes, hes', ← h3]
    exact ⟨_, _, rfl, R_frame h h2 h1 (fun x hx => (List.mem_filter.mp hx).1)⟩
  | candidate env mb mc wc =>
    simp only [PS.step, Pool.step]
    unfold candidate
    by_cases hz : s.l.size = 0
    · have : ps = [] := by
        have := h.rep.size
        rw [hz] at this
        exact List.length_eq_zero_iff.mp (by omega)
      subst this
      simp only [if_pos hz]
      have hes : p.es = [] := h.es
      rw [hes]
      refine ⟨_, [], rfl, ⟨h.rep, h.bl, rfl, h.no, by rw [h.pend]; rfl, ?_⟩⟩
      intro d hd
      rw [List.mem_append, List.mem_singleton] at hd
      rcases hd with hd | rfl
      · exact h.ok d hd
      · simp
    · simp only [if_neg hz]
      obtain ⟨q1, q2, q3, q4⟩ := candLoop_spec env (limit mb (1024 * 1024)) (limit mc 1500) h.rep.links ps [] s.l.alloc wc ⟨[], 0, [], s.l.err⟩ rfl
        (length_le_alloc h.rep)
      simp only [List.nil_append, List.length_nil, Nat.sub_zero] at q1 q2 q3 q4
      rw [← h.rep.front] at q1 q2 q3 q4
      rw [← h.es] at q1 q2 q4
      have e1 : (if mb ≤ 0 then 1024 * 1024 else mb.toNat) = limit mb (1024 * 1024) := rfl
      have e2 : (if mc ≤ 0 then 1500 else mc.toNat) = limit mc 1500 := rfl
      rw [e1, e2]
      generalize hC : candLoop env (limit mb (1024 * 1024)) (limit mc 1500) s.l s.l.alloc s.l.front wc ⟨[], 0, [], s.l.err⟩ = C at *
      rw [← q1]
      have hf : Frame s.l { s.l with err := C.err } := ⟨rfl, rfl, rfl, rfl, rfl, q3⟩
      refine ⟨_, ps, rfl, ⟨rep_err h.rep _, bloomInv_frame hf h.bl, h.es.trans (abs_frame hf ps).symm, h.no, by rw [h.pend, q2], ?_⟩⟩
      intro d hd
      rw [List.mem_append, List.mem_singleton] at hd
      rcases hd with hd | rfl
      · exact ⟨(h.ok d hd).1, fun n hn => ⟨q3 n ((h.ok d hd).2 n hn).1, ((h.ok d hd).2 n hn).2⟩⟩
      · rw [q2]
        have hsub := choose_sub env p.es (limit mb (1024 * 1024)) (limit mc 1500) wc
        rw [h.es, abs_no, ← h.es] at hsub
        exact ⟨h.rep.nodup.sublist hsub, fun n hn => ⟨q4 n hn, h.rep.lt n (hsub.subset hn)⟩⟩
  | drop k =>
    simp only [PS.step, Pool.step]
    have hk : (s.pend.getD k []).Nodup ∧ ∀ n ∈ s.pend.getD k [], s.l.err n = true := by
      rw [List.getD_eq_getElem?_getD]
      cases hg : s.pend[k]? with
      | none => simp
      | some d =>
        have := h.ok d (List.mem_of_getElem? hg)
        exact ⟨this.1, fun n hn => (this.2 n hn).1⟩
    obtain ⟨l', q1, q2, q3⟩ := dropTxs_frame (s.pend.getD k []) h.rep hk.1 hk.2
    rw [q1, Option.map_some]
    have hes : p.es.filter (fun e => decide (e.no ∉ p.pend.getD k [])) = abs s.l (ps.filter (fun x => decide (x ∉ s.pend.getD k []))) := by
      rw [h.es, abs_filter, h.pend]
    have hes' : (p.pend.getD k []).filterMap (fun n => (p.es.find? (fun e => decide (e.no = n))).map (fun e => e.tx.id)) =
        (s.pend.getD k []).filterMap (fun n => if n ∈ ps then some (s.l.val n).id else none) := by
      rw [h.pend, h.es]
      apply List.filterMap_congr
      intro n _
      exact abs_find s.l n ps
    rw [hes, hes']
    refine ⟨_, ps.filter (fun x => decide (x ∉ s.pend.getD k [])), rfl, ?_⟩
    have hR := R_frame h q3 q2 (fun x hx => (List.mem_filter.mp hx).1)
    refine ⟨hR.rep, hR.bl, hR.es, hR.no, by rw [h.pend], ?_⟩
    intro d hd
    rcases List.mem_or_eq_of_mem_set hd with hd | rfl
    · exact hR.ok d hd
    · simp
  | filter recent b max =>
    simp only [PS.step, Pool.step]
    refine ⟨s, ps, ?_, h⟩
    have := filterLoop_spec recent b max h.rep.links h.bl ps [] s.l.alloc none none [] rfl (length_le_alloc h.rep) (by simp) (by simp)
    rw [← h.rep.front] at this
    rw [filterTxs, this, h.es, abs, List.map_map]
    simp only [List.nil_append, List.length_nil, Nat.sub_zero]
    rfl

theorem run_sim {w : I → ℕ × ℕ × ℕ} {cap : ℤ} : ∀ (os : List (Op I S W)) {s : PS I S} {p : Pool I S} {ps : List ℕ}, R w s p ps →
    ∃ s' qs, s.run w cap os = some (s', (p.run w cap os).2) ∧ R w s' (p.run w cap os).1 qs := by
  intro os
  induction os with
  | nil => intro s p ps h; exact ⟨s, ps, rfl, h⟩
  | cons o r ih =>
    intro s p ps h
    obtain ⟨s', qs, h1, h2⟩ := step_sim (cap := cap) h o
    obtain ⟨s'', rs, h3, h4⟩ := ih h2
    refine ⟨s'', rs, ?_, h4⟩
    simp only [PS.run, Pool.run, h1, Option.bind_some, h3, Option.map_some]

theorem R_new (w : I → ℕ × ℕ × ℕ) : R w ⟨(TL.new : TL I S), []⟩ ⟨[], 0, []⟩ [] where
  rep := rep_new
  bl := ⟨by intro c hc; simp [TL.new] at hc, by intro p hp; simp at hp⟩
  es := rfl
  no := rfl
  pend := rfl
  ok d hd := by simp at hd

end Verif.TxPool
