import Verif.WorldState.Proof

/-!
# World state: theorems (C70)
-/

namespace Verif.WorldState
open Verif

variable {K D : Type} [DecidableEq K] [DecidableEq D] {e : D} {info : Bytes → Bytes × Bytes × Bytes}

/-- What is in a trie is not empty, and good. -/
def TrieOk (info : Bytes → Bytes × Bytes × Bytes) (t : K → Option (Acct D)) : Prop := ∀ k v, t k = some v → v.isEmpty = false ∧ v.Good info

/-- What was last written is in the trie. -/
def LastOk (w : World K D) (k : K) : Prop :=
  match w.lasts k with
  | some l => ∃ v, w.objs[l]? = some v ∧ w.trie k = v.found
  | none => w.trie k = none

/-- What does not depend on the values. -/
structure Frame (e : D) (info : Bytes → Bytes × Bytes × Bytes) (w : World K D) (s : Spec K D) : Prop where
  len : w.cells.length = s.handles.length
  open_iff : ∀ (k : K) (p : ℕ), (k, p) ∈ w.opened ↔ s.handles[p]? = some (.live k)
  uniq : (w.opened.map Prod.fst).Nodup
  inv : ∀ (p : ℕ) (c : AState D), w.cells[p]? = some c → CellInv info w.objs c
  trieOk : TrieOk info w.trie
  objs : AllGood info w.objs
  snaps : s.snaps = w.snaps.map (fun t k => (t k).getD (Acct.zero e))
  snapsOk : ∀ t ∈ w.snaps, TrieOk info t
  heldLen : w.held.length = s.held.length
  held : ∀ (i o : ℕ), w.held[i]? = some o → ∃ v, w.objs[o]? = some v ∧ s.held[i]? = some v

/-- The relation. -/
structure Rel (e : D) (info : Bytes → Bytes × Bytes × Bytes) (w : World K D) (s : Spec K D) : Prop extends Frame e info w s where
  val : ∀ (p : ℕ) (c : AState D) (h : Handle K D), w.cells[p]? = some c → s.handles[p]? = some h → c.a = s.val h
  shut : ∀ k, (∀ p, (k, p) ∉ w.opened) → s.acc k = (w.trie k).getD (Acct.zero e)
  lasts : ∀ k p, (k, p) ∈ w.opened → LastOk w k

variable {w : World K D} {s : Spec K D}

theorem Frame.open_uniq (h : Frame e info w s) {k : K} {p q : ℕ} (hp : (k, p) ∈ w.opened) (hq : (k, q) ∈ w.opened) : p = q := by
  have := List.inj_on_of_nodup_map h.uniq hp hq rfl
  simpa using this

theorem Frame.open_uniq' (h : Frame e info w s) {k k' : K} {p : ℕ} (hp : (k, p) ∈ w.opened) (hq : (k', p) ∈ w.opened) : k = k' := by
  rw [h.open_iff] at hp hq
  rw [hp] at hq
  simpa using hq

theorem Frame.cell_of_open (h : Frame e info w s) {k : K} {p : ℕ} (hp : (k, p) ∈ w.opened) : ∃ c, w.cells[p]? = some c := by
  rw [h.open_iff] at hp
  have := (List.getElem?_eq_some_iff.mp hp).1
  rw [← h.len] at this
  exact ⟨_, List.getElem?_eq_getElem this⟩

theorem Frame.handle_of_cell (h : Frame e info w s) {p : ℕ} {c : AState D} (hc : w.cells[p]? = some c) : ∃ x, s.handles[p]? = some x := by
  have := (List.getElem?_eq_some_iff.mp hc).1
  rw [h.len] at this
  exact ⟨_, List.getElem?_eq_getElem this⟩

theorem get_set {α : Type} (l : List α) (p : ℕ) (x : α) (q : ℕ) (y : α) (h : (l.set p x)[q]? = some y) : (q = p ∧ y = x) ∨ (q ≠ p ∧ l[q]? = some y) := by
  rw [List.getElem?_set] at h
  by_cases hq : p = q
  · rw [if_pos hq] at h
    split_ifs at h
    left
    exact ⟨hq.symm, (Option.some.inj h).symm⟩
  · rw [if_neg hq] at h
    exact Or.inr ⟨fun e => hq e.symm, h⟩

/-- A cell gets a new state, and there may be more objects. -/
theorem Frame.set_cell (h : Frame e info w s) {objs' : List (Acct D)} (hx : Ext w.objs objs') (hg : AllGood info objs') (p : ℕ) {c' : AState D} (hc : CellInv info objs' c') :
    Frame e info { w with cells := w.cells.set p c', objs := objs' } s where
  len := by simp only [List.length_set]; exact h.len
  open_iff := h.open_iff
  uniq := h.uniq
  inv := by
    intro q c hq
    rcases get_set _ _ _ _ _ hq with ⟨_, rfl⟩ | ⟨_, hq⟩
    · exact hc
    · exact cell_mono (h.inv q c hq) hx
  trieOk := h.trieOk
  objs := hg
  snaps := h.snaps
  snapsOk := h.snapsOk
  heldLen := h.heldLen
  held := by
    intro i o ho
    obtain ⟨v, h1, h2⟩ := h.held i o ho
    exact ⟨v, hx _ _ h1, h2⟩

theorem lastOk_mono {w w' : World K D} {k : K} (h : LastOk w k) (h1 : w'.lasts k = w.lasts k) (h2 : w'.trie k = w.trie k) (hx : Ext w.objs w'.objs) : LastOk w' k := by
  unfold LastOk at *
  rw [h1, h2]
  cases hl : w.lasts k with
  | none => rw [hl] at h; exact h
  | some l =>
    rw [hl] at h
    obtain ⟨v, h3, h4⟩ := h
    exact ⟨v, hx _ _ h3, h4⟩

/-- The state of a cell changes, but not its value. -/
theorem Rel.same (h : Rel e info w s) {objs' : List (Acct D)} (hx : Ext w.objs objs') (hg : AllGood info objs') {p : ℕ} {c c' : AState D} (hp : w.cells[p]? = some c)
    (hc : CellInv info objs' c') (ha : c'.a = c.a) : Rel e info { w with cells := w.cells.set p c', objs := objs' } s where
  toFrame := h.toFrame.set_cell hx hg p hc
  val := by
    intro q d x hq hh
    rcases get_set _ _ _ _ _ hq with ⟨rfl, rfl⟩ | ⟨_, hq⟩
    · rw [ha]; exact h.val q c x hp hh
    · exact h.val q d x hq hh
  shut := h.shut
  lasts := fun k p hk => lastOk_mono (h.lasts k p hk) rfl rfl hx

/-- The value of a handle changes. -/
theorem Rel.put (h : Rel e info w s) {p : ℕ} {c' : AState D} (hc : CellInv info w.objs c') {x : Handle K D} (hh : s.handles[p]? = some x) :
    Rel e info { w with cells := w.cells.set p c' } (s.put p c'.a x) := by
  have hf := h.toFrame.set_cell (fun _ _ hx => hx) h.objs p hc
  cases x with
  | live k =>
    have hk : (k, p) ∈ w.opened := (h.open_iff k p).mpr hh
    simp only [Spec.put]
    refine ⟨⟨hf.len, hf.open_iff, hf.uniq, hf.inv, hf.trieOk, hf.objs, hf.snaps, hf.snapsOk, hf.heldLen, hf.held⟩, ?_, ?_, h.lasts⟩
    · intro q d y hq hy
      dsimp only at hy
      rcases get_set _ _ _ _ _ hq with ⟨rfl, rfl⟩ | ⟨hne, hq⟩
      · rw [hh] at hy
        cases hy
        simp [Spec.val, upd]
      · rw [h.val q d y hq hy]
        cases y with
        | gone a => rfl
        | live k' =>
          simp only [Spec.val, upd]
          rw [if_neg]
          rintro rfl
          exact hne (h.toFrame.open_uniq ((h.open_iff _ _).mpr hy) hk)
    · intro k' hk'
      dsimp only [upd]
      rw [if_neg]
      · exact h.shut k' hk'
      · rintro rfl
        exact hk' p hk
  | gone a =>
    simp only [Spec.put]
    have hp : p < s.handles.length := (List.getElem?_eq_some_iff.mp hh).1
    have hlive : ∀ (q : ℕ) (k : K), (s.handles.set p (.gone c'.a))[q]? = some (Handle.live k) ↔ s.handles[q]? = some (Handle.live k) := by
      intro q k
      rw [List.getElem?_set]
      by_cases hq : p = q
      · subst hq
        rw [if_pos rfl, if_pos hp, hh]
        simp
      · rw [if_neg hq]
    refine ⟨⟨by simp only [List.length_set]; exact h.len, ?_, hf.uniq, hf.inv, hf.trieOk, hf.objs, hf.snaps, hf.snapsOk, hf.heldLen, hf.held⟩, ?_, h.shut, h.lasts⟩
    · intro k q
      dsimp only
      rw [hlive]
      exact h.open_iff k q
    · intro q d y hq hy
      dsimp only at hy
      rcases get_set _ _ _ _ _ hq with ⟨rfl, rfl⟩ | ⟨hne, hq⟩
      · rcases get_set _ _ _ _ _ hy with ⟨_, rfl⟩ | ⟨hn, _⟩
        · rfl
        · exact absurd rfl hn
      · rcases get_set _ _ _ _ _ hy with ⟨hn, _⟩ | ⟨_, hy⟩
        · exact absurd hn hne
        · rw [h.val q d y hq hy]
          cases y <;> rfl

/-! ## Flush -/

theorem trieSet_spec {t : K → Option (Acct D)} (ht : TrieOk info t) {v : Acct D} (hv : v.Good info) (k : K) : trieSet t k v = upd t k (some v) := by
  unfold trieSet
  cases hk : t k with
  | none => rfl
  | some old =>
    dsimp only
    split_ifs with hq
    · have := equal_eq (ht k old hk).2 hv hq
      funext x
      unfold upd
      split_ifs with hx
      · rw [hx, hk, this]
      · rfl
    · rfl

theorem store_eq (w : World K D) (ht : TrieOk info w.trie) {v : Acct D} (hv : v.Good info) (k : K) (o : ℕ) :
    store w k o v = { w with lasts := upd w.lasts k (some o), trie := upd w.trie k v.found } := by
  unfold store Acct.found
  split_ifs with h
  · rfl
  · rw [trieSet_spec ht hv]

theorem Rel.store (h : Rel e info w s) {k : K} {p o : ℕ} (hk : (k, p) ∈ w.opened) {v : Acct D} (ho : w.objs[o]? = some v) : Rel e info (store w k o v) s := by
  have hv := h.objs o v ho
  rw [store_eq w h.trieOk hv]
  refine ⟨⟨h.len, h.open_iff, h.uniq, h.inv, ?_, h.objs, h.snaps, h.snapsOk, h.heldLen, h.held⟩, h.val, ?_, ?_⟩
  · intro x u hu
    dsimp only [upd] at hu
    split_ifs at hu with hx
    · unfold Acct.found at hu
      split_ifs at hu with hq
      cases hu
      exact ⟨by simpa using hq, hv⟩
    · exact h.trieOk x u hu
  · intro k' hk'
    dsimp only [upd]
    rw [if_neg (by rintro rfl; exact hk' p hk)]
    exact h.shut k' hk'
  · intro k' p' hk'
    by_cases hx : k' = k
    · subst hx
      unfold LastOk
      simp only [upd, if_pos]
      exact ⟨v, ho, rfl⟩
    · exact lastOk_mono (h.lasts k' p' hk') (by simp [upd, hx]) (by simp [upd, hx]) (fun _ _ hx => hx)

/-- The value of an open account. -/
theorem Rel.val_open (h : Rel e info w s) {k : K} {p : ℕ} (hk : (k, p) ∈ w.opened) {c : AState D} (hc : w.cells[p]? = some c) : c.a = s.acc k :=
  h.val p c _ hc ((h.open_iff k p).mp hk)

theorem flushOne_spec (h : Rel e info w s) {kp : K × ℕ} (hk : kp ∈ w.opened) :
    Rel e info (flushOne w kp) s ∧ (flushOne w kp).opened = w.opened ∧ (flushOne w kp).trie = upd w.trie kp.1 (s.acc kp.1).found := by
  obtain ⟨k, p⟩ := kp
  obtain ⟨c, hc⟩ := h.toFrame.cell_of_open hk
  obtain ⟨h1, h2, h3, h4, h5⟩ := snap_spec (h.inv p c hc) h.objs
  have hr := h.same h2 h5 hc h3 h4
  have hv : c.a = s.acc k := h.val_open hk hc
  have hself : ∀ t : K → Option (Acct D), t k = (s.acc k).found → t = upd t k (s.acc k).found := by
    intro t ht
    funext x
    unfold upd
    split_ifs with hx
    · rw [hx, ht]
    · rfl
  have hlast := h.lasts k p hk
  unfold flushOne
  simp only [hc, h1]
  unfold LastOk at hlast
  cases hl : w.lasts k with
  | none =>
    rw [hl] at hlast
    dsimp only at hlast ⊢
    by_cases he : c.a.isEmpty = true
    · rw [if_pos he]
      refine ⟨hr, rfl, ?_⟩
      apply hself
      rw [hlast, ← hv]
      simp [Acct.found, he]
    · rw [if_neg he]
      refine ⟨hr.store hk h1, ?_, ?_⟩
      · rw [store_eq _ hr.trieOk (hr.objs _ _ h1)]
      · rw [store_eq _ hr.trieOk (hr.objs _ _ h1), hv]
  | some l =>
    rw [hl] at hlast
    obtain ⟨v, hv1, hv2⟩ := hlast
    dsimp only
    by_cases he : l = (c.snap w.objs).1
    · rw [if_pos he]
      refine ⟨hr, rfl, ?_⟩
      apply hself
      have := h2 _ _ hv1
      rw [he, h1] at this
      rw [hv2, ← Option.some.inj this, hv]
    · rw [if_neg he]
      refine ⟨hr.store hk h1, ?_, ?_⟩
      · rw [store_eq _ hr.trieOk (hr.objs _ _ h1)]
      · rw [store_eq _ hr.trieOk (hr.objs _ _ h1), hv]

theorem flushList_spec : ∀ (l : List (K × ℕ)) (w : World K D), Rel e info w s → (∀ kp ∈ l, kp ∈ w.opened) →
    Rel e info (l.foldl flushOne w) s ∧ (l.foldl flushOne w).opened = w.opened ∧
    (∀ k, (l.foldl flushOne w).trie k = if k ∈ l.map Prod.fst then (s.acc k).found else w.trie k) := by
  intro l
  induction l with
  | nil => intro w h _; exact ⟨h, rfl, fun k => by simp⟩
  | cons kp l ih =>
    intro w h hl
    obtain ⟨h1, h2, h3⟩ := flushOne_spec h (hl kp (by simp))
    obtain ⟨g1, g2, g3⟩ := ih (flushOne w kp) h1 (fun x hx => by rw [h2]; exact hl x (by simp [hx]))
    refine ⟨g1, by rw [List.foldl_cons, g2, h2], ?_⟩
    intro k
    rw [List.foldl_cons, g3, h3]
    simp only [List.map_cons, List.mem_cons, upd]
    by_cases ha : k ∈ l.map Prod.fst
    · rw [if_pos ha, if_pos (Or.inr ha)]
    · rw [if_neg ha]
      by_cases hb : k = kp.1
      · rw [if_pos hb, if_pos (Or.inl hb), hb]
      · rw [if_neg hb, if_neg (by tauto)]

theorem order_perm (w : World K D) (ord : List (K × ℕ)) : (order w ord).Perm w.opened := by
  unfold order
  split_ifs with h
  · exact List.isPerm_iff.mp h
  · exact List.Perm.refl _

theorem flush_spec (h : Rel e info w s) (ord : List (K × ℕ)) :
    Rel e info (flush w ord) s ∧ (flush w ord).opened = w.opened ∧ ∀ k, (flush w ord).trie k = (s.acc k).found := by
  have hp := order_perm w ord
  obtain ⟨h1, h2, h3⟩ := flushList_spec (order w ord) w h (fun kp hk => hp.mem_iff.mp hk)
  refine ⟨h1, h2, ?_⟩
  intro k
  unfold flush
  rw [h3]
  by_cases hk : k ∈ (order w ord).map Prod.fst
  · rw [if_pos hk]
  · rw [if_neg hk, h.shut k, getD_found (fun v hv => (h.trieOk k v hv).1)]
    intro p hkp
    exact hk (List.mem_map.mpr ⟨(k, p), hp.mem_iff.mpr hkp, rfl⟩)

/-! ## Reset -/

/-- What a reset has reached for an account. -/
def Done (e : D) (w : World K D) (kp : K × ℕ) : Prop := (∃ c, w.cells[kp.2]? = some c ∧ c.a = (w.trie kp.1).getD (Acct.zero e)) ∧ LastOk w kp.1

theorem resetOne_spec (h : Frame e info w s) (hint : K → ℕ) {kp : K × ℕ} (hk : kp ∈ w.opened) :
    Frame e info (resetOne e hint w kp) s ∧ (resetOne e hint w kp).opened = w.opened ∧ (resetOne e hint w kp).trie = w.trie ∧ Done e (resetOne e hint w kp) kp ∧
    (∀ x ∈ w.opened, Done e w x → Done e (resetOne e hint w kp) x) ∧ (∀ (q : ℕ) (c : AState D), q ≠ kp.2 → w.cells[q]? = some c → (resetOne e hint w kp).cells[q]? = some c) ∧
    (resetOne e hint w kp).snaps = w.snaps ∧ (resetOne e hint w kp).held = w.held := by
  obtain ⟨k, p⟩ := kp
  obtain ⟨c, hc⟩ := h.cell_of_open hk
  have hlt : p < w.cells.length := (List.getElem?_eq_some_iff.mp hc).1
  unfold resetOne
  simp only [hc]
  have main : ∀ (c' : AState D) (objs' : List (Acct D)) (l' : Option ℕ), Ext w.objs objs' → AllGood info objs' → CellInv info objs' c' → c'.a = (w.trie k).getD (Acct.zero e) →
      LastOk { w with cells := w.cells.set p c', objs := objs', lasts := upd w.lasts k l' } k →
      Frame e info { w with cells := w.cells.set p c', objs := objs', lasts := upd w.lasts k l' } s ∧ Done e { w with cells := w.cells.set p c', objs := objs', lasts := upd w.lasts k l' } (k, p) ∧
      (∀ x ∈ w.opened, Done e w x → Done e { w with cells := w.cells.set p c', objs := objs', lasts := upd w.lasts k l' } x) ∧
      (∀ (q : ℕ) (c : AState D), q ≠ p → w.cells[q]? = some c → (w.cells.set p c')[q]? = some c) := by
    intro c' objs' l' hx hg hc' ha hl
    have hf := h.set_cell hx hg p hc'
    have hdone : Done e { w with cells := w.cells.set p c', objs := objs', lasts := upd w.lasts k l' } (k, p) := by
      refine ⟨⟨c', ?_, ha⟩, hl⟩
      rw [List.getElem?_set, if_pos rfl, if_pos hlt]
    refine ⟨⟨hf.len, hf.open_iff, hf.uniq, hf.inv, hf.trieOk, hf.objs, hf.snaps, hf.snapsOk, hf.heldLen, hf.held⟩, hdone, ?_, ?_⟩
    · rintro ⟨k', p'⟩ hx' hd
      by_cases hq : k' = k
      · subst hq
        have : p' = p := h.open_uniq hx' hk
        rw [this]
        exact hdone
      · obtain ⟨⟨d, hd1, hd2⟩, hd3⟩ := hd
        refine ⟨⟨d, ?_, hd2⟩, lastOk_mono hd3 (by simp [upd, hq]) rfl hx⟩
        rw [List.getElem?_set, if_neg]
        · exact hd1
        · rintro rfl
          exact hq (h.open_uniq' hx' hk)
    · intro q d hq hd
      rw [List.getElem?_set, if_neg (fun h => hq h.symm)]
      exact hd
  cases ht : w.trie k with
  | none =>
    have := main (AState.clear e) w.objs none (fun _ _ hx => hx) h.objs (clear_inv _) (by rw [ht]; rfl) (by simp [LastOk, upd, ht])
    exact ⟨this.1, rfl, rfl, this.2.1, this.2.2.1, this.2.2.2, rfl, rfl⟩
  | some v =>
    obtain ⟨l1, l2, l3⟩ := load_spec h.objs (h.trieOk k v ht).2 (hint k)
    obtain ⟨r1, r2⟩ := reset_spec (cell_mono (h.inv p c hc) l2) l3 l1
    have := main (c.reset (load w.objs v (hint k)).2 (load w.objs v (hint k)).1) (load w.objs v (hint k)).2 (some (load w.objs v (hint k)).1) l2 l3 r1 (by rw [ht, r2]; rfl) (by
      simp only [LastOk, upd, if_pos]
      refine ⟨v, l1, ?_⟩
      rw [ht]
      simp [Acct.found, (h.trieOk k v ht).1])
    exact ⟨this.1, rfl, rfl, this.2.1, this.2.2.1, this.2.2.2, rfl, rfl⟩

theorem resetList_spec (hint : K → ℕ) : ∀ (l : List (K × ℕ)) (w : World K D), Frame e info w s → (∀ kp ∈ l, kp ∈ w.opened) →
    Frame e info (l.foldl (resetOne e hint) w) s ∧ (l.foldl (resetOne e hint) w).opened = w.opened ∧ (l.foldl (resetOne e hint) w).trie = w.trie ∧
    (∀ x ∈ w.opened, Done e w x ∨ x ∈ l → Done e (l.foldl (resetOne e hint) w) x) ∧
    (∀ (q : ℕ) (c : AState D), (∀ k, (k, q) ∉ l) → w.cells[q]? = some c → (l.foldl (resetOne e hint) w).cells[q]? = some c) := by
  intro l
  induction l with
  | nil =>
    intro w h _
    refine ⟨h, rfl, rfl, ?_, fun q c _ hc => hc⟩
    rintro x _ (hx | hx)
    · exact hx
    · simp at hx
  | cons kp l ih =>
    intro w h hl
    obtain ⟨h1, h2, h3, h4, h5, h6, _⟩ := resetOne_spec h hint (hl kp (by simp))
    obtain ⟨g1, g2, g3, g4, g5⟩ := ih (resetOne e hint w kp) h1 (fun x hx => by rw [h2]; exact hl x (by simp [hx]))
    refine ⟨g1, by rw [List.foldl_cons, g2, h2], by rw [List.foldl_cons, g3, h3], ?_, ?_⟩
    · intro x hx hd
      rw [List.foldl_cons]
      refine g4 x (by rw [h2]; exact hx) ?_
      rcases hd with hd | hd
      · exact Or.inl (h5 x hx hd)
      · rcases List.mem_cons.mp hd with rfl | hd
        · exact Or.inl h4
        · exact Or.inr hd
    · intro q c hq hc
      rw [List.foldl_cons]
      refine g5 q c (fun k hk => hq k (by simp [hk])) (h6 q c ?_ hc)
      rintro rfl
      exact hq kp.1 (by simp)

/-! ## Steps -/

theorem find_open (h : Frame e info w s) (k : K) :
    (∃ p, w.opened.find? (fun kp => decide (kp.1 = k)) = some (k, p) ∧ (k, p) ∈ w.opened ∧ s.handles.findIdx? (Handle.isFor k) = some p) ∨
    (w.opened.find? (fun kp => decide (kp.1 = k)) = none ∧ (∀ p, (k, p) ∉ w.opened) ∧ s.handles.findIdx? (Handle.isFor k) = none) := by
  cases hf : w.opened.find? (fun kp => decide (kp.1 = k)) with
  | some kp =>
    left
    have h1 := List.mem_of_find?_eq_some hf
    have h2 := List.find?_some hf
    simp only [decide_eq_true_eq] at h2
    obtain ⟨k', p⟩ := kp
    dsimp only at h2
    subst h2
    refine ⟨p, rfl, h1, ?_⟩
    have hp := (h.open_iff _ p).mp h1
    cases hx : s.handles.findIdx? (Handle.isFor k') with
    | none =>
      rw [List.findIdx?_eq_none_iff] at hx
      have := hx _ (List.mem_of_getElem? hp)
      simp [Handle.isFor] at this
    | some q =>
      rw [List.findIdx?_eq_some_iff_getElem] at hx
      obtain ⟨hlt, hq, _⟩ := hx
      have hq' : s.handles[q]? = some (.live k') := by
        rw [List.getElem?_eq_getElem hlt]
        cases hy : s.handles[q] with
        | gone a => rw [hy] at hq; simp [Handle.isFor] at hq
        | live k'' => rw [hy] at hq; simp only [Handle.isFor, decide_eq_true_eq] at hq; rw [hq]
      rw [h.open_uniq ((h.open_iff _ q).mpr hq') h1]
  | none =>
    right
    have h1 : ∀ p, (k, p) ∉ w.opened := by
      intro p hp
      have := List.find?_eq_none.mp hf _ hp
      simp at this
    refine ⟨rfl, h1, ?_⟩
    rw [List.findIdx?_eq_none_iff]
    intro x hx
    cases x with
    | gone a => rfl
    | live k' =>
      simp only [Handle.isFor, decide_eq_false_iff_not]
      rintro rfl
      obtain ⟨p, hp⟩ := List.getElem?_of_mem hx
      exact h1 p ((h.open_iff _ p).mpr hp)

/-- A new account state. -/
theorem Rel.add (h : Rel e info w s) {k : K} (hk : ∀ p, (k, p) ∉ w.opened) {objs' : List (Acct D)} (hx : Ext w.objs objs') (hg : AllGood info objs') {c : AState D}
    (hc : CellInv info objs' c) (ha : c.a = s.acc k) {l' : Option ℕ}
    (hl : LastOk { w with cells := w.cells ++ [c], opened := w.opened ++ [(k, w.cells.length)], lasts := upd w.lasts k l', objs := objs' } k) :
    Rel e info { w with cells := w.cells ++ [c], opened := w.opened ++ [(k, w.cells.length)], lasts := upd w.lasts k l', objs := objs' } { s with handles := s.handles ++ [.live k] } := by
  have hap : ∀ {α : Type} (l : List α) (x : α) (q : ℕ) (y : α), (l ++ [x])[q]? = some y → (q < l.length ∧ l[q]? = some y) ∨ (q = l.length ∧ y = x) := by
    intro α l x q y hq
    by_cases hlt : q < l.length
    · rw [List.getElem?_append_left hlt] at hq
      exact Or.inl ⟨hlt, hq⟩
    · right
      rw [List.getElem?_append_right (by omega)] at hq
      have h0 : q - l.length = 0 := by
        have := (List.getElem?_eq_some_iff.mp hq).1
        simp at this
        omega
      rw [h0] at hq
      simp at hq
      exact ⟨by omega, hq.symm⟩
  refine ⟨⟨?_, ?_, ?_, ?_, h.trieOk, hg, h.snaps, h.snapsOk, h.heldLen, ?_⟩, ?_, ?_, ?_⟩
  · simp [h.len]
  · intro k' q
    dsimp only
    rw [List.mem_append, List.mem_singleton, h.open_iff]
    constructor
    · rintro (hq | hq)
      · rw [List.getElem?_append_left (List.getElem?_eq_some_iff.mp hq).1]; exact hq
      · simp only [Prod.mk.injEq] at hq
        rw [hq.1, hq.2, h.len]
        simp
    · intro hq
      rcases hap _ _ _ _ hq with ⟨_, hq⟩ | ⟨h1, h2⟩
      · exact Or.inl hq
      · right
        simp only [Handle.live.injEq] at h2
        rw [h1, h2, h.len]
  · dsimp only
    rw [List.map_append, List.nodup_append]
    refine ⟨h.uniq, by simp, ?_⟩
    intro a hma b hb
    simp only [List.map_cons, List.map_nil, List.mem_singleton] at hb
    rw [hb]
    rintro rfl
    rw [List.mem_map] at hma
    obtain ⟨x, h1, h2⟩ := hma
    obtain ⟨x1, x2⟩ := x
    dsimp only at h2
    subst h2
    exact hk x2 h1
  · intro q d hq
    rcases hap _ _ _ _ hq with ⟨_, hq⟩ | ⟨_, rfl⟩
    · exact cell_mono (h.inv q d hq) hx
    · exact hc
  · intro i o ho
    obtain ⟨v, h1, h2⟩ := h.held i o ho
    exact ⟨v, hx _ _ h1, h2⟩
  · intro q d y hq hy
    dsimp only at hq hy
    rcases hap _ _ _ _ hq with ⟨h1, hq⟩ | ⟨h1, rfl⟩
    · rcases hap _ _ _ _ hy with ⟨_, hy⟩ | ⟨h2, _⟩
      · rw [h.val q d y hq hy]
        cases y <;> rfl
      · rw [← h.len] at h2; omega
    · rcases hap _ _ _ _ hy with ⟨h2, _⟩ | ⟨_, rfl⟩
      · rw [← h.len] at h2; omega
      · exact ha
  · intro k' hk'
    refine h.shut k' ?_
    intro p hp
    exact hk' p (by simp [hp])
  · intro k' p' hk'
    dsimp only at hk'
    rw [List.mem_append, List.mem_singleton] at hk'
    rcases hk' with hk' | hk'
    · refine lastOk_mono (h.lasts k' p' hk') ?_ rfl hx
      simp only [upd]
      rw [if_neg]
      rintro rfl
      exact hk p' hk'
    · simp only [Prod.mk.injEq] at hk'
      rw [hk'.1]
      exact hl

theorem account_spec (h : Rel e info w s) (k : K) (hint : ℕ) :
    Rel e info (step e w (.account k hint)).1 (s.step e (.account k hint)).1 ∧ (step e w (.account k hint)).2 = (s.step e (.account k hint)).2 := by
  simp only [step, Spec.step]
  unfold getAccount
  rcases find_open h.toFrame k with ⟨p, h1, h2, h3⟩ | ⟨h1, h2, h3⟩
  · rw [h1, h3]
    exact ⟨h, rfl⟩
  · rw [h1, h3]
    dsimp only
    have hs := h.shut k h2
    cases ht : w.trie k with
    | none =>
      rw [ht] at hs
      dsimp only
      refine ⟨h.add h2 (fun _ _ hx => hx) h.objs (clear_inv _) hs.symm ?_, by rw [h.len]⟩
      simp [LastOk, upd, ht]
    | some v =>
      rw [ht] at hs
      dsimp only
      obtain ⟨l1, l2, l3⟩ := load_spec h.objs (h.trieOk k v ht).2 hint
      obtain ⟨r1, r2⟩ := reset_spec (clear_inv (e := e) _) l3 l1
      refine ⟨h.add h2 l2 l3 r1 (by rw [r2]; exact hs.symm) ?_, by rw [h.len]⟩
      simp only [LastOk, upd, if_pos]
      refine ⟨v, l1, ?_⟩
      rw [ht]
      simp [Acct.found, (h.trieOk k v ht).1]

theorem step_spec (h : Rel e info w s) (ev : Ev K D) (hev : ev.Good info) : Rel e info (step e w ev).1 (s.step e ev).1 ∧ (step e w ev).2 = (s.step e ev).2 := by
  have hnone : ∀ (p : ℕ), w.cells[p]? = none → s.handles[p]? = none := by
    intro p hp
    rw [List.getElem?_eq_none_iff] at hp ⊢
    rw [← h.len]; exact hp
  cases ev with
  | account k hint => exact account_spec h k hint
  | op p o =>
    simp only [step, Spec.step]
    cases hc : w.cells[p]? with
    | none => rw [hnone p hc]; exact ⟨h, rfl⟩
    | some c =>
      obtain ⟨x, hx⟩ := h.toFrame.handle_of_cell hc
      obtain ⟨o1, o2, o3⟩ := op_spec (h.inv p c hc) o hev
      have hv := h.val p c x hc hx
      rw [hx]
      dsimp only
      have := h.put o1 hx
      rw [o2, hv] at this
      exact ⟨this, by rw [o3, hv]⟩
  | read p =>
    simp only [step, Spec.step]
    cases hc : w.cells[p]? with
    | none => rw [hnone p hc]; exact ⟨h, rfl⟩
    | some c =>
      obtain ⟨x, hx⟩ := h.toFrame.handle_of_cell hc
      rw [hx]
      dsimp only
      rw [h.val p c x hc hx]
      exact ⟨h, rfl⟩
  | snapOf p =>
    simp only [step, Spec.step]
    cases hc : w.cells[p]? with
    | none => rw [hnone p hc]; exact ⟨h, rfl⟩
    | some c =>
      obtain ⟨x, hx⟩ := h.toFrame.handle_of_cell hc
      have hv := h.val p c x hc hx
      obtain ⟨s1, s2, s3, s4, s5⟩ := snap_spec (h.inv p c hc) h.objs
      rw [hx]
      simp only [s1]
      have hr := h.same s2 s5 hc s3 s4
      refine ⟨⟨⟨hr.len, hr.open_iff, hr.uniq, hr.inv, hr.trieOk, hr.objs, hr.snaps, hr.snapsOk, by simp [h.heldLen], ?_⟩, ?_, hr.shut, hr.lasts⟩, by rw [hv]⟩
      · intro i o ho
        dsimp only at ho ⊢
        by_cases hi : i < w.held.length
        · rw [List.getElem?_append_left hi] at ho
          rw [List.getElem?_append_left (by rw [← h.heldLen]; exact hi)]
          exact hr.held i o ho
        · have hi' : i = w.held.length := by
            have := (List.getElem?_eq_some_iff.mp ho).1
            simp at this
            omega
          subst hi'
          simp only [List.getElem?_concat_length, Option.some.injEq] at ho
          subst ho
          refine ⟨c.a, s1, ?_⟩
          rw [h.heldLen, hv]
          simp
      · intro q d y hq hy
        rw [hr.val q d y hq hy]
        cases y <;> rfl
  | resetTo p i =>
    simp only [step, Spec.step]
    cases hc : w.cells[p]? with
    | none => rw [hnone p hc]; exact ⟨h, rfl⟩
    | some c =>
      obtain ⟨x, hx⟩ := h.toFrame.handle_of_cell hc
      rw [hx]
      cases ho : w.held[i]? with
      | none =>
        have : s.held[i]? = none := by
          rw [List.getElem?_eq_none_iff] at ho ⊢
          rw [← h.heldLen]; exact ho
        rw [this]
        exact ⟨h, rfl⟩
      | some o =>
        obtain ⟨v, h1, h2⟩ := h.held i o ho
        rw [h2]
        dsimp only
        obtain ⟨r1, r2⟩ := reset_spec (h.inv p c hc) h.objs h1
        have := h.put r1 hx
        rw [r2] at this
        exact ⟨this, rfl⟩
  | clear p =>
    simp only [step, Spec.step]
    cases hc : w.cells[p]? with
    | none => rw [hnone p hc]; exact ⟨h, rfl⟩
    | some c =>
      obtain ⟨x, hx⟩ := h.toFrame.handle_of_cell hc
      rw [hx]
      exact ⟨h.put (c' := AState.clear e) (clear_inv _) hx, rfl⟩
  | peek k =>
    simp only [step, Spec.step]
    unfold peek
    rcases find_open h.toFrame k with ⟨p, h1, h2, h3⟩ | ⟨h1, h2, h3⟩
    · rw [h1]
      obtain ⟨c, hc⟩ := h.toFrame.cell_of_open h2
      simp only [hc]
      obtain ⟨s1, s2, s3, s4, s5⟩ := snap_spec (h.inv p c hc) h.objs
      refine ⟨h.same s2 s5 hc s3 s4, ?_⟩
      rw [s1, h.val_open h2 hc]
      rfl
    · rw [h1]
      dsimp only
      rw [h.shut k h2]
      exact ⟨h, rfl⟩
  | snapshot ord =>
    simp only [step, Spec.step]
    obtain ⟨f1, f2, f3⟩ := flush_spec h ord
    refine ⟨⟨⟨f1.len, f1.open_iff, f1.uniq, f1.inv, f1.trieOk, f1.objs, ?_, ?_, f1.heldLen, f1.held⟩, ?_, f1.shut, f1.lasts⟩, trivial⟩
    · dsimp only
      rw [List.map_append, f1.snaps]
      congr 1
      simp only [List.map_cons, List.map_nil, List.cons.injEq, and_true]
      funext k
      rw [f3, found_getD]
    · intro t ht
      dsimp only at ht
      rcases List.mem_append.mp ht with ht | ht
      · exact f1.snapsOk t ht
      · rw [List.mem_singleton] at ht
        rw [ht]
        exact f1.trieOk
    · intro q d y hq hy
      rw [f1.val q d y hq hy]
      cases y <;> rfl
  | reset i ord hint =>
    simp only [step, Spec.step]
    rw [h.snaps, List.getElem?_map]
    cases ht : w.snaps[i]? with
    | none => exact ⟨h, rfl⟩
    | some t =>
      dsimp only [Option.map]
      have htok := h.snapsOk t (List.mem_of_getElem? ht)
      have hf : Frame e info { w with trie := t } { s with acc := fun k => (t k).getD (Acct.zero e) } :=
        ⟨h.len, h.open_iff, h.uniq, h.inv, htok, h.objs, h.snaps, h.snapsOk, h.heldLen, h.held⟩
      have hp : (order w ord).Perm w.opened := order_perm w ord
      obtain ⟨g1, g2, g3, g4, g5⟩ := resetList_spec hint (order w ord) { w with trie := t } hf (fun kp hk => hp.mem_iff.mp hk)
      refine ⟨⟨⟨g1.len, g1.open_iff, g1.uniq, g1.inv, g1.trieOk, g1.objs, ?_, g1.snapsOk, g1.heldLen, g1.held⟩, ?_, ?_, ?_⟩, rfl⟩
      · rw [← h.snaps]; exact g1.snaps
      · intro q d y hq hy
        dsimp only at hy
        cases y with
        | live k =>
          have hk : (k, q) ∈ w.opened := (h.open_iff k q).mpr hy
          obtain ⟨⟨c, hc1, hc2⟩, _⟩ := g4 (k, q) hk (Or.inr (hp.mem_iff.mpr hk))
          dsimp only at hc1 hc2
          rw [hq] at hc1
          cases hc1
          rw [hc2, g3]
          rfl
        | gone a =>
          obtain ⟨c, hc⟩ : ∃ c, w.cells[q]? = some c := by
            have := (List.getElem?_eq_some_iff.mp hy).1
            rw [← h.len] at this
            exact ⟨_, List.getElem?_eq_getElem this⟩
          have hno : ∀ k, (k, q) ∉ order w ord := by
            intro k hk
            have := (h.open_iff k q).mp (hp.mem_iff.mp hk)
            rw [hy] at this
            simp at this
          have := g5 q c hno hc
          rw [hq] at this
          cases this
          exact h.val q d _ hc hy
      · intro k _
        dsimp only
        rw [g3]
      · intro k p hk
        rw [g2] at hk
        exact (g4 (k, p) hk (Or.inr (hp.mem_iff.mpr hk))).2
  | clearCache ord =>
    simp only [step, Spec.step]
    obtain ⟨f1, f2, f3⟩ := flush_spec h ord
    refine ⟨⟨⟨?_, ?_, by simp, f1.inv, f1.trieOk, f1.objs, f1.snaps, f1.snapsOk, f1.heldLen, f1.held⟩, ?_, ?_, ?_⟩, trivial⟩
    · dsimp only; rw [List.length_map]; exact f1.len
    · intro k p
      dsimp only
      simp only [List.not_mem_nil, List.getElem?_map, false_iff]
      cases s.handles[p]? <;> simp
    · intro q d y hq hy
      dsimp only at hq hy
      rw [List.getElem?_map] at hy
      cases hx : s.handles[q]? with
      | none => rw [hx] at hy; cases hy
      | some x =>
        rw [hx] at hy
        cases hy
        exact f1.val q d x hq hx
    · intro k _
      dsimp only
      rw [f3, found_getD]
    · intro k p hk
      simp at hk
  | look i k =>
    simp only [step, Spec.step]
    rw [h.snaps, List.getElem?_map]
    cases ht : w.snaps[i]? with
    | none => exact ⟨h, rfl⟩
    | some t =>
      dsimp only [Option.map]
      refine ⟨h, ?_⟩
      rw [getD_found (fun v hv => (h.snapsOk t (List.mem_of_getElem? ht) k v hv).1)]

theorem start_rel {t : K → Option (Acct D)} (ht : TrieOk info t) : Rel e info (start t) (Spec.start e t) where
  len := rfl
  open_iff := by intro k p; simp [start, Spec.start]
  uniq := by simp [start]
  inv := by intro p c hc; simp [start] at hc
  trieOk := ht
  objs := by intro i x hx; simp [start] at hx
  snaps := rfl
  snapsOk := by intro t ht; simp [start] at ht
  heldLen := rfl
  held := by intro i o ho; simp [start] at ho
  val := by intro p c h hc; simp [start] at hc
  shut := fun _ _ => rfl
  lasts := by intro k p hk; simp [start] at hk

theorem run_rel : ∀ (evs : List (Ev K D)) (w : World K D) (s : Spec K D), Rel e info w s → (∀ ev ∈ evs, ev.Good info) →
    (run e w evs).2 = (Spec.run e s evs).2 ∧ Rel e info (run e w evs).1 (Spec.run e s evs).1 := by
  intro evs
  induction evs with
  | nil => intro w s h _; exact ⟨rfl, h⟩
  | cons ev evs ih =>
    intro w s h hg
    obtain ⟨h1, h2⟩ := step_spec h ev (hg ev (by simp))
    obtain ⟨g1, g2⟩ := ih _ _ h1 (fun x hx => hg x (by simp [hx]))
    simp only [run, Spec.run]
    rw [h2, g1]
    exact ⟨rfl, g2⟩

/-- **C70.** Whatever is done with a world state: accounts opened, changed through any of the account states that were given out, snapshots of the world and of accounts taken, the world
or an account reset to any of them, the cache cleared: every call returns what it returns if accounts are plain values and snapshots are copies of them. -/
theorem C70_history {t : K → Option (Acct D)} (ht : ∀ k v, t k = some v → v.isEmpty = false ∧ v.Good info) (evs : List (Ev K D)) (hev : ∀ ev ∈ evs, ev.Good info) :
    (run e (start t) evs).2 = (Spec.run e (Spec.start e t) evs).2 :=
  (run_rel evs _ _ (start_rel ht) hev).1

/-- **C70.** A snapshot of the world holds the values of the accounts and nothing else: the state hash (C40) depends on nothing else either, not on the order in which accounts were
opened or written, on snapshots taken before, on resets. -/
theorem C70_snapshot {t : K → Option (Acct D)} (ht : ∀ k v, t k = some v → v.isEmpty = false ∧ v.Good info) (evs : List (Ev K D)) (hev : ∀ ev ∈ evs, ev.Good info)
    (ord : List (K × ℕ)) :
    (step e (run e (start t) evs).1 (.snapshot ord)).1.snaps.getLast? = some (fun k => ((Spec.run e (Spec.start e t) evs).1.acc k).found) := by
  obtain ⟨_, h3⟩ := (flush_spec (run_rel evs _ _ (start_rel ht) hev).2 ord).2
  simp only [step, List.getLast?_append, List.getLast?_singleton, Option.some_or]
  rw [funext h3]

theorem run_append (w : World K D) : ∀ (a b : List (Ev K D)), (run e w (a ++ b)).1 = (run e (run e w a).1 b).1 := by
  intro a
  induction a generalizing w with
  | nil => intro b; rfl
  | cons x a ih => intro b; simp only [List.cons_append, run]; exact ih _ b

theorem spec_snaps : ∀ (evs : List (Ev K D)) (s : Spec K D) (i : ℕ) (f : K → Acct D), s.snaps[i]? = some f → (Spec.run e s evs).1.snaps[i]? = some f := by
  intro evs
  induction evs with
  | nil => intro s i f h; exact h
  | cons ev evs ih =>
    intro s i f h
    simp only [Spec.run]
    refine ih _ i f ?_
    have hput : ∀ (p : ℕ) (a : Acct D) (x : Handle K D), (s.put p a x).snaps = s.snaps := by intro p a x; cases x <;> rfl
    cases ev <;> simp only [Spec.step]
    case account k _ => split <;> exact h
    case op p o => split
                   · rw [hput]; exact h
                   · exact h
    case read p => split <;> exact h
    case snapOf p => split <;> exact h
    case resetTo p j => split
                        · rw [hput]; exact h
                        · exact h
    case clear p => split
                    · rw [hput]; exact h
                    · exact h
    case peek => exact h
    case snapshot => rw [List.getElem?_append_left (List.getElem?_eq_some_iff.mp h).1]; exact h
    case reset j _ _ => split <;> exact h
    case clearCache => exact h
    case look j k => split <;> exact h

/-- **C70.** A world that is reset to a snapshot is as it was when the snapshot was taken, whatever was done in between: each account reads as it did then (as if it were not there, if it
was empty). -/
theorem C70_restore {t : K → Option (Acct D)} (ht : ∀ k v, t k = some v → v.isEmpty = false ∧ v.Good info) (evs evs' : List (Ev K D)) (hev : ∀ ev ∈ evs, ev.Good info)
    (hev' : ∀ ev ∈ evs', ev.Good info) (ord ord' : List (K × ℕ)) (hint : K → ℕ) (k : K) :
    let w1 := (run e (start t) evs).1
    let w2 := (run e (step e w1 (.snapshot ord)).1 evs').1
    let w3 := (step e w2 (.reset w1.snaps.length ord' hint)).1
    (peek e w3 k).2 = (peek e w1 k).2.norm e := by
  intro w1 w2 w3
  have r1 := (run_rel evs _ _ (start_rel (e := e) ht) hev).2
  have r1' := (step_spec r1 (.snapshot ord) trivial).1
  have r2 := (run_rel evs' _ _ r1' hev').2
  have r3 := (step_spec r2 (.reset w1.snaps.length ord' hint) trivial).1
  have p1 := (step_spec r1 (.peek k) trivial).2
  have p3 := (step_spec r3 (.peek k) trivial).2
  simp only [step, Spec.step, Out.acct.injEq] at p1
  change (peek e w1 k).2 = _ at p1
  rw [p1]
  have e3 : (step e w3 (.peek k)).2 = .acct (peek e w3 k).2 := rfl
  change (step e w3 (.peek k)).2 = _ at p3
  rw [e3] at p3
  simp only [Spec.step, Out.acct.injEq] at p3
  have hlen : ((Spec.run e (Spec.start e t) evs).1.snaps ++ [fun k => ((Spec.run e (Spec.start e t) evs).1.acc k).norm e])[w1.snaps.length]? =
      some (fun k => ((Spec.run e (Spec.start e t) evs).1.acc k).norm e) := by
    have : w1.snaps.length = (Spec.run e (Spec.start e t) evs).1.snaps.length := by rw [r1.snaps, List.length_map]
    rw [this]
    simp
  have hs := spec_snaps (e := e) evs' (Spec.step e (Spec.run e (Spec.start e t) evs).1 (.snapshot ord)).1 w1.snaps.length _ hlen
  simp only [Spec.step] at hs
  rw [hs] at p3
  exact p3

/-- **C70.** Nothing is lost with an account that is called empty, if it has version 1 and no deposits and was never made a contract. -/
theorem C70_empty {a : Acct D} (h : a.isEmpty = true) (h1 : a.version = 1) (h2 : a.owner = none) (h3 : a.api = none) (h4 : a.cur = none) (h5 : a.next = none) (h6 : a.deposits = e) :
    a.norm e = a := by
  obtain ⟨v, b, i, d, l, y, o, p, c, n, s, t⟩ := a
  simp only [Acct.norm, h, if_true]
  simp only [Acct.isEmpty, Bool.and_eq_true, decide_eq_true_eq, Bool.not_eq_eq_eq_not, Bool.not_true] at h
  dsimp only at *
  obtain ⟨⟨⟨⟨⟨rfl, rfl⟩, rfl⟩, rfl⟩, rfl⟩, rfl⟩ := h
  subst h1 h2 h3 h4 h5 h6
  rfl

/-! ## Findings -/

/-- **C70, finding.** Snapshots of accounts with contracts that differ only in parameters, content type or engine are called equal (`contract.go:75-92`): if a deployment id were used twice, a
world snapshot would keep the first one. `info` in `C70_history` stands for ids being used once. -/
theorem C70_equal_ignores :
    let evs : List (Ev Unit Unit) := [.account () 0, .op 0 (.init none), .op 0 (.deploy [1] [] [] [1] [9]), .snapshot [], .op 0 (.deploy [1] [] [] [2] [9]), .snapshot []]
    let w := (run () (start (fun _ => none)) evs).1
    (∃ a n, (step () w (.read 0)).2 = .acct a ∧ a.next = some n ∧ n.params = [2]) ∧
    ∃ a n, (step () w (.look 1 ())).2 = .found (some a) ∧ a.next = some n ∧ n.params = [1] :=
  ⟨⟨_, _, rfl, rfl, rfl⟩, ⟨_, _, rfl, rfl, rfl⟩⟩

/-- **C70, finding.** The version of an account without anything else is forgotten by a reset. -/
theorem C70_version_lost :
    let evs : List (Ev Unit Unit) := [.account () 0, .op 0 (.migrate 2), .snapshot [], .reset 0 [] (fun _ => 0)]
    ∃ a, (step () (run () (start (fun _ => none)) (evs.take 3)).1 (.read 0)).2 = .acct a ∧ a.version = 2 ∧
      ∃ b, (step () (run () (start (fun _ => none)) evs).1 (.read 0)).2 = .acct b ∧ b.version = 1 :=
  ⟨_, rfl, rfl, _, rfl, rfl⟩

/-! ## A concrete case -/

/-- A history in which an account is opened, written, the world reset, and the cache cleared. -/
def demo : List (Ev Bool Unit) :=
  [.account true 0, .op 0 (.setBalance 5), .op 0 (.setValue [1] [2]), .snapshot [], .op 0 (.setBalance 7), .account false 0, .op 1 (.init (some [3])),
   .op 1 (.deploy [1] [] [] [] [9]), .op 1 (.accept [9] [8]), .snapOf 1, .reset 0 [] (fun _ => 0), .read 0, .read 1, .resetTo 1 0, .clearCache [], .op 0 (.setBalance 100), .peek true]

example : ∀ ev ∈ demo, ev.Good (fun _ => ([], [], [])) := by
  intro ev hev
  simp only [demo, List.mem_cons, List.not_mem_nil, or_false] at hev
  rcases hev with rfl | rfl | rfl | rfl | rfl | rfl | rfl | rfl | rfl | rfl | rfl | rfl | rfl | rfl | rfl | rfl | rfl <;> simp [Ev.Good, Op.Good]

example : ∃ a b, (run () (start (fun _ => none)) demo).2[11]? = some (.acct a) ∧ a.balance = 5 ∧ a.store.lookup [1] = some [2] ∧
    (run () (start (fun _ => none)) demo).2[16]? = some (.acct b) ∧ b.balance = 5 := ⟨_, _, rfl, rfl, rfl, rfl, rfl⟩

end Verif.WorldState
