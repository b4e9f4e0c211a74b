import Verif.WorldState.Model
import Mathlib.Tactic

/-!
# World state: the relation with the specification (C70)
-/

namespace Verif.WorldState
open Verif

variable {K D : Type} [DecidableEq K] [DecidableEq D] {e : D} {info : Bytes → Bytes × Bytes × Bytes}

theorem zero_empty : (Acct.zero e).isEmpty = true := by simp [Acct.zero, Acct.isEmpty]

theorem zero_good : (Acct.zero e).Good info := by
  constructor
  · rintro c (h | h) <;> simp [Acct.zero] at h
  · intro k; simp [Acct.zero]

theorem found_zero : (Acct.zero e).found = none := by simp [Acct.found, zero_empty]

theorem found_getD (a : Acct D) : a.found.getD (Acct.zero e) = a.norm e := by
  unfold Acct.found Acct.norm
  split_ifs <;> rfl

theorem getD_found {o : Option (Acct D)} (h : ∀ v, o = some v → v.isEmpty = false) : (o.getD (Acct.zero e)).found = o := by
  cases o with
  | none => exact found_zero
  | some v => simp [Acct.found, h v rfl]

theorem equal_eq {a b : Acct D} (ha : a.Good info) (hb : b.Good info) (h : a.equal b = true) : a = b := by
  have hC : ∀ (c d : Option Contract), (∀ x, c = some x → info x.deployTx = (x.contentType, x.eeType, x.params)) →
      (∀ x, d = some x → info x.deployTx = (x.contentType, x.eeType, x.params)) → equalC c d = true → c = d := by
    intro c d hc hd hq
    cases c with
    | none => cases d with
      | none => rfl
      | some _ => cases hq
    | some x => cases d with
      | none => cases hq
      | some y =>
        have h1 := hc x rfl
        have h2 := hd y rfl
        obtain ⟨s1, c1, e1, d1, a1, o1, p1⟩ := x
        obtain ⟨s2, c2, e2, d2, a2, o2, p2⟩ := y
        simp only [equalC, Contract.equal, Bool.and_eq_true, decide_eq_true_eq] at hq
        obtain ⟨⟨⟨rfl, rfl⟩, rfl⟩, rfl⟩ := hq
        dsimp only at h1 h2
        rw [h1] at h2
        simp only [Prod.mk.injEq] at h2
        obtain ⟨rfl, rfl, rfl⟩ := h2
        rfl
  obtain ⟨v1, b1, i1, d1, l1, y1, o1, p1, c1, n1, s1, t1⟩ := a
  obtain ⟨v2, b2, i2, d2, l2, y2, o2, p2, c2, n2, s2, t2⟩ := b
  simp only [Acct.equal, Bool.and_eq_true, decide_eq_true_eq] at h
  obtain ⟨⟨⟨⟨⟨⟨⟨⟨⟨⟨⟨rfl, rfl⟩, rfl⟩, rfl⟩, rfl⟩, rfl⟩, rfl⟩, hc⟩, hn⟩, rfl⟩, rfl⟩, rfl⟩ := h
  obtain rfl := hC c1 c2 (fun x hx => ha.1 x (Or.inl hx)) (fun x hx => hb.1 x (Or.inl hx)) hc
  obtain rfl := hC n1 n2 (fun x hx => ha.1 x (Or.inr hx)) (fun x hx => hb.1 x (Or.inr hx)) hn
  rfl

/-! ## Account states -/

/-- What holds of an account state. -/
structure CellInv (info : Bytes → Bytes × Bytes × Bytes) (objs : List (Acct D)) (c : AState D) : Prop where
  noStore : c.hasStore = false → c.a.store = ∅
  last : ∀ o, c.last = some o → objs[o]? = some c.a
  good : c.a.Good info

theorem cell_mono {objs objs' : List (Acct D)} {c : AState D} (h : CellInv info objs c) (hx : ∀ (i : ℕ) (x : Acct D), objs[i]? = some x → objs'[i]? = some x) : CellInv info objs' c :=
  ⟨h.noStore, fun o ho => hx _ _ (h.last o ho), h.good⟩

theorem erase_none {s : Finmap (fun _ : Bytes => Bytes)} {k : Bytes} (h : s.lookup k = none) : s.erase k = s := by
  apply Finmap.ext_lookup
  intro x
  by_cases hx : x = k
  · rw [hx, Finmap.lookup_erase, h]
  · rw [Finmap.lookup_erase_ne hx]

theorem good_erase {a : Acct D} (h : a.Good info) (k : Bytes) : Acct.Good info { a with store := a.store.erase k } := by
  refine ⟨h.1, ?_⟩
  intro x
  by_cases hx : x = k
  · rw [hx]; simp [Finmap.lookup_erase]
  · dsimp only; rw [Finmap.lookup_erase_ne hx]; exact h.2 x

theorem good_insert {a : Acct D} (h : a.Good info) (k v : Bytes) (hv : v ≠ []) : Acct.Good info { a with store := a.store.insert k v } := by
  refine ⟨h.1, ?_⟩
  intro x
  by_cases hx : x = k
  · rw [hx]; dsimp only; rw [Finmap.lookup_insert]; simpa using hv
  · dsimp only; rw [Finmap.lookup_insert_of_ne _ hx]; exact h.2 x

theorem delete_spec {objs : List (Acct D)} {c : AState D} (h : CellInv info objs c) (k : Bytes) :
    CellInv info objs (c.delete k).1 ∧ (c.delete k).1.a = { c.a with store := c.a.store.erase k } ∧ (c.delete k).2 = .value (c.a.store.lookup k) := by
  obtain ⟨a, hs, l⟩ := c
  cases hs with
  | false =>
    have h0 : a.store = ∅ := h.noStore rfl
    have hl : a.store.lookup k = none := by rw [h0]; simp
    refine ⟨h, ?_, by simp only [AState.delete]; rw [hl]⟩
    simp only [AState.delete]
    rw [erase_none hl]
  | true =>
    simp only [AState.delete]
    cases hl : a.store.lookup k with
    | none =>
      refine ⟨h, ?_, rfl⟩
      dsimp only
      rw [erase_none hl]
    | some old =>
      have hne : ¬ old.length = 0 := by
        intro h0
        have := h.good.2 k
        rw [List.length_eq_zero_iff.mp h0] at hl
        exact this hl
      dsimp only
      rw [if_neg hne]
      exact ⟨⟨(by intro hx; cases hx), (by intro o ho; cases ho), good_erase h.good k⟩, rfl, rfl⟩

theorem inv_dirty {objs : List (Acct D)} {a : Acct D} {b : Bool} {l : Option ℕ} (h1 : b = false → a.store = ∅) (h2 : a.Good info) :
    CellInv info objs (AState.dirty ⟨a, b, l⟩) :=
  ⟨h1, (by intro o ho; cases ho), h2⟩

theorem op_spec {objs : List (Acct D)} {c : AState D} (h : CellInv info objs c) (o : Op D) (ho : o.Good info) :
    CellInv info objs (c.op o).1 ∧ (c.op o).1.a = (c.a.op o).1 ∧ (c.op o).2 = (c.a.op o).2 := by
  obtain ⟨a, hs, l⟩ := c
  have h1 : hs = false → a.store = ∅ := h.noStore
  have hg : a.Good info := h.good
  cases o with
  | setBalance v =>
    simp only [AState.op, Acct.op]
    by_cases hb : a.balance = v
    · rw [if_pos hb, ← hb]; exact ⟨h, rfl, rfl⟩
    · rw [if_neg hb]; exact ⟨inv_dirty h1 hg, rfl, rfl⟩
  | setValue k v =>
    simp only [AState.op, Acct.op]
    by_cases hv : v = []
    · rw [if_pos (by rw [hv]; rfl), if_pos hv]; exact delete_spec h k
    · rw [if_neg (by rw [List.length_eq_zero_iff]; exact hv), if_neg hv]
      exact ⟨⟨(by intro hx; cases hx), (by intro o ho; cases ho), good_insert hg k v hv⟩, rfl, rfl⟩
  | deleteValue k =>
    simp only [AState.op, Acct.op]
    exact delete_spec h k
  | setDisable b =>
    simp only [AState.op, Acct.op]
    by_cases hc : a.isContract = true
    · rw [if_pos hc, if_pos hc]
      by_cases hb : a.disabled = b
      · rw [if_pos hb, ← hb]; exact ⟨h, rfl, rfl⟩
      · rw [if_neg hb]
        refine ⟨inv_dirty h1 hg, ?_, rfl⟩
        have : (!a.disabled) = b := by cases h1 : a.disabled <;> cases b <;> simp_all
        rw [← this]; rfl
    · rw [if_neg hc, if_neg hc]; exact ⟨h, rfl, rfl⟩
  | setBlock b =>
    simp only [AState.op, Acct.op]
    by_cases hb : a.blocked = b
    · rw [if_pos hb, ← hb]; exact ⟨h, rfl, rfl⟩
    · rw [if_neg hb]
      refine ⟨inv_dirty h1 hg, ?_, rfl⟩
      have : (!a.blocked) = b := by cases h1 : a.blocked <;> cases b <;> simp_all
      rw [← this]; rfl
  | setUseSystemDeposit b =>
    simp only [AState.op, Acct.op]
    by_cases hc : a.isContract = true
    · rw [if_pos hc, if_pos hc]
      by_cases hb : a.sysDeposit = b
      · rw [if_pos hb, ← hb]; exact ⟨h, rfl, rfl⟩
      · rw [if_neg hb]
        refine ⟨inv_dirty h1 hg, ?_, rfl⟩
        have : (!a.sysDeposit) = b := by cases h1 : a.sysDeposit <;> cases b <;> simp_all
        rw [← this]; rfl
    · rw [if_neg hc, if_neg hc]; exact ⟨h, rfl, rfl⟩
  | setOwner b =>
    simp only [AState.op, Acct.op]
    by_cases hc : a.isContract = true
    · rw [if_pos hc, if_pos hc]
      by_cases hb : a.owner = b
      · rw [if_pos hb, ← hb]; exact ⟨h, rfl, rfl⟩
      · rw [if_neg hb]; exact ⟨inv_dirty h1 hg, rfl, rfl⟩
    · rw [if_neg hc, if_neg hc]; exact ⟨h, rfl, rfl⟩
  | init b =>
    simp only [AState.op, Acct.op]
    by_cases hc : a.isContract = true
    · rw [if_pos hc, if_pos hc]; exact ⟨h, rfl, rfl⟩
    · rw [if_neg hc, if_neg hc]; exact ⟨inv_dirty h1 hg, rfl, rfl⟩
  | deploy code ee ct params tx =>
    simp only [AState.op, Acct.op]
    by_cases hc : a.isContract = true
    · rw [if_pos hc, if_neg (by simp [hc])]
      have hg' : Acct.Good info { a with next := some ⟨.pending, ct, ee, tx, [], code, params⟩ } := by
        refine ⟨?_, hg.2⟩
        rintro c (hx | hx)
        · exact hg.1 c (Or.inl hx)
        · dsimp only at hx
          cases hx
          exact ho
      cases hn : a.next with
      | none =>
        dsimp only
        rw [if_neg (by simp)]
        exact ⟨inv_dirty h1 hg', rfl, rfl⟩
      | some n =>
        dsimp only
        by_cases hst : n.status = .active
        · rw [if_pos hst, if_pos (by simp [hst])]; exact ⟨h, rfl, rfl⟩
        · rw [if_neg hst, if_neg (by simp [hst])]; exact ⟨inv_dirty h1 hg', rfl, rfl⟩
    · rw [if_neg hc, if_pos (by simpa using hc)]; exact ⟨h, rfl, rfl⟩
  | activate =>
    simp only [AState.op, Acct.op]
    cases hn : a.next with
    | none => exact ⟨h, rfl, rfl⟩
    | some n =>
      dsimp only
      by_cases hst : n.status = .pending
      · rw [if_pos hst, if_pos hst]
        refine ⟨inv_dirty h1 ⟨?_, hg.2⟩, rfl, rfl⟩
        rintro c (hx | hx)
        · dsimp only at hx
          cases hcur : a.cur with
          | none => rw [hcur] at hx; cases hx
          | some d =>
            rw [hcur] at hx
            cases hx
            exact hg.1 d (Or.inl hcur)
        · dsimp only at hx
          cases hx
          exact hg.1 n (Or.inr hn)
      · rw [if_neg hst, if_neg hst]; exact ⟨h, rfl, rfl⟩
  | accept tx audit =>
    simp only [AState.op, Acct.op]
    cases hc : a.isContract with
    | false => exact ⟨h, rfl, rfl⟩
    | true =>
      cases hn : a.next with
      | none => exact ⟨h, rfl, rfl⟩
      | some n =>
        dsimp only
        rw [if_pos rfl]
        by_cases ht : n.deployTx = tx
        · rw [if_pos ht, if_neg (show ¬ (n.deployTx ≠ tx) from fun hq => hq ht)]
          by_cases hst : n.status = .rejected
          · rw [if_pos hst, if_pos hst]; exact ⟨h, rfl, rfl⟩
          · rw [if_neg hst, if_neg hst]
            refine ⟨inv_dirty h1 ⟨?_, hg.2⟩, rfl, rfl⟩
            rintro c (hx | hx)
            · dsimp only at hx
              cases hx
              exact hg.1 n (Or.inr hn)
            · cases hx
        · rw [if_neg ht, if_pos (show n.deployTx ≠ tx from ht)]; exact ⟨h, rfl, rfl⟩
  | reject tx audit =>
    simp only [AState.op, Acct.op]
    cases hc : a.isContract with
    | false => exact ⟨h, rfl, rfl⟩
    | true =>
      cases hn : a.next with
      | none => exact ⟨h, rfl, rfl⟩
      | some n =>
        dsimp only
        rw [if_pos rfl]
        by_cases ht : n.deployTx = tx
        · rw [if_pos ht, if_neg (show ¬ (n.deployTx ≠ tx) from fun hq => hq ht)]
          by_cases hst : n.status = .pending
          · rw [if_pos hst, if_pos hst]
            refine ⟨inv_dirty h1 ⟨?_, hg.2⟩, rfl, rfl⟩
            rintro c (hx | hx)
            · exact hg.1 c (Or.inl hx)
            · dsimp only at hx
              cases hx
              exact hg.1 n (Or.inr hn)
          · rw [if_neg hst, if_neg hst]; exact ⟨h, rfl, rfl⟩
        · rw [if_neg ht, if_pos (show n.deployTx ≠ tx from ht)]; exact ⟨h, rfl, rfl⟩
  | setCode nx code =>
    cases nx with
    | true =>
      simp only [AState.op, Acct.op, if_true]
      cases hn : a.next with
      | none => exact ⟨h, rfl, rfl⟩
      | some n =>
        dsimp only
        by_cases hcd : code.length ≠ 0 ∧ code = n.code
        · rw [if_pos hcd]
          refine ⟨h, ?_, rfl⟩
          rw [hcd.2]
          dsimp only
          rw [← hn]
        · rw [if_neg hcd]
          refine ⟨inv_dirty h1 ⟨?_, hg.2⟩, rfl, rfl⟩
          rintro c (hx | hx)
          · exact hg.1 c (Or.inl hx)
          · dsimp only at hx
            cases hx
            exact hg.1 n (Or.inr hn)
    | false =>
      simp only [AState.op, Acct.op]
      cases hn : a.cur with
      | none => exact ⟨h, rfl, rfl⟩
      | some n =>
        dsimp only
        by_cases hcd : code.length ≠ 0 ∧ code = n.code
        · rw [if_neg (by simp)] 
          simp only [hn]
          rw [if_pos hcd]
          refine ⟨h, ?_, rfl⟩
          rw [hcd.2]
          dsimp only
          rw [← hn]
        · rw [if_neg (by simp)]
          simp only [hn]
          rw [if_neg hcd]
          refine ⟨inv_dirty h1 ⟨?_, hg.2⟩, rfl, rfl⟩
          rintro c (hx | hx)
          · dsimp only at hx
            cases hx
            exact hg.1 n (Or.inl hn)
          · exact hg.1 c (Or.inr hx)
  | setApi x => exact ⟨inv_dirty h1 hg, rfl, rfl⟩
  | migrate v =>
    simp only [AState.op, Acct.op]
    by_cases hv : v > a.version
    · rw [if_pos hv, Nat.max_eq_right (by omega)]; exact ⟨inv_dirty h1 hg, rfl, rfl⟩
    · rw [if_neg hv, Nat.max_eq_left (by omega)]; exact ⟨h, rfl, rfl⟩
  | deposits f =>
    simp only [AState.op, Acct.op]
    cases hf : f a.deposits with
    | none => exact ⟨h, rfl, rfl⟩
    | some d => exact ⟨inv_dirty h1 hg, rfl, rfl⟩

/-- Objects are only added. -/
def Ext (objs objs' : List (Acct D)) : Prop := ∀ (i : ℕ) (x : Acct D), objs[i]? = some x → objs'[i]? = some x

theorem ext_append (objs l : List (Acct D)) : Ext objs (objs ++ l) := by
  intro i x h
  rw [List.getElem?_append_left]
  · exact h
  · exact (List.getElem?_eq_some_iff.mp h).1

/-- All objects are good. -/
def AllGood (info : Bytes → Bytes × Bytes × Bytes) (objs : List (Acct D)) : Prop := ∀ (i : ℕ) (x : Acct D), objs[i]? = some x → x.Good info

theorem allGood_append {objs : List (Acct D)} {v : Acct D} (h : AllGood info objs) (hv : v.Good info) : AllGood info (objs ++ [v]) := by
  intro i x hx
  have := List.mem_of_getElem? hx
  rw [List.mem_append] at this
  rcases this with hm | hm
  · obtain ⟨j, hj⟩ := List.getElem?_of_mem hm
    exact h j x hj
  · rw [List.mem_singleton] at hm
    rw [hm]; exact hv

theorem snap_spec {objs : List (Acct D)} {c : AState D} (h : CellInv info objs c) (hg : AllGood info objs) :
    (c.snap objs).2.2[(c.snap objs).1]? = some c.a ∧ Ext objs (c.snap objs).2.2 ∧ CellInv info (c.snap objs).2.2 (c.snap objs).2.1 ∧
    (c.snap objs).2.1.a = c.a ∧ AllGood info (c.snap objs).2.2 := by
  obtain ⟨a, hs, l⟩ := c
  cases l with
  | some o => exact ⟨h.last o rfl, fun _ _ hx => hx, h, rfl, hg⟩
  | none =>
    have hl : (objs ++ [a])[objs.length]? = some a := by simp
    refine ⟨hl, ext_append _ _, ⟨h.noStore, ?_, h.good⟩, rfl, allGood_append hg h.good⟩
    intro o ho
    simp only [AState.snap, Option.some.injEq] at ho
    subst ho
    exact hl

theorem load_spec {objs : List (Acct D)} {v : Acct D} (hg : AllGood info objs) (hv : v.Good info) (hint : ℕ) :
    (load objs v hint).2[(load objs v hint).1]? = some v ∧ Ext objs (load objs v hint).2 ∧ AllGood info (load objs v hint).2 := by
  unfold load
  by_cases h : objs[hint]? = some v
  · rw [if_pos h]; exact ⟨h, fun _ _ hx => hx, hg⟩
  · rw [if_neg h]; exact ⟨by simp, ext_append _ _, allGood_append hg hv⟩

theorem reset_spec {objs : List (Acct D)} {c : AState D} (h : CellInv info objs c) (hg : AllGood info objs) {o : ℕ} {v : Acct D} (ho : objs[o]? = some v) :
    CellInv info objs (c.reset objs o) ∧ (c.reset objs o).a = v := by
  unfold AState.reset
  by_cases hl : c.last = some o
  · rw [if_pos hl]
    have := h.last o hl
    rw [ho] at this
    exact ⟨h, (Option.some.inj this).symm⟩
  · rw [if_neg hl, ho]
    refine ⟨⟨?_, ?_, hg o v ho⟩, rfl⟩
    · intro hx; simpa using hx
    · intro o' ho'
      simp only [Option.some.injEq] at ho'
      subst ho'
      exact ho

theorem clear_inv (objs : List (Acct D)) : CellInv info objs (AState.clear e) :=
  ⟨fun _ => rfl, (by intro o ho; cases ho), zero_good⟩

end Verif.WorldState
