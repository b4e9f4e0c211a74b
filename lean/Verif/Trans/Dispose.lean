import Verif.Trans.Deliver

/-!
# A handle is given up
-/

namespace Verif.Trans

theorem orphan_fields (s : St) (cs : List Nat) :
    (orphan s cs).nImpl = s.nImpl ∧ (orphan s cs).handles = s.handles ∧ (orphan s cs).nHandle = s.nHandle ∧
    (orphan s cs).execs = s.execs ∧ (orphan s cs).running = s.running ∧ (orphan s cs).log = s.log ∧
    (orphan s cs).stops = s.stops ∧ (orphan s cs).crashed = s.crashed := by
  rw [orphan_rest]
  exact ⟨rfl, rfl, rfl, rfl, rfl, rfl, rfl, rfl⟩

/-- What `unref` leaves as it is. -/
theorem unref_rest (s : St) (p : Nat) : (unref s p).nImpl = s.nImpl ∧ (unref s p).handles = s.handles ∧
    (unref s p).nHandle = s.nHandle ∧ (unref s p).execs = s.execs ∧ (unref s p).running = s.running ∧
    (unref s p).log = s.log ∧ (unref s p).stops = s.stops ∧ (unref s p).crashed = s.crashed := by
  unfold unref
  dsimp only
  split_ifs with h
  · obtain ⟨o1, o2, o3, o4, o5, o6, o7, o8⟩ := orphan_fields (s.mod p fun i => { i with nRef := i.nRef - 1 })
      ((s.mod p fun i => { i with nRef := i.nRef - 1 }).impls p).children
    split
    · exact ⟨o1, o2, o3, o4, o5, o6, o7, o8⟩
    · exact ⟨o1, o2, o3, o4, o5, o6, o7, o8⟩
  · exact ⟨rfl, rfl, rfl, rfl, rfl, rfl, rfl, rfl⟩

theorem unref_more (s : St) (p : Nat) (h : (s.impls p).nRef - 1 ≠ 0) (q : Nat) :
    (unref s p).impls q = if q = p then { s.impls q with nRef := (s.impls q).nRef - 1 } else s.impls q := by
  unfold unref
  dsimp only
  rw [if_neg (by simpa [St.mod] using h)]
  rfl

theorem unref_last (s : St) (p : Nat) (h : (s.impls p).nRef - 1 = 0) (hpc : p ∉ (s.impls p).children)
    (hpp : (s.impls p).parent ≠ some p) (q : Nat) :
    (unref s p).impls q =
      if q = p then { s.impls q with nRef := (s.impls q).nRef - 1, children := [], mtr := none }
      else { s.impls q with
        parent := if q ∈ (s.impls p).children then none else (s.impls q).parent
        children := if (s.impls p).parent = some q then swapRemove (s.impls q).children p
          else (s.impls q).children } := by
  unfold unref
  dsimp only
  rw [if_pos (by simpa [St.mod] using h)]
  have e0 : ((s.mod p fun i => { i with nRef := i.nRef - 1 }).impls p).children = (s.impls p).children := by
    simp [St.mod]
  rw [e0]
  have e1 : ∀ q : Nat, (orphan (s.mod p fun i => { i with nRef := i.nRef - 1 }) (s.impls p).children).impls q =
      if q ∈ (s.impls p).children then
        { (if q = p then { s.impls q with nRef := (s.impls q).nRef - 1 } else s.impls q) with parent := none }
      else if q = p then { s.impls q with nRef := (s.impls q).nRef - 1 } else s.impls q := by
    intro q; rw [orphan_impls]; rfl
  have e2 : (((orphan (s.mod p fun i => { i with nRef := i.nRef - 1 }) (s.impls p).children).mod p
      fun i => { i with children := [] }).impls p).parent = (s.impls p).parent := by
    simp only [St.mod, if_true]
    have := e1 p
    simp only [St.mod] at this
    rw [this]
    simp [hpc]
  rw [e2]
  rcases hq : (s.impls p).parent with _ | r
  · dsimp only
    simp only [St.mod]
    have := e1 q
    simp only [St.mod] at this
    by_cases e : q = p
    · subst e
      simp only [if_true, this, if_neg hpc]
    · simp only [if_neg e, this]
      by_cases hm : q ∈ (s.impls p).children
      · simp [hm]
      · simp [hm]
  · dsimp only
    simp only [St.mod]
    have := e1 q
    simp only [St.mod] at this
    have hr : r ≠ p := by rintro rfl; exact hpp hq
    by_cases e : q = p
    · subst e
      simp only [if_true, this, if_neg hpc, if_neg (Ne.symm hr)]
    · simp only [if_neg e, this]
      by_cases hqr : q = r
      · subst hqr
        by_cases hm : q ∈ (s.impls p).children
        · simp [hm]
        · simp [hm]
      · by_cases hm : q ∈ (s.impls p).children
        · simp [hm, hqr, Ne.symm hqr]
        · simp [hm, hqr, Ne.symm hqr]

/-- The first half of `dispose`: the handle is taken out of the execution's list. -/
def dropped (s : St) (p h : Nat) (fin last : Bool) : St :=
  { s with
    handles := fun k => if k = h then { s.handles k with cb := false, ti := none } else s.handles k
    impls := fun q => if q = p ∧ fin = false then { s.impls q with cbs := swapRemove (s.impls q).cbs h } else s.impls q
    execs := fun q => if q = p ∧ fin = false ∧ last = true then cancelExecution (s.execs q) else s.execs q
    stops := if fin = false ∧ last = true then s.stops ++ [p] else s.stops }

theorem last_iff {w : World} {h p : Nat} (hh : Holds w.s h p) :
    holders w.s p = 1 ↔ ∀ k : Nat, Holds w.s k p → k = h := by
  have key := filter_drop (List.range w.s.nHandle) List.nodup_range
    (fun k => (w.s.handles k).ti == some p) (fun k => (w.s.handles k).ti == some p && k != h) h
    (List.mem_range.2 hh.1) (by simp [hh.2]) (by simp) (fun y hy => by simp [hy])
  unfold holders
  rw [key]
  constructor
  · intro h1 k hk
    have h2 : (List.range w.s.nHandle).filter (fun k => (w.s.handles k).ti == some p && k != h) = [] := by
      apply List.eq_nil_of_length_eq_zero; omega
    by_contra hne
    have : k ∈ (List.range w.s.nHandle).filter (fun k => (w.s.handles k).ti == some p && k != h) := by
      simp [hk.1, hk.2, hne]
    rw [h2] at this
    simp at this
  · intro hall
    have h2 : (List.range w.s.nHandle).filter (fun k => (w.s.handles k).ti == some p && k != h) = [] := by
      apply List.eq_nil_iff_forall_not_mem.2
      intro k hk
      simp only [List.mem_filter, List.mem_range, Bool.and_eq_true, beq_iff_eq, bne_iff_ne] at hk
      exact hk.2.2 (hall k ⟨hk.1, hk.2.1⟩)
    rw [h2]; rfl

theorem drop_eq {w : World} (I : Inv w) {h p : Nat} (hh : Holds w.s h p) :
    (hCancel w.s h).modH h (fun x => { x with ti := none }) =
      dropped w.s p h (ended (w.arrived p)) (decide (holders w.s p = 1)) := by
  have hheld : Held w.s p := ⟨h, hh⟩
  have hlt := hheld.lt I
  have hrun := running_iff I hheld
  unfold hCancel
  rw [hh.2]
  dsimp only
  unfold cancelImpl
  rw [hrun]
  cases he : ended (w.arrived p) with
  | true =>
    simp only [Bool.not_true, Bool.not_false, if_true]
    unfold dropped St.modH
    simp
    funext k
    by_cases e : k = h <;> simp [e]
  | false =>
    obtain ⟨cn, cm⟩ := I.cbsN p hlt he
    have hm : h ∈ (w.s.impls p).cbs := (cm h).2 hh
    have hsw := swapRemove_nodup hm cn
    have hcan : (w.s.impls p).canceler = true := by
      by_contra h
      have := (I.root p hlt (by simpa using h)).1
      rw [he] at this; simp at this
    have hl : (swapRemove (w.s.impls p).cbs h).length = 0 ↔ holders w.s p = 1 := by
      rw [last_iff hh, List.length_eq_zero_iff, List.eq_nil_iff_forall_not_mem]
      constructor
      · intro h1 k hk
        by_contra hne
        exact h1 k ((hsw.2 k).2 ⟨(cm k).2 hk, hne⟩)
      · intro h1 k hk
        have := (hsw.2 k).1 hk
        exact this.2 (h1 k ((cm k).1 this.1))
    simp only [Bool.not_false, Bool.not_true, Bool.false_eq_true, if_false, if_pos hm]
    have e1 : ((w.s.mod p fun i => { i with cbs := swapRemove i.cbs h }).impls p).cbs = swapRemove (w.s.impls p).cbs h := by
      simp [St.mod]
    have e2 : ((w.s.mod p fun i => { i with cbs := swapRemove i.cbs h }).impls p).canceler = true := by
      simp [St.mod, hcan]
    rw [e1, e2]
    by_cases hlast : holders w.s p = 1
    · rw [if_pos (hl.2 hlast), if_pos rfl]
      unfold dropped St.modH St.mod St.modE
      simp [hlast]
      funext k
      by_cases e : k = h <;> simp [e]
    · rw [if_neg (fun h => hlast (hl.1 h))]
      unfold dropped St.modH St.mod
      simp [hlast]
      funext k
      by_cases e : k = h <;> simp [e]

/-- What `dispose` does to a live handle, field by field. -/
structure Disposed (s s' : St) (h p : Nat) (fin last : Bool) : Prop where
  nI : s'.nImpl = s.nImpl
  nH : s'.nHandle = s.nHandle
  run : s'.running = s.running
  log : s'.log = s.log
  crash : s'.crashed = s.crashed
  hd : ∀ k : Nat, s'.handles k = if k = h then { s.handles k with cb := false, ti := none } else s.handles k
  ex : ∀ q : Nat, s'.execs q = if q = p ∧ fin = false ∧ last = true then cancelExecution (s.execs q) else s.execs q
  stops : s'.stops = if fin = false ∧ last = true then s.stops ++ [p] else s.stops
  me : s'.impls p = { s.impls p with
    cbs := if fin then (s.impls p).cbs else swapRemove (s.impls p).cbs h
    nRef := (s.impls p).nRef - 1
    children := if last then [] else (s.impls p).children
    mtr := if last then none else (s.impls p).mtr }
  other : ∀ q : Nat, q ≠ p → s'.impls q = { s.impls q with
    parent := if last = true ∧ q ∈ (s.impls p).children then none else (s.impls q).parent
    children := if last = true ∧ (s.impls p).parent = some q then swapRemove (s.impls q).children p
      else (s.impls q).children }

theorem dispose_spec {w : World} (I : Inv w) {h p : Nat} (hh : Holds w.s h p) :
    Disposed w.s (dispose w.s h) h p (ended (w.arrived p)) (decide (holders w.s p = 1)) := by
  have hheld : Held w.s p := ⟨h, hh⟩
  have hlt := hheld.lt I
  have hd := drop_eq I hh
  have e0 : dispose w.s h = unref ((hCancel w.s h).modH h (fun x => { x with ti := none })) p := by
    unfold dispose
    rw [hh.2]
  rw [hd] at e0
  rw [e0]
  obtain ⟨u1, u2, u3, u4, u5, u6, u7, u8⟩ :=
    unref_rest (dropped w.s p h (ended (w.arrived p)) (decide (holders w.s p = 1))) p
  have hn : ((dropped w.s p h (ended (w.arrived p)) (decide (holders w.s p = 1))).impls p).nRef - 1 = 0 ↔
      holders w.s p = 1 := by
    have : ((dropped w.s p h (ended (w.arrived p)) (decide (holders w.s p = 1))).impls p).nRef =
        (w.s.impls p).nRef := by
      unfold dropped; dsimp only; split_ifs <;> rfl
    rw [this, I.cnt p hlt]; omega
  have fld : ∀ (β : Type) (f : Impl → β), (∀ (i : Impl) (l : List Nat), f { i with cbs := l } = f i) →
      ∀ q : Nat, f ((dropped w.s p h (ended (w.arrived p)) (decide (holders w.s p = 1))).impls q) =
        f (w.s.impls q) := by
    intro β f hf q
    unfold dropped
    dsimp only
    split_ifs
    · exact hf _ _
    · rfl
  have f1 := fld _ Impl.children (fun _ _ => rfl)
  have f2 := fld _ Impl.parent (fun _ _ => rfl)
  have dme : (dropped w.s p h (ended (w.arrived p)) (decide (holders w.s p = 1))).impls p =
      { w.s.impls p with
        cbs := if ended (w.arrived p) then (w.s.impls p).cbs else swapRemove (w.s.impls p).cbs h } := by
    unfold dropped
    dsimp only
    cases ended (w.arrived p) <;> simp
  have dot : ∀ q : Nat, q ≠ p →
      (dropped w.s p h (ended (w.arrived p)) (decide (holders w.s p = 1))).impls q = w.s.impls q := by
    intro q hq
    unfold dropped
    dsimp only
    rw [if_neg (fun h => hq h.1)]
  have hpc : p ∉ (w.s.impls p).children := by
    intro hm
    have := ((I.kids p hlt).2 p).1 hm
    have := I.madeLt p p hlt this.2.2
    omega
  have hpp : (w.s.impls p).parent ≠ some p := by
    intro hm
    have := (I.par p hheld p).1 hm
    have := I.madeLt p p hlt this.1
    omega
  refine ⟨u1, u3, u5, u6, u8, fun k => ?_, fun q => ?_, ?_, ?_, fun q hq => ?_⟩
  · rw [u2]; rfl
  · rw [u4]; rfl
  · rw [u7]; rfl
  · by_cases hl : holders w.s p = 1
    · rw [unref_last _ p (hn.2 hl) (by rw [f1]; exact hpc) (by rw [f2]; exact hpp), if_pos rfl, dme]
      simp [hl]
    · rw [unref_more _ p (fun h => hl (hn.1 h)), if_pos rfl, dme]
      simp [hl]
  · by_cases hl : holders w.s p = 1
    · rw [unref_last _ p (hn.2 hl) (by rw [f1]; exact hpc) (by rw [f2]; exact hpp), if_neg hq]
      simp only [f1, f2, dot q hq]
      simp [hl]
    · rw [unref_more _ p (fun h => hl (hn.1 h)), if_neg hq, dot q hq]
      simp [hl]

theorem Inv.dispose {w : World} (I : Inv w) {h p : Nat} (hh : Holds w.s h p) :
    Inv ⟨dispose w.s h, w.arrived⟩ := by
  have hheld : Held w.s p := ⟨h, hh⟩
  have hlt := hheld.lt I
  have D := dispose_spec I hh
  have hlast := last_iff hh
  revert D
  generalize Verif.Trans.dispose w.s h = s'
  intro D
  have g2 : ∀ k : Nat, (s'.handles k).of = (w.s.handles k).of := by
    intro k; rw [D.hd]; split_ifs <;> rfl
  have g3 : ∀ k : Nat, (s'.handles k).wants = (w.s.handles k).wants := by
    intro k; rw [D.hd]; split_ifs <;> rfl
  have g1 : ∀ k : Nat, (s'.handles k).ti = if k = h then none else (w.s.handles k).ti := by
    intro k; rw [D.hd]; split_ifs <;> rfl
  have HN : ∀ k q : Nat, Holds s' k q ↔ (Holds w.s k q ∧ k ≠ h) := by
    intro k q
    unfold Holds
    rw [g1, D.nH]
    by_cases e : k = h <;> simp [e]
  have HO : ∀ q : Nat, q ≠ p → (Held s' q ↔ Held w.s q) := by
    intro q hq
    constructor
    · rintro ⟨k, hk⟩; exact ⟨k, ((HN k q).1 hk).1⟩
    · rintro ⟨k, hk⟩
      refine ⟨k, (HN k q).2 ⟨hk, ?_⟩⟩
      rintro rfl
      have := hk.2
      rw [hh.2] at this
      simp at this
      exact hq this.symm
  have HP : Held s' p ↔ holders w.s p ≠ 1 := by
    rw [ne_eq, hlast]
    constructor
    · rintro ⟨k, hk⟩ hall
      have := (HN k p).1 hk
      exact this.2 (hall k this.1)
    · intro h1
      by_contra hn
      apply h1
      intro k hk
      by_contra hne
      exact hn ⟨k, (HN k p).2 ⟨hk, hne⟩⟩
  have HD : ∀ q : Nat, Held s' q ↔ (Held w.s q ∧ (q = p → holders w.s p ≠ 1)) := by
    intro q
    by_cases e : q = p
    · subst e; rw [HP]; exact ⟨fun h => ⟨hheld, fun _ => h⟩, fun h => h.2 rfl⟩
    · rw [HO q e]; exact ⟨fun h => ⟨h, fun h => absurd h e⟩, fun h => h.1⟩
  have hcount : ∀ q : Nat, holders w.s q = holders s' q + if q = p then 1 else 0 := by
    intro q
    by_cases e : q = p
    · subst e
      rw [if_pos rfl]
      unfold holders
      rw [D.nH]
      refine filter_drop _ List.nodup_range _ _ h (List.mem_range.2 hh.1) (by simp [hh.2]) ?_ ?_
      · rw [g1]; simp
      · intro y hy; rw [g1, if_neg hy]
    · rw [if_neg e]
      unfold holders
      rw [D.nH]
      congr 1
      apply List.filter_congr
      intro k _
      rw [g1]
      by_cases ek : k = h
      · subst ek
        rw [if_pos rfl, hh.2]
        simp [Ne.symm e]
      · rw [if_neg ek]
  have td : ∀ k : Nat, told s' k = told w.s k := fun k => by unfold told; rw [D.log]
  have fld : ∀ (β : Type) (f : Impl → β), (∀ (i : Impl) (l : List Nat) (n : Int) (c : List Nat) (m : Option Nat),
      f { i with cbs := l, nRef := n, children := c, mtr := m } = f i) →
      (∀ (i : Impl) (q : Option Nat) (c : List Nat), f { i with parent := q, children := c } = f i) →
      ∀ q : Nat, f (s'.impls q) = f (w.s.impls q) := by
    intro β f hf hf' q
    by_cases e : q = p
    · subst e; rw [D.me]; exact hf _ _ _ _ _
    · rw [D.other q e]; exact hf' _ _ _
  have f2 := fld _ Impl.made (fun _ _ _ _ _ => rfl) (fun _ _ _ => rfl)
  have f5 := fld _ Impl.canceler (fun _ _ _ _ _ => rfl) (fun _ _ _ => rfl)
  have f6 := fld _ Impl.valErr (fun _ _ _ _ _ => rfl) (fun _ _ _ => rfl)
  have f7 := fld _ Impl.exeErr (fun _ _ _ _ _ => rfl) (fun _ _ _ => rfl)
  have ho : (w.s.handles h).of = p := (I.hti h p hh).2
  constructor
  all_goals dsimp only
  case hti => intro k q hq; rw [D.nI, g2]; exact I.hti k q ((HN k q).1 hq).1
  case hof => intro k hk; rw [D.nH] at hk; rw [D.nI, g2]; exact I.hof k hk
  case cnt =>
    intro q hq
    rw [D.nI] at hq
    have h1 := I.cnt q hq
    have h2 := hcount q
    by_cases e : q = p
    · subst e
      rw [D.me]; dsimp only
      rw [if_pos rfl] at h2; omega
    · rw [D.other q e]; dsimp only
      rw [if_neg e] at h2; omega
  case mtr =>
    intro q hq
    rw [D.nI] at hq
    rw [HD]
    have h1 := I.mtr q hq
    by_cases e : q = p
    · subst e
      rw [D.me]; dsimp only
      by_cases hl : holders w.s q = 1
      · simp [hl]
      · simp only [hl, decide_false, Bool.false_eq_true, if_false, ne_eq, not_false_eq_true, implies_true, and_true]
        exact h1
    · rw [D.other q e]; dsimp only
      rw [h1]; simp [e]
  case madeLt => intro q q' hq; rw [D.nI] at hq; rw [f2]; exact I.madeLt q q' hq
  case par =>
    intro q hq q'
    have hq0 := ((HD q).1 hq).1
    have hI := I.par q hq0 q'
    rw [f2, HD]
    by_cases e : q = p
    · subst e
      rw [D.me]; dsimp only
      rw [hI]
      constructor
      · rintro ⟨h1, h2⟩
        refine ⟨h1, h2, ?_⟩
        rintro rfl
        have := I.madeLt q' q' hlt h1
        omega
      · rintro ⟨h1, h2, _⟩; exact ⟨h1, h2⟩
    · rw [D.other q e]; dsimp only
      have hk := (I.kids p hlt).2 q
      by_cases hl : holders w.s p = 1
      · simp only [hl, decide_true, true_and, ne_eq, not_true_eq_false, imp_false]
        by_cases hm : q ∈ (w.s.impls p).children
        · rw [if_pos hm]
          constructor
          · intro h; simp at h
          · rintro ⟨h1, h2, h3⟩
            have := (hk.1 hm).2.2
            rw [h1] at this
            simp at this
            exact absurd this h3
        · rw [if_neg hm, hI]
          constructor
          · rintro ⟨h1, h2⟩
            refine ⟨h1, h2, ?_⟩
            rintro rfl
            exact hm (hk.2 ⟨h2, hq0, h1⟩)
          · rintro ⟨h1, h2, _⟩; exact ⟨h1, h2⟩
      · simp [hl, hI]
  case kids =>
    intro q hq
    rw [D.nI] at hq
    have hk := I.kids q hq
    by_cases e : q = p
    · subst e
      rw [D.me]; dsimp only
      by_cases hl : holders w.s q = 1
      · simp only [hl, decide_true, if_true]
        refine ⟨List.nodup_nil, fun c => ?_⟩
        rw [HP]
        simp [hl]
      · simp only [hl, decide_false, Bool.false_eq_true, if_false]
        refine ⟨hk.1, fun c => ?_⟩
        rw [hk.2 c, HD, HD, f2]
        simp [hl]
    · rw [D.other q e]; dsimp only
      by_cases hl : holders w.s p = 1
      · by_cases hpq : (w.s.impls p).parent = some q
        · simp only [hl, hpq, decide_true, and_self, if_true]
          have hmq := (I.par p hheld q).1 hpq
          have hm : p ∈ (w.s.impls q).children := (hk.2 p).2 ⟨hmq.2, hheld, hmq.1⟩
          have hsw := swapRemove_nodup hm hk.1
          refine ⟨hsw.1, fun c => ?_⟩
          rw [hsw.2 c, hk.2 c, HD, HD, f2]
          simp only [hl, ne_eq, not_true_eq_false, imp_false]
          constructor
          · rintro ⟨⟨h1, h2, h3⟩, h4⟩; exact ⟨⟨h1, e⟩, ⟨h2, h4⟩, h3⟩
          · rintro ⟨⟨h1, _⟩, ⟨h2, h4⟩, h3⟩; exact ⟨⟨h1, h2, h3⟩, h4⟩
        · rw [if_neg (fun h => hpq h.2)]
          refine ⟨hk.1, fun c => ?_⟩
          rw [hk.2 c, HD, HD, f2]
          simp only [hl, ne_eq, not_true_eq_false, imp_false]
          constructor
          · rintro ⟨h1, h2, h3⟩
            refine ⟨⟨h1, e⟩, ⟨h2, ?_⟩, h3⟩
            rintro rfl
            exact hpq ((I.par c h2 q).2 ⟨h3, h1⟩)
          · rintro ⟨⟨h1, _⟩, ⟨h2, h4⟩, h3⟩; exact ⟨h1, h2, h3⟩
      · simp only [hl, decide_false, Bool.false_eq_true, false_and, if_false]
        refine ⟨hk.1, fun c => ?_⟩
        rw [hk.2 c, HD, HD, f2]
        simp [hl]
  case fresh => intro q hq; rw [D.nI] at hq; exact I.fresh q hq
  case freshE =>
    intro q hq
    rw [D.nI] at hq
    rw [D.ex, if_neg (fun h => by have := h.1; omega)]; exact I.freshE q hq
  case cbsE =>
    intro q hq he
    rw [D.nI] at hq
    by_cases e : q = p
    · subst e; rw [D.me, he]; exact I.cbsE q hq he
    · rw [D.other q e]; exact I.cbsE q hq he
  case cbsN =>
    intro q hq he
    rw [D.nI] at hq
    obtain ⟨cn, cm⟩ := I.cbsN q hq he
    by_cases e : q = p
    · subst e
      rw [D.me, he]
      dsimp only
      rw [if_neg (by simp)]
      have hsw := swapRemove_nodup ((cm h).2 hh) cn
      refine ⟨hsw.1, fun k => ?_⟩
      rw [hsw.2 k, cm k, HN]
    · rw [D.other q e]
      refine ⟨cn, fun k => ?_⟩
      rw [HN, cm k]
      constructor
      · intro h1
        refine ⟨h1, ?_⟩
        rintro rfl
        have := h1.2
        rw [hh.2] at this
        simp at this
        exact e this.symm
      · exact fun h => h.1
  case root =>
    intro q hq hc
    rw [D.nI] at hq
    rw [f5] at hc
    have hr := I.root q hq hc
    refine ⟨hr.1, ?_⟩
    rw [D.ex, if_neg]
    · exact hr.2
    · rintro ⟨rfl, h1, _⟩; rw [hr.1] at h1; simp at h1
  case start => intro q hq; rw [D.nI] at hq; rw [f5, f2]; exact I.start q hq
  case arr => intro q hq; rw [D.nI] at hq; rw [f6, f7]; exact I.arr q hq
  case arrv => intro q hq; rw [D.nI] at hq; rw [f6, f7]; exact I.arrv q hq
  case cb =>
    intro k hk
    rw [D.nH] at hk
    rw [g1, g2, g3, D.hd]
    by_cases e : k = h
    · rw [if_pos e, if_pos e]; simp
    · rw [if_neg e, if_neg e]; exact I.cb k hk
  case live =>
    intro k q hq
    rw [td, g3]; exact I.live k q ((HN k q).1 hq).1
  case pre => intro k hk; rw [D.nH] at hk; rw [td, g2, g3]; exact I.pre k hk
  case toldF => intro k hk; rw [D.nH] at hk; rw [td]; exact I.toldF k hk
  case stops =>
    intro q
    rw [D.stops, D.nI, f5, HD]
    by_cases hc : ended (w.arrived p) = false ∧ holders w.s p = 1
    · rw [if_pos ⟨hc.1, by simp [hc.2]⟩, List.mem_append, I.stops q, List.mem_singleton]
      have hcan : (w.s.impls p).canceler = true := by
        by_contra h
        have := (I.root p hlt (by simpa using h)).1
        rw [hc.1] at this; simp at this
      constructor
      · rintro (⟨h1, h2, h3, h4⟩ | rfl)
        · exact ⟨h1, h2, fun h => h3 h.1, h4⟩
        · exact ⟨hlt, hcan, fun h => (h.2 rfl) hc.2, hc.1⟩
      · rintro ⟨h1, h2, h3, h4⟩
        by_cases e : q = p
        · exact Or.inr e
        · exact Or.inl ⟨h1, h2, fun h => h3 ⟨h, fun h => absurd h e⟩, h4⟩
    · rw [if_neg (fun h => hc ⟨h.1, by simpa using h.2⟩), I.stops q]
      constructor
      · rintro ⟨h1, h2, h3, h4⟩
        exact ⟨h1, h2, fun h => h3 h.1, h4⟩
      · rintro ⟨h1, h2, h3, h4⟩
        refine ⟨h1, h2, fun h => h3 ⟨h, ?_⟩, h4⟩
        rintro rfl h5
        exact hc ⟨h4, h5⟩
  case stopsN =>
    rw [D.stops]
    split_ifs
    · refine List.Nodup.append I.stopsN (by simp) ?_
      intro a ha hb
      have h2 : a = p := by simpa using hb
      subst h2
      exact ((I.stops a).1 ha).2.2.1 hheld
    · exact I.stopsN
  case ex =>
    intro q hr hq hc
    rw [D.run] at hr
    rw [f5] at hc
    have h1 := (HD q).1 hq
    rw [D.ex, if_neg]
    · exact I.ex q hr h1.1 hc
    · rintro ⟨rfl, _, h2⟩; exact h1.2 rfl (by simpa using h2)

end Verif.Trans
