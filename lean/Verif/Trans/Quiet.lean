import Verif.Trans.Main

/-!
# After `dispose`, and after the stop of an executor
-/

namespace Verif.Trans

theorem notify_quiet (s : St) (l : List Nat) (r : Rep) (fin : Bool) (h : Nat) (hn : h ∉ l) :
    told (notify s l r fin) h = told s h ∧ (notify s l r fin).handles h = s.handles h := by
  constructor
  · unfold told
    simp only [notify]
    rw [told_append]
    have : ((l.filter fun k => (s.handles k).cb).map fun k => (k, r)).filter (fun x => x.1 == h) = [] := by
      rw [List.filter_eq_nil_iff]
      intro x hx
      simp only [List.mem_map, List.mem_filter] at hx
      obtain ⟨k, ⟨h1, _⟩, rfl⟩ := hx
      simp only [beq_iff_eq]
      rintro rfl
      exact hn h1
    rw [this]; simp [told]
  · simp only [notify]
    rw [if_neg (fun h => hn h.2)]

theorem fold_quiet (f : St → Nat → St) (r : Rep) (fin : Bool) (hf : ∀ s h, f s h = notify s [h] r fin)
    (l : List Nat) (h : Nat) (hn : h ∉ l) (s : St) :
    told (l.foldl f s) h = told s h ∧ (l.foldl f s).handles h = s.handles h := by
  induction l generalizing s with
  | nil => exact ⟨rfl, rfl⟩
  | cons a t ih =>
    have h1 : h ∉ t := fun h' => hn (List.mem_cons_of_mem _ h')
    have h2 : h ∉ [a] := by
      intro h'
      have : h = a := by simpa using h'
      exact hn (by rw [this]; exact List.mem_cons_self ..)
    have h3 := ih h1 (f s a)
    have h4 := notify_quiet s [a] r fin h h2
    rw [List.foldl_cons]
    rw [← hf] at h4
    exact ⟨h3.1.trans h4.1, h3.2.trans h4.2⟩

/-- Only handles on `p` hear of a report that arrives from `p`. -/
theorem deliver_quiet {w : World} (I : Inv w) {p : Nat} (hlt : p < w.s.nImpl) (h : Nat) (hn : ¬ Holds w.s h p) :
    told (deliver w.s p) h = told w.s h ∧ (deliver w.s p).handles h = w.s.handles h := by
  have hcb : h ∉ (w.s.impls p).cbs := by
    intro hm
    cases he : ended (w.arrived p) with
    | true => rw [I.cbsE p hlt he] at hm; simp at hm
    | false => exact hn (((I.cbsN p hlt he).2 h).1 hm)
  unfold deliver
  split
  · exact ⟨rfl, rfl⟩
  · rename_i e _
    unfold onValidate
    dsimp only
    split_ifs
    · exact ⟨rfl, rfl⟩
    · exact fold_quiet _ (.val e) e.isSome (fun s h => hOnValidate_eq s h e) _ h hcb _
    · exact fold_quiet _ (.val e) e.isSome (fun s h => hOnValidate_eq s h e) _ h hcb _
  · rename_i e _
    unfold onExecute
    dsimp only
    split_ifs
    · exact ⟨rfl, rfl⟩
    · exact fold_quiet _ (.exe e) true (fun s h => hOnExecute_eq s h e) _ h hcb _

/-- A disposed handle stays disposed, and its callback is never called again, whatever happens. -/
theorem silent {eq : Nat → Nat → Bool} {w : World} (R : Reach eq w) (e : Ev) (ha : Allowed w.s e) {h : Nat}
    (hh : h < w.s.nHandle) (hd : (w.s.handles h).ti = none) :
    told (step eq w e).s h = told w.s h ∧ ((step eq w e).s.handles h).ti = none := by
  have I := R.inv
  have same : ∀ s' : St, (s'.handles h = w.s.handles h ∧ told s' h = told w.s h) →
      told s' h = told w.s h ∧ (s'.handles h).ti = none := by
    rintro s' ⟨h1, h2⟩; exact ⟨h2, by rw [h1]; exact hd⟩
  have addc : ∀ (q m : Nat) (cb ok v y : Bool), Held w.s q →
      (addChild w.s q m cb ok v y).1.handles h = w.s.handles h ∧ told (addChild w.s q m cb ok v y).1 h = told w.s h := by
    intro q m cb ok v y hq
    cases ok with
    | false => exact ⟨rfl, rfl⟩
    | true =>
      obtain ⟨N, _⟩ := addChild_new w.s q m cb v y (hq.lt I)
      exact ⟨by rw [N.hd, if_neg (by omega)], by unfold told; rw [N.log]⟩
  cases e with
  | initial m =>
    refine same _ ⟨?_, rfl⟩
    show (newInitial w.s m).1.handles h = _
    unfold newInitial St.alloc
    dsimp only
    rw [if_neg (by omega)]
  | transit k ans cb ok v =>
    refine same _ ?_
    show (transit eq w.s k ans cb ok v).1.handles h = _ ∧ told (transit eq w.s k ans cb ok v).1 h = _
    rcases live_or ha with h0 | ⟨p, h0, hk⟩
    · unfold transit; rw [h0]; exact ⟨rfl, rfl⟩
    · rcases ans with _ | m
      · unfold transit; rw [h0]; exact ⟨rfl, rfl⟩
      · exact (transit_served R hk m cb ok v).2.2.2 h hh
  | propose k ans cb ok =>
    refine same _ ?_
    show (propose eq w.s k ans cb ok).1.handles h = _ ∧ told (propose eq w.s k ans cb ok).1 h = _
    rcases live_or ha with h0 | ⟨p, h0, hk⟩
    · unfold propose; rw [h0]; exact ⟨rfl, rfl⟩
    · rcases ans with _ | m
      · unfold propose; rw [h0]; exact ⟨rfl, rfl⟩
      · exact (propose_served R hk m cb ok).2.2.2 h hh
  | patch k m cb ok =>
    refine same _ ?_
    show (patch eq w.s k m cb ok).1.handles h = _ ∧ told (patch eq w.s k m cb ok).1 h = _
    rcases live_or ha with h0 | ⟨p, h0, hk⟩
    · unfold patch; rw [h0]; exact ⟨rfl, rfl⟩
    · rcases hq : (w.s.impls p).parent with _ | q
      · unfold patch; rw [h0]; dsimp only; unfold patchImpl; rw [hq]; exact ⟨rfl, rfl⟩
      · have := (I.par p ⟨k, hk⟩ q).1 hq
        exact (patch_served R hk this.1 this.2 m cb ok).2.2.2 h hh
  | sync k ans cb ok =>
    refine same _ ?_
    show (sync w.s k ans cb ok).1.handles h = _ ∧ told (sync w.s k ans cb ok).1 h = _
    unfold sync
    rcases live_or ha with h0 | ⟨p, h0, hk⟩
    · rw [h0]; exact ⟨rfl, rfl⟩
    · rw [h0]
      dsimp only
      unfold syncImpl
      rcases ans with _ | m
      · exact ⟨rfl, rfl⟩
      · dsimp only
        rcases hq : (w.s.impls p).parent with _ | q
        · exact ⟨rfl, rfl⟩
        · have := (I.par p ⟨k, hk⟩ q).1 hq
          exact addc q m cb ok true true this.2
  | dup k cb =>
    refine same _ ?_
    show (newTransition w.s k cb).1.handles h = _ ∧ told (newTransition w.s k cb).1 h = _
    rcases live_or ha with h0 | ⟨p, h0, hk⟩
    · unfold newTransition; rw [h0]; exact ⟨rfl, rfl⟩
    · exact (dup_served R hk cb).2.2.2.2 h hh
  | dispose k =>
    show told (dispose w.s k) h = _ ∧ ((dispose w.s k).handles h).ti = none
    rcases live_or ha with h0 | ⟨p, h0, hk⟩
    · unfold dispose; rw [h0]; exact ⟨rfl, hd⟩
    · have D := dispose_spec I hk
      refine ⟨by unfold told; rw [D.log], ?_⟩
      rw [D.hd]
      split_ifs
      · rfl
      · exact hd
  | report p r => exact ⟨rfl, hd⟩
  | deliver p =>
    have := deliver_quiet I ha.1 h (fun hc => by have := hc.2; rw [hd] at this; simp at this)
    exact same _ ⟨this.2, this.1⟩
  | term => exact ⟨rfl, hd⟩

/-- The executors of the old executions are left alone by an operation of the manager, except for a stop. -/
theorem execs_after {eq : Nat → Nat → Bool} {w : World} (R : Reach eq w) (e : Ev) (ha : Allowed w.s e) {p : Nat}
    (hp : p < w.s.nImpl) (hx : (w.s.execs p).step ≠ .validating ∧ (w.s.execs p).step ≠ .executing) :
    (((step eq w e).s.execs p).step ≠ .validating ∧ ((step eq w e).s.execs p).step ≠ .executing) := by
  have I := R.inv
  have same : ∀ s' : St, s'.execs p = w.s.execs p →
      ((s'.execs p).step ≠ .validating ∧ (s'.execs p).step ≠ .executing) := by
    intro s' h; rw [h]; exact hx
  have f1 : ∀ (l : List Nat) (e : Err) (s : St), (l.foldl (fun s h => hOnValidate s h e) s).execs = s.execs := by
    intro l e
    induction l with
    | nil => intro s; rfl
    | cons a t ih => intro s; rw [List.foldl_cons, ih, hOnValidate_eq]; rfl
  have f2 : ∀ (l : List Nat) (e : Err) (s : St), (l.foldl (fun s h => hOnExecute s h e) s).execs = s.execs := by
    intro l e
    induction l with
    | nil => intro s; rfl
    | cons a t ih => intro s; rw [List.foldl_cons, ih, hOnExecute_eq]; rfl
  cases e with
  | initial m => exact same _ rfl
  | transit k ans cb ok v =>
    refine same _ ?_
    show (transit eq w.s k ans cb ok v).1.execs p = _
    unfold transit
    rcases live_or ha with h0 | ⟨q, h0, hk⟩
    · rw [h0]
    · rw [h0]
      rcases ans with _ | m
      · rfl
      · exact (serve I eq ⟨k, hk⟩ m cb ok v _ rfl).2.2.2.2 p hp
  | propose k ans cb ok =>
    refine same _ ?_
    show (propose eq w.s k ans cb ok).1.execs p = _
    unfold propose
    rcases live_or ha with h0 | ⟨q, h0, hk⟩
    · rw [h0]
    · rw [h0]
      rcases ans with _ | m
      · rfl
      · exact (serve I eq ⟨k, hk⟩ m cb ok true _ rfl).2.2.2.2 p hp
  | patch k m cb ok =>
    refine same _ ?_
    show (patch eq w.s k m cb ok).1.execs p = _
    unfold patch
    rcases live_or ha with h0 | ⟨q, h0, hk⟩
    · rw [h0]
    · rw [h0]
      dsimp only
      unfold patchImpl
      rcases hq : (w.s.impls q).parent with _ | q'
      · rfl
      · have := (I.par q ⟨k, hk⟩ q').1 hq
        exact (serve I eq this.2 m cb ok false _ rfl).2.2.2.2 p hp
  | sync k ans cb ok =>
    refine same _ ?_
    show (sync w.s k ans cb ok).1.execs p = _
    unfold sync
    rcases live_or ha with h0 | ⟨q, h0, hk⟩
    · rw [h0]
    · rw [h0]
      dsimp only
      unfold syncImpl
      rcases ans with _ | m
      · rfl
      · dsimp only
        rcases hq : (w.s.impls q).parent with _ | q'
        · rfl
        · have := (I.par q ⟨k, hk⟩ q').1 hq
          cases ok with
          | false => rfl
          | true => exact (addChild_new w.s q' m cb true true (this.2.lt I)).2.2.2.2.2.2 p (by omega)
  | dup k cb =>
    refine same _ ?_
    show (newTransition w.s k cb).1.execs p = _
    unfold newTransition
    rcases live_or ha with h0 | ⟨q, h0, hk⟩
    · rw [h0]
    · rw [h0]
      dsimp only
      rw [newTransitionImpl_eq I ⟨k, hk⟩]
      rfl
  | dispose k =>
    show ((dispose w.s k).execs p).step ≠ _ ∧ ((dispose w.s k).execs p).step ≠ _
    rcases live_or ha with h0 | ⟨q, h0, hk⟩
    · unfold dispose; rw [h0]; exact hx
    · rw [(dispose_spec I hk).ex]
      split_ifs
      · unfold cancelExecution
        split_ifs
        · exact hx
        · simp
      · exact hx
  | report q r =>
    show ((if p = q then reported (w.s.execs p) r else w.s.execs p).step ≠ _ ∧ _)
    by_cases e : p = q
    · rw [if_pos e]
      have e2 : (step eq w (.report q r)).s.execs p = reported (w.s.execs p) r := by
        show (if p = q then reported (w.s.execs p) r else w.s.execs p) = _
        rw [if_pos e]
      rw [e2]
      have hx1 : ¬ ((w.s.execs p).step = .validating ∨ (w.s.execs p).step = .executing) := by
        rintro (h | h)
        · exact hx.1 h
        · exact hx.2 h
      cases r with
      | val e =>
        unfold reported
        dsimp only
        rw [if_neg hx1]; exact hx
      | exe e =>
        unfold reported
        dsimp only
        rw [if_neg hx.2]; exact hx
    · have e2 : (step eq w (.report q r)).s.execs p = w.s.execs p := by
        show (if p = q then reported (w.s.execs p) r else w.s.execs p) = _
        rw [if_neg e]
      rw [if_neg e, e2]; exact hx
  | deliver q =>
    have : ((deliver w.s q).execs p).step = (w.s.execs p).step := by
      have k0 : ((w.s.modE q fun x => { x with flight := none }).execs p).step = (w.s.execs p).step := by
        unfold St.modE
        dsimp only
        split_ifs <;> rfl
      unfold deliver
      split
      · rfl
      · unfold onValidate
        dsimp only
        split_ifs
        · exact k0
        · rw [f1]; exact k0
        · rw [f1]; exact k0
      · unfold onExecute
        dsimp only
        split_ifs
        · exact k0
        · rw [f2]; exact k0
    show ((deliver w.s q).execs p).step ≠ _ ∧ ((deliver w.s q).execs p).step ≠ _
    rw [this]; exact hx
  | term => exact same _ rfl

/-- The stops after one event: at most one more, of an executor that is not at work after it. -/
theorem stops_after {eq : Nat → Nat → Bool} {w : World} (R : Reach eq w) (e : Ev) (ha : Allowed w.s e) (p : Nat)
    (h : p ∈ (step eq w e).s.stops) : p ∈ w.s.stops ∨
      (((step eq w e).s.execs p).step ≠ .validating ∧ ((step eq w e).s.execs p).step ≠ .executing) := by
  have I := R.inv
  have f1 : ∀ (l : List Nat) (e : Err) (s : St), (l.foldl (fun s h => hOnValidate s h e) s).stops = s.stops := by
    intro l e
    induction l with
    | nil => intro s; rfl
    | cons a t ih => intro s; rw [List.foldl_cons, ih, hOnValidate_eq]; rfl
  have f2 : ∀ (l : List Nat) (e : Err) (s : St), (l.foldl (fun s h => hOnExecute s h e) s).stops = s.stops := by
    intro l e
    induction l with
    | nil => intro s; rfl
    | cons a t ih => intro s; rw [List.foldl_cons, ih, hOnExecute_eq]; rfl
  cases e with
  | initial m => exact Or.inl h
  | transit k ans cb ok v =>
    left
    have : (transit eq w.s k ans cb ok v).1.stops = w.s.stops := by
      unfold transit
      rcases live_or ha with h0 | ⟨q, h0, hk⟩
      · rw [h0]
      · rw [h0]
        rcases ans with _ | m
        · rfl
        · exact (serve I eq ⟨k, hk⟩ m cb ok v _ rfl).2.2.2.1
    rw [← this]; exact h
  | propose k ans cb ok =>
    left
    have : (propose eq w.s k ans cb ok).1.stops = w.s.stops := by
      unfold propose
      rcases live_or ha with h0 | ⟨q, h0, hk⟩
      · rw [h0]
      · rw [h0]
        rcases ans with _ | m
        · rfl
        · exact (serve I eq ⟨k, hk⟩ m cb ok true _ rfl).2.2.2.1
    rw [← this]; exact h
  | patch k m cb ok =>
    left
    have : (patch eq w.s k m cb ok).1.stops = w.s.stops := by
      unfold patch
      rcases live_or ha with h0 | ⟨q, h0, hk⟩
      · rw [h0]
      · rw [h0]
        dsimp only
        unfold patchImpl
        rcases hq : (w.s.impls q).parent with _ | q'
        · rfl
        · have := (I.par q ⟨k, hk⟩ q').1 hq
          exact (serve I eq this.2 m cb ok false _ rfl).2.2.2.1
    rw [← this]; exact h
  | sync k ans cb ok =>
    left
    have : (sync w.s k ans cb ok).1.stops = w.s.stops := by
      unfold sync
      rcases live_or ha with h0 | ⟨q, h0, hk⟩
      · rw [h0]
      · rw [h0]
        dsimp only
        unfold syncImpl
        rcases ans with _ | m
        · rfl
        · dsimp only
          rcases hq : (w.s.impls q).parent with _ | q'
          · rfl
          · have := (I.par q ⟨k, hk⟩ q').1 hq
            cases ok with
            | false => rfl
            | true => exact (addChild_new w.s q' m cb true true (this.2.lt I)).1.stops
    rw [← this]; exact h
  | dup k cb =>
    left
    have : (newTransition w.s k cb).1.stops = w.s.stops := by
      unfold newTransition
      rcases live_or ha with h0 | ⟨q, h0, hk⟩
      · rw [h0]
      · rw [h0]
        dsimp only
        rw [newTransitionImpl_eq I ⟨k, hk⟩]
        rfl
    rw [← this]; exact h
  | dispose k =>
    have h' : p ∈ (dispose w.s k).stops := h
    show _ ∨ (((dispose w.s k).execs p).step ≠ _ ∧ ((dispose w.s k).execs p).step ≠ _)
    rcases live_or ha with h0 | ⟨q, h0, hk⟩
    · unfold dispose at h'; rw [h0] at h'; exact Or.inl h'
    · have D := dispose_spec I hk
      rw [D.stops] at h'
      by_cases hc : ended (w.arrived q) = false ∧ decide (holders w.s q = 1) = true
      · rw [if_pos hc, List.mem_append, List.mem_singleton] at h'
        rcases h' with h' | rfl
        · exact Or.inl h'
        · right
          rw [D.ex, if_pos ⟨rfl, hc⟩]
          unfold cancelExecution
          split_ifs with h1
          · rcases h1 with h1 | h1 <;> rw [h1] <;> simp
          · simp
      · rw [if_neg hc] at h'; exact Or.inl h'
  | report q r => exact Or.inl h
  | deliver q =>
    left
    have : (deliver w.s q).stops = w.s.stops := by
      unfold deliver
      split
      · rfl
      · unfold onValidate
        dsimp only
        split_ifs
        · rfl
        · rw [f1]; rfl
        · rw [f1]; rfl
      · unfold onExecute
        dsimp only
        split_ifs
        · rfl
        · rw [f2]; rfl
    rw [← this]; exact h
  | term => exact Or.inl h

/-- An executor that was told to stop is not at work any more, and makes no report from then on. -/
theorem stopped_quiet {eq : Nat → Nat → Bool} {w : World} (R : Reach eq w) {p : Nat} (hp : p ∈ w.s.stops) :
    ((w.s.execs p).step ≠ .validating ∧ (w.s.execs p).step ≠ .executing) ∧
      ∀ r : Rep, (reported (w.s.execs p) r).flight = (w.s.execs p).flight := by
  have main : ((w.s.execs p).step ≠ .validating ∧ (w.s.execs p).step ≠ .executing) := by
    induction R with
    | init => simp [St.empty] at hp
    | step e R0 hc ha ih =>
      rcases stops_after R0 e ha p hp with h | h
      · exact execs_after R0 e ha ((R0.inv.stops p).1 h).1 (ih h)
      · exact h
  refine ⟨main, fun r => ?_⟩
  have hx1 : ¬ ((w.s.execs p).step = .validating ∨ (w.s.execs p).step = .executing) := by
    rintro (h | h)
    · exact main.1 h
    · exact main.2 h
  cases r with
  | val e => unfold reported; dsimp only; rw [if_neg hx1]
  | exe e => unfold reported; dsimp only; rw [if_neg main.2]

end Verif.Trans
