import Verif.Trans.Dispose

/-!
# The transition layer keeps its promises
-/

namespace Verif.Trans

theorem equals_iff (eq : Nat → Nat → Bool) (m : Nat) (i : Impl) :
    equals eq m i = true ↔ ∃ k : Nat, i.mtr = some k ∧ eq m k = true := by
  unfold equals
  cases i.mtr <;> simp

theorem findEqual_spec {w : World} (I : Inv w) (eq : Nat → Nat → Bool) {p : Nat} (hp : Held w.s p) (m : Nat) :
    (∀ c : Nat, findEqual eq w.s m (w.s.impls p).children = some c →
      Fits eq w.s p m c ∧ ((∃ d : Nat, Fits eq w.s p m d ∧ (w.s.impls d).sync = true) → (w.s.impls c).sync = true)) ∧
    (findEqual eq w.s m (w.s.impls p).children = none → ∀ c : Nat, ¬ Fits eq w.s p m c) := by
  have hlt := hp.lt I
  have hk := (I.kids p hlt).2
  have hf : ∀ c : Nat, Fits eq w.s p m c ↔
      (c ∈ (w.s.impls p).children ∧ equals eq m (w.s.impls c) = true) := by
    intro c
    unfold Fits
    rw [hk c, equals_iff]
    constructor
    · rintro ⟨h1, h2, h3⟩; exact ⟨⟨hp, h1, h2⟩, h3⟩
    · rintro ⟨⟨_, h1, h2⟩, h3⟩; exact ⟨h1, h2, h3⟩
  unfold findEqual
  rcases h1 : (w.s.impls p).children.find? (fun c => (w.s.impls c).sync && equals eq m (w.s.impls c)) with _ | d
  · dsimp only
    have hno := List.find?_eq_none.1 h1
    constructor
    · intro c hc
      have hc1 := List.mem_of_find?_eq_some hc
      have hc2 := List.find?_some hc
      refine ⟨(hf c).2 ⟨hc1, hc2⟩, ?_⟩
      rintro ⟨d, hd, hs⟩
      have hd' := (hf d).1 hd
      exact absurd (by simp [hs, hd'.2]) (hno d hd'.1)
    · intro hc c hfit
      have := (hf c).1 hfit
      exact List.find?_eq_none.1 hc c this.1 this.2
  · dsimp only
    constructor
    · intro c hc
      simp only [Option.some.injEq] at hc
      subst hc
      have hc1 := List.mem_of_find?_eq_some h1
      have hc2 := List.find?_some h1
      simp only [Bool.and_eq_true] at hc2
      exact ⟨(hf d).2 ⟨hc1, hc2.2⟩, fun _ => hc2.1⟩
    · intro h; simp at h

/-- A request that is joined to an execution or starts one. -/
theorem serve {w : World} (I : Inv w) (eq : Nat → Nat → Bool) {p : Nat} (hp : Held w.s p) (m : Nat)
    (cb ok v : Bool) (P : St × Option Nat)
    (hP : P = match findEqual eq w.s m (w.s.impls p).children with
      | some c => newTransitionImpl w.s c cb
      | none => addChild w.s p m cb ok v false) :
    Inv ⟨P.1, w.arrived⟩ ∧ Served eq w.s p m cb ok P.1 P.2 ∧ P.1.crashed = w.s.crashed ∧
      P.1.stops = w.s.stops ∧ ∀ q : Nat, q < w.s.nImpl → P.1.execs q = w.s.execs q := by
  have hlt := hp.lt I
  obtain ⟨f1, f2⟩ := findEqual_spec I eq hp m
  rcases hfe : findEqual eq w.s m (w.s.impls p).children with _ | c
  · rw [hfe] at hP
    dsimp only at hP
    have hno := f2 hfe
    subst hP
    refine ⟨I.addChild hp m cb ok v false, ?_, ?_, ?_, ?_⟩
    · cases ok with
      | false => exact ⟨fun ⟨c, hc⟩ => absurd hc (hno c), fun _ h => by simp at h, fun _ _ => ⟨rfl, rfl⟩,
          fun h _ => ⟨rfl, rfl⟩⟩
      | true =>
        obtain ⟨N, r1, _, e1, _, e3, _⟩ := addChild_new w.s p m cb v false hlt
        refine ⟨fun ⟨c, hc⟩ => absurd hc (hno c), fun _ _ => ?_, fun _ h => by simp at h, fun h hh => ?_⟩
        · refine ⟨w.s.nHandle, r1, rfl, (N.holds _ _).2 (Or.inr ⟨rfl, rfl⟩), ?_, N.nI, ?_, ?_, ?_⟩
          · rw [N.hd, if_pos rfl]
          · rw [e1]
          · rw [e1]
          · rw [e1]
        · exact ⟨by rw [N.hd, if_neg (by omega)], by unfold told; rw [N.log]⟩
    · cases ok with
      | false => rfl
      | true => exact (addChild_new w.s p m cb v false hlt).2.2.1
    · cases ok with
      | false => rfl
      | true => exact (addChild_new w.s p m cb v false hlt).1.stops
    · intro q hq
      cases ok with
      | false => rfl
      | true => exact (addChild_new w.s p m cb v false hlt).2.2.2.2.2.2 q (by omega)
  · rw [hfe] at hP
    dsimp only at hP
    obtain ⟨hfit, hsync⟩ := f1 c hfe
    rw [newTransitionImpl_eq I hfit.1] at hP
    subst hP
    refine ⟨I.join hfit.1 cb, ?_, rfl, rfl, fun _ _ => rfl⟩
    refine ⟨fun _ => ?_, fun h => absurd hfit (h c), fun h => absurd hfit (h c), fun h hh => ?_⟩
    · refine ⟨w.s.nHandle, c, rfl, rfl, (holds_joined ..).2 (Or.inr ⟨rfl, rfl⟩), ?_, hfit, rfl, hsync⟩
      simp [joined]
    · dsimp only
      rw [told_joined I, if_neg (by omega)]
      refine ⟨?_, rfl⟩
      simp only [joined]
      rw [if_neg (by omega)]

theorem Inv.empty : Inv ⟨St.empty, fun _ => []⟩ where
  hti := by rintro h p ⟨h1, _⟩; simp [St.empty] at h1
  hof := by intro h h1; simp [St.empty] at h1
  cnt := by intro h h1; simp [St.empty] at h1
  mtr := by intro h h1; simp [St.empty] at h1
  madeLt := by intro h q h1; simp [St.empty] at h1
  par := by rintro p ⟨h, h1, _⟩; simp [St.empty] at h1
  kids := by intro h h1; simp [St.empty] at h1
  fresh := fun _ _ => rfl
  freshE := fun _ _ => rfl
  cbsE := by intro h h1; simp [St.empty] at h1
  cbsN := by intro h h1; simp [St.empty] at h1
  root := by intro h h1; simp [St.empty] at h1
  start := by intro h h1; simp [St.empty] at h1
  arr := by intro h h1; simp [St.empty] at h1
  arrv := by intro h h1; simp [St.empty] at h1
  cb := by intro h h1; simp [St.empty] at h1
  live := by rintro h p ⟨h1, _⟩; simp [St.empty] at h1
  pre := by intro h h1; simp [St.empty] at h1
  toldF := fun _ _ => rfl
  stops := by intro p; simp [St.empty]
  stopsN := by simp [St.empty]
  ex := by rintro p _ ⟨h, h1, _⟩; simp [St.empty] at h1

theorem Inv.crash {w : World} (I : Inv w) : Inv ⟨{ w.s with crashed := true }, w.arrived⟩ where
  hti := I.hti
  hof := I.hof
  cnt := I.cnt
  mtr := I.mtr
  madeLt := I.madeLt
  par := I.par
  kids := I.kids
  fresh := I.fresh
  freshE := I.freshE
  cbsE := I.cbsE
  cbsN := I.cbsN
  root := I.root
  start := I.start
  arr := I.arr
  arrv := I.arrv
  cb := I.cb
  live := I.live
  pre := I.pre
  toldF := I.toldF
  stops := I.stops
  stopsN := I.stopsN
  ex := I.ex

/-- A live handle, or a disposed one. -/
theorem live_or {s : St} {h : Nat} (hh : h < s.nHandle) :
    ((s.handles h).ti = none) ∨ ∃ p : Nat, (s.handles h).ti = some p ∧ Holds s h p := by
  rcases ht : (s.handles h).ti with _ | p
  · exact Or.inl rfl
  · exact Or.inr ⟨p, rfl, hh, ht⟩

theorem Inv.step {w : World} (I : Inv w) (eq : Nat → Nat → Bool) (e : Ev) (ha : Allowed w.s e) :
    Inv (step eq w e) := by
  cases e with
  | initial m => exact (I.initial m).2
  | transit h ans cb ok v =>
    show Inv ⟨(transit eq w.s h ans cb ok v).1, w.arrived⟩
    unfold transit
    rcases live_or ha with h0 | ⟨p, h0, hh⟩
    · rw [h0]; exact I
    · rw [h0]
      dsimp only
      unfold transitImpl
      rcases ans with _ | m
      · exact I
      · exact (serve I eq ⟨h, hh⟩ m cb ok v _ rfl).1
  | propose h ans cb ok =>
    show Inv ⟨(propose eq w.s h ans cb ok).1, w.arrived⟩
    unfold propose
    rcases live_or ha with h0 | ⟨p, h0, hh⟩
    · rw [h0]; exact I
    · rw [h0]
      dsimp only
      unfold proposeImpl
      rcases ans with _ | m
      · exact I
      · exact (serve I eq ⟨h, hh⟩ m cb ok true _ rfl).1
  | patch h m cb ok =>
    show Inv ⟨(patch eq w.s h m cb ok).1, w.arrived⟩
    unfold patch
    rcases live_or ha with h0 | ⟨p, h0, hh⟩
    · rw [h0]; exact I
    · rw [h0]
      dsimp only
      unfold patchImpl
      rcases hq : (w.s.impls p).parent with _ | q
      · exact I.crash
      · have := (I.par p ⟨h, hh⟩ q).1 hq
        exact (serve I eq this.2 m cb ok false _ rfl).1
  | sync h ans cb ok =>
    show Inv ⟨(sync w.s h ans cb ok).1, w.arrived⟩
    unfold sync
    rcases live_or ha with h0 | ⟨p, h0, hh⟩
    · rw [h0]; exact I
    · rw [h0]
      dsimp only
      unfold syncImpl
      rcases ans with _ | m
      · exact I
      · dsimp only
        rcases hq : (w.s.impls p).parent with _ | q
        · exact I.crash
        · have := (I.par p ⟨h, hh⟩ q).1 hq
          exact I.addChild this.2 m cb ok true true
  | dup h cb =>
    show Inv ⟨(newTransition w.s h cb).1, w.arrived⟩
    unfold newTransition
    rcases live_or ha with h0 | ⟨p, h0, hh⟩
    · rw [h0]; exact I
    · rw [h0]
      dsimp only
      rw [newTransitionImpl_eq I ⟨h, hh⟩]
      exact I.join ⟨h, hh⟩ cb
  | dispose h =>
    show Inv ⟨Verif.Trans.dispose w.s h, w.arrived⟩
    rcases live_or ha with h0 | ⟨p, h0, hh⟩
    · unfold Verif.Trans.dispose; rw [h0]; exact I
    · exact I.dispose hh
  | report p r => exact I.report ha
  | deliver p =>
    obtain ⟨a1, a2⟩ := ha
    rcases hf : (w.s.execs p).flight with _ | r
    · rw [hf] at a2; simp at a2
    · have := I.deliver a1 r hf
      unfold Verif.Trans.step
      dsimp only
      rw [hf]
      dsimp only
      split_ifs with hc
      · exact this.1 hc
      · exact this.2 hc
  | term => exact I.term

theorem Reach.inv {eq : Nat → Nat → Bool} {w : World} (R : Reach eq w) : Inv w := by
  induction R with
  | init => exact Inv.empty
  | step e _ _ ha ih => exact ih.step eq e ha

/-! ### The theorems -/

/-- The reference count of an execution is the number of the live handles on it, and its transition is there as long
as somebody holds it (so `mtransition()` of a live handle is never nil). -/
theorem holders_counted {eq : Nat → Nat → Bool} {w : World} (R : Reach eq w) {p : Nat} (hp : p < w.s.nImpl) :
    (w.s.impls p).nRef = (holders w.s p : Int) ∧ ((w.s.impls p).mtr ≠ none ↔ Held w.s p) := by
  have I := R.inv
  refine ⟨I.cnt p hp, ?_⟩
  rw [← I.mtr p hp]
  cases (w.s.impls p).mtr <;> simp

/-- A held execution knows the one it was made on, exactly as long as that one is held too; and an execution's children
are the held executions made on it, each once, if it is held itself. -/
theorem family {eq : Nat → Nat → Bool} {w : World} (R : Reach eq w) :
    (∀ p q : Nat, Held w.s p → ((w.s.impls p).parent = some q ↔ ((w.s.impls p).made = some q ∧ Held w.s q))) ∧
    ∀ q : Nat, q < w.s.nImpl → (w.s.impls q).children.Nodup ∧
      ∀ c : Nat, c ∈ (w.s.impls q).children ↔ (Held w.s q ∧ Held w.s c ∧ (w.s.impls c).made = some q) := by
  have I := R.inv
  exact ⟨fun p q hp => I.par p hp q, I.kids⟩

/-- What arrives from an execution: nothing yet; a report on the validation; and after a good one the result of the
execution. Nothing arrives twice, and nothing after the end. -/
theorem arrived_shape {eq : Nat → Nat → Bool} {w : World} (R : Reach eq w) (p : Nat) :
    w.arrived p = [] ∨ (∃ e : Err, w.arrived p = [.val e]) ∨ ∃ e : Err, w.arrived p = [.val none, .exe e] := by
  have I := R.inv
  by_cases hp : p < w.s.nImpl
  · rcases ended_cases I hp with ⟨_, _, h, _⟩ | ⟨_, _, h, _⟩ | ⟨x, _, _, h, _⟩ | ⟨x, _, _, h, _⟩
    · exact Or.inl h
    · exact Or.inr (Or.inl ⟨none, h⟩)
    · exact Or.inr (Or.inl ⟨some x, h⟩)
    · exact Or.inr (Or.inr ⟨x, h⟩)
  · exact Or.inl (I.fresh p (by omega))

/-- A live handle with a callback was told everything that arrived from its execution, once and in order, no matter when
it was made. A handle without callback was told nothing, and a disposed one a part from the start. -/
theorem told_all {eq : Nat → Nat → Bool} {w : World} (R : Reach eq w) :
    (∀ h p : Nat, Holds w.s h p → (w.s.handles h).wants = true → told w.s h = w.arrived p) ∧
    (∀ h : Nat, h < w.s.nHandle → (w.s.handles h).wants = false → told w.s h = []) ∧
    ∀ h : Nat, h < w.s.nHandle → told w.s h <+: w.arrived (w.s.handles h).of := by
  have I := R.inv
  refine ⟨fun h p hh hw => ?_, fun h hh hw => (I.pre h hh).2 hw, fun h hh => (I.pre h hh).1⟩
  have := I.live h p hh
  rw [hw] at this
  simpa using this

/-- An executor is told to stop exactly when the last handle on it is given up before it came to an end; and only
once. -/
theorem stopped_iff {eq : Nat → Nat → Bool} {w : World} (R : Reach eq w) :
    w.s.stops.Nodup ∧ ∀ p : Nat, p ∈ w.s.stops ↔
      (p < w.s.nImpl ∧ (w.s.impls p).made ≠ none ∧ ¬ Held w.s p ∧ ended (w.arrived p) = false) := by
  have I := R.inv
  refine ⟨I.stopsN, fun p => ?_⟩
  rw [I.stops p]
  constructor
  · rintro ⟨h1, h2, h3, h4⟩
    refine ⟨h1, ?_, h3, h4⟩
    have := (I.start p h1).1 h2
    intro hn; rw [hn] at this; simp at this
  · rintro ⟨h1, h2, h3, h4⟩
    refine ⟨h1, (I.start p h1).2 ?_, h3, h4⟩
    cases hm : (w.s.impls p).made with
    | none => exact absurd hm h2
    | some q => rfl

/-- No lost report: as long as the chain runs, the executor of a held execution that has not come to an end was not
told to stop, and it is at work or its report is on the way. -/
theorem report_owed {eq : Nat → Nat → Bool} {w : World} (R : Reach eq w) (hr : w.s.running = true) {p : Nat}
    (hp : Held w.s p) (hne : ended (w.arrived p) = false) :
    p ∉ w.s.stops ∧ ((w.s.execs p).flight ≠ none ∨ ((w.s.execs p).flight = none ∧ (w.s.execs p).pc < 2 ∧
      ((w.s.execs p).step = .executing ∨ ((w.s.execs p).step = .validating ∧ (w.s.execs p).pc = 0)))) := by
  have I := R.inv
  have hlt := hp.lt I
  have hcan : (w.s.impls p).canceler = true := by
    by_contra h
    have := (I.root p hlt (by simpa using h)).1
    rw [hne] at this; simp at this
  refine ⟨fun h => ((I.stops p).1 h).2.2.1 hp, ?_⟩
  have hx := I.ex p hr hp hcan
  unfold ExecOk at hx
  rcases hf : (w.s.execs p).flight with _ | r
  · right
    rw [hf] at hx
    rcases hx with ⟨h1, _, h2 | h2⟩ | ⟨h1, _, h2⟩ | ⟨_, h2⟩
    · exact ⟨rfl, by omega, Or.inr ⟨h2, h1⟩⟩
    · exact ⟨rfl, by omega, Or.inl h2⟩
    · exact ⟨rfl, by omega, Or.inl h2⟩
    · rw [hne] at h2; simp at h2
  · left; simp

/-- `transit` on a live handle: a held execution of an equal transition is shared (a sync one if there is one),
otherwise one new execution is started; nobody else notices. -/
theorem transit_served {eq : Nat → Nat → Bool} {w : World} (R : Reach eq w) {h p : Nat} (hh : Holds w.s h p)
    (m : Nat) (cb ok v : Bool) :
    Served eq w.s p m cb ok (transit eq w.s h (some m) cb ok v).1 (transit eq w.s h (some m) cb ok v).2 := by
  unfold transit
  rw [hh.2]
  exact (serve R.inv eq ⟨h, hh⟩ m cb ok v _ rfl).2.1

/-- The same for `propose`. -/
theorem propose_served {eq : Nat → Nat → Bool} {w : World} (R : Reach eq w) {h p : Nat} (hh : Holds w.s h p)
    (m : Nat) (cb ok : Bool) :
    Served eq w.s p m cb ok (propose eq w.s h (some m) cb ok).1 (propose eq w.s h (some m) cb ok).2 := by
  unfold propose
  rw [hh.2]
  exact (serve R.inv eq ⟨h, hh⟩ m cb ok true _ rfl).2.1

/-- The same for `patch`, among the executions made where the handle's own was made. -/
theorem patch_served {eq : Nat → Nat → Bool} {w : World} (R : Reach eq w) {h p q : Nat} (hh : Holds w.s h p)
    (hm : (w.s.impls p).made = some q) (hq : Held w.s q) (m : Nat) (cb ok : Bool) :
    Served eq w.s q m cb ok (patch eq w.s h m cb ok).1 (patch eq w.s h m cb ok).2 := by
  have I := R.inv
  unfold patch
  rw [hh.2]
  dsimp only
  unfold patchImpl
  rw [(I.par p ⟨h, hh⟩ q).2 ⟨hm, hq⟩]
  exact (serve I eq hq m cb ok false _ rfl).2.1

/-- `sync` starts a new sync execution where the handle's own was made. -/
theorem sync_served {eq : Nat → Nat → Bool} {w : World} (R : Reach eq w) {h p q : Nat} (hh : Holds w.s h p)
    (hm : (w.s.impls p).made = some q) (hq : Held w.s q) (m : Nat) (cb : Bool) :
    let P := sync w.s h (some m) cb true
    P.2 = some w.s.nHandle ∧ Holds P.1 w.s.nHandle w.s.nImpl ∧ (P.1.handles w.s.nHandle).wants = cb ∧
      P.1.nImpl = w.s.nImpl + 1 ∧ (P.1.impls w.s.nImpl).made = some q ∧ (P.1.impls w.s.nImpl).mtr = some m ∧
      (P.1.impls w.s.nImpl).sync = true ∧
      ∀ k < w.s.nHandle, P.1.handles k = w.s.handles k ∧ told P.1 k = told w.s k := by
  have I := R.inv
  have e : sync w.s h (some m) cb true = addChild w.s q m cb true true true := by
    unfold sync
    rw [hh.2]
    dsimp only
    unfold syncImpl
    rw [(I.par p ⟨h, hh⟩ q).2 ⟨hm, hq⟩]
  dsimp only
  rw [e]
  obtain ⟨N, r1, _, e1, _, e3, _⟩ := addChild_new w.s q m cb true true (hq.lt I)
  refine ⟨r1, (N.holds _ _).2 (Or.inr ⟨rfl, rfl⟩), ?_, N.nI, ?_, ?_, ?_, fun k hk => ?_⟩
  · rw [N.hd, if_pos rfl]
  · rw [e1]
  · rw [e1]
  · rw [e1]
  · exact ⟨by rw [N.hd, if_neg (by omega)], by unfold told; rw [N.log]⟩

/-- `newTransition` on a live handle gives a new handle on the same execution. -/
theorem dup_served {eq : Nat → Nat → Bool} {w : World} (R : Reach eq w) {h p : Nat} (hh : Holds w.s h p) (cb : Bool) :
    let P := newTransition w.s h cb
    P.2 = some w.s.nHandle ∧ Holds P.1 w.s.nHandle p ∧ (P.1.handles w.s.nHandle).wants = cb ∧
      P.1.nImpl = w.s.nImpl ∧ ∀ k < w.s.nHandle, P.1.handles k = w.s.handles k ∧ told P.1 k = told w.s k := by
  have I := R.inv
  have e : newTransition w.s h cb = (joined w.s p cb (w.arrived p), some w.s.nHandle) := by
    unfold newTransition
    rw [hh.2]
    exact newTransitionImpl_eq I ⟨h, hh⟩ cb
  dsimp only
  rw [e]
  refine ⟨rfl, (holds_joined ..).2 (Or.inr ⟨rfl, rfl⟩), by simp [joined], rfl, fun k hk => ⟨?_, ?_⟩⟩
  · simp only [joined]; rw [if_neg (by omega)]
  · dsimp only; rw [told_joined I, if_neg (by omega)]

/-- `dispose` gives up this handle and no other one. -/
theorem dispose_one {eq : Nat → Nat → Bool} {w : World} (R : Reach eq w) {h p : Nat} (hh : Holds w.s h p) :
    ∀ k q : Nat, Holds (dispose w.s h) k q ↔ (Holds w.s k q ∧ k ≠ h) := by
  intro k q
  have D := dispose_spec R.inv hh
  unfold Holds
  rw [D.hd, D.nH]
  by_cases e : k = h <;> simp [e]

/-- When the process crashes (a nil pointer): a live handle is asked for `patch` or `sync`, and nobody holds the
execution that its own was made on. -/
theorem crash_iff {eq : Nat → Nat → Bool} {w : World} (R : Reach eq w) (hc : w.s.crashed = false) (e : Ev)
    (ha : Allowed w.s e) :
    (step eq w e).s.crashed = true ↔
      ∃ h p : Nat, Holds w.s h p ∧ (∀ q : Nat, (w.s.impls p).made = some q → ¬ Held w.s q) ∧
        ((∃ (m : Nat) (cb ok : Bool), e = .patch h m cb ok) ∨
          ∃ (m : Nat) (cb ok : Bool), e = .sync h (some m) cb ok) := by
  have I := R.inv
  have no : ∀ {P : Prop}, (step eq w e).s.crashed = w.s.crashed → ¬ P → ((step eq w e).s.crashed = true ↔ P) := by
    intro P h hP
    rw [h, hc]; simp [hP]
  have orph : ∀ h p : Nat, Holds w.s h p → ((w.s.impls p).parent = none ↔
      ∀ q : Nat, (w.s.impls p).made = some q → ¬ Held w.s q) := by
    intro h p hh
    constructor
    · intro hn q hm hq
      have := (I.par p ⟨h, hh⟩ q).2 ⟨hm, hq⟩
      rw [hn] at this; simp at this
    · intro hall
      rcases hq : (w.s.impls p).parent with _ | q
      · rfl
      · have := (I.par p ⟨h, hh⟩ q).1 hq
        exact absurd this.2 (hall q this.1)
  cases e with
  | initial m => exact no rfl (by rintro ⟨h, p, _, _, ⟨m, cb, ok, h⟩ | ⟨m, cb, ok, h⟩⟩ <;> simp at h)
  | transit h ans cb ok v =>
    refine no ?_ (by rintro ⟨h, p, _, _, ⟨m, cb, ok, h⟩ | ⟨m, cb, ok, h⟩⟩ <;> simp at h)
    show (transit eq w.s h ans cb ok v).1.crashed = _
    unfold transit
    rcases live_or ha with h0 | ⟨p, h0, hh⟩
    · rw [h0]
    · rw [h0]
      dsimp only
      unfold transitImpl
      rcases ans with _ | m
      · rfl
      · exact (serve I eq ⟨h, hh⟩ m cb ok v _ rfl).2.2.1
  | propose h ans cb ok =>
    refine no ?_ (by rintro ⟨h, p, _, _, ⟨m, cb, ok, h⟩ | ⟨m, cb, ok, h⟩⟩ <;> simp at h)
    show (propose eq w.s h ans cb ok).1.crashed = _
    unfold propose
    rcases live_or ha with h0 | ⟨p, h0, hh⟩
    · rw [h0]
    · rw [h0]
      dsimp only
      unfold proposeImpl
      rcases ans with _ | m
      · rfl
      · exact (serve I eq ⟨h, hh⟩ m cb ok true _ rfl).2.2.1
  | patch h m cb ok =>
    have e : (step eq w (.patch h m cb ok)).s = (patch eq w.s h m cb ok).1 := rfl
    rw [e]
    unfold patch
    rcases live_or ha with h0 | ⟨p, h0, hh⟩
    · rw [h0]
      dsimp only
      rw [hc]
      constructor
      · intro h; simp at h
      · rintro ⟨h', p', hh', _, ⟨m', cb', ok', h1⟩ | ⟨m', cb', ok', h1⟩⟩
        · simp only [Ev.patch.injEq] at h1
          have := hh'.2
          rw [← h1.1, h0] at this; simp at this
        · simp at h1
    · rw [h0]
      dsimp only
      rcases hq : (w.s.impls p).parent with _ | q
      · have : (patchImpl eq w.s p m cb ok).1.crashed = true := by unfold patchImpl; rw [hq]
        rw [this]
        exact ⟨fun _ => ⟨h, p, hh, (orph h p hh).1 hq, Or.inl ⟨m, cb, ok, rfl⟩⟩, fun _ => rfl⟩
      · have hpq := (I.par p ⟨h, hh⟩ q).1 hq
        have : (patchImpl eq w.s p m cb ok).1.crashed = w.s.crashed := by
          unfold patchImpl
          rw [hq]
          exact (serve I eq hpq.2 m cb ok false _ rfl).2.2.1
        rw [this, hc]
        constructor
        · intro h; simp at h
        · rintro ⟨h', p', hh', hall, ⟨m', cb', ok', h1⟩ | ⟨m', cb', ok', h1⟩⟩
          · simp only [Ev.patch.injEq] at h1
            have h2 := hh'.2
            rw [← h1.1, h0] at h2
            simp only [Option.some.injEq] at h2
            subst h2
            exact absurd hpq.2 (hall q hpq.1)
          · simp at h1
  | sync h ans cb ok =>
    have e : (step eq w (.sync h ans cb ok)).s = (sync w.s h ans cb ok).1 := rfl
    rw [e]
    unfold sync
    rcases live_or ha with h0 | ⟨p, h0, hh⟩
    · rw [h0]
      dsimp only
      rw [hc]
      constructor
      · intro h; simp at h
      · rintro ⟨h', p', hh', _, ⟨m', cb', ok', h1⟩ | ⟨m', cb', ok', h1⟩⟩
        · simp at h1
        · simp only [Ev.sync.injEq] at h1
          have := hh'.2
          rw [← h1.1, h0] at this; simp at this
    · rw [h0]
      dsimp only
      unfold syncImpl
      rcases ans with _ | m
      · dsimp only
        rw [hc]
        constructor
        · intro h; simp at h
        · rintro ⟨h', p', hh', _, ⟨m', cb', ok', h1⟩ | ⟨m', cb', ok', h1⟩⟩
          · simp at h1
          · simp at h1
      · dsimp only
        rcases hq : (w.s.impls p).parent with _ | q
        · dsimp only
          exact ⟨fun _ => ⟨h, p, hh, (orph h p hh).1 hq, Or.inr ⟨m, cb, ok, rfl⟩⟩, fun _ => rfl⟩
        · dsimp only
          have hpq := (I.par p ⟨h, hh⟩ q).1 hq
          have : (addChild w.s q m cb ok true true).1.crashed = w.s.crashed := by
            cases ok with
            | false => rfl
            | true => exact (addChild_new w.s q m cb true true (hpq.2.lt I)).2.2.1
          rw [this, hc]
          constructor
          · intro h; simp at h
          · rintro ⟨h', p', hh', hall, ⟨m', cb', ok', h1⟩ | ⟨m', cb', ok', h1⟩⟩
            · simp at h1
            · simp only [Ev.sync.injEq] at h1
              have h2 := hh'.2
              rw [← h1.1, h0] at h2
              simp only [Option.some.injEq] at h2
              subst h2
              exact absurd hpq.2 (hall q hpq.1)
  | dup h cb =>
    refine no ?_ (by rintro ⟨h, p, _, _, ⟨m, cb, ok, h⟩ | ⟨m, cb, ok, h⟩⟩ <;> simp at h)
    show (newTransition w.s h cb).1.crashed = _
    unfold newTransition
    rcases live_or ha with h0 | ⟨p, h0, hh⟩
    · rw [h0]
    · rw [h0]
      dsimp only
      rw [newTransitionImpl_eq I ⟨h, hh⟩]
      rfl
  | dispose h =>
    refine no ?_ (by rintro ⟨h, p, _, _, ⟨m, cb, ok, h⟩ | ⟨m, cb, ok, h⟩⟩ <;> simp at h)
    show (dispose w.s h).crashed = _
    rcases live_or ha with h0 | ⟨p, h0, hh⟩
    · unfold dispose; rw [h0]
    · exact (dispose_spec I hh).crash
  | report p r => exact no rfl (by rintro ⟨h, p, _, _, ⟨m, cb, ok, h⟩ | ⟨m, cb, ok, h⟩⟩ <;> simp at h)
  | deliver p =>
    refine no ?_ (by rintro ⟨h, p, _, _, ⟨m, cb, ok, h⟩ | ⟨m, cb, ok, h⟩⟩ <;> simp at h)
    have f1 : ∀ (l : List Nat) (e : Err) (s : St), (l.foldl (fun s h => hOnValidate s h e) s).crashed = s.crashed := by
      intro l e
      induction l with
      | nil => intro s; rfl
      | cons a t ih => intro s; rw [List.foldl_cons, ih, hOnValidate_eq]; rfl
    have f2 : ∀ (l : List Nat) (e : Err) (s : St), (l.foldl (fun s h => hOnExecute s h e) s).crashed = s.crashed := by
      intro l e
      induction l with
      | nil => intro s; rfl
      | cons a t ih => intro s; rw [List.foldl_cons, ih, hOnExecute_eq]; rfl
    show (deliver w.s p).crashed = _
    unfold deliver
    split
    · rfl
    · unfold onValidate
      dsimp only
      split_ifs
      · rfl
      · rw [f1]; rfl
      · rw [f1]; rfl
    · unfold onExecute
      dsimp only
      split_ifs
      · rfl
      · rw [f2]; rfl
  | term => exact no rfl (by rintro ⟨h, p, _, _, ⟨m, cb, ok, h⟩ | ⟨m, cb, ok, h⟩⟩ <;> simp at h)

end Verif.Trans
