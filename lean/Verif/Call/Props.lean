import Verif.Call.Model

/-! # Calls between contracts: the loop with its stack gives the nested meaning of calls (C65) -/

namespace Verif.Call

variable {W E B : Type}

/-! ## Specification -/

/-- What is known while a contract is executed: the world now and at the start of the call, whether it is read-only, the steps, and what it and
the calls it made have emitted. -/
structure Loc (W E B : Type) where
  w : W
  before : W
  ro : Bool
  used : ℤ
  limit : Option ℤ
  ev : List E
  btp : List B

/-- The effect of a call. -/
structure Out (W E B : Type) where
  st : Status
  used : ℤ
  w : W
  ev : List E
  btp : List B

/-- The start of a call. -/
def Loc.fresh (w : W) (ro : Bool) (limit : Option ℤ) : Loc W E B := ⟨w, w, ro, 0, limit, [], []⟩

/-- Steps in use after `s` more. -/
def spend (used s : ℤ) : Option ℤ → ℤ
  | none => used + s
  | some l => min (used + s) l

/-- There were enough steps. -/
def enough (used s : ℤ) : Option ℤ → Bool
  | none => true
  | some l => used + s ≤ l

/-- The meaning of an act: in the read-only mode, nothing is written or emitted; a call that enters the read-only mode takes back what it did. -/
def actS : Act W E B → Loc W E B → Loc W E B × Bool
  | .write f, l => if l.ro then (l, false) else ({ l with w := f l.w }, true)
  | .event e, l => (if l.ro then l else { l with ev := l.ev ++ [e] }, true)
  | .btp b, l => (if l.ro then l else { l with btp := l.btp ++ [b] }, true)
  | .deduct s, l => ({ l with used := spend l.used s l.limit }, enough l.used s l.limit)
  | .readonly, l => (if l.ro then l else { l with w := l.before, ev := [], btp := [], ro := true }, true)

/-- The effect of a call that is not successful: none but the steps. -/
def Loc.failed (l : Loc W E B) (st : Status) (used : ℤ) : Out W E B := ⟨st, used, if l.ro then l.w else l.before, [], []⟩

/-- The effect of a call that is successful. -/
def Loc.succeeded (l : Loc W E B) (used : ℤ) : Out W E B := ⟨.ok, used, l.w, if l.ro then [] else l.ev, if l.ro then [] else l.btp⟩

/-- The meaning of a contract: calls are nested. -/
def eval (async : Bool) : Prog W E B → Loc W E B → Out W E B
  | .done st s, l =>
    let used := if async then spend l.used s l.limit else l.used
    if st = .ok then l.succeeded used else l.failed st used
  | .timeout, l => l.failed (.abort timeoutCode) l.used
  | .act a k, l =>
    let r := actS a l
    eval async (k ⟨r.1.w, r.2, r.1.ro, r.1.limit.map (· - r.1.used)⟩) r.1
  | .call async' p limit k, l =>
    let o := eval async' p (Loc.fresh l.w l.ro limit)
    if async && o.st.isAbort then l.failed o.st l.used
    else eval async (k o.st o.used) { l with w := o.w, ev := l.ev ++ o.ev, btp := l.btp ++ o.btp }

/-! ## Proofs -/

/-- A frame as the specification sees it. -/
structure Rel (f : Frame W E B) (l : Loc W E B) : Prop where
  ro : f.ro = l.ro
  used : f.used = l.used
  limit : f.limit = l.limit
  ev : f.ev = l.ev
  btp : f.btp = l.btp
  snap : l.ro = false → f.snap = some l.before

theorem deduct_used (f : Frame W E B) (s : ℤ) : (f.deduct s).1 = { f with used := spend f.used s f.limit } ∧
    (f.deduct s).2 = enough f.used s f.limit := by
  obtain ⟨ro, sn, us, li, ev, bt⟩ := f
  unfold Frame.deduct spend enough
  cases li with
  | none => exact ⟨rfl, rfl⟩
  | some l =>
    dsimp only
    by_cases hu : us + s > l
    · rw [if_pos hu]
      refine ⟨?_, by simpa using hu⟩
      rw [min_eq_right (by omega)]
    · rw [if_neg hu]
      refine ⟨?_, by simp; omega⟩
      rw [min_eq_left (by omega)]

theorem rel_act {f : Frame W E B} {l : Loc W E B} (h : Rel f l) (a : Act W E B) :
    (actM a l.w f).1 = (actS a l).1.w ∧ Rel (actM a l.w f).2.1 (actS a l).1 ∧ (actM a l.w f).2.2 = (actS a l).2 ∧
      (l.ro = true → (actS a l).1.ro = true) := by
  obtain ⟨ro, sn, us, li, ev, bt⟩ := f
  obtain ⟨w, be, ro', us', li', ev', bt'⟩ := l
  obtain ⟨h1, h2, h3, h4, h5, h6⟩ := h
  dsimp only at h1 h2 h3 h4 h5 h6
  subst h1 h2 h3 h4 h5
  cases a with
  | deduct s =>
    obtain ⟨d1, d2⟩ := deduct_used (⟨ro, sn, us, li, ev, bt⟩ : Frame W E B) s
    dsimp only [actM, actS]
    rw [d1, d2]
    exact ⟨rfl, ⟨rfl, rfl, rfl, rfl, rfl, h6⟩, rfl, fun h => h⟩
  | write g =>
    cases ro
    · exact ⟨rfl, ⟨rfl, rfl, rfl, rfl, rfl, h6⟩, rfl, fun h => h⟩
    · exact ⟨rfl, ⟨rfl, rfl, rfl, rfl, rfl, h6⟩, rfl, fun h => h⟩
  | event e =>
    cases ro
    · exact ⟨rfl, ⟨rfl, rfl, rfl, rfl, rfl, h6⟩, rfl, fun h => h⟩
    · exact ⟨rfl, ⟨rfl, rfl, rfl, rfl, rfl, h6⟩, rfl, fun h => h⟩
  | btp b =>
    cases ro
    · exact ⟨rfl, ⟨rfl, rfl, rfl, rfl, rfl, h6⟩, rfl, fun h => h⟩
    · exact ⟨rfl, ⟨rfl, rfl, rfl, rfl, rfl, h6⟩, rfl, fun h => h⟩
  | readonly =>
    cases ro
    · have := h6 rfl
      subst this
      exact ⟨rfl, ⟨rfl, rfl, rfl, rfl, rfl, fun h => by cases h⟩, rfl, fun h => by cases h⟩
    · exact ⟨rfl, ⟨rfl, rfl, rfl, rfl, rfl, h6⟩, rfl, fun h => h⟩

theorem rel_new {f : Frame W E B} {l : Loc W E B} (h : Rel f l) (limit : Option ℤ) :
    Rel (newFrame f l.w limit) (Loc.fresh (E := E) (B := B) l.w l.ro limit) := by
  refine ⟨h.ro, rfl, rfl, rfl, rfl, fun hr => ?_⟩
  have : f.ro = false := h.ro.trans hr
  simp [newFrame, this, Loc.fresh]

/-- The state after a call that was not aborted. -/
def back (o : Out W E B) (par : Item W E B) (rest : List (Item W E B)) : Cfg W E B :=
  ⟨o.w, { par.f with ev := par.f.ev ++ o.ev, btp := par.f.btp ++ o.btp }, par.async, par.k o.st o.used, rest⟩

theorem eval_ro (async : Bool) : ∀ (p : Prog W E B) (l : Loc W E B), l.ro = true → (eval async p l).w = l.w ∧ (eval async p l).ev = [] ∧
    (eval async p l).btp = [] := by
  intro p
  induction p generalizing async with
  | done st s =>
    intro l hr
    simp only [eval]
    by_cases h : st = .ok
    · rw [if_pos h]; simp [Loc.succeeded, hr]
    · rw [if_neg h]; simp [Loc.failed, hr]
  | timeout => intro l hr; simp [eval, Loc.failed, hr]
  | act a k ih =>
    intro l hr
    simp only [eval]
    have h1 : (actS a l).1.ro = true ∧ (actS a l).1.w = l.w := by
      cases a <;> simp [actS, hr]
    obtain ⟨a1, a2, a3⟩ := ih ⟨(actS a l).1.w, (actS a l).2, (actS a l).1.ro, (actS a l).1.limit.map (· - (actS a l).1.used)⟩ async
      (actS a l).1 h1.1
    exact ⟨a1.trans h1.2, a2, a3⟩
  | call async' p limit k ihp ihk =>
    intro l hr
    simp only [eval]
    obtain ⟨b1, _, _⟩ := ihp async' (Loc.fresh l.w l.ro limit) hr
    split_ifs with h
    · simp [Loc.failed, hr]
    · obtain ⟨a1, a2, a3⟩ := ihk (eval async' p (Loc.fresh l.w l.ro limit)).st (eval async' p (Loc.fresh l.w l.ro limit)).used async
        { l with w := (eval async' p (Loc.fresh l.w l.ro limit)).w, ev := l.ev ++ (eval async' p (Loc.fresh l.w l.ro limit)).ev,
                 btp := l.btp ++ (eval async' p (Loc.fresh l.w l.ro limit)).btp } hr
      exact ⟨a1.trans b1, a2, a3⟩

theorem pop_back {f : Frame W E B} {l : Loc W E B} (h : Rel f l) (st : Status) (par : Item W E B) (rest : List (Item W E B)) :
    pop st l.w f par rest = back (if st = .ok then l.succeeded f.used else l.failed st f.used) par rest := by
  obtain ⟨h1, h2, h3, h4, h5, h6⟩ := h
  unfold pop back
  cases hr : l.ro
  · rw [h1, hr, if_neg (by decide)]
    by_cases hs : st = .ok
    · subst hs
      rw [if_pos rfl, if_pos rfl]
      simp [Loc.succeeded, Frame.apply, hr, h4, h5]
    · rw [if_neg hs, if_neg hs]
      simp [Loc.failed, hr, h6 hr]
  · rw [h1, hr, if_pos rfl]
    by_cases hs : st = .ok
    · subst hs
      rw [if_pos rfl]
      simp [Loc.succeeded, hr]
    · rw [if_neg hs]
      simp [Loc.failed, hr]

theorem Rel.deducted {f : Frame W E B} {l : Loc W E B} (h : Rel f l) (s : ℤ) :
    Rel (f.deduct s).1 { l with used := spend l.used s l.limit } := by
  rw [(deduct_used f s).1, h.used, h.limit]
  exact ⟨h.ro, rfl, by simp, h.ev, h.btp, h.snap⟩

/-- A frame that is cleaned up. -/
structure Gone (f : Frame W E B) (w : W) (l : Loc W E B) (o : Out W E B) : Prop where
  used : f.used = o.used
  ro : f.ro = true → w = o.w
  snap : f.ro = false → f.snap = some o.w
  mono : l.ro = true → f.ro = true
  ev : o.ev = []
  btp : o.btp = []

theorem gone_failed {f : Frame W E B} {l l' : Loc W E B} (h : Rel f l') (hm : l.ro = true → l'.ro = true) (st : Status) :
    Gone f l'.w l (l'.failed st f.used) := by
  refine ⟨rfl, fun hr => ?_, fun hr => ?_, fun hr => h.ro.trans (hm hr), rfl, rfl⟩
  · rw [h.ro] at hr; simp [Loc.failed, hr]
  · rw [h.ro] at hr; simp [Loc.failed, hr, h.snap hr]

theorem iterate_trans {α : Type} {f : α → α} {a b c : α} (h1 : ∃ n, f^[n] a = b) (h2 : ∃ n, f^[n] b = c) : ∃ n, f^[n] a = c := by
  obtain ⟨n, rfl⟩ := h1
  obtain ⟨m, rfl⟩ := h2
  exact ⟨m + n, Function.iterate_add_apply f m n a⟩

/-- What the machine does with a program. -/
def Does (async : Bool) (p : Prog W E B) : Prop :=
  ∀ (l : Loc W E B) (f : Frame W E B) (par : Item W E B) (rest : List (Item W E B)), Rel f l →
    ((eval async p l).st.isAbort = false → ∃ n, step^[n] ⟨l.w, f, async, p, par :: rest⟩ = back (eval async p l) par rest) ∧
    ((eval async p l).st.isAbort = true → ∃ w f', Gone f' w l (eval async p l) ∧
      ∃ n, step^[n] ⟨l.w, f, async, p, par :: rest⟩ = cleanUp (eval async p l).st w f' par rest)

/-- Cleaning up at a synchronous frame. -/
theorem cleanUp_sync {f : Frame W E B} {w : W} {l : Loc W E B} {o : Out W E B} (h : Gone f w l o) {par : Item W E B} (hp : par.async = false)
    (rest : List (Item W E B)) : cleanUp o.st w f par rest = back o par rest := by
  have hw : (if f.ro then w else f.snap.getD w) = o.w := by
    cases hr : f.ro
    · simp [h.snap hr]
    · simp [h.ro hr]
  cases rest with
  | nil => simp [cleanUp, back, hw, h.used, h.ev, h.btp]
  | cons a r => simp [cleanUp, back, hw, h.used, h.ev, h.btp, hp]

theorem cleanUp_async {f : Frame W E B} {w : W} {st : Status} {par par' : Item W E B} (hp : par.async = true) (rest : List (Item W E B)) :
    cleanUp st w f par (par' :: rest) = cleanUp st w par.f par' rest := by
  rw [cleanUp, if_pos hp]

theorem does (async : Bool) (p : Prog W E B) : Does async p := by
  induction p generalizing async with
  | done st s =>
    intro l f par rest h
    have hs : step ⟨l.w, f, async, .done st s, par :: rest⟩ = finish st s ⟨l.w, f, async, .done st s, par :: rest⟩ par rest := rfl
    have key : ∃ l', Rel (if async then (f.deduct s).1 else f) l' ∧ l'.w = l.w ∧ l'.ro = l.ro ∧
        eval async (.done st s) l = (if st = .ok then l'.succeeded (if async then (f.deduct s).1 else f).used
          else l'.failed st (if async then (f.deduct s).1 else f).used) := by
      cases async
      · exact ⟨l, h, rfl, rfl, by simp [eval, h.used]⟩
      · refine ⟨_, h.deducted s, rfl, rfl, ?_⟩
        simp [eval, (h.deducted s).used, Loc.succeeded, Loc.failed]
    obtain ⟨l', r1, r2, r3, r4⟩ := key
    have hst : (eval async (.done st s) l).st = st := by
      rw [r4]; by_cases e : st = .ok
      · rw [if_pos e, e]; rfl
      · rw [if_neg e]; rfl
    constructor
    · intro ha
      refine ⟨1, ?_⟩
      rw [Function.iterate_one, hs]
      unfold finish
      rw [hst] at ha
      dsimp only
      rw [ha, if_neg (by decide), ← r2, pop_back r1, r4]
    · intro ha
      rw [hst] at ha
      have hne : st ≠ .ok := by rintro rfl; cases ha
      rw [if_neg hne] at r4
      refine ⟨l.w, if async then (f.deduct s).1 else f, ?_, 1, ?_⟩
      · rw [r4, ← r2]; exact gone_failed r1 (fun hr => by rw [r3]; exact hr) st
      · rw [Function.iterate_one, hs, hst]
        unfold finish
        dsimp only
        rw [if_pos ha]
  | timeout =>
    intro l f par rest h
    refine ⟨fun ha => (by cases ha), fun _ => ⟨l.w, f, ?_, 1, rfl⟩⟩
    have := gone_failed (l := l) h (fun hr => hr) (.abort timeoutCode)
    rw [h.used] at this
    exact this
  | act a k ih =>
    intro l f par rest h
    obtain ⟨a1, a2, a3, a4⟩ := rel_act h a
    have hs : step ⟨l.w, f, async, .act a k, par :: rest⟩ =
        ⟨(actS a l).1.w, (actM a l.w f).2.1, async, k ⟨(actS a l).1.w, (actS a l).2, (actS a l).1.ro, (actS a l).1.limit.map (· - (actS a l).1.used)⟩,
          par :: rest⟩ := by
      simp only [step, a1, a3, a2.ro, Frame.avail, a2.limit, a2.used]
    obtain ⟨i1, i2⟩ := ih ⟨(actS a l).1.w, (actS a l).2, (actS a l).1.ro, (actS a l).1.limit.map (· - (actS a l).1.used)⟩ async (actS a l).1
      (actM a l.w f).2.1 par rest a2
    have he : eval async (.act a k) l = eval async (k ⟨(actS a l).1.w, (actS a l).2, (actS a l).1.ro,
        (actS a l).1.limit.map (· - (actS a l).1.used)⟩) (actS a l).1 := by simp only [eval]
    rw [he]
    constructor
    · intro ha
      exact iterate_trans ⟨1, by rw [Function.iterate_one, hs]⟩ (i1 ha)
    · intro ha
      obtain ⟨w, f', hg, hn⟩ := i2 ha
      exact ⟨w, f', ⟨hg.used, hg.ro, hg.snap, fun hr => hg.mono (a4 hr), hg.ev, hg.btp⟩, iterate_trans ⟨1, by rw [Function.iterate_one, hs]⟩ hn⟩
  | call async' p limit k ihp ihk =>
    intro l f par rest h
    have hs : step ⟨l.w, f, async, .call async' p limit k, par :: rest⟩ =
        ⟨l.w, newFrame f l.w limit, async', p, ⟨f, async, k⟩ :: par :: rest⟩ := rfl
    obtain ⟨p1, p2⟩ := ihp async' (Loc.fresh l.w l.ro limit) (newFrame f l.w limit) ⟨f, async, k⟩ (par :: rest) (rel_new h limit)
    have hro := eval_ro async' p (Loc.fresh l.w l.ro limit)
    generalize ho : eval async' p (Loc.fresh l.w l.ro limit) = o at p1 p2 hro
    have hrel : Rel { f with ev := f.ev ++ o.ev, btp := f.btp ++ o.btp }
        { l with w := o.w, ev := l.ev ++ o.ev, btp := l.btp ++ o.btp } :=
      ⟨h.ro, h.used, h.limit, by dsimp only; rw [h.ev], by dsimp only; rw [h.btp], h.snap⟩
    obtain ⟨k1, k2⟩ := ihk o.st o.used async _ _ par rest hrel
    have hcont : (async && o.st.isAbort) = false → ∃ n, step^[n] ⟨l.w, f, async, .call async' p limit k, par :: rest⟩ =
        ⟨o.w, { f with ev := f.ev ++ o.ev, btp := f.btp ++ o.btp }, async, k o.st o.used, par :: rest⟩ := by
      intro hc
      refine iterate_trans ⟨1, by rw [Function.iterate_one, hs]⟩ ?_
      cases ha : o.st.isAbort with
      | false => exact p1 ha
      | true =>
        obtain ⟨w, f', hg, hn⟩ := p2 ha
        have hsync : async = false := by simpa [ha] using hc
        rw [cleanUp_sync hg (by exact hsync)] at hn
        exact hn
    have he : eval async (.call async' p limit k) l = if (async && o.st.isAbort) = true then l.failed o.st l.used
        else eval async (k o.st o.used) { l with w := o.w, ev := l.ev ++ o.ev, btp := l.btp ++ o.btp } := by
      simp only [eval, ho]
    rw [he]
    by_cases hc : (async && o.st.isAbort) = true
    · rw [if_pos hc]
      rw [Bool.and_eq_true] at hc
      refine ⟨fun ha => ?_, fun _ => ?_⟩
      · have : o.st.isAbort = false := ha
        rw [this] at hc; cases hc.2
      · obtain ⟨w, f', hg, hn⟩ := p2 hc.2
        rw [cleanUp_async (by exact hc.1)] at hn
        refine ⟨w, f, ?_, iterate_trans ⟨1, (Function.iterate_one step ▸ hs)⟩ hn⟩
        refine ⟨h.used, fun hr => ?_, fun hr => ?_, fun hr => h.ro.trans hr, rfl, rfl⟩
        · have hr' : l.ro = true := h.ro.symm.trans hr
          rw [hg.ro (hg.mono hr')]
          simp only [Loc.failed, hr', if_pos]
          exact (hro hr').1
        · have hr' : l.ro = false := h.ro.symm.trans hr
          simp [Loc.failed, hr', h.snap hr']
    · rw [if_neg hc]
      have hc' : (async && o.st.isAbort) = false := by simpa using hc
      refine ⟨fun ha => iterate_trans (hcont hc') (k1 ha), fun ha => ?_⟩
      obtain ⟨w, f', hg, hn⟩ := k2 ha
      exact ⟨w, f', ⟨hg.used, hg.ro, hg.snap, hg.mono, hg.ev, hg.btp⟩, iterate_trans (hcont hc') hn⟩

/-- C65: `Call` with its loop and its stack of frames returns, and it has the effect of the nested meaning of the contract: its status, the steps it used,
the world, and the events and messages that are added to those of the base frame. -/
theorem C65_calls (w : W) (base : Frame W E B) (async : Bool) (p : Prog W E B) (limit : Option ℤ) :
    let o := eval async p (Loc.fresh w base.ro limit)
    ∃ n, step^[n] (start w base async p limit) =
      ⟨o.w, { base with ev := base.ev ++ o.ev, btp := base.btp ++ o.btp }, false, .done o.st o.used, []⟩ := by
  intro o
  have hrel : Rel (newFrame base w limit) (Loc.fresh (E := E) (B := B) w base.ro limit) := by
    refine ⟨rfl, rfl, rfl, rfl, rfl, fun hr => ?_⟩
    have : base.ro = false := hr
    simp [newFrame, this, Loc.fresh]
  obtain ⟨h1, h2⟩ := does async p (Loc.fresh w base.ro limit) (newFrame base w limit) ⟨base, false, .done⟩ [] hrel
  cases ha : o.st.isAbort with
  | false => exact h1 ha
  | true =>
    obtain ⟨w', f', hg, hn⟩ := h2 ha
    rw [cleanUp_sync hg rfl] at hn
    exact hn

theorem eval_fail (async : Bool) : ∀ (p : Prog W E B) (l : Loc W E B), (l.ro = true → l.w = l.before) → (eval async p l).st ≠ .ok →
    (eval async p l).w = l.before ∧ (eval async p l).ev = [] ∧ (eval async p l).btp = [] := by
  have hf : ∀ (l : Loc W E B) st u, (l.ro = true → l.w = l.before) → (l.failed st u).w = l.before := by
    intro l st u h
    cases hr : l.ro
    · simp [Loc.failed, hr]
    · simp [Loc.failed, hr, h hr]
  intro p
  induction p generalizing async with
  | done st s =>
    intro l hi h
    simp only [eval] at h ⊢
    by_cases e : st = .ok
    · rw [if_pos e] at h; exact absurd rfl h
    · rw [if_neg e]; exact ⟨hf l _ _ hi, rfl, rfl⟩
  | timeout => intro l hi _; exact ⟨hf l _ _ hi, rfl, rfl⟩
  | act a k ih =>
    intro l hi h
    have h1 : ((actS a l).1.ro = true → (actS a l).1.w = (actS a l).1.before) ∧ (actS a l).1.before = l.before := by
      cases a <;> simp only [actS] <;> cases hr : l.ro <;> simp_all
    simp only [eval] at h ⊢
    obtain ⟨a1, a2⟩ := ih _ async (actS a l).1 h1.1 h
    exact ⟨a1.trans h1.2, a2⟩
  | call async' p limit k ihp ihk =>
    intro l hi h
    simp only [eval] at h ⊢
    split_ifs at h ⊢ with hc
    · exact ⟨hf l _ _ hi, rfl, rfl⟩
    · exact ihk _ _ async _ (fun hr => ((eval_ro async' p (Loc.fresh l.w l.ro limit) hr).1).trans (hi hr)) h

/-- C65: a call that does not succeed changes nothing and emits nothing, whatever it did and whatever the calls it made did. -/
theorem C65_failed (async : Bool) (p : Prog W E B) (w : W) (ro : Bool) (limit : Option ℤ)
    (h : (eval async p (Loc.fresh w ro limit)).st ≠ .ok) :
    (eval async p (Loc.fresh w ro limit)).w = w ∧ (eval async p (Loc.fresh w ro limit)).ev = [] ∧
      (eval async p (Loc.fresh w ro limit)).btp = [] :=
  eval_fail async p (Loc.fresh w ro limit) (fun _ => rfl) h

/-- C65: nor does a call in the read-only mode, even if it succeeds. -/
theorem C65_readonly (async : Bool) (p : Prog W E B) (w : W) (limit : Option ℤ) :
    (eval async p (Loc.fresh w true limit)).w = w ∧ (eval async p (Loc.fresh w true limit)).ev = [] ∧
      (eval async p (Loc.fresh w true limit)).btp = [] :=
  eval_ro async p (Loc.fresh w true limit) rfl

/-- C65: nor one that enters it. -/
theorem C65_enters_readonly (async : Bool) (k : Obs W → Prog W E B) (w : W) (ro : Bool) (limit : Option ℤ) :
    (eval async (.act .readonly k) (Loc.fresh w ro limit)).w = w ∧ (eval async (.act .readonly k) (Loc.fresh w ro limit)).ev = [] ∧
      (eval async (.act .readonly k) (Loc.fresh w ro limit)).btp = [] := by
  simp only [eval]
  cases ro
  · exact eval_ro async _ _ rfl
  · exact eval_ro async _ _ rfl

/-- C65: a call never uses more steps than its limit. -/
theorem C65_steps (async : Bool) (p : Prog W E B) (w : W) (ro : Bool) (limit : ℤ) (hl : 0 ≤ limit) :
    (eval async p (Loc.fresh w ro (some limit))).used ≤ limit := by
  have hs : ∀ u s : ℤ, spend u s (some limit) ≤ limit := fun u s => min_le_right _ _
  have key : ∀ (q : Prog W E B) (async : Bool) (l : Loc W E B), l.limit = some limit → l.used ≤ limit → (eval async q l).used ≤ limit := by
    intro q
    induction q with
    | done st s =>
      intro async l h1 h2
      simp only [eval]
      have : (if async = true then spend l.used s l.limit else l.used) ≤ limit := by
        cases async
        · exact h2
        · rw [h1]; exact hs _ _
      by_cases e : st = .ok
      · rw [if_pos e]; exact this
      · rw [if_neg e]; exact this
    | timeout => intro async l h1 h2; exact h2
    | act a k ih =>
      intro async l h1 h2
      simp only [eval]
      apply ih
      · cases a <;> simp only [actS] <;> (try split_ifs) <;> exact h1
      · cases a <;> simp only [actS] <;> (try split_ifs) <;> first | exact h2 | (rw [h1]; exact hs _ _)
    | call async' p lim k _ ihk =>
      intro async l h1 h2
      simp only [eval]
      split_ifs
      · exact h2
      · exact ihk _ _ async _ h1 h2
  exact key p async _ rfl hl

/-! ## Concrete cases -/

/-- Adds to the world, emits and ends. -/
def exLeaf (n : ℕ) (st : Status) : Prog ℕ ℕ ℕ := .act (.write (· + n)) fun _ => .act (.event n) fun _ => .done st 3

/-- Calls one that fails and one that succeeds through a synchronous one. -/
def exProg : Prog ℕ ℕ ℕ :=
  .act (.event 1) fun _ => .call true (exLeaf 10 (.fail 4)) (some 5) fun _ u1 =>
    .call false (.call true (exLeaf 100 .ok) (some 2) fun st u => .act (.deduct u) fun _ => .done st 0) (some 7) fun _ u2 =>
      .act (.event (u1 + u2).toNat) fun o => .act (.write (· + o.w)) fun _ => .done .ok (u1 + u2 + 1)

example : eval true exProg (Loc.fresh 1000 false (some 50)) = ⟨.ok, 6, 2200, [1, 100, 5], []⟩ := by rfl
example : eval true exProg (Loc.fresh 1000 true (some 50)) = ⟨.ok, 6, 1000, [], []⟩ := by rfl

/-- A timeout far down: all of the innermost pending `Call` is gone, the synchronous frame above it goes on. -/
def exTimeout : Prog ℕ ℕ ℕ :=
  .act (.write (· + 1)) fun _ => .call true (.act (.write (· + 10)) fun _ => .call true (.act (.write (· + 100)) fun _ => .timeout) none
    fun _ _ => .done .ok 0) none fun _ _ => .done .ok 0

example : eval false exTimeout (Loc.fresh 0 false none) = ⟨.ok, 0, 1, [], []⟩ := by rfl
example : eval true exTimeout (Loc.fresh 0 false none) = ⟨.abort timeoutCode, 0, 0, [], []⟩ := by rfl

end Verif.Call
