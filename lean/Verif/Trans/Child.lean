import Verif.Trans.Grow

/-!
# New executions, and the steps of the executor
-/

namespace Verif.Trans

theorem Held.lt {w : World} (I : Inv w) {p : Nat} (hp : Held w.s p) : p < w.s.nImpl := by
  obtain ⟨h, hh⟩ := hp; exact (I.hti h p hh).1

/-- Facts shared by the two operations that make a new execution with its first handle. -/
structure NewExec (s s' : St) (cb : Bool) : Prop where
  nI : s'.nImpl = s.nImpl + 1
  nH : s'.nHandle = s.nHandle + 1
  hd : ∀ k : Nat, s'.handles k = if k = s.nHandle then ⟨some s.nImpl, cb, s.nImpl, cb⟩ else s.handles k
  log : s'.log = s.log
  stops : s'.stops = s.stops
  run : s'.running = s.running

theorem NewExec.holds {s s' : St} {cb : Bool} (N : NewExec s s' cb) (h p : Nat) :
    Holds s' h p ↔ (Holds s h p ∨ (h = s.nHandle ∧ p = s.nImpl)) := by
  unfold Holds
  rw [N.hd, N.nH]
  by_cases hh : h = s.nHandle
  · subst hh
    simp [eq_comm]
  · simp only [if_neg hh]
    constructor
    · rintro ⟨h1, h2⟩; exact Or.inl ⟨by omega, h2⟩
    · rintro (⟨h1, h2⟩ | ⟨h1, _⟩)
      · exact ⟨by omega, h2⟩
      · exact absurd h1 hh

theorem NewExec.held {s s' : St} {cb : Bool} (N : NewExec s s' cb) (p : Nat) :
    Held s' p ↔ (Held s p ∨ p = s.nImpl) := by
  constructor
  · rintro ⟨h, hh⟩
    rcases (N.holds h p).1 hh with hh | ⟨_, e⟩
    · exact Or.inl ⟨h, hh⟩
    · exact Or.inr e
  · rintro (⟨h, hh⟩ | e)
    · exact ⟨h, (N.holds h p).2 (Or.inl hh)⟩
    · exact ⟨s.nHandle, (N.holds _ p).2 (Or.inr ⟨rfl, e⟩)⟩

theorem NewExec.holders {s s' : St} {cb : Bool} (N : NewExec s s' cb) (p : Nat) :
    holders s' p = holders s p + if p = s.nImpl then 1 else 0 := by
  have := holders_succ s s'.handles p (fun k hk => by rw [N.hd, if_neg (by omega)])
  unfold Verif.Trans.holders at this ⊢
  rw [N.nH, this, N.hd, if_pos rfl]
  by_cases h : p = s.nImpl
  · subst h; simp
  · simp [h, Ne.symm h]

theorem holders_zero {w : World} (I : Inv w) {p : Nat} (hp : w.s.nImpl ≤ p) : holders w.s p = 0 := by
  by_contra h
  have := (holders_pos w.s p).1 (by omega)
  have := this.lt I
  omega

/-- What a new execution does to the invariant, whatever it is made on. -/
theorem Inv.grow {w : World} (I : Inv w) {s' : St} {cb : Bool} (A' : Nat → List Rep) (N : NewExec w.s s' cb)
    (hA : ∀ q : Nat, q ≠ w.s.nImpl → A' q = w.arrived q)
    (himp : ∀ q : Nat, q < w.s.nImpl → ∃ l, s'.impls q = { w.s.impls q with children := l })
    (hex : ∀ q : Nat, q ≠ w.s.nImpl → s'.execs q = w.s.execs q)
    (hkids : ∀ q : Nat, q < w.s.nImpl → (s'.impls q).children.Nodup ∧ ∀ c : Nat, c ∈ (s'.impls q).children ↔
      (c ∈ (w.s.impls q).children ∨ (c = w.s.nImpl ∧ (s'.impls c).made = some q)))
    (hmade : ∀ q : Nat, (s'.impls w.s.nImpl).made = some q → Held w.s q)
    (n1 : (s'.impls w.s.nImpl).nRef = 1) (n2 : (s'.impls w.s.nImpl).mtr.isSome = true)
    (n3 : (s'.impls w.s.nImpl).parent = (s'.impls w.s.nImpl).made) (n4 : (s'.impls w.s.nImpl).children = [])
    (n5 : (s'.impls w.s.nImpl).cbs = if ended (A' w.s.nImpl) then [] else [w.s.nHandle])
    (n6 : (s'.impls w.s.nImpl).canceler = false →
      ended (A' w.s.nImpl) = true ∧ (s'.execs w.s.nImpl).flight = none)
    (n7 : (s'.impls w.s.nImpl).canceler = true ↔ (s'.impls w.s.nImpl).made.isSome = true)
    (n8 : A' w.s.nImpl = (s'.impls w.s.nImpl).valErr.toList.map Rep.val ++
      (s'.impls w.s.nImpl).exeErr.toList.map Rep.exe)
    (n9 : (s'.impls w.s.nImpl).exeErr.isSome = true → (s'.impls w.s.nImpl).valErr = some none)
    (n10 : (s'.impls w.s.nImpl).canceler = true → ExecOk (A' w.s.nImpl) (s'.execs w.s.nImpl))
    (n11 : cb = true → A' w.s.nImpl = []) :
    Inv ⟨s', A'⟩ := by
  have hA1 : ∀ q : Nat, q < w.s.nImpl → A' q = w.arrived q := fun q hq => hA q (by omega)
  have HN := N.holds
  have HD := N.held
  have hdo : ∀ k : Nat, k < w.s.nHandle → s'.handles k = w.s.handles k := fun k hk => by
    rw [N.hd, if_neg (by omega)]
  have hdn : s'.handles w.s.nHandle = ⟨some w.s.nImpl, cb, w.s.nImpl, cb⟩ := by rw [N.hd, if_pos rfl]
  have td : ∀ h : Nat, told s' h = told w.s h := fun h => by unfold told; rw [N.log]
  have HO : ∀ p : Nat, p < w.s.nImpl → (Held s' p ↔ Held w.s p) := fun p hp => by
    rw [HD]
    constructor
    · rintro (h | h)
      · exact h
      · omega
    · exact Or.inl
  have notH : ¬ Held w.s w.s.nImpl := fun h => absurd (h.lt I) (by omega)
  have i0 : ∀ (β : Type) (f : Impl → β), (∀ (i : Impl) (l : List Nat), f { i with children := l } = f i) →
      ∀ q : Nat, q < w.s.nImpl → f (s'.impls q) = f (w.s.impls q) := by
    intro β f hf q hq
    obtain ⟨l, hl⟩ := himp q hq
    rw [hl]; exact hf _ _
  have f1 := i0 _ Impl.mtr (fun _ _ => rfl)
  have f2 := i0 _ Impl.made (fun _ _ => rfl)
  have f3 := i0 _ Impl.parent (fun _ _ => rfl)
  have f4 := i0 _ Impl.cbs (fun _ _ => rfl)
  have f5 := i0 _ Impl.canceler (fun _ _ => rfl)
  have f6 := i0 _ Impl.valErr (fun _ _ => rfl)
  have f7 := i0 _ Impl.exeErr (fun _ _ => rfl)
  have f8 := i0 _ Impl.nRef (fun _ _ => rfl)
  have heldlt : ∀ p : Nat, Held w.s p → p < w.s.nImpl := fun p hp => hp.lt I
  constructor
  all_goals dsimp only
  case hti =>
    intro h p hp
    rw [N.nI]
    rcases (HN h p).1 hp with hh | ⟨rfl, rfl⟩
    · have := I.hti h p hh
      rw [hdo h hh.1]; exact ⟨by omega, this.2⟩
    · rw [hdn]; exact ⟨by omega, rfl⟩
  case hof =>
    intro h hh
    rw [N.nH] at hh
    rw [N.nI]
    by_cases e : h = w.s.nHandle
    · subst e; rw [hdn]; dsimp only; omega
    · have := I.hof h (by omega)
      rw [hdo h (by omega)]; omega
  case cnt =>
    intro p hp
    rw [N.nI] at hp
    rw [N.holders]
    by_cases e : p = w.s.nImpl
    · subst e; rw [n1, if_pos rfl, holders_zero I (Nat.le_refl _)]; rfl
    · rw [if_neg e, f8 p (by omega)]; exact I.cnt p (by omega)
  case mtr =>
    intro p hp
    rw [N.nI] at hp
    by_cases e : p = w.s.nImpl
    · subst e; rw [HD]; simp [n2]
    · rw [f1 p (by omega), HO p (by omega)]; exact I.mtr p (by omega)
  case madeLt =>
    intro p q hp hm
    rw [N.nI] at hp
    by_cases e : p = w.s.nImpl
    · subst e; exact (hmade q hm).lt I
    · rw [f2 p (by omega)] at hm; exact I.madeLt p q (by omega) hm
  case par =>
    intro p hp q
    rcases (HD p).1 hp with h | e
    · have hl := heldlt p h
      rw [f3 p hl, f2 p hl, I.par p h q]
      constructor
      · rintro ⟨h1, h2⟩; exact ⟨h1, (HD q).2 (Or.inl h2)⟩
      · rintro ⟨h1, h2⟩
        have := I.madeLt p q hl h1
        exact ⟨h1, (HO q (by omega)).1 h2⟩
    · subst e
      rw [n3]
      constructor
      · intro h; exact ⟨h, (HD q).2 (Or.inl (hmade q h))⟩
      · exact fun h => h.1
  case kids =>
    intro q hq
    rw [N.nI] at hq
    by_cases e : q = w.s.nImpl
    · subst e
      rw [n4]
      refine ⟨List.nodup_nil, fun c => ?_⟩
      constructor
      · intro h; simp at h
      · rintro ⟨_, h1, h2⟩
        exfalso
        rcases (HD c).1 h1 with h | e
        · have hl := heldlt c h
          rw [f2 c hl] at h2
          have := I.madeLt c _ hl h2
          omega
        · subst e; exact notH (hmade _ h2)
    · have hl : q < w.s.nImpl := by omega
      have hk := hkids q hl
      refine ⟨hk.1, fun c => ?_⟩
      rw [hk.2 c, (I.kids q hl).2 c, HO q hl]
      constructor
      · rintro (⟨h1, h2, h3⟩ | ⟨rfl, h2⟩)
        · have hl' := heldlt c h2
          exact ⟨h1, (HD c).2 (Or.inl h2), by rw [f2 c hl']; exact h3⟩
        · exact ⟨hmade q h2, (HD _).2 (Or.inr rfl), h2⟩
      · rintro ⟨h1, h2, h3⟩
        rcases (HD c).1 h2 with h | e
        · have hl' := heldlt c h
          rw [f2 c hl'] at h3
          exact Or.inl ⟨h1, h, h3⟩
        · exact Or.inr ⟨e, h3⟩
  case fresh =>
    intro p hp
    rw [N.nI] at hp
    rw [hA p (by omega)]; exact I.fresh p (by omega)
  case freshE =>
    intro p hp
    rw [N.nI] at hp
    rw [hex p (by omega)]; exact I.freshE p (by omega)
  case cbsE =>
    intro p hp he
    rw [N.nI] at hp
    by_cases e : p = w.s.nImpl
    · subst e; rw [n5, if_pos he]
    · rw [f4 p (by omega)]; rw [hA p e] at he; exact I.cbsE p (by omega) he
  case cbsN =>
    intro p hp he
    rw [N.nI] at hp
    by_cases e : p = w.s.nImpl
    · subst e
      rw [n5, he]
      refine ⟨by simp, fun h => ?_⟩
      rw [HN]
      simp only [Bool.false_eq_true, if_false, List.mem_singleton, and_true]
      constructor
      · exact Or.inr
      · rintro (h1 | h1)
        · exact absurd ⟨h, h1⟩ notH
        · exact h1
    · rw [f4 p (by omega)]
      rw [hA p e] at he
      have hI := I.cbsN p (by omega) he
      refine ⟨hI.1, fun h => ?_⟩
      rw [HN, hI.2 h]
      constructor
      · exact Or.inl
      · rintro (h1 | ⟨_, h1⟩)
        · exact h1
        · exact absurd h1 e
  case root =>
    intro p hp hc
    rw [N.nI] at hp
    by_cases e : p = w.s.nImpl
    · subst e; exact n6 hc
    · have hl : p < w.s.nImpl := by omega
      rw [f5 p hl] at hc
      rw [hA p e, hex p (by omega)]; exact I.root p hl hc
  case start =>
    intro p hp
    rw [N.nI] at hp
    by_cases e : p = w.s.nImpl
    · subst e; exact n7
    · have hl : p < w.s.nImpl := by omega
      rw [f5 p hl, f2 p hl]; exact I.start p hl
  case arr =>
    intro p hp
    rw [N.nI] at hp
    by_cases e : p = w.s.nImpl
    · subst e; exact n8
    · have hl : p < w.s.nImpl := by omega
      rw [hA p e, f6 p hl, f7 p hl]; exact I.arr p hl
  case arrv =>
    intro p hp
    rw [N.nI] at hp
    by_cases e : p = w.s.nImpl
    · subst e; exact n9
    · have hl : p < w.s.nImpl := by omega
      rw [f6 p hl, f7 p hl]; exact I.arrv p hl
  case cb =>
    intro h hh
    rw [N.nH] at hh
    by_cases e : h = w.s.nHandle
    · subst e
      rw [hdn]
      dsimp only
      cases hcb : cb with
      | false => simp
      | true => rw [n11 hcb]; rfl
    · have hl : h < w.s.nHandle := by omega
      rw [hdo h hl, hA1 _ (I.hof h hl)]; exact I.cb h hl
  case live =>
    intro h p hp
    rw [td]
    rcases (HN h p).1 hp with hh | ⟨rfl, rfl⟩
    · rw [hdo h hh.1, hA1 p (I.hti h p hh).1]; exact I.live h p hh
    · rw [I.toldF _ (Nat.le_refl _), hdn]
      dsimp only
      cases hcb : cb with
      | false => rfl
      | true => rw [n11 hcb]; rfl
  case pre =>
    intro h hh
    rw [N.nH] at hh
    rw [td]
    by_cases e : h = w.s.nHandle
    · subst e
      rw [I.toldF _ (Nat.le_refl _)]
      exact ⟨List.nil_prefix, fun _ => rfl⟩
    · have hl : h < w.s.nHandle := by omega
      rw [hdo h hl, hA1 _ (I.hof h hl)]; exact I.pre h hl
  case toldF =>
    intro h hh
    rw [N.nH] at hh
    rw [td]; exact I.toldF h (by omega)
  case stops =>
    intro p
    rw [N.stops, I.stops p, N.nI]
    constructor
    · rintro ⟨h1, h2, h3, h4⟩
      exact ⟨by omega, by rw [f5 p h1]; exact h2, by rw [HO p h1]; exact h3, by rw [hA1 p h1]; exact h4⟩
    · rintro ⟨h1, h2, h3, h4⟩
      have e : p ≠ w.s.nImpl := by rintro rfl; exact h3 ((HD _).2 (Or.inr rfl))
      have hl : p < w.s.nImpl := by omega
      rw [f5 p hl] at h2
      rw [HO p hl] at h3
      rw [hA1 p hl] at h4
      exact ⟨hl, h2, h3, h4⟩
  case stopsN => rw [N.stops]; exact I.stopsN
  case ex =>
    intro p hr hh hc
    rw [N.run] at hr
    rcases (HD p).1 hh with h | e
    · have hl := heldlt p h
      rw [f5 p hl] at hc
      rw [hA1 p hl, hex p (by omega)]; exact I.ex p hr h hc
    · subst e; exact n10 hc

theorem addChild_new (s : St) (p m : Nat) (cb v y : Bool) (hp : p < s.nImpl) :
    NewExec s (addChild s p m cb true v y).1 cb ∧
    (addChild s p m cb true v y).2 = some s.nHandle ∧
    (addChild s p m cb true v y).1.crashed = s.crashed ∧
    (addChild s p m cb true v y).1.impls s.nImpl =
      { mtr := some m, canceler := true, cbs := [s.nHandle], valErr := none, exeErr := none, nRef := 1,
        parent := some p, children := [], sync := y, made := some p } ∧
    (addChild s p m cb true v y).1.execs s.nImpl = ⟨if v then .executing else .validating, 0, none⟩ ∧
    (∀ q : Nat, q < s.nImpl → (addChild s p m cb true v y).1.impls q =
      { s.impls q with children := if q = p then (s.impls q).children ++ [s.nImpl] else (s.impls q).children }) ∧
    (∀ q : Nat, q ≠ s.nImpl → (addChild s p m cb true v y).1.execs q = s.execs q) := by
  unfold addChild
  rw [if_pos rfl]
  have hne : s.nImpl ≠ p := by omega
  refine ⟨⟨rfl, rfl, fun _ => rfl, rfl, rfl, rfl⟩, rfl, rfl, ?_, ?_, ?_, ?_⟩
  · simp [St.mod, St.alloc, hne]
  · simp [St.mod, St.alloc]
  · intro q hq
    have : q ≠ s.nImpl := by omega
    by_cases e : q = p
    · subst e; simp [St.mod, St.alloc, this]
    · simp [St.mod, St.alloc, this, e]
  · intro q this
    simp [St.mod, St.alloc, this]

theorem Inv.addChild {w : World} (I : Inv w) {p : Nat} (hp : Held w.s p) (m : Nat) (cb ok v y : Bool) :
    Inv ⟨(addChild w.s p m cb ok v y).1, w.arrived⟩ := by
  cases ok with
  | false => exact I
  | true =>
    have hl := hp.lt I
    obtain ⟨N, _, _, e1, e2, e3, e4⟩ := addChild_new w.s p m cb v y hl
    have hA := I.fresh w.s.nImpl (Nat.le_refl _)
    refine I.grow w.arrived N (fun _ _ => rfl) (fun q hq => ⟨_, e3 q hq⟩) e4 ?_ ?_ ?_ ?_ ?_ ?_ ?_ ?_ ?_ ?_ ?_ ?_ ?_
    · intro q hq
      rw [e3 q hq]
      dsimp only
      have hk := I.kids q hq
      by_cases e : q = p
      · rw [if_pos e]
        refine ⟨List.Nodup.append hk.1 (by simp) ?_, fun c => ?_⟩
        · intro a ha hb
          have h1 := ((hk.2 a).1 ha).2.1.lt I
          have h2 : a = w.s.nImpl := by simpa using hb
          omega
        · rw [List.mem_append, List.mem_singleton]
          constructor
          · rintro (h | h)
            · exact Or.inl h
            · subst h; rw [e1]; exact Or.inr ⟨rfl, by rw [e]⟩
          · rintro (h | ⟨h, _⟩)
            · exact Or.inl h
            · exact Or.inr h
      · rw [if_neg e]
        refine ⟨hk.1, fun c => ?_⟩
        constructor
        · exact Or.inl
        · rintro (h | ⟨rfl, h⟩)
          · exact h
          · rw [e1] at h
            simp only [Option.some.injEq] at h
            exact absurd h.symm e
    · intro q hq
      rw [e1] at hq
      simp only [Option.some.injEq] at hq
      subst hq; exact hp
    · rw [e1]
    · rw [e1]; rfl
    · rw [e1]
    · rw [e1]
    · rw [e1, hA]; rfl
    · rw [e1]; intro h; simp at h
    · rw [e1]; simp
    · rw [e1, hA]; rfl
    · rw [e1]; intro h; simp at h
    · intro _; rw [e2, hA]
      cases v <;> simp [ExecOk]
    · intro _; exact hA

open Classical in
theorem Inv.initial {w : World} (I : Inv w) (m : Nat) : Inv (step (fun _ _ => false) w (.initial m)) ∧
    Inv ⟨(newInitial w.s m).1, fun q => if q = w.s.nImpl then [.val none, .exe none] else w.arrived q⟩ := by
  have main : Inv ⟨(newInitial w.s m).1, fun q => if q = w.s.nImpl then [.val none, .exe none] else w.arrived q⟩ := by
    have N : NewExec w.s (newInitial w.s m).1 false := ⟨rfl, rfl, fun _ => rfl, rfl, rfl, rfl⟩
    have e1 : (newInitial w.s m).1.impls w.s.nImpl =
        { mtr := some m, canceler := false, cbs := [], valErr := some none, exeErr := some none, nRef := 1,
          parent := none, children := [], sync := false, made := none } := by
      simp [newInitial, St.alloc]
    have e3 : ∀ q : Nat, q < w.s.nImpl → (newInitial w.s m).1.impls q = w.s.impls q := by
      intro q hq
      have : q ≠ w.s.nImpl := by omega
      simp [newInitial, St.alloc, this]
    refine I.grow _ N (fun q hq => if_neg hq) (fun q hq => ⟨(w.s.impls q).children, e3 q hq⟩) (fun q _ => rfl)
      ?_ ?_ ?_ ?_ ?_ ?_ ?_ ?_ ?_ ?_ ?_ ?_ ?_
    · intro q hq
      rw [e3 q hq]
      refine ⟨(I.kids q hq).1, fun c => ?_⟩
      constructor
      · exact Or.inl
      · rintro (h | ⟨rfl, h⟩)
        · exact h
        · rw [e1] at h; simp at h
    · intro q hq; rw [e1] at hq; simp at hq
    · rw [e1]
    · rw [e1]; rfl
    · rw [e1]
    · rw [e1]
    · rw [e1, if_pos rfl]; rfl
    · intro _; exact ⟨by rw [if_pos rfl]; rfl, I.freshE _ (Nat.le_refl _)⟩
    · rw [e1]; simp
    · rw [e1, if_pos rfl]; rfl
    · rw [e1]; intro _; rfl
    · intro h; rw [e1] at h; simp at h
    · intro h; simp at h
  exact ⟨main, main⟩

end Verif.Trans
