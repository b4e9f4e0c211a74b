import Verif.Trans.Inv

/-!
# New handles and new executions
-/

namespace Verif.Trans

theorem ended_cases {w : World} (I : Inv w) {p : Nat} (hp : p < w.s.nImpl) :
    ((w.s.impls p).valErr = none ∧ (w.s.impls p).exeErr = none ∧ w.arrived p = [] ∧ ended (w.arrived p) = false) ∨
    ((w.s.impls p).valErr = some none ∧ (w.s.impls p).exeErr = none ∧ w.arrived p = [.val none] ∧
      ended (w.arrived p) = false) ∨
    (∃ x, (w.s.impls p).valErr = some (some x) ∧ (w.s.impls p).exeErr = none ∧ w.arrived p = [.val (some x)] ∧
      ended (w.arrived p) = true) ∨
    (∃ e, (w.s.impls p).valErr = some none ∧ (w.s.impls p).exeErr = some e ∧ w.arrived p = [.val none, .exe e] ∧
      ended (w.arrived p) = true) := by
  have ha := I.arr p hp
  have hv := I.arrv p hp
  rcases hve : (w.s.impls p).valErr with _ | e
  · rcases hee : (w.s.impls p).exeErr with _ | e'
    · left
      rw [hve, hee] at ha
      refine ⟨rfl, rfl, ha, ?_⟩
      rw [ha]; rfl
    · rw [hee, hve] at hv
      simp at hv
  · rcases hee : (w.s.impls p).exeErr with _ | e'
    · rw [hve, hee] at ha
      rcases e with _ | x
      · right; left
        refine ⟨rfl, rfl, ha, ?_⟩
        rw [ha]; rfl
      · right; right; left
        refine ⟨x, rfl, rfl, ha, ?_⟩
        rw [ha]; rfl
    · rw [hee, hve] at hv
      have he : e = none := by simpa using hv
      subst he
      right; right; right
      rw [hve, hee] at ha
      refine ⟨e', rfl, rfl, ha, ?_⟩
      rw [ha]; rfl

theorem running_iff {w : World} (I : Inv w) {p : Nat} (hp : Held w.s p) :
    (w.s.impls p).running = !ended (w.arrived p) := by
  obtain ⟨h, hh⟩ := hp
  have hlt := (I.hti h p hh).1
  cases he : ended (w.arrived p) with
  | true => simp [Impl.running, I.cbsE p hlt he]
  | false =>
    have := ((I.cbsN p hlt he).2 h).2 hh
    have : (w.s.impls p).cbs ≠ [] := List.ne_nil_of_mem this
    simp [Impl.running, this]

/-- The state after a handle was added to an execution from which `A` has arrived. -/
def joined (s : St) (c : Nat) (cb : Bool) (A : List Rep) : St :=
  { s with
    handles := fun k => if k = s.nHandle then ⟨some c, cb && !ended A, c, cb⟩ else s.handles k
    nHandle := s.nHandle + 1
    impls := fun q => if q = c then
      { s.impls q with
        nRef := (s.impls q).nRef + 1
        cbs := if ended A then (s.impls q).cbs else (s.impls q).cbs ++ [s.nHandle] } else s.impls q
    log := s.log ++ (if cb then A.map fun r => (s.nHandle, r) else []) }

theorem newTransitionImpl_eq {w : World} (I : Inv w) {c : Nat} (hc : Held w.s c) (cb : Bool) :
    newTransitionImpl w.s c cb = (joined w.s c cb (w.arrived c), some w.s.nHandle) := by
  have hr := running_iff I hc
  have hlt : c < w.s.nImpl := by obtain ⟨h, hh⟩ := hc; exact (I.hti h c hh).1
  have key : ∀ (i : Impl), i.cbs = (w.s.impls c).cbs → i.running = (w.s.impls c).running := by
    intro i hi
    simp [Impl.running, hi]
  unfold newTransitionImpl
  rcases ended_cases I hlt with ⟨h1, h2, h3, h4⟩ | ⟨h1, h2, h3, h4⟩ | ⟨x, h1, h2, h3, h4⟩ | ⟨e, h1, h2, h3, h4⟩
  · rw [h4] at hr
    rw [h3]
    simp only [St.mod, St.alloc, if_true, h1, h2, hr, Impl.running] at hr ⊢
    simp only [Bool.not_false] at hr
    rw [if_pos hr]
    simp only [joined, ended, List.any_nil, Bool.not_false, Bool.and_true]
    congr 1
    congr 1
    · funext q
      by_cases hq : q = c <;> simp [hq]
    · cases cb <;> simp
  · rw [h4] at hr
    rw [h3]
    have hh : (w.s.impls c).cbs.length ≠ 0 := by simpa [Impl.running] using hr
    have hne : (w.s.impls c).cbs ≠ [] := by intro h; rw [h] at hh; simp at hh
    simp only [St.mod, St.alloc, if_true, h1, h2, hOnValidate_eq, notify, Impl.running]
    simp only [joined, ended]
    cases cb <;> simp [hne] <;> funext q <;> by_cases hq : q = c <;> simp [hq]
  · rw [h4] at hr
    rw [h3]
    have hne : (w.s.impls c).cbs = [] := by simpa [Impl.running] using hr
    simp only [St.mod, St.alloc, if_true, h1, h2, hOnValidate_eq, notify, Impl.running]
    simp only [joined, ended]
    cases cb <;> simp [hne] <;> funext q <;> by_cases hq : q = w.s.nHandle <;> simp [hq]
  · rw [h4] at hr
    rw [h3]
    have hne : (w.s.impls c).cbs = [] := by simpa [Impl.running] using hr
    simp only [St.mod, St.alloc, if_true, h1, h2, hOnValidate_eq, hOnExecute_eq, notify, Impl.running]
    simp only [joined, ended]
    cases cb <;> simp [hne] <;> funext q <;> by_cases hq : q = w.s.nHandle <;> simp [hq]

theorem holds_joined (s : St) (c : Nat) (cb : Bool) (A : List Rep) (h p : Nat) :
    Holds (joined s c cb A) h p ↔ (Holds s h p ∨ (h = s.nHandle ∧ p = c)) := by
  unfold Holds joined
  dsimp only
  by_cases hh : h = s.nHandle
  · subst hh
    simp [eq_comm]
  · simp only [if_neg hh]
    constructor
    · rintro ⟨h1, h2⟩; exact Or.inl ⟨by omega, h2⟩
    · rintro (⟨h1, h2⟩ | ⟨h1, _⟩)
      · exact ⟨by omega, h2⟩
      · exact absurd h1 hh

theorem held_joined {s : St} {c : Nat} {cb : Bool} {A : List Rep} (hc : Held s c) (p : Nat) :
    Held (joined s c cb A) p ↔ Held s p := by
  constructor
  · rintro ⟨h, hh⟩
    rcases (holds_joined ..).1 hh with hh | ⟨_, rfl⟩
    · exact ⟨h, hh⟩
    · exact hc
  · rintro ⟨h, hh⟩
    exact ⟨h, (holds_joined ..).2 (Or.inl hh)⟩

theorem holders_succ (s : St) (f : Nat → Handle) (p : Nat) (hf : ∀ k < s.nHandle, f k = s.handles k) :
    ((List.range (s.nHandle + 1)).filter fun h => (f h).ti == some p).length =
      holders s p + if (f s.nHandle).ti = some p then 1 else 0 := by
  rw [List.range_succ, List.filter_append, List.length_append]
  have : (List.range s.nHandle).filter (fun h => (f h).ti == some p) =
      (List.range s.nHandle).filter (fun h => (s.handles h).ti == some p) := by
    apply List.filter_congr
    intro k hk
    rw [hf k (List.mem_range.1 hk)]
  rw [this]
  by_cases h : (f s.nHandle).ti = some p <;> simp [h, holders]

theorem holders_joined (s : St) (c : Nat) (cb : Bool) (A : List Rep) (p : Nat) :
    holders (joined s c cb A) p = holders s p + if p = c then 1 else 0 := by
  have := holders_succ s (joined s c cb A).handles p (fun k hk => by
    simp only [joined]; rw [if_neg (by omega)])
  unfold holders at this ⊢
  have e : (joined s c cb A).nHandle = s.nHandle + 1 := rfl
  rw [e, this]
  by_cases h : p = c
  · subst h; simp [joined]
  · simp [joined, h, Ne.symm h]

theorem told_joined {w : World} (I : Inv w) (c : Nat) (cb : Bool) (A : List Rep) (h : Nat) :
    told (joined w.s c cb A) h = if h = w.s.nHandle then (if cb then A else []) else told w.s h := by
  unfold told
  simp only [joined]
  rw [told_append]
  by_cases hh : h = w.s.nHandle
  · subst hh
    rw [if_pos rfl, I.toldF _ (Nat.le_refl _)]
    cases cb
    · simp
    · simp only [if_true]
      rw [filter_pair_self]; rfl
  · rw [if_neg hh]
    cases cb
    · simp [told]
    · simp only [if_true]
      rw [filter_pair_ne (Ne.symm hh)]; simp [told]

theorem Inv.join {w : World} (I : Inv w) {c : Nat} (hc : Held w.s c) (cb : Bool) :
    Inv ⟨joined w.s c cb (w.arrived c), w.arrived⟩ := by
  have hlt : c < w.s.nImpl := by obtain ⟨h, hh⟩ := hc; exact (I.hti h c hh).1
  have HJ := fun h p => holds_joined w.s c cb (w.arrived c) h p
  have HD := fun p => held_joined (cb := cb) (A := w.arrived c) hc p
  have hold : ∀ k : Nat, k < w.s.nHandle → (joined w.s c cb (w.arrived c)).handles k = w.s.handles k := by
    intro k hk; simp only [joined]; rw [if_neg (by omega)]
  have hnew : (joined w.s c cb (w.arrived c)).handles w.s.nHandle =
      ⟨some c, cb && !ended (w.arrived c), c, cb⟩ := by simp only [joined, if_true]
  have imp : ∀ q : Nat, (joined w.s c cb (w.arrived c)).impls q = if q = c then
      { w.s.impls q with
        nRef := (w.s.impls q).nRef + 1
        cbs := if ended (w.arrived c) then (w.s.impls q).cbs else (w.s.impls q).cbs ++ [w.s.nHandle] }
      else w.s.impls q := fun _ => rfl
  have fld : ∀ (β : Type) (f : Impl → β), (∀ (i : Impl) (n : Int) (l : List Nat), f { i with nRef := n, cbs := l } = f i) →
      ∀ q : Nat, f ((joined w.s c cb (w.arrived c)).impls q) = f (w.s.impls q) := by
    intro β f hf q
    rw [imp]
    split_ifs <;> first | exact hf _ _ _ | rfl
  have f1 := fld _ Impl.mtr (fun _ _ _ => rfl)
  have f2 := fld _ Impl.made (fun _ _ _ => rfl)
  have f3 := fld _ Impl.parent (fun _ _ _ => rfl)
  have f4 := fld _ Impl.children (fun _ _ _ => rfl)
  have f5 := fld _ Impl.canceler (fun _ _ _ => rfl)
  have f6 := fld _ Impl.valErr (fun _ _ _ => rfl)
  have f7 := fld _ Impl.exeErr (fun _ _ _ => rfl)
  have nI : (joined w.s c cb (w.arrived c)).nImpl = w.s.nImpl := rfl
  have nH : (joined w.s c cb (w.arrived c)).nHandle = w.s.nHandle + 1 := rfl
  have eE : (joined w.s c cb (w.arrived c)).execs = w.s.execs := rfl
  have eS : (joined w.s c cb (w.arrived c)).stops = w.s.stops := rfl
  have eR : (joined w.s c cb (w.arrived c)).running = w.s.running := rfl
  constructor
  all_goals dsimp only
  case hti =>
    intro h p hp
    rcases (HJ h p).1 hp with hh | ⟨rfl, rfl⟩
    · rw [hold h hh.1]; exact I.hti h p hh
    · rw [hnew]; exact ⟨hlt, rfl⟩
  case hof =>
    intro h hh
    rw [nH] at hh
    by_cases e : h = w.s.nHandle
    · subst e; rw [hnew]; exact hlt
    · rw [hold h (by omega)]; exact I.hof h (by omega)
  case cnt =>
    intro p hp
    rw [holders_joined, imp]
    have := I.cnt p hp
    by_cases e : p = c
    · rw [if_pos e, if_pos e]; dsimp only; omega
    · rw [if_neg e, if_neg e]; omega
  case mtr => intro p hp; rw [f1, HD]; exact I.mtr p hp
  case madeLt => intro p q hp; rw [f2]; exact I.madeLt p q hp
  case par => intro p hp q; rw [f3, f2, HD]; exact I.par p ((HD p).1 hp) q
  case kids =>
    intro q hq
    rw [f4]
    refine ⟨(I.kids q hq).1, fun x => ?_⟩
    rw [HD, HD, f2]; exact (I.kids q hq).2 x
  case fresh => exact I.fresh
  case freshE => intro p hp; rw [eE]; exact I.freshE p hp
  case cbsE =>
    intro p hp he
    rw [imp]
    by_cases e : p = c
    · subst e; rw [if_pos rfl, he]; exact I.cbsE p hp he
    · rw [if_neg e]; exact I.cbsE p hp he
  case cbsN =>
    intro p hp he
    have hI := I.cbsN p hp he
    rw [imp]
    by_cases e : p = c
    · subst e
      rw [if_pos rfl, he]
      dsimp only
      constructor
      · rw [if_neg (by simp)]
        refine List.Nodup.append hI.1 (by simp) ?_
        intro a ha hb
        have := (hI.2 a).1 ha
        have h2 : a = w.s.nHandle := by simpa using hb
        have := this.1
        omega
      · intro h
        rw [HJ, if_neg (by simp), List.mem_append, hI.2 h]
        simp
    · rw [if_neg e]
      refine ⟨hI.1, fun h => ?_⟩
      rw [HJ, hI.2 h]
      constructor
      · exact Or.inl
      · rintro (h1 | ⟨_, h1⟩)
        · exact h1
        · exact absurd h1 e
  case root => intro p hp; rw [f5, eE]; exact I.root p hp
  case start => intro p hp; rw [f5, f2]; exact I.start p hp
  case arr => intro p hp; rw [f6, f7]; exact I.arr p hp
  case arrv => intro p hp; rw [f6, f7]; exact I.arrv p hp
  case cb =>
    intro h hh
    rw [nH] at hh
    by_cases e : h = w.s.nHandle
    · subst e; rw [hnew]; simp
    · rw [hold h (by omega)]; exact I.cb h (by omega)
  case live =>
    intro h p hp
    rw [told_joined I]
    rcases (HJ h p).1 hp with hh | ⟨rfl, rfl⟩
    · have := hh.1
      rw [if_neg (by omega), hold h hh.1]; exact I.live h p hh
    · rw [if_pos rfl, hnew]
  case pre =>
    intro h hh
    rw [nH] at hh
    rw [told_joined I]
    by_cases e : h = w.s.nHandle
    · subst e; rw [hnew, if_pos rfl]
      cases cb <;> simp
    · rw [hold h (by omega), if_neg e]; exact I.pre h (by omega)
  case toldF =>
    intro h hh
    rw [nH] at hh
    rw [told_joined I, if_neg (by omega)]
    exact I.toldF h (by omega)
  case stops => intro p; rw [eS, f5, HD]; exact I.stops p
  case stopsN => exact I.stopsN
  case ex => intro p h1 h2 h3; rw [f5] at h3; rw [eE]; exact I.ex p h1 ((HD p).1 h2) h3

end Verif.Trans
