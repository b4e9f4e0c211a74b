import Verif.Trans.Child

/-!
# Reports of the executor
-/

namespace Verif.Trans

/-- Only the executors change. -/
theorem Inv.execs {w : World} (I : Inv w) (X : Nat → Exec)
    (h1 : ∀ p : Nat, w.s.nImpl ≤ p → (X p).flight = none)
    (h2 : ∀ p : Nat, p < w.s.nImpl → (w.s.impls p).canceler = false → (X p).flight = none)
    (h3 : ∀ p : Nat, w.s.running = true → Held w.s p → (w.s.impls p).canceler = true →
      ExecOk (w.arrived p) (X p)) : Inv ⟨{ w.s with execs := X }, w.arrived⟩ where
  hti := I.hti
  hof := I.hof
  cnt := I.cnt
  mtr := I.mtr
  madeLt := I.madeLt
  par := I.par
  kids := I.kids
  fresh := I.fresh
  freshE := h1
  cbsE := I.cbsE
  cbsN := I.cbsN
  root := fun p hp hc => ⟨(I.root p hp hc).1, h2 p hp hc⟩
  start := I.start
  arr := I.arr
  arrv := I.arrv
  cb := I.cb
  live := I.live
  pre := I.pre
  toldF := I.toldF
  stops := I.stops
  stopsN := I.stopsN
  ex := h3

theorem Inv.term {w : World} (I : Inv w) : Inv ⟨{ w.s with running := false }, w.arrived⟩ where
  hti := I.hti
  hof := I.hof
  cnt := I.cnt
  mtr := I.mtr
  madeLt := I.madeLt
  par := I.par
  kids := I.kids
  fresh := I.fresh
  freshE := I.freshE
  cbsE := I.cbsE
  cbsN := I.cbsN
  root := I.root
  start := I.start
  arr := I.arr
  arrv := I.arrv
  cb := I.cb
  live := I.live
  pre := I.pre
  toldF := I.toldF
  stops := I.stops
  stopsN := I.stopsN
  ex := fun _ h => by simp at h

theorem execOk_reported {A : List Rep} {x : Exec} {r : Rep} (h : ExecOk A x) (hf : x.flight = none)
    (hp : match r with | .val _ => x.pc = 0 | .exe _ => x.pc = 1) : ExecOk A (reported x r) := by
  unfold ExecOk at h
  rw [hf] at h
  cases r with
  | val e =>
    simp only at hp
    rcases h with ⟨_, h1, h2⟩ | ⟨h1, _⟩ | ⟨h1, _⟩
    · simp [reported, if_pos h2, ExecOk, h1]
    · omega
    · omega
  | exe e =>
    simp only at hp
    rcases h with ⟨h1, _⟩ | ⟨_, h1, h2⟩ | ⟨h1, _⟩
    · omega
    · simp [reported, if_pos h2, ExecOk, h1]
    · omega

theorem Inv.report {w : World} (I : Inv w) {p : Nat} {r : Rep} (ha : Allowed w.s (.report p r)) :
    Inv ⟨w.s.modE p fun x => reported x r, w.arrived⟩ := by
  obtain ⟨a1, a2, a3, a4⟩ := ha
  refine I.execs _ ?_ ?_ ?_
  · intro q hq
    rw [if_neg (by omega)]; exact I.freshE q hq
  · intro q hq hc
    have : q ≠ p := by rintro rfl; rw [a2] at hc; simp at hc
    rw [if_neg this]; exact (I.root q hq hc).2
  · intro q hr hh hc
    have := I.ex q hr hh hc
    by_cases e : q = p
    · subst e; rw [if_pos rfl]; exact execOk_reported this a3 (by cases r <;> exact a4)
    · rw [if_neg e]; exact this

theorem told_notify (s : St) (l : List Nat) (hn : l.Nodup) (r : Rep) (fin : Bool) (h : Nat) :
    told (notify s l r fin) h = told s h ++ if h ∈ l ∧ (s.handles h).cb = true then [r] else [] := by
  unfold told
  simp only [notify]
  rw [told_append, filter_note _ (hn.filter _)]
  simp [told, List.mem_filter]

/-- A report that is passed on. -/
theorem Inv.note {w : World} (I : Inv w) {p : Nat} (hp : Held w.s p) (hne : ended (w.arrived p) = false)
    (r : Rep) (fin : Bool) (s' : St) (v x : Option Err) (X : Exec)
    (hfin : ended (w.arrived p ++ [r]) = fin)
    (hs : s' = notify { w.s with
        impls := fun q => if q = p then
          { w.s.impls q with valErr := v, exeErr := x, cbs := if fin then [] else (w.s.impls q).cbs } else w.s.impls q
        execs := fun q => if q = p then X else w.s.execs q } (w.s.impls p).cbs r fin)
    (harr : w.arrived p ++ [r] = v.toList.map Rep.val ++ x.toList.map Rep.exe)
    (hx : x.isSome = true → v = some none)
    (hX : ExecOk (w.arrived p ++ [r]) X) (hXf : X.flight = none) :
    Inv ⟨s', fun q => if q = p then w.arrived q ++ [r] else w.arrived q⟩ := by
  have hlt := hp.lt I
  obtain ⟨cn, cm⟩ := I.cbsN p hlt hne
  have hcan : (w.s.impls p).canceler = true := by
    by_contra h
    have := (I.root p hlt (by simpa using h)).1
    rw [hne] at this; simp at this
  have imp : ∀ q : Nat, s'.impls q = if q = p then
      { w.s.impls q with valErr := v, exeErr := x, cbs := if fin then [] else (w.s.impls q).cbs } else w.s.impls q := by
    intro q; rw [hs]; rfl
  have hdl : ∀ k : Nat, s'.handles k = if fin = true ∧ k ∈ (w.s.impls p).cbs then
      { w.s.handles k with cb := false } else w.s.handles k := by
    intro k; rw [hs]; rfl
  have hdf : ∀ (β : Type) (f : Handle → β), (∀ (i : Handle), f { i with cb := false } = f i) →
      ∀ k : Nat, f (s'.handles k) = f (w.s.handles k) := by
    intro β f hf k
    rw [hdl]
    split_ifs
    · exact hf _
    · rfl
  have g1 := hdf _ Handle.ti (fun _ => rfl)
  have g2 := hdf _ Handle.of (fun _ => rfl)
  have g3 := hdf _ Handle.wants (fun _ => rfl)
  have nI : s'.nImpl = w.s.nImpl := by rw [hs]; rfl
  have nH : s'.nHandle = w.s.nHandle := by rw [hs]; rfl
  have eS : s'.stops = w.s.stops := by rw [hs]; rfl
  have eR : s'.running = w.s.running := by rw [hs]; rfl
  have eX : ∀ q : Nat, s'.execs q = if q = p then X else w.s.execs q := by intro q; rw [hs]; rfl
  have td : ∀ h : Nat, told s' h =
      told w.s h ++ if h ∈ (w.s.impls p).cbs ∧ (w.s.handles h).cb = true then [r] else [] := by
    intro h; rw [hs, told_notify _ _ cn]; rfl
  have HN : ∀ h q : Nat, Holds s' h q ↔ Holds w.s h q := by
    intro h q; unfold Holds; rw [nH, g1]
  have HD : ∀ q : Nat, Held s' q ↔ Held w.s q := by
    intro q; unfold Held; simp only [HN]
  have hho : ∀ q : Nat, holders s' q = holders w.s q := by
    intro q; unfold holders; rw [nH]; simp only [g1]
  have fld : ∀ (β : Type) (f : Impl → β), (∀ (i : Impl) (v x : Option Err) (l : List Nat),
      f { i with valErr := v, exeErr := x, cbs := l } = f i) → ∀ q : Nat, f (s'.impls q) = f (w.s.impls q) := by
    intro β f hf q
    rw [imp]
    by_cases e : q = p
    · rw [if_pos e]; exact hf _ _ _ _
    · rw [if_neg e]
  have f1 := fld _ Impl.mtr (fun _ _ _ _ => rfl)
  have f2 := fld _ Impl.made (fun _ _ _ _ => rfl)
  have f3 := fld _ Impl.parent (fun _ _ _ _ => rfl)
  have f4 := fld _ Impl.children (fun _ _ _ _ => rfl)
  have f5 := fld _ Impl.canceler (fun _ _ _ _ => rfl)
  have f6 := fld _ Impl.nRef (fun _ _ _ _ => rfl)
  -- who is told
  have hcbs : ∀ h : Nat, h < w.s.nHandle →
      ((h ∈ (w.s.impls p).cbs ∧ (w.s.handles h).cb = true) ↔
        ((w.s.handles h).ti = some p ∧ (w.s.handles h).wants = true)) := by
    intro h hh
    rw [cm h]
    constructor
    · rintro ⟨h1, h2⟩
      rw [I.cb h hh] at h2
      simp only [Bool.and_eq_true] at h2
      exact ⟨h1.2, h2.1.1⟩
    · rintro ⟨h1, h2⟩
      refine ⟨⟨hh, h1⟩, ?_⟩
      rw [I.cb h hh, h2, h1, (I.hti h p ⟨hh, h1⟩).2, hne]; rfl
  constructor
  all_goals dsimp only
  case hti => intro h q hq; rw [nI, g2]; exact I.hti h q ((HN h q).1 hq)
  case hof => intro h hh; rw [nH] at hh; rw [nI, g2]; exact I.hof h hh
  case cnt => intro q hq; rw [nI] at hq; rw [f6, hho]; exact I.cnt q hq
  case mtr => intro q hq; rw [nI] at hq; rw [f1, HD]; exact I.mtr q hq
  case madeLt => intro q q' hq; rw [nI] at hq; rw [f2]; exact I.madeLt q q' hq
  case par => intro q hq q'; rw [f3, f2, HD]; exact I.par q ((HD q).1 hq) q'
  case kids =>
    intro q hq
    rw [nI] at hq
    rw [f4]
    refine ⟨(I.kids q hq).1, fun c => ?_⟩
    rw [HD, HD, f2]; exact (I.kids q hq).2 c
  case fresh =>
    intro q hq
    rw [nI] at hq
    rw [if_neg (by omega)]; exact I.fresh q hq
  case freshE =>
    intro q hq
    rw [nI] at hq
    rw [eX, if_neg (by omega)]; exact I.freshE q hq
  case cbsE =>
    intro q hq he
    rw [nI] at hq
    rw [imp]
    by_cases e : q = p
    · subst e
      rw [if_pos rfl] at he
      rw [hfin] at he
      rw [if_pos rfl, he]; rfl
    · rw [if_neg e] at he
      rw [if_neg e]; exact I.cbsE q hq he
  case cbsN =>
    intro q hq he
    rw [nI] at hq
    rw [imp]
    by_cases e : q = p
    · subst e
      rw [if_pos rfl] at he
      rw [hfin] at he
      rw [if_pos rfl, he]
      refine ⟨cn, fun h => ?_⟩
      rw [HN]; exact cm h
    · rw [if_neg e] at he
      rw [if_neg e]
      refine ⟨(I.cbsN q hq he).1, fun h => ?_⟩
      rw [HN]; exact (I.cbsN q hq he).2 h
  case root =>
    intro q hq hc
    rw [nI] at hq
    rw [f5] at hc
    have e : q ≠ p := by rintro rfl; rw [hcan] at hc; simp at hc
    rw [if_neg e, eX, if_neg e]; exact I.root q hq hc
  case start => intro q hq; rw [nI] at hq; rw [f5, f2]; exact I.start q hq
  case arr =>
    intro q hq
    rw [nI] at hq
    rw [imp]
    by_cases e : q = p
    · subst e; rw [if_pos rfl, if_pos rfl]; exact harr
    · rw [if_neg e, if_neg e]; exact I.arr q hq
  case arrv =>
    intro q hq
    rw [nI] at hq
    rw [imp]
    by_cases e : q = p
    · subst e; rw [if_pos rfl]; exact hx
    · rw [if_neg e]; exact I.arrv q hq
  case cb =>
    intro h hh
    rw [nH] at hh
    rw [g3, g1, g2, hdl]
    have hI := I.cb h hh
    by_cases e : (w.s.handles h).of = p
    · rw [if_pos e, e, hfin]
      cases hf : fin with
      | false =>
        rw [if_neg (by simp)]
        rw [hI, e, hne]
      | true =>
        by_cases hm : h ∈ (w.s.impls p).cbs
        · rw [if_pos ⟨rfl, hm⟩]; simp
        · rw [if_neg (fun h => hm h.2), hI]
          have : (w.s.handles h).ti = none := by
            rcases ht : (w.s.handles h).ti with _ | q
            · rfl
            · have := (I.hti h q ⟨hh, ht⟩).2
              rw [e] at this
              subst this
              exact absurd ((cm h).2 ⟨hh, ht⟩) hm
          rw [this]; simp
    · rw [if_neg e]
      have hm : h ∉ (w.s.impls p).cbs := by
        intro hm
        exact e (I.hti h p ((cm h).1 hm)).2
      rw [if_neg (fun h => hm h.2)]; exact hI
  case live =>
    intro h q hq
    have hq' := (HN h q).1 hq
    rw [td, g3, I.live h q hq']
    have hc := hcbs h hq'.1
    by_cases e : q = p
    · subst e
      rw [if_pos rfl]
      cases hw : (w.s.handles h).wants with
      | false =>
        rw [if_neg (show ¬ (h ∈ (w.s.impls q).cbs ∧ (w.s.handles h).cb = true) from
          fun k => by have := (hc.1 k).2; rw [hw] at this; simp at this)]; rfl
      | true => rw [if_pos (hc.2 ⟨hq'.2, hw⟩)]; rfl
    · rw [if_neg e]
      rw [if_neg (show ¬ (h ∈ (w.s.impls p).cbs ∧ (w.s.handles h).cb = true) from
        fun k => e (by have := (hc.1 k).1; rw [hq'.2] at this; simpa using this))]
      simp
  case pre =>
    intro h hh
    rw [nH] at hh
    rw [td, g2, g3]
    have hI := I.pre h hh
    have hc := hcbs h hh
    by_cases hcc : h ∈ (w.s.impls p).cbs ∧ (w.s.handles h).cb = true
    · obtain ⟨h1, h2⟩ := hc.1 hcc
      have ho := (I.hti h p ⟨hh, h1⟩).2
      have hl := I.live h p ⟨hh, h1⟩
      rw [if_pos hcc, ho, if_pos rfl, hl, h2]
      exact ⟨List.prefix_refl _, fun h => by simp at h⟩
    · rw [if_neg hcc, List.append_nil]
      refine ⟨?_, hI.2⟩
      by_cases e : (w.s.handles h).of = p
      · rw [if_pos e]; exact hI.1.trans (List.prefix_append _ _)
      · rw [if_neg e]; exact hI.1
  case toldF =>
    intro h hh
    rw [nH] at hh
    have : h ∉ (w.s.impls p).cbs := by
      intro hm
      have := ((cm h).1 hm).1
      omega
    rw [td, if_neg (fun h => this h.1), I.toldF h hh]; rfl
  case stops =>
    intro q
    rw [eS, nI, f5, HD, I.stops q]
    by_cases e : q = p
    · subst e
      constructor
      · rintro ⟨_, _, h, _⟩; exact absurd hp h
      · rintro ⟨_, _, h, _⟩; exact absurd hp h
    · rw [if_neg e]
  case stopsN => rw [eS]; exact I.stopsN
  case ex =>
    intro q hr hh hc
    rw [eR] at hr
    rw [f5] at hc
    rw [eX]
    by_cases e : q = p
    · subst e; rw [if_pos rfl, if_pos rfl]; exact hX
    · rw [if_neg e, if_neg e]; exact I.ex q hr ((HD q).1 hh) hc

theorem not_held_idle {w : World} (I : Inv w) {p : Nat} (hlt : p < w.s.nImpl) (hp : ¬ Held w.s p) :
    (w.s.impls p).running = false := by
  have : (w.s.impls p).cbs = [] := by
    cases he : ended (w.arrived p) with
    | true => exact I.cbsE p hlt he
    | false =>
      have := (I.cbsN p hlt he).2
      apply List.eq_nil_iff_forall_not_mem.2
      intro h hh
      exact hp ⟨h, (this h).1 hh⟩
  simp [Impl.running, this]

theorem Inv.flightOff {w : World} (I : Inv w) {p : Nat} (hn : ¬ (w.s.running = true ∧ Held w.s p)) :
    Inv ⟨w.s.modE p fun x => { x with flight := none }, w.arrived⟩ := by
  refine I.execs _ ?_ ?_ ?_
  · intro q hq
    by_cases e : q = p
    · rw [if_pos e]
    · rw [if_neg e]; exact I.freshE q hq
  · intro q hq hc
    by_cases e : q = p
    · rw [if_pos e]
    · rw [if_neg e]; exact (I.root q hq hc).2
  · intro q hr hh hc
    have e : q ≠ p := by rintro rfl; exact hn ⟨hr, hh⟩
    rw [if_neg e]; exact I.ex q hr hh hc

theorem Inv.deliver {w : World} (I : Inv w) {p : Nat} (hlt : p < w.s.nImpl) (r : Rep)
    (hf : (w.s.execs p).flight = some r) :
    (w.s.running = true ∧ Held w.s p →
      Inv ⟨deliver w.s p, fun q => if q = p then w.arrived q ++ [r] else w.arrived q⟩) ∧
    (¬ (w.s.running = true ∧ Held w.s p) → Inv ⟨deliver w.s p, w.arrived⟩) := by
  constructor
  · rintro ⟨hr, hp⟩
    have hcan : (w.s.impls p).canceler = true := by
      by_contra h
      have := (I.root p hlt (by simpa using h)).2
      rw [hf] at this; simp at this
    have hx := I.ex p hr hp hcan
    unfold ExecOk at hx
    rw [hf] at hx
    have hrun := running_iff I hp
    cases r with
    | val e =>
      obtain ⟨h1, h2, h3⟩ := hx
      have hne : ended (w.arrived p) = false := by rw [h1]; rfl
      have hc := ended_cases I hlt
      rw [h1] at hc
      simp only [reduceCtorEq, false_and, and_false, exists_const, or_false, List.nil_eq, true_and] at hc
      obtain ⟨c1, c2, _⟩ := hc
      have cn := (I.cbsN p hlt hne).1
      refine I.note hp hne (.val e) e.isSome _ (some e) none
        { w.s.execs p with flight := none } ?_ ?_ ?_ ?_ ?_ rfl
      · rw [h1]; cases e <;> rfl
      · unfold Verif.Trans.deliver
        rw [hf]
        dsimp only
        unfold onValidate
        rw [hne] at hrun
        have hrun' : ((w.s.modE p fun x => { x with flight := none }).impls p).running = true := hrun
        have hr' : (w.s.modE p fun x => { x with flight := none }).running = true := hr
        rw [hrun', hr']
        simp only [Bool.not_true, Bool.or_self, Bool.false_eq_true, if_false]
        rw [show ((w.s.modE p fun x => { x with flight := none }).impls p).cbs = (w.s.impls p).cbs from rfl]
        rw [foldl_notify _ (.val e) e.isSome (fun s h => hOnValidate_eq s h e) _ cn]
        congr 1
        cases e with
        | none =>
          simp only [Option.isSome_none, Bool.false_eq_true, if_false, St.mod, St.modE]
          congr 1
          · funext q
            by_cases e : q = p
            · subst e; simp [c2]
            · simp [e]
          · funext q
            by_cases e : q = p
            · subst e; simp
            · simp [e]
        | some y =>
          simp only [Option.isSome_some, if_true, St.mod, St.modE]
          congr 1
          · funext q
            by_cases e : q = p
            · subst e; simp [c2]
            · simp [e]
          · funext q
            by_cases e : q = p
            · subst e; simp
            · simp [e]
      · rw [h1]; rfl
      · intro h; simp at h
      · rw [h1]
        cases e with
        | none => right; left; simp at h2 h3; exact ⟨h2, rfl, h3⟩
        | some y => right; right; simp at h2; exact ⟨h2, rfl⟩
    | exe e =>
      obtain ⟨h1, h2, h3⟩ := hx
      have hne : ended (w.arrived p) = false := by rw [h1]; rfl
      have hc : (w.s.impls p).valErr = some none := by
        rcases ended_cases I hlt with ⟨_, _, h, _⟩ | ⟨h, _⟩ | ⟨x, _, _, h, _⟩ | ⟨x, _, _, h, _⟩
        · rw [h1] at h; simp at h
        · exact h
        · rw [h1] at h; simp at h
        · rw [h1] at h; simp at h
      have cn := (I.cbsN p hlt hne).1
      refine I.note hp hne (.exe e) true _ (some none) (some e)
        { w.s.execs p with flight := none } ?_ ?_ ?_ ?_ ?_ rfl
      · rw [h1]; rfl
      · unfold Verif.Trans.deliver
        rw [hf]
        dsimp only
        unfold onExecute
        rw [hne] at hrun
        have hrun' : ((w.s.modE p fun x => { x with flight := none }).impls p).running = true := hrun
        have hr' : (w.s.modE p fun x => { x with flight := none }).running = true := hr
        rw [hrun', hr']
        simp only [Bool.not_true, Bool.or_self, Bool.false_eq_true, if_false]
        rw [show ((w.s.modE p fun x => { x with flight := none }).impls p).cbs = (w.s.impls p).cbs from rfl]
        rw [foldl_notify _ (.exe e) true (fun s h => hOnExecute_eq s h e) _ cn]
        congr 1
        simp only [if_true, St.mod, St.modE]
        congr 1
        · funext q
          by_cases e : q = p
          · subst e; simp [hc]
          · simp [e]
        · funext q
          by_cases e : q = p
          · subst e; simp
          · simp [e]
      · rw [h1]; rfl
      · intro _; rfl
      · rw [h1]
        right; right; exact ⟨h2, rfl⟩
  · intro hn
    have hI := I.flightOff hn
    have idle : (!w.s.running || !(w.s.impls p).running) = true := by
      cases hr : w.s.running with
      | false => rfl
      | true => rw [not_held_idle I hlt (fun h => hn ⟨hr, h⟩)]; rfl
    have : Verif.Trans.deliver w.s p = w.s.modE p fun x => { x with flight := none } := by
      unfold Verif.Trans.deliver
      rw [hf]
      cases r with
      | val e => dsimp only; unfold onValidate; exact if_pos idle
      | exe e => dsimp only; unfold onExecute; exact if_pos idle
    rw [this]; exact hI

end Verif.Trans
