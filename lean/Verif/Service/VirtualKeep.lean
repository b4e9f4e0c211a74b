import Verif.Service.VirtualStep

/-! # Every step keeps the invariant of concurrent execution, continued -/

namespace Verif.Virtual

section
variable {A V R : Type} [DecidableEq A] {work : List (List (Req A) × Prog A V R)} {real : A → V}
variable {s s' : State A V R} {w : ℕ → A → V}

theorem Within.mono {rd rd' wr wr' : A → Prop} (h1 : ∀ a, rd a → rd' a) (h2 : ∀ a, wr a → wr' a) :
    ∀ p : Prog A V R, Within rd wr p → Within rd' wr' p := by
  intro p
  induction p with
  | done r => intro _; trivial
  | read a k ih => intro h; exact ⟨h1 a h.1, fun v => ih v (h.2 v)⟩
  | write a v k ih => intro h; exact ⟨h2 a h.1, ih h.2⟩

theorem within_init (hp : Proper work) {i : ℕ} {x} (hx : work[i]? = some x) : Within (Rd work i) (W work i) x.2 :=
  Within.mono (fun _ h => ⟨x, hx, h⟩) (fun _ h => ⟨x, hx, h⟩) x.2 (hp x (List.mem_of_getElem? hx)).1

theorem new_ok (real : A → V) (t : Tx A V R) (w : ℕ → A → V) : Inv work real (State.new real t) w :=
  ⟨Nat.zero_le _, fun i hi => absurd hi (Nat.not_lt_zero i), fun _ c hc => absurd hc (Nat.not_lt_zero c), fun _ _ => rfl,
    (fun a j h => by cases h), fun a _ j hj => absurd hj (Nat.not_lt_zero j), fun a v h => by cases h⟩

/-- Changing a transaction's world and the real world at once. -/
theorem wait_update {i : ℕ} {t : Tx A V R} (hw : t.waiting = (s.tx i).waiting) (j : ℕ) :
    (Function.update s.tx i t j).waiting = (s.tx j).waiting := by
  by_cases h : j = i
  · subst h; rw [Function.update_self, hw]
  · rw [Function.update_of_ne h]

/-! ## Preparing a transaction -/

theorem worldOf_write {reqs : List (Req A)} : worldOf reqs = some .write ↔ (⟨none, true⟩ : Req A) ∈ reqs := by
  unfold worldOf
  by_cases h : (⟨none, true⟩ : Req A) ∈ reqs
  · simp [h]
  · rw [if_neg h]
    by_cases h2 : (⟨none, false⟩ : Req A) ∈ reqs <;> simp [h, h2]

theorem worldOf_none {reqs : List (Req A)} (h : (⟨none, true⟩ : Req A) ∉ reqs) (h2 : (⟨none, false⟩ : Req A) ∉ reqs) :
    worldOf reqs = none := by
  unfold worldOf; rw [if_neg h, if_neg h2]

theorem lockOf_write {reqs : List (Req A)} {a : A} : lockOf reqs a = some .write ↔ (⟨some a, true⟩ : Req A) ∈ reqs := by
  unfold lockOf
  by_cases h : (⟨some a, true⟩ : Req A) ∈ reqs
  · simp [h]
  · rw [if_neg h]
    by_cases h2 : (⟨some a, false⟩ : Req A) ∈ reqs ∧ worldOf reqs ≠ some .read
    · rw [if_pos h2]; simp [h]
    · rw [if_neg h2]; simp [h]

theorem lockOf_cases {reqs : List (Req A)} {a : A} {l : Lk} (h : lockOf reqs a = some l) (h2 : l ≠ .write) :
    l = .read ∧ (⟨some a, false⟩ : Req A) ∈ reqs := by
  unfold lockOf at h
  by_cases h1 : (⟨some a, true⟩ : Req A) ∈ reqs
  · rw [if_pos h1, Option.some.injEq] at h; exact absurd h.symm h2
  · rw [if_neg h1] at h
    by_cases h3 : (⟨some a, false⟩ : Req A) ∈ reqs ∧ worldOf reqs ≠ some .read
    · rw [if_pos h3, Option.some.injEq] at h; exact ⟨h.symm, h3.1⟩
    · rw [if_neg h3] at h; cases h

theorem Inv.noLocker (I : Inv work real s w) {a : A} (h : s.n = 0 ∨ s.getLocker a = none) : ∀ j, j < s.n → ¬W work j a := by
  rcases h with h | h
  · intro j hj; omega
  · exact I.nolock a h

theorem roOf_ok (hp : Proper work) (I : Inv work real s w) {a : A} (h : s.n = 0 ∨ s.getLocker a = none) :
    s.roOf a = seq work real 0 a ∧ seq work real s.n a = seq work real 0 a := by
  have hn := I.noLocker h
  have hq : seq work real s.n a = seq work real 0 a := seq_range hp (Nat.zero_le _) (fun j _ hj => hn j hj)
  refine ⟨?_, hq⟩
  unfold State.roOf
  cases hr : s.ro a with
  | some v => exact I.ro a v hr
  | none =>
    dsimp only
    rw [I.free a (fun j hj hw => absurd hw (hn j hj)), hq]

theorem newEntry_cases (l : Lk) (a : A) :
    (∃ j, s.n ≠ 0 ∧ s.getLocker a = some j ∧ s.newEntry l a = ⟨l, some j, none, none⟩) ∨
    ((s.n = 0 ∨ s.getLocker a = none) ∧ s.newEntry l a = ⟨l, none, some (if l = .write then .live else .ro (s.roOf a)), none⟩) := by
  unfold State.newEntry
  by_cases h : s.n = 0
  · right; rw [if_pos h]; exact ⟨Or.inl h, rfl⟩
  · rw [if_neg h]
    cases hg : s.getLocker a with
    | some j => left; exact ⟨j, h, rfl, rfl⟩
    | none => right; exact ⟨Or.inr rfl, rfl⟩

/-- The base a new transaction has. -/
theorem base_ok (I : Inv work real s w) {b : A → V}
    (h : (if s.n = 0 then some s.real else (s.tx (s.n - 1)).committed) = some b) :
    b = seq work real s.n ∧ ∀ j, j < s.n → (s.tx j).waiting = false := by
  by_cases h0 : s.n = 0
  · rw [if_pos h0, Option.some.injEq] at h
    refine ⟨?_, fun j hj => by omega⟩
    subst h
    funext a
    exact I.free a (fun j hj => by omega)
  · rw [if_neg h0] at h
    obtain ⟨h1, h2⟩ := (I.tx (s.n - 1) (by omega)).comm b h
    rw [h1, show s.n - 1 + 1 = s.n by omega]
    exact ⟨rfl, fun j hj => h2 j (by omega)⟩

theorem prepare_ok (hp : Proper work) (I : Inv work real s w) {x : List (Req A) × Prog A V R} (hx : work[s.n]? = some x) :
    Inv work real (s.prepare x.1 x.2) (Function.update w s.n (seq work real s.n)) := by
  have hlen : s.n < work.length := (List.getElem?_eq_some_iff.mp hx).1
  have hWx : ∀ a, W work s.n a ↔ Writes x.1 a := by
    intro a
    constructor
    · rintro ⟨y, hy, h⟩; rw [hx, Option.some.injEq] at hy; subst hy; exact h
    · intro h; exact ⟨x, hx, h⟩
  have hRx : ∀ a, Rd work s.n a ↔ Reads x.1 a := by
    intro a
    constructor
    · rintro ⟨y, hy, h⟩; rw [hx, Option.some.injEq] at hy; subst hy; exact h
    · intro h; exact ⟨x, hx, h⟩
  have hIx : IsW work s.n ↔ (⟨none, true⟩ : Req A) ∈ x.1 := by
    constructor
    · rintro ⟨y, hy, h⟩; rw [hx, Option.some.injEq] at hy; subst hy; exact h
    · intro h; exact ⟨x, hx, h⟩
  -- whatever the virtual state is, if it is good the rest follows
  have gen : ∀ (t : Tx A V R) (al : A → Option ℕ) (wl : Option ℕ) (ro : A → Option V), t.waiting = true →
      (TxOk work real (fun j => (Function.update s.tx s.n t j).waiting = false) s.n t (seq work real s.n)) →
      (∀ a, W work s.n a → (⟨s.real, al, wl, ro, s.n + 1, s.tx⟩ : State A V R).getLocker a = some s.n) →
      (∀ a, ¬W work s.n a → (⟨s.real, al, wl, ro, s.n + 1, s.tx⟩ : State A V R).getLocker a = s.getLocker a) →
      (∀ a v, ro a = some v → v = seq work real 0 a) →
      Inv work real ⟨s.real, al, wl, ro, s.n + 1, Function.update s.tx s.n t⟩ (Function.update w s.n (seq work real s.n)) := by
    intro t al wl ro hw ht hl1 hl2 hro
    have hold : ∀ j, j < s.n → (Function.update s.tx s.n t j) = s.tx j := fun j hj => Function.update_of_ne (by omega) _ _
    have holdw : ∀ j, j < s.n → (Function.update w s.n (seq work real s.n) j) = w j := fun j hj => Function.update_of_ne (by omega) _ _
    refine ⟨hlen, ?_, ?_, ?_, ?_, ?_, hro⟩
    · intro i hi
      dsimp only at hi ⊢
      rcases Nat.lt_or_ge i s.n with h | h
      · rw [hold i h, holdw i h]
        exact (I.tx i h).mono (fun j hj hf => by rw [hold j (by omega)]; exact hf)
      · have : i = s.n := by omega
        subst this
        rw [Function.update_self, Function.update_self]
        exact ht
    · intro a c hc hW hwt hj
      dsimp only at hc hwt hj ⊢
      rcases Nat.lt_or_ge c s.n with h | h
      · rw [hold c h] at hwt
        rw [holdw c h]
        exact I.own a c h hW hwt (fun j h1 h2 => by have := hj j h1 h2; rwa [hold j (by omega)] at this)
      · have : c = s.n := by omega
        subst this
        rw [Function.update_self]
        exact I.free a (fun j h1 h2 => by have := hj j h1 h2; rwa [hold j h1] at this)
    · intro a hj
      dsimp only at hj ⊢
      have hnw : ¬W work s.n a := by
        intro h
        have := hj s.n (by omega) h
        rw [Function.update_self, hw] at this; cases this
      rw [seq_keep hp hnw]
      exact I.free a (fun j h1 h2 => by have := hj j (by omega) h2; rwa [hold j h1] at this)
    · intro a j hj
      have hj' : (⟨s.real, al, wl, ro, s.n + 1, s.tx⟩ : State A V R).getLocker a = some j := hj
      dsimp only
      by_cases h : W work s.n a
      · rw [hl1 a h, Option.some.injEq] at hj'
        subst hj'
        exact ⟨by omega, h, fun k h1 h2 => by omega⟩
      · rw [hl2 a h] at hj'
        obtain ⟨h1, h2, h3⟩ := I.lock a j hj'
        refine ⟨by omega, h2, fun k h4 h5 => ?_⟩
        rcases Nat.lt_or_ge k s.n with h6 | h6
        · exact h3 k h4 h6
        · have : k = s.n := by omega
          subst this; exact h
    · intro a hj j hjn
      have hj' : (⟨s.real, al, wl, ro, s.n + 1, s.tx⟩ : State A V R).getLocker a = none := hj
      dsimp only at hjn
      by_cases h : W work s.n a
      · rw [hl1 a h] at hj'; cases hj'
      · rw [hl2 a h] at hj'
        rcases Nat.lt_or_ge j s.n with h6 | h6
        · exact I.nolock a hj' j h6
        · have : j = s.n := by omega
          subst this; exact h
  have hold : ∀ (t : Tx A V R) j, j < s.n → (Function.update s.tx s.n t j) = s.tx j :=
    fun t j hj => Function.update_of_ne (by omega) _ _
  unfold State.prepare
  by_cases hW : worldOf x.1 = some .write
  · rw [if_pos hW]
    have hm := worldOf_write.mp hW
    have hI := hIx.mpr hm
    apply gen
    · rfl
    · exact {
        init := ⟨x, hx, rfl⟩
        run := rfl
        within := within_init hp hx
        keep := fun _ _ => rfl
        fresh := fun _ => ⟨rfl, rfl, rfl⟩
        done := fun h => by cases h
        base := fun b hb => ⟨(base_ok I hb).1, fun j hj => by rw [hold _ j hj]; exact (base_ok I hb).2 j hj⟩
        comm := fun b hb => by cases hb
        first := fun h => by dsimp only; rw [if_pos h]; simp
        wEntries := fun _ _ => rfl
        wWorld := fun _ => rfl
        wFresh := fun _ _ _ => rfl
        wComm := fun _ h => by cases h
        wSnap := fun _ sn h => by cases h
        aWorld := fun h => absurd hI h
        aNone := fun h => absurd hI h
        aSome := fun h => absurd hI h
        aSnap := fun h => absurd hI h }
    · intro a _; rfl
    · intro a h; exact absurd (hI.w a) h
    · exact I.ro
  · rw [if_neg hW]
    have hm : (⟨none, true⟩ : Req A) ∉ x.1 := fun h => hW (worldOf_write.mpr h)
    have hm2 : (⟨none, false⟩ : Req A) ∉ x.1 := fun h => hm ((hp x (List.mem_of_getElem? hx)).2 h)
    have hI : ¬IsW work s.n := fun h => hm (hIx.mp h)
    have hWa : ∀ a, W work s.n a ↔ lockOf x.1 a = some .write := by
      intro a
      rw [hWx, lockOf_write]
      unfold Writes
      simp [hm]
    apply gen
    · rfl
    · exact {
        init := ⟨x, hx, rfl⟩
        run := rfl
        within := within_init hp hx
        keep := fun _ _ => rfl
        fresh := fun _ => ⟨rfl, rfl, rfl⟩
        done := fun h => by cases h
        base := fun b hb => ⟨(base_ok I hb).1, fun j hj => by rw [hold _ j hj]; exact (base_ok I hb).2 j hj⟩
        comm := fun b hb => by cases hb
        first := fun h => by dsimp only; rw [if_pos h]; simp
        wEntries := fun h => absurd h hI
        wWorld := fun h => absurd h hI
        wFresh := fun _ _ _ => rfl
        wComm := fun _ h => by cases h
        wSnap := fun _ sn h => by cases h
        aWorld := fun _ => worldOf_none hm hm2
        aNone := fun _ a h => by
          dsimp only at h
          rw [Option.map_eq_none_iff] at h
          intro hr
          rcases (hRx a).mp hr with h1 | h1
          · rw [(hWa a).mp ((hWx a).mpr h1)] at h; cases h
          · unfold lockOf at h
            by_cases h2 : (⟨some a, true⟩ : Req A) ∈ x.1
            · rw [if_pos h2] at h; cases h
            · rw [if_neg h2, if_pos ⟨h1, by rw [worldOf_none hm hm2]; simp⟩] at h; cases h
        aSome := fun _ a e he => by
          dsimp only at he
          obtain ⟨l, hl, he⟩ := Option.map_eq_some_iff.mp he
          have hlw : W work s.n a ↔ l = .write := by rw [hWa, hl, Option.some.injEq]
          have hrd : Rd work s.n a := by
            by_cases h : l = .write
            · exact (hlw.mpr h).rd
            · exact (hRx a).mpr (Or.inr (lockOf_cases hl h).2)
          refine ⟨hrd, ?_⟩
          have hlr : ¬W work s.n a → l = .read := fun h => (lockOf_cases hl (fun h2 => h (hlw.mpr h2))).1
          rcases newEntry_cases (s := s) l a with ⟨j, h0, hg, hne⟩ | ⟨h0, hne⟩
          · rw [hne] at he
            subst he
            obtain ⟨g1, g2, g3⟩ := I.lock a j hg
            refine ⟨fun h => hlw.mp h, hlr, ?_, ?_, ?_, ?_, ?_⟩
            · intro k hk
              rw [Option.some.injEq] at hk
              subst hk
              exact ⟨rfl, g1, g2, g3, fun _ => ⟨rfl, rfl⟩⟩
            · intro h; cases h
            · intro h; cases h
            · intro v h; cases h
            · intro sn h; cases h
          · rw [hne] at he
            subst he
            have hn := I.noLocker h0
            refine ⟨fun h => hlw.mp h, hlr, ?_, ?_, ?_, ?_, ?_⟩
            · intro j h; cases h
            · intro _ h
              refine ⟨fun j hj hwj => absurd hwj (hn j hj), ?_⟩
              dsimp only
              rw [if_pos (hlw.mp h)]; rfl
            · intro _ h
              dsimp only
              rw [if_neg (fun h2 => h (hlw.mpr h2)), (roOf_ok hp I h0).1, (roOf_ok hp I h0).2]
            · intro v h; cases h
            · intro sn h; cases h
        aSnap := fun _ sn b h => by cases h }
    · intro a h
      unfold State.getLocker
      dsimp only
      rw [if_pos ((hWa a).mp h)]
    · intro a h
      unfold State.getLocker
      dsimp only
      rw [if_neg (fun h2 => h ((hWa a).mpr h2))]
    · intro a v hv
      by_cases h : lockOf x.1 a = some .read ∧ (s.n = 0 ∨ s.getLocker a = none)
      · rw [if_pos h, Option.some.injEq] at hv
        rw [← hv]; exact (roOf_ok hp I h.2).1
      · rw [if_neg h] at hv; exact I.ro a v hv

/-! ## Before the start -/

theorem touch_ok (hp : Proper work) (I : Inv work real s w) {i : ℕ} {a : A} (e : s.touch i a = some s') : Inv work real s' w := by
  unfold State.touch at e
  by_cases h : i < s.n ∧ (s.tx i).snap.isNone = true
  · rw [if_pos h] at e
    obtain ⟨⟨s1, r⟩, e1, e2⟩ := Option.map_eq_some_iff.mp e
    subst e2
    exact (access_ok hp I h.1 ((I.tx i h.1).fresh (by simpa using h.2)).2.2 e1).1
  · rw [if_neg h] at e; cases e

theorem start_ok (I : Inv work real s w) {i : ℕ} (e : s.start i = some s') : Inv work real s' w := by
  unfold State.start at e
  by_cases h : i < s.n ∧ (s.tx i).snap.isNone = true
  · rw [if_pos h] at e
    have hi := h.1
    have T := I.tx i hi
    have hsn : (s.tx i).snap = none := by simpa using h.2
    obtain ⟨f1, f2, f3⟩ := T.fresh hsn
    by_cases hW : IsW work i
    · have hworld : (s.tx i).world = some .write := by rw [T.wWorld hW, f3]; rfl
      rw [if_pos hworld] at e
      cases hr : s.realizeBase i with
      | none => rw [hr] at e; cases e
      | some s1 =>
        rw [hr] at e
        dsimp only at e
        rw [Option.some.injEq] at e
        subst e
        obtain ⟨I1, S1, hb⟩ := realizeBase_ok I hi hW f3 hr
        have T1 := I1.tx i (by rw [S1.n]; exact hi)
        obtain ⟨b, hb2⟩ := Option.ne_none_iff_exists'.mp hb
        have hfin := (T1.base b hb2).2
        have hreal : s1.real = seq work real i := by
          funext a
          rw [I1.own a i (by rw [S1.n]; exact hi) (hW.w a) (by rw [S1.waiting]; exact f3) (fun j hj _ => hfin j hj), f1]
        refine I1.change i _ rfl (fun _ => ?_)
        exact { T1 with
          fresh := fun h => by cases h
          wSnap := fun _ sn hsn => by
            dsimp only at hsn
            rw [Option.some.injEq] at hsn
            subst hsn
            exact ⟨by rw [hreal], hb⟩
          aSome := fun h => absurd hW h
          aSnap := fun h => absurd hW h }
    · have hworld := T.aWorld hW
      rw [if_neg (by rw [hworld]; simp), if_neg (by rw [hworld]; simp)] at e
      dsimp only at e
      rw [Option.some.injEq] at e
      subst e
      refine I.change i _ rfl (fun _ => ?_)
      exact { T with
        fresh := fun h => by cases h
        wSnap := fun h => absurd h hW
        aSome := fun h a en he => by
          obtain ⟨h1, h2⟩ := T.aSome h a en he
          refine ⟨h1, ⟨h2.lockW, h2.lockR, h2.dep, h2.nodepW, h2.nodepR, h2.base, ?_⟩⟩
          intro sn hs hwt hwa
          dsimp only at hs he hwt
          rw [Option.some.injEq] at hs
          subst hs
          dsimp only
          rw [he]
          unfold State.snapEntry
          dsimp only
          have hl : en.lock = .write := by rw [h2.lockW hwa, f3]; rfl
          rw [if_pos hl]
          cases hd : en.depend with
          | some j =>
            rw [(h2.dep j hd).1]
            exact ⟨(fun v hv => by cases hv), fun _ h => by cases h⟩
          | none =>
            obtain ⟨g1, g2⟩ := h2.nodepW hd hwa
            rw [g2, f3]
            refine ⟨fun v hv => ⟨?_, rfl⟩, fun h => by cases h⟩
            have hv' : s.real a = v := by
              simpa [State.value] using hv
            rw [← hv', I.own a i hi hwa f3 g1, f1]
        aSnap := fun _ sn b hs hb => by
          dsimp only at hs
          rw [Option.some.injEq] at hs
          subst hs
          exact (T.base b hb).1 }
  · rw [if_neg h] at e; cases e

end

end Verif.Virtual
