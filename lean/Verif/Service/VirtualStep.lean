import Verif.Service.VirtualInv

/-! # Every step keeps the invariant of concurrent execution -/

namespace Verif.Virtual

section
variable {A V R : Type} [DecidableEq A] {work : List (List (Req A) × Prog A V R)} {real : A → V}
variable {s s' : State A V R} {w : ℕ → A → V}

/-- What `GetAccountState` leaves as it is. -/
structure Same (s s' : State A V R) (i : ℕ) : Prop where
  real : s'.real = s.real
  n : s'.n = s.n
  waiting : ∀ j, (s'.tx j).waiting = (s.tx j).waiting
  prog : (s'.tx i).prog = (s.tx i).prog
  init : (s'.tx i).init = (s.tx i).init
  snap : (s'.tx i).snap = (s.tx i).snap
  world : (s'.tx i).world = (s.tx i).world

theorem Same.refl (s : State A V R) (i : ℕ) : Same s s i := ⟨rfl, rfl, fun _ => rfl, rfl, rfl, rfl, rfl⟩

theorem realizeBase_ok (I : Inv work real s w) {i : ℕ} (hi : i < s.n) (hW : IsW work i) (hw : (s.tx i).waiting = true)
    (e : s.realizeBase i = some s') : Inv work real s' w ∧ Same s s' i ∧ (s'.tx i).base ≠ none := by
  unfold State.realizeBase at e
  have T := I.tx i hi
  by_cases hb : (s.tx i).base.isSome
  · rw [if_pos hb, Option.some.injEq] at e
    subst e
    exact ⟨I, Same.refl _ _, fun h => by rw [h] at hb; cases hb⟩
  · rw [if_neg hb] at e
    have hbn : (s.tx i).base = none := by simpa using hb
    have hi0 : i ≠ 0 := fun h => T.first h hbn
    obtain ⟨s1, e1, e2⟩ := Option.map_eq_some_iff.mp e
    subst e2
    unfold State.realize at e1
    by_cases hall : (s.realizeList (i - 1)).all (fun j => !(s.tx j).waiting) = true
    · rw [if_pos hall] at e1
      have hfin := realizeList_ok I (i - 1) (by omega) hall
      have hreal : s.real = seq work real i := by
        funext a
        rw [I.own a i hi (hW.w a) hw (fun j hj _ => hfin j (by omega)), T.wFresh hW hw hbn]
      have hs : i - 1 + 1 = i := by omega
      have P := I.tx (i - 1) (by omega)
      -- the parent has the world
      have key : ∃ s2 : State A V R, s1 = s2 ∧ Inv work real s2 w ∧ s2.real = s.real ∧ s2.n = s.n ∧
          (∀ j, (s2.tx j).waiting = (s.tx j).waiting) ∧ s2.tx i = s.tx i ∧
          (s2.tx (i - 1)).committed = some (seq work real i) := by
        by_cases hc : (s.tx (i - 1)).committed.isSome
        · rw [if_pos hc, Option.some.injEq] at e1
          obtain ⟨b, hb2⟩ := Option.isSome_iff_exists.mp hc
          refine ⟨s, e1.symm, I, rfl, rfl, fun _ => rfl, rfl, ?_⟩
          rw [hb2, (P.comm b hb2).1, hs]
        · rw [if_neg hc, Option.some.injEq] at e1
          refine ⟨_, e1.symm, I.change (i - 1) _ rfl ?_, rfl, rfl, ?_, ?_, ?_⟩
          · intro _
            exact { P with
              comm := fun b hb2 => by
                have hb3 : s.real = b := by simpa using hb2
                refine ⟨by rw [← hb3, hreal, hs], fun j hj => hfin j hj⟩
              wComm := fun _ _ => by simp
              aSome := fun h a e he => by
                obtain ⟨h1, h2⟩ := P.aSome h a e he
                exact ⟨h1, ⟨h2.lockW, h2.lockR, h2.dep, h2.nodepW, h2.nodepR, h2.base, h2.snap⟩⟩ }
          · intro j
            dsimp only
            by_cases h : j = i - 1
            · subst h; rw [Function.update_self]
            · rw [Function.update_of_ne h]
          · dsimp only; rw [Function.update_of_ne (by omega)]
          · dsimp only; rw [Function.update_self, hreal]
      obtain ⟨s2, rfl, I2, r1, r2, r3, r4, r5⟩ := key
      have T2 := I2.tx i (by omega)
      refine ⟨I2.change i _ rfl ?_, ⟨r1, r2, ?_, ?_, ?_, ?_, ?_⟩, ?_⟩
      · intro _
        exact { T2 with
          base := fun b hb2 => by
            have hb3 : (s1.tx (i - 1)).committed = some b := hb2
            rw [r5, Option.some.injEq] at hb3
            refine ⟨hb3.symm, fun j hj => ?_⟩
            show (s1.tx j).waiting = false
            rw [r3]; exact hfin j (by omega)
          first := fun h => absurd h hi0
          wFresh := fun _ _ hbb => by
            have hbb' : (s1.tx (i - 1)).committed = none := hbb
            rw [r5] at hbb'; cases hbb'
          wSnap := fun h sn hsn => by
            refine ⟨(T2.wSnap h sn hsn).1, ?_⟩
            show (s1.tx (i - 1)).committed ≠ none
            rw [r5]; simp
          aSome := fun h => absurd hW h }
      · intro j
        dsimp only
        by_cases h : j = i
        · subst h; rw [Function.update_self]; exact r3 j
        · rw [Function.update_of_ne h]; exact r3 j
      · dsimp only; rw [Function.update_self]; rw [r4]
      · dsimp only; rw [Function.update_self]; rw [r4]
      · dsimp only; rw [Function.update_self]; rw [r4]
      · dsimp only; rw [Function.update_self]; rw [r4]
      · dsimp only
        rw [Function.update_self]
        show (s1.tx (i - 1)).committed ≠ none
        rw [r5]; simp
    · rw [if_neg hall] at e1; cases e1

/-- `GetAccountState` keeps the invariant; an account state it gives has the value the transaction has to see, and is that of the real
world if it may be written. -/
theorem access_ok (hp : Proper work) (I : Inv work real s w) {i : ℕ} (hi : i < s.n) (hw : (s.tx i).waiting = true) {a : A}
    {r : Option (Ref V)} (e : s.access i a = some (s', r)) :
    Inv work real s' w ∧ Same s s' i ∧ ∀ x, r = some x → s'.value a x = w i a ∧
      (W work i a → x = .live ∧ ∀ j, j < i → W work j a → (s.tx j).waiting = false) ∧ (IsW work i → (s'.tx i).base ≠ none) ∧
      ∀ e, (s'.tx i).entries a = some e → e.depend = none := by
  have T := I.tx i hi
  unfold State.access at e
  by_cases hW : IsW work i
  · rw [T.wEntries hW a] at e
    dsimp only at e
    rw [T.wWorld hW] at e
    dsimp only at e
    cases hr : s.realizeBase i with
    | none => rw [hr] at e; cases e
    | some s1 =>
      rw [hr] at e
      dsimp only at e
      rw [Option.some.injEq, Prod.mk.injEq] at e
      obtain ⟨e1, e2⟩ := e
      subst e1
      obtain ⟨I1, S1, hb⟩ := realizeBase_ok I hi hW hw hr
      refine ⟨I1, S1, ?_⟩
      intro x hx
      have T1 := I1.tx i (by rw [S1.n]; exact hi)
      have hw1 : (s1.tx i).waiting = true := by rw [S1.waiting]; exact hw
      have hcn : (s1.tx i).committed = none := by
        cases hc : (s1.tx i).committed with
        | none => rfl
        | some b =>
          have := (T1.comm b hc).2 i (le_refl _)
          rw [hw1] at this; cases this
      have hx2 : x = .live := by
        rw [hx] at e2
        unfold State.worldRef at e2
        rw [hcn] at e2
        dsimp only at e2
        rw [T1.wWorld hW, hw1, if_pos rfl] at e2
        simpa using e2.symm
      obtain ⟨b, hb2⟩ := Option.ne_none_iff_exists'.mp hb
      have hfin := (T1.base b hb2).2
      subst hx2
      refine ⟨?_, fun _ => ⟨rfl, fun j hj _ => by rw [← S1.waiting]; exact hfin j hj⟩, fun _ => hb,
        fun e he => by rw [T1.wEntries hW a] at he; cases he⟩
      show s1.real a = w i a
      exact I1.own a i (by rw [S1.n]; exact hi) (hW.w a) hw1 (fun j hj _ => hfin j hj)
  · cases he : (s.tx i).entries a with
    | none =>
      rw [he] at e
      dsimp only at e
      rw [T.aWorld hW] at e
      dsimp only at e
      rw [Option.some.injEq, Prod.mk.injEq] at e
      obtain ⟨e1, e2⟩ := e
      subst e1 e2
      exact ⟨I, Same.refl _ _, fun x hx => by cases hx⟩
    | some en =>
      rw [he] at e
      dsimp only at e
      obtain ⟨hrd, E⟩ := T.aSome hW a en he
      cases hd : en.depend with
      | none =>
        rw [hd] at e
        dsimp only at e
        rw [Option.some.injEq, Prod.mk.injEq] at e
        obtain ⟨e1, e2⟩ := e
        subst e1
        refine ⟨I, Same.refl _ _, ?_⟩
        intro x hx
        rw [hx] at e2
        by_cases hwa : W work i a
        · obtain ⟨h1, h2⟩ := E.nodepW hd hwa
          rw [h2, hw, if_pos rfl, Option.some.injEq] at e2
          subst e2
          exact ⟨I.own a i hi hwa hw (fun j hj hwj => h1 j hj hwj), fun _ => ⟨rfl, h1⟩, fun h => absurd h hW,
            fun e' he' => by rw [he, Option.some.injEq] at he'; rw [← he']; exact hd⟩
        · have h2 := E.nodepR hd hwa
          rw [h2, Option.some.injEq] at e2
          subst e2
          refine ⟨?_, fun h => absurd h hwa, fun h => absurd h hW,
            fun e' he' => by rw [he, Option.some.injEq] at he'; rw [← he']; exact hd⟩
          show seq work real i a = w i a
          rw [T.keep a hwa]
      | some j =>
        rw [hd] at e
        dsimp only at e
        obtain ⟨d1, d2, d3, d4, d5⟩ := E.dep j hd
        by_cases hwj : (s.tx j).waiting = true
        · rw [if_pos hwj] at e; cases e
        · rw [if_neg hwj] at e
          have hfj : (s.tx j).waiting = false := by simpa using hwj
          have hseq : seq work real i a = seq work real (j + 1) a :=
            seq_range hp (by omega) (fun k h1 h2 => d4 k (by omega) h2)
          -- all earlier writers are committed
          have hall : ∀ k, k < i → W work k a → (s.tx k).waiting = false := by
            intro k hk hwk
            rcases Nat.lt_trichotomy k j with h | h | h
            · exact earlier_fin I (by omega) d3 hfj h hwk
            · subst h; exact hfj
            · exact absurd hwk (d4 k h hk)
          by_cases hwa : W work i a
          · have hl : en.lock = .write := by rw [E.lockW hwa, hw]; rfl
            rw [if_pos hl] at e
            dsimp only at e
            rw [Option.some.injEq, Prod.mk.injEq] at e
            obtain ⟨e1, e2⟩ := e
            have hval : s.real a = w i a := I.own a i hi hwa hw hall
            subst e1
            refine ⟨I.change i _ rfl ?_, ⟨rfl, rfl, ?_, ?_, ?_, ?_, ?_⟩, ?_⟩
            · intro _
              exact { T with
                wEntries := fun h => absurd h hW
                aNone := fun h b hb => by
                  dsimp only at hb
                  by_cases hba : b = a
                  · subst hba; rw [Function.update_self] at hb; cases hb
                  · rw [Function.update_of_ne hba] at hb; exact T.aNone h b hb
                aSome := fun h b en' hb => by
                  dsimp only at hb
                  by_cases hba : b = a
                  · subst hba
                    rw [Function.update_self, Option.some.injEq] at hb
                    subst hb
                    refine ⟨hrd, ⟨E.lockW, E.lockR, ?_, ?_, ?_, ?_, ?_⟩⟩
                    · intro j' hj'; cases hj'
                    · intro _ _; refine ⟨hall, ?_⟩
                      dsimp only; rw [hw]; rfl
                    · intro _ h; exact absurd hwa h
                    · intro v hv
                      dsimp only at hv
                      rw [Option.some.injEq] at hv
                      rw [← hv]
                      show s.real b = _
                      rw [hval, (d5 hwa).2]
                    · intro sn hsn hwt hwb
                      exact ⟨fun v hv => ⟨((E.snap sn hsn hwt hwb).1 v hv).1, rfl⟩, fun _ _ => by simp⟩
                  · rw [Function.update_of_ne hba] at hb
                    obtain ⟨h1, h2⟩ := T.aSome h b en' hb
                    exact ⟨h1, ⟨h2.lockW, h2.lockR, h2.dep, h2.nodepW, h2.nodepR, h2.base, h2.snap⟩⟩ }
            · intro k
              dsimp only
              by_cases h : k = i
              · subst h; rw [Function.update_self]
              · rw [Function.update_of_ne h]
            · dsimp only; rw [Function.update_self]
            · dsimp only; rw [Function.update_self]
            · dsimp only; rw [Function.update_self]
            · dsimp only; rw [Function.update_self]
            · intro x hx
              rw [hx, Option.some.injEq] at e2
              subst e2
              exact ⟨hval, fun _ => ⟨rfl, hall⟩, fun h => absurd h hW, fun e' he' => by
                  dsimp only at he'
                  rw [Function.update_self] at he'
                  dsimp only at he'
                  rw [Function.update_self, Option.some.injEq] at he'
                  rw [← he']⟩
          · have hl : en.lock = .read := E.lockR hwa
            have hpk := peek_ok I (by omega) d3 hfj
            rw [if_neg (by rw [hl]; simp), hpk] at e
            dsimp only [Option.map_some] at e
            rw [Option.some.injEq, Prod.mk.injEq] at e
            obtain ⟨e1, e2⟩ := e
            subst e1
            refine ⟨I.change i _ rfl ?_, ⟨rfl, rfl, ?_, ?_, ?_, ?_, ?_⟩, ?_⟩
            · intro _
              exact { T with
                wEntries := fun h => absurd h hW
                aNone := fun h b hb => by
                  dsimp only at hb
                  by_cases hba : b = a
                  · subst hba; rw [Function.update_self] at hb; cases hb
                  · rw [Function.update_of_ne hba] at hb; exact T.aNone h b hb
                aSome := fun h b en' hb => by
                  dsimp only at hb
                  by_cases hba : b = a
                  · subst hba
                    rw [Function.update_self, Option.some.injEq] at hb
                    subst hb
                    refine ⟨hrd, ⟨E.lockW, E.lockR, ?_, ?_, ?_, ?_, ?_⟩⟩
                    · intro j' hj'; cases hj'
                    · intro _ h; exact absurd h hwa
                    · intro _ _; dsimp only; rw [hseq]
                    · intro v hv
                      dsimp only at hv
                      rw [Option.some.injEq] at hv
                      rw [← hv, hseq]; rfl
                    · intro sn hsn hwt hwb
                      exact absurd hwb hwa
                  · rw [Function.update_of_ne hba] at hb
                    obtain ⟨h1, h2⟩ := T.aSome h b en' hb
                    exact ⟨h1, ⟨h2.lockW, h2.lockR, h2.dep, h2.nodepW, h2.nodepR, h2.base, h2.snap⟩⟩ }
            · intro k
              dsimp only
              by_cases h : k = i
              · subst h; rw [Function.update_self]
              · rw [Function.update_of_ne h]
            · dsimp only; rw [Function.update_self]
            · dsimp only; rw [Function.update_self]
            · dsimp only; rw [Function.update_self]
            · dsimp only; rw [Function.update_self]
            · intro x hx
              rw [hx, Option.some.injEq] at e2
              subst e2
              refine ⟨?_, fun h => absurd h hwa, fun h => absurd h hW, fun e' he' => by
                  dsimp only at he'
                  rw [Function.update_self] at he'
                  dsimp only at he'
                  rw [Function.update_self, Option.some.injEq] at he'
                  rw [← he']⟩
              show seq work real (j + 1) a = w i a
              rw [T.keep a hwa, hseq]

end

end Verif.Virtual
