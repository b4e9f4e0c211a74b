import Verif.Service.VirtualKeep

/-! # Every step keeps the invariant of concurrent execution, the end -/

namespace Verif.Virtual

section
variable {A V R : Type} [DecidableEq A] {work : List (List (Req A) × Prog A V R)} {real : A → V}
variable {s s' : State A V R} {w : ℕ → A → V}

/-- Changing a transaction, its world and the real world. -/
theorem Inv.changeReal (I : Inv work real s w) {i : ℕ} (hi : i < s.n) (t : Tx A V R) (rl wi : A → V)
    (hw : t.waiting = (s.tx i).waiting) (hwt : (s.tx i).waiting = true)
    (ht : TxOk work real (fun j => (s.tx j).waiting = false) i t wi)
    (hother : ∀ a, ¬W work i a → rl a = s.real a)
    (hown : ∀ a, W work i a → (∀ j, j < i → W work j a → (s.tx j).waiting = false) → rl a = wi a)
    (hnot : ∀ a, W work i a → ¬(∀ j, j < i → W work j a → (s.tx j).waiting = false) → rl a = s.real a) :
    Inv work real { s with real := rl, tx := Function.update s.tx i t } (Function.update w i wi) := by
  have hwait := wait_update (s := s) hw
  have hfin : (fun j => (Function.update s.tx i t j).waiting = false) = (fun j => (s.tx j).waiting = false) := by
    funext j; rw [hwait]
  refine ⟨I.n, ?_, ?_, ?_, I.lock, I.nolock, I.ro⟩
  · intro j hj
    dsimp only at hj ⊢
    rw [hfin]
    by_cases h : j = i
    · subst h; rw [Function.update_self, Function.update_self]; exact ht
    · rw [Function.update_of_ne h, Function.update_of_ne h]; exact I.tx j hj
  · intro a c hc hW hcw hj
    dsimp only at hc hcw hj ⊢
    rw [hwait] at hcw
    have hj' : ∀ j, j < c → W work j a → (s.tx j).waiting = false := fun j h1 h2 => by
      have := hj j h1 h2
      rwa [hwait] at this
    by_cases h : c = i
    · subst h
      rw [Function.update_self]
      exact hown a hW hj'
    · rw [Function.update_of_ne h]
      rw [← I.own a c hc hW hcw hj']
      by_cases hWi : W work i a
      · apply hnot a hWi
        intro hall
        rcases Nat.lt_or_gt_of_ne h with h1 | h1
        · have := hall c h1 hW
          rw [hcw] at this; cases this
        · have := hj' i h1 hWi
          rw [hwt] at this; cases this
      · exact hother a hWi
  · intro a hj
    dsimp only at hj ⊢
    have hnw : ¬W work i a := by
      intro h
      have := hj i hi h
      rw [hwait, hwt] at this; cases this
    rw [hother a hnw]
    exact I.free a (fun j h1 h2 => by have := hj j h1 h2; rwa [hwait] at this)

/-! ## Running -/

theorem step_ok (hp : Proper work) (I : Inv work real s w) {i : ℕ} (e : s.step i = some s') :
    ∃ w', Inv work real s' w' := by
  unfold State.step at e
  by_cases h : i < s.n ∧ (s.tx i).snap.isSome = true ∧ (s.tx i).waiting = true
  · rw [if_pos h] at e
    obtain ⟨hi, hsn, hw⟩ := h
    have T := I.tx i hi
    cases hpr : (s.tx i).prog with
    | done r => rw [hpr] at e; cases e
    | read a k =>
      rw [hpr] at e
      dsimp only at e
      cases hac : s.access i a with
      | none => rw [hac] at e; cases e
      | some y =>
        obtain ⟨s1, r⟩ := y
        cases r with
        | none => rw [hac] at e; cases e
        | some r =>
          rw [hac] at e
          dsimp only at e
          rw [Option.some.injEq] at e
          subst e
          obtain ⟨I1, S1, hx⟩ := access_ok hp I hi hw hac
          obtain ⟨x1, -⟩ := hx r rfl
          have T1 := I1.tx i (by rw [S1.n]; exact hi)
          refine ⟨w, I1.change i _ rfl (fun _ => ?_)⟩
          exact { T1 with
            run := by
              have := T1.run
              rw [S1.prog, hpr, run] at this
              dsimp only
              rw [x1]; exact this
            within := by
              have := T1.within
              rw [S1.prog, hpr] at this
              exact this.2 _
            fresh := fun hn => by
              dsimp only at hn
              rw [S1.snap] at hn
              rw [hn] at hsn; cases hsn
            done := fun hn => by
              dsimp only at hn
              rw [S1.waiting, hw] at hn; cases hn
            aSome := fun h b en hb => by
              obtain ⟨h1, h2⟩ := T1.aSome h b en hb
              exact ⟨h1, ⟨h2.lockW, h2.lockR, h2.dep, h2.nodepW, h2.nodepR, h2.base, h2.snap⟩⟩ }
    | write a v k =>
      rw [hpr] at e
      dsimp only at e
      cases hac : s.access i a with
      | none => rw [hac] at e; cases e
      | some y =>
        obtain ⟨s1, r⟩ := y
        cases r with
        | none => rw [hac] at e; cases e
        | some r =>
          cases r with
          | ro v => rw [hac] at e; cases e
          | live =>
            rw [hac] at e
            dsimp only at e
            rw [Option.some.injEq] at e
            subst e
            obtain ⟨I1, S1, hx⟩ := access_ok hp I hi hw hac
            obtain ⟨x1, x2, x3, x4⟩ := hx .live rfl
            have T1 := I1.tx i (by rw [S1.n]; exact hi)
            have hwi := T1.within
            rw [S1.prog, hpr] at hwi
            have hWa : W work i a := hwi.1
            have hall : ∀ j, j < i → W work j a → (s1.tx j).waiting = false := fun j h1 h2 => by
              rw [S1.waiting]; exact (x2 hWa).2 j h1 h2
            refine ⟨Function.update w i (Function.update (w i) a v),
              I1.changeReal (by rw [S1.n]; exact hi) _ _ _ rfl (by rw [S1.waiting]; exact hw) ?_ ?_ ?_ ?_⟩
            · exact { T1 with
                run := by
                  have := T1.run
                  rw [S1.prog, hpr, run] at this
                  exact this
                within := hwi.2
                keep := fun b hb => by
                  rw [Function.update_of_ne (show b ≠ a from by rintro rfl; exact hb hWa)]; exact T1.keep b hb
                fresh := fun hn => by
                  dsimp only at hn
                  rw [S1.snap] at hn
                  rw [hn] at hsn; cases hsn
                done := fun hn => by
                  dsimp only at hn
                  rw [S1.waiting, hw] at hn; cases hn
                wFresh := fun h1 _ h2 => absurd h2 (x3 h1)
                aSome := fun h b en hb => by
                  obtain ⟨h1, h2⟩ := T1.aSome h b en hb
                  refine ⟨h1, ⟨h2.lockW, h2.lockR, ?_, h2.nodepW, h2.nodepR, h2.base, h2.snap⟩⟩
                  intro j hj
                  obtain ⟨d1, d2, d3, d4, d5⟩ := h2.dep j hj
                  refine ⟨d1, d2, d3, d4, fun hwb => ⟨(d5 hwb).1, ?_⟩⟩
                  have hba : b ≠ a := by
                    rintro rfl
                    have := x4 en hb
                    rw [this] at hj; cases hj
                  rw [Function.update_of_ne hba]; exact (d5 hwb).2 }
            · intro b hb
              rw [Function.update_of_ne (show b ≠ a from by rintro rfl; exact hb hWa)]
            · intro b hb hj
              by_cases hba : b = a
              · subst hba; rw [Function.update_self, Function.update_self]
              · rw [Function.update_of_ne hba, Function.update_of_ne hba]
                exact I1.own b i (by rw [S1.n]; exact hi) hb (by rw [S1.waiting]; exact hw) hj
            · intro b hb hj
              have hba : b ≠ a := by
                rintro rfl
                exact hj hall
              rw [Function.update_of_ne hba]
  · rw [if_neg h] at e; cases e

/-! ## Retrying -/

theorem retry_ok (hp : Proper work) (I : Inv work real s w) {i : ℕ} (e : s.retry i = some s') :
    ∃ w', Inv work real s' w' := by
  unfold State.retry at e
  cases hsn : (s.tx i).snap with
  | none => rw [hsn] at e; cases e
  | some sn =>
    rw [hsn] at e
    dsimp only at e
    by_cases h : i < s.n ∧ (s.tx i).waiting = true
    · rw [if_pos h] at e
      obtain ⟨hi, hw⟩ := h
      have T := I.tx i hi
      obtain ⟨x, hx, hxi⟩ := T.init
      have hwithin : Within (Rd work i) (W work i) (s.tx i).init := by rw [hxi]; exact within_init hp hx
      by_cases hW : IsW work i
      · have hworld : (s.tx i).world = some .write := by rw [T.wWorld hW, hw]; rfl
        obtain ⟨b1, b2⟩ := T.wSnap hW sn hsn
        rw [if_pos hworld, b1] at e
        dsimp only at e
        rw [Option.some.injEq] at e
        subst e
        obtain ⟨b, hb⟩ := Option.ne_none_iff_exists'.mp b2
        have hfin := (T.base b hb).2
        refine ⟨Function.update w i (seq work real i), I.changeReal hi _ _ _ rfl hw ?_ ?_ ?_ ?_⟩
        · exact { T with
            run := rfl
            within := hwithin
            keep := fun _ _ => rfl
            fresh := fun hn => by
              dsimp only at hn
              rw [hsn] at hn; cases hn
            done := fun hn => by
              dsimp only at hn
              rw [hw] at hn; cases hn
            wFresh := fun _ _ _ => rfl
            aSome := fun h => absurd hW h }
        · intro a h; exact absurd (hW.w a) h
        · intro a _ _; rfl
        · intro a _ h; exact absurd (fun j hj _ => hfin j hj) h
      · rw [if_neg (by rw [T.aWorld hW]; simp), Option.some.injEq] at e
        subst e
        -- what the reset makes of an account
        have hreset : ∀ a, (W work i a → ∀ en, (s.tx i).entries a = some en →
            (en.depend = none → s.resetAcct (s.tx i) sn a = seq work real i a) ∧
            (en.depend ≠ none → s.resetAcct (s.tx i) sn a = s.real a)) ∧
            (¬W work i a → s.resetAcct (s.tx i) sn a = s.real a) := by
          intro a
          constructor
          · intro hwa en hen
            have E := (T.aSome hW a en hen).2
            have hl : en.lock = .write := by rw [E.lockW hwa, hw]; rfl
            obtain ⟨s1, s2⟩ := E.snap sn hsn hw hwa
            unfold State.resetAcct
            rw [hen]
            dsimp only
            rw [if_pos hl]
            constructor
            · intro hd
              cases hac : sn.accts a with
              | some v => exact (s1 v hac).1
              | none =>
                dsimp only
                rw [(E.nodepW hd hwa).2]
                dsimp only
                cases hb : sn.base with
                | some b => dsimp only; rw [T.aSnap hW sn b hsn hb]
                | none =>
                  dsimp only
                  obtain ⟨v, hv⟩ := Option.ne_none_iff_exists'.mp (s2 hac hd)
                  rw [hv]
                  exact E.base v hv
            · intro hd
              cases hac : sn.accts a with
              | some v => exact absurd (s1 v hac).2 hd
              | none =>
                dsimp only
                obtain ⟨j, hj⟩ := Option.ne_none_iff_exists'.mp hd
                rw [(E.dep j hj).1]
          · intro hwa
            unfold State.resetAcct
            cases hen : (s.tx i).entries a with
            | none => rfl
            | some en =>
              have E := (T.aSome hW a en hen).2
              dsimp only
              rw [if_neg (by rw [E.lockR hwa]; simp)]
        have hent : ∀ a, W work i a → ∃ en, (s.tx i).entries a = some en := by
          intro a hwa
          cases hen : (s.tx i).entries a with
          | none => exact absurd hwa.rd (T.aNone hW a hen)
          | some en => exact ⟨en, rfl⟩
        refine ⟨Function.update w i (seq work real i), I.changeReal hi _ _ _ rfl hw ?_ ?_ ?_ ?_⟩
        · exact { T with
            run := rfl
            within := hwithin
            keep := fun _ _ => rfl
            fresh := fun hn => by
              dsimp only at hn
              rw [hsn] at hn; cases hn
            done := fun hn => by
              dsimp only at hn
              rw [hw] at hn; cases hn
            wFresh := fun _ _ _ => rfl
            aSome := fun h b en hb => by
              obtain ⟨h1, h2⟩ := T.aSome h b en hb
              refine ⟨h1, ⟨h2.lockW, h2.lockR, ?_, h2.nodepW, h2.nodepR, h2.base, h2.snap⟩⟩
              intro j hj
              obtain ⟨d1, d2, d3, d4, d5⟩ := h2.dep j hj
              exact ⟨d1, d2, d3, d4, fun hwb => ⟨(d5 hwb).1, rfl⟩⟩ }
        · intro a h; exact (hreset a).2 h
        · intro a hwa hj
          obtain ⟨en, hen⟩ := hent a hwa
          by_cases hd : en.depend = none
          · exact ((hreset a).1 hwa en hen).1 hd
          · rw [((hreset a).1 hwa en hen).2 hd, I.own a i hi hwa hw hj]
            obtain ⟨k, hk⟩ := Option.ne_none_iff_exists'.mp hd
            exact (((T.aSome hW a en hen).2.dep k hk).2.2.2.2 hwa).2
        · intro a hwa hj
          obtain ⟨en, hen⟩ := hent a hwa
          by_cases hd : en.depend = none
          · exact absurd ((T.aSome hW a en hen).2.nodepW hd hwa).1 hj
          · exact ((hreset a).1 hwa en hen).2 hd
    · rw [if_neg h] at e; cases e

/-! ## Committing -/

/-- A waiting transaction that has an earlier waiting writer of an account sees the account as it has to be at its start. -/
theorem blocked_fresh (I : Inv work real s w) {i c : ℕ} {a : A} (hi : (s.tx i).waiting = true) (hic : i < c) (hc : c < s.n)
    (hWi : W work i a) (hWc : W work c a) (hcw : (s.tx c).waiting = true) : w c a = seq work real c a := by
  have T := I.tx c hc
  by_cases hW : IsW work c
  · cases hb : (s.tx c).base with
    | none => rw [T.wFresh hW hcw hb]
    | some b =>
      have := (T.base b hb).2 i hic
      rw [hi] at this; cases this
  · cases hen : (s.tx c).entries a with
    | none => exact absurd hWc.rd (T.aNone hW a hen)
    | some en =>
      have E := (T.aSome hW a en hen).2
      cases hd : en.depend with
      | some j => exact ((E.dep j hd).2.2.2.2 hWc).2
      | none =>
        have := (E.nodepW hd hWc).1 i hic hWi
        rw [hi] at this; cases this

theorem commit_ok (hp : Proper work) (I : Inv work real s w) {i : ℕ} {r : R} (h : s.CanCommit i r) :
    Inv work real (s.commit i) w := by
  obtain ⟨hi, hsn, hw, hpr, hready⟩ := h
  have T := I.tx i hi
  obtain ⟨x, hx, hxi⟩ := T.init
  obtain ⟨sn, hsn2⟩ := Option.isSome_iff_exists.mp hsn
  -- the transaction has made the next world
  have hwi : w i = seq work real (i + 1) := by
    have := T.run
    rw [hpr, hxi, run] at this
    rw [seq_succ hx, ← this]
  -- all that it may write is its own
  have hall : ∀ a, W work i a → ∀ j, j < i → W work j a → (s.tx j).waiting = false := by
    intro a hwa j hj hwj
    by_cases hW : IsW work i
    · obtain ⟨b, hb⟩ := Option.ne_none_iff_exists'.mp (T.wSnap hW sn hsn2).2
      exact (T.base b hb).2 j hj
    · cases hen : (s.tx i).entries a with
      | none => exact absurd hwa.rd (T.aNone hW a hen)
      | some en =>
        have E := (T.aSome hW a en hen).2
        cases hd : en.depend with
        | none => exact (E.nodepW hd hwa).1 j hj hwj
        | some k =>
          obtain ⟨d1, d2, d3, d4, d5⟩ := E.dep k hd
          have hk := hready a en k hen (by rw [E.lockW hwa, hw]; rfl) hd
          rcases Nat.lt_trichotomy j k with h | h | h
          · exact earlier_fin I (by omega) d3 hk h hwj
          · subst h; exact hk
          · exact absurd hwj (d4 j h hj)
  have hreal : ∀ a, W work i a → s.real a = seq work real (i + 1) a := by
    intro a hwa
    rw [I.own a i hi hwa hw (hall a hwa), hwi]
  -- no later transaction has committed what it may write
  have hlater : ∀ a, W work i a → ∀ j, i < j → j < s.n → W work j a → (s.tx j).waiting = true := by
    intro a hwa j h1 h2 hwj
    cases hf : (s.tx j).waiting with
    | true => rfl
    | false =>
      have := earlier_fin I h2 hwj hf h1 hwa
      rw [hw] at this; cases this
  unfold State.commit
  generalize ht : ({ s.tx i with
      entries := fun a => ((s.tx i).entries a).map (s.commitEntry a)
      world := if (s.tx i).world = some .write then some .unlock else (s.tx i).world
      committed := if (s.tx i).world = some .write then some s.real else (s.tx i).committed
      waiting := false } : Tx A V R) = t
  have htw : t.waiting = false := by rw [← ht]
  have hself : Function.update s.tx i t i = t := Function.update_self _ _ _
  have hne : ∀ j, j ≠ i → Function.update s.tx i t j = s.tx j := fun j hj => Function.update_of_ne hj _ _
  have hgrow : ∀ j, (s.tx j).waiting = false → (Function.update s.tx i t j).waiting = false := by
    intro j hj
    by_cases h : j = i
    · subst h; rw [hself, htw]
    · rw [hne j h]; exact hj
  refine ⟨I.n, ?_, ?_, ?_, I.lock, I.nolock, I.ro⟩
  · intro j hj
    dsimp only at hj ⊢
    by_cases hji : j = i
    · subst hji
      rw [hself]
      have T' := T.mono (fin' := fun j' => (Function.update s.tx j t j').waiting = false) (fun j' _ h => hgrow j' h)
      subst ht
      exact { T' with
        fresh := fun h => by
          dsimp only at h
          rw [h] at hsn; cases hsn
        done := fun _ => ⟨r, hpr⟩
        comm := fun b hb => by
          dsimp only at hb
          by_cases hworld : (s.tx j).world = some .write
          · rw [if_pos hworld, Option.some.injEq] at hb
            have hW : IsW work j := by
              by_contra hW
              rw [T.aWorld hW] at hworld; cases hworld
            refine ⟨?_, fun k hk => ?_⟩
            · rw [← hb]; funext a; exact hreal a (hW.w a)
            · by_cases hkj : k = j
              · subst hkj; rw [hself]
              · obtain ⟨b', hb'⟩ := Option.ne_none_iff_exists'.mp (T.wSnap hW sn hsn2).2
                exact hgrow k ((T.base b' hb').2 k (by omega))
          · rw [if_neg hworld] at hb
            exact T'.comm b hb
        wEntries := fun hW a => by
          dsimp only
          rw [T.wEntries hW a]; rfl
        wWorld := fun hW => by
          dsimp only
          have : (s.tx j).world = some .write := by rw [T.wWorld hW, hw]; rfl
          rw [if_pos this]; rfl
        wFresh := fun _ h => by cases h
        wComm := fun hW _ => by
          dsimp only
          have : (s.tx j).world = some .write := by rw [T.wWorld hW, hw]; rfl
          rw [if_pos this]; simp
        aWorld := fun hW => by
          dsimp only
          rw [if_neg (by rw [T.aWorld hW]; simp), T.aWorld hW]
        aNone := fun hW a ha => by
          dsimp only at ha
          rw [Option.map_eq_none_iff] at ha
          exact T.aNone hW a ha
        aSome := fun hW a e he => by
          dsimp only at he
          obtain ⟨en, hen, he⟩ := Option.map_eq_some_iff.mp he
          obtain ⟨h1, E⟩ := T.aSome hW a en hen
          refine ⟨h1, ?_⟩
          unfold State.commitEntry at he
          by_cases hwa : W work j a
          · have hl : en.lock = .write := by rw [E.lockW hwa, hw]; rfl
            rw [if_pos hl] at he
            have hfin : ∀ k, k < j → W work k a → (Function.update s.tx j _ k).waiting = false :=
              fun k hk hwk => hgrow k (hall a hwa k hk hwk)
            cases hd : en.depend with
            | none =>
              rw [hd] at he
              dsimp only at he
              subst he
              refine ⟨fun _ => rfl, fun h => absurd hwa h, (fun k hk => by cases hk), fun _ _ => ⟨hfin, ?_⟩,
                fun _ h => absurd hwa h, E.base, (fun _ _ h => by cases h)⟩
              dsimp only
              rw [(E.nodepW hd hwa).2, hw]
              show some (Ref.ro (s.real a)) = some (Ref.ro _)
              rw [hreal a hwa]
            | some k =>
              rw [hd] at he
              dsimp only at he
              obtain ⟨d1, d2, d3, d4, d5⟩ := E.dep k hd
              have hk := hready a en k hen hl hd
              have hseq : seq work real j a = seq work real (k + 1) a :=
                seq_range hp (by omega) (fun k' h1 h2 => d4 k' (by omega) h2)
              rw [peek_ok I (by omega) d3 hk] at he
              subst he
              refine ⟨fun _ => rfl, fun h => absurd hwa h, (fun k hk => by cases hk), fun _ _ => ⟨hfin, ?_⟩,
                fun _ h => absurd hwa h, ?_, (fun _ _ h => by cases h)⟩
              · dsimp only
                rw [← hwi, (d5 hwa).2, hseq]; rfl
              · intro v hv
                rw [Option.some.injEq] at hv
                rw [← hv, hseq]
          · have hl : en.lock = .read := E.lockR hwa
            rw [if_neg (by rw [hl]; simp)] at he
            subst he
            exact ⟨fun h => absurd h hwa, E.lockR, fun k hk => ⟨(E.dep k hk).1, (E.dep k hk).2.1, (E.dep k hk).2.2.1, (E.dep k hk).2.2.2.1,
              fun h => absurd h hwa⟩, fun _ h => absurd h hwa, E.nodepR, E.base, fun _ _ h => by cases h⟩ }
    · rw [hne j hji]
      exact (I.tx j hj).mono (fun k _ hk => hgrow k hk)
  · intro a c hc hW hcw hj
    dsimp only at hc hcw hj ⊢
    have hci : c ≠ i := by
      rintro rfl
      rw [hself, htw] at hcw; cases hcw
    rw [hne c hci] at hcw
    by_cases hcase : W work i a ∧ i < c
    · obtain ⟨hwa, hic⟩ := hcase
      rw [hreal a hwa, blocked_fresh I hw hic hc hwa hW hcw]
      refine (seq_range hp (by omega) (fun j h1 h2 hwj => ?_)).symm
      have h3 := hj j h2 hwj
      rw [hne j (by omega), hlater a hwa j (by omega) (by omega) hwj] at h3
      cases h3
    · apply I.own a c hc hW hcw
      intro j h1 h2
      have h3 := hj j h1 h2
      by_cases hji : j = i
      · subst hji; exact absurd ⟨h2, h1⟩ hcase
      · rwa [hne j hji] at h3
  · intro a hj
    dsimp only at hj ⊢
    by_cases hwa : W work i a
    · rw [hreal a hwa]
      refine (seq_range hp (by omega) (fun j h1 h2 hwj => ?_)).symm
      have h3 := hj j h2 hwj
      rw [hne j (by omega), hlater a hwa j (by omega) h2 hwj] at h3
      cases h3
    · apply I.free a
      intro j h1 h2
      have h3 := hj j h1 h2
      have hji : j ≠ i := by rintro rfl; exact hwa h2
      rwa [hne j hji] at h3

/-! ## Executions -/

theorem reach_inv (hp : Proper work) (h : Reach work real s) : ∃ w, Inv work real s w := by
  induction h with
  | new t => exact ⟨fun _ => real, new_ok real t _⟩
  | step _ e ih =>
    obtain ⟨w, I⟩ := ih
    cases e with
    | prepare x hx => exact ⟨_, prepare_ok hp I hx⟩
    | touch i a e => exact ⟨w, touch_ok hp I e⟩
    | start i e => exact ⟨w, start_ok I e⟩
    | step i e => exact step_ok hp I e
    | retry i e => exact retry_ok hp I e
    | commit i r h => exact ⟨w, commit_ok hp I h⟩

end

end Verif.Virtual
