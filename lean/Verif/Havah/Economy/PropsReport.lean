import Verif.Havah.Economy.Track
import Verif.Havah.Economy.Demo

/-! # C24 (once per term), C25 (term reward never overdrawn), C29 (hoover subsidy), C30 (company split) -/
namespace Verif.Havah

theorem spec_subsidy {s : EState} (hb : 0 ≤ s.bal hooverFund.id) (p : Planet) (i : Int) :
    Spec.subsidy s p i = hooverRequest s p (getPlanetReward s i) (rewardPerActivePlanet s) := by
  have e1 : Spec.guide s p = calcHooverGuide p.usdt s.activeUSDT := rfl
  have e2 : s.bal 0x6000000000000000000000000000000000000000 = s.bal hooverFund.id := rfl
  unfold Spec.subsidy
  rw [spec_total, spec_share, e1, e2]
  unfold hooverRequest calcHooverLimit calcSubsidy
  simp only
  split
  · split
    · split
      · split <;> split <;> omega
      · omega
    · omega
  · omega

theorem spec_credit {s : EState} (hb : 0 ≤ s.bal hooverFund.id) (p : Planet) (i : Int) :
    credit s p i = Spec.share s + Spec.subsidy s p i := by
  rw [spec_subsidy hb, spec_share]; rfl

/-- **C24** (effect): a successful work report is made by a planet manager for a registered planet that
existed before the term began and has not reported in this term. It credits the planet's share of the
term reward plus the subsidy, of which a company passes 60 % on to the ecosystem; the share is taken
from the undistributed reward and the subsidy from the hoover fund; nothing else changes. -/
theorem C24_report_exact {g : EState} {c : Chain} (r : Reachable g c) {x : Ctx}
    (hx : x.height = c.height) {id : Int} {s' : EState}
    (he : exec x c.st (.reportPlanetWork id) = .ok s') :
    ∃ p, x.caller ∈ c.st.managers ∧ Spec.Started c.st c.height ∧ c.st.planets (int64 id) = some p ∧
      p.height < Spec.termFirst c.st c.height ∧
      Spec.lastTerm c.st (int64 id) < Spec.term c.st c.height + 1 ∧
      s' = { c.st with
        bal := fun a => c.st.bal a
          - (if a = hooverFund.id then Spec.subsidy c.st p (int64 id) else 0)
          + (if a = publicTreasury.id then Spec.subsidy c.st p (int64 id) else 0)
        rewardRemain := c.st.rewardRemain - Spec.share c.st
        eco := c.st.eco + Spec.toEco p (Spec.share c.st + Spec.subsidy c.st p (int64 id))
        working := c.st.working + 1
        rewards := Function.update c.st.rewards (int64 id) (some
          { total := Spec.total c.st (int64 id) + (Spec.share c.st + Spec.subsidy c.st p (int64 id))
            lastTN := Spec.term c.st c.height + 1
            current := Spec.current c.st (int64 id) +
              ((Spec.share c.st + Spec.subsidy c.st p (int64 id)) -
                Spec.toEco p (Spec.share c.st + Spec.subsidy c.st p (int64 id))) }) } := by
  have hb : 0 ≤ c.st.bal hooverFund.id := r.inv.core.bal _
  simp only [exec] at he
  split at he
  swap
  · cases he
  rename_i hm
  obtain ⟨p, H, rfl⟩ := report_ok he
  rw [hx] at H
  refine ⟨p, ?_, (spec_started _ _).2 H.started, H.planet, ?_, ?_, ?_⟩
  · simpa [isPlanetManager, List.any_eq_true] using hm
  · rw [spec_termFirst]; exact H.old
  · rw [spec_last]; exact H.fresh
  · rw [← spec_credit hb, spec_subsidy hb, spec_term, spec_total, spec_current, spec_share, hx]
    rfl

/-! ### Once per term -/

/-- What is remembered about a report made in term `t` of a schedule starting at `S` with period `P`. -/
structure Track (S P t id : Int) (c : Chain) : Prop where
  start : c.st.issueStart = S
  period : c.st.termPeriod = P
  began : isIssueStarted c.height c.st.issueStart = true
  le : t ≤ termSeq c.st c.height
  done : termSeq c.st c.height = t → ∀ p, c.st.planets id = some p →
    termStart c.st c.height ≤ p.height ∨ t + 1 ≤ (getPlanetReward c.st id).lastTN

theorem termStart_le {s : EState} (h : Int) : termStart s h ≤ h := by
  unfold termStart
  have := Int.ediv_mul_le (h - s.issueStart) (ne_of_gt (termPeriod_pos s))
  omega

theorem termSeq_mono {s : EState} {h h' : Int} (hh : h ≤ h') : termSeq s h ≤ termSeq s h' :=
  Int.ediv_le_ediv (termPeriod_pos s) (by omega)

theorem Track.step {S P t id : Int} {c c' : Chain} (T : Track S P t id c) (i : Inv c)
    (st : Step c c') : Track S P t id c' := by
  cases st with
  | call h s x k hh hk =>
    subst hh
    have E := apply_effect k i
    have e1 := E.start T.began
    have e2 := E.raw.1
    have e3 : (apply x s k).termPeriod = s.termPeriod := by unfold EState.termPeriod; rw [e2]
    have e4 : ∀ h, termSeq (apply x s k) h = termSeq s h := by
      intro h; unfold termSeq; rw [e1, e3]
    have e5 : ∀ h, termStart (apply x s k) h = termStart s h := by
      intro h; unfold termStart; rw [e1, e3]
    refine ⟨e1.trans T.start, e3.trans T.period, ?_, ?_, ?_⟩
    · show isIssueStarted x.height (apply x s k).issueStart = true
      rw [e1]; exact T.began
    · show t ≤ termSeq (apply x s k) x.height
      rw [e4]; exact T.le
    · intro ht p' hp'
      have ht' : termSeq s x.height = t := by rw [← e4]; exact ht
      show termStart (apply x s k) x.height ≤ _ ∨ _
      rw [e5]
      rcases E.planet id p' hp' with h1 | ⟨p, h1, h2, h3⟩
      · left; rw [h1]; exact termStart_le _
      · rcases T.done ht' p h1 with h4 | h4
        · left; rw [← h2]; exact h4
        · right; exact le_trans h4 h3
  | block h s s' prop hb =>
    have key : s'.planets = s.planets ∧ s'.rewards = s.rewards ∧ s'.issueStart = s.issueStart ∧
        s'.termPeriodRaw = s.termPeriodRaw := by
      rcases i.begin_ok hb with ⟨_, _, rfl, _⟩ | ⟨_, rfl⟩
      · obtain ⟨h1, h2, h3, h4, _⟩ := opened_frame s (h + 1)
        exact ⟨h1, h2, h3, h4⟩
      · exact ⟨rfl, rfl, rfl, rfl⟩
    obtain ⟨k1, k2, k3, k4⟩ := key
    have e3 : s'.termPeriod = s.termPeriod := by unfold EState.termPeriod; rw [k4]
    have e4 : ∀ h, termSeq s' h = termSeq s h := by
      intro h; unfold termSeq; rw [k3, e3]
    have e5 : ∀ h, termStart s' h = termStart s h := by
      intro h; unfold termStart; rw [k3, e3]
    have mono := termSeq_mono (s := s) (show h ≤ h + 1 by omega)
    refine ⟨k3.trans T.start, e3.trans T.period, ?_, ?_, ?_⟩
    · show isIssueStarted (h + 1) s'.issueStart = true
      have := started_iff.1 T.began
      simp only at this
      rw [k3, started_iff]; omega
    · show t ≤ termSeq s' (h + 1)
      rw [e4]; exact le_trans T.le mono
    · intro ht p hp
      have ht1 : termSeq s (h + 1) = t := by rw [← e4]; exact ht
      have ht0 : termSeq s h = t := le_antisymm (ht1 ▸ mono) T.le
      show termStart s' (h + 1) ≤ _ ∨ t + 1 ≤ (getPlanetReward s' id).lastTN
      have e6 : termStart s (h + 1) = termStart s h := by
        have u : (h + 1 - s.issueStart) / s.termPeriod = (h - s.issueStart) / s.termPeriod :=
          ht1.trans ht0.symm
        unfold termStart; rw [u]
      have e7 : getPlanetReward s' id = getPlanetReward s id := by unfold getPlanetReward; rw [k2]
      rw [e5, e6, e7]
      exact T.done ht0 p (by rw [← k1]; exact hp)

theorem Track.steps {S P t id : Int} {c c' : Chain} (T : Track S P t id c) (i : Inv c)
    (st : Steps c c') : Track S P t id c' := by
  induction st with
  | refl => exact T
  | tail h1 h2 ih => exact ih.step (i.steps h1) h2

/-- **C24**: two successful work reports of one planet, whatever happens in between (including
unregistering and registering it again), are made in different terms. -/
theorem C24_once_per_term {g : EState} {c c2 : Chain} (r : Reachable g c) {x x2 : Ctx}
    (hx : x.height = c.height) (hk : x.caller.id ≠ publicTreasury.id) {id id2 : Int} {s1 s2 : EState}
    (he : exec x c.st (.reportPlanetWork id) = .ok s1)
    (st : Steps ⟨c.height, s1⟩ c2)
    (hx2 : x2.height = c2.height) (hid : int64 id2 = int64 id)
    (he2 : exec x2 c2.st (.reportPlanetWork id2) = .ok s2) :
    Spec.term c.st c.height < Spec.term c2.st c2.height ∧
    c2.st.issueStart = c.st.issueStart ∧ Spec.period c2.st = Spec.period c.st := by
  have i1 : Inv ⟨x.height, c.st⟩ := by rw [hx]; exact r.inv
  have i2 : Inv ⟨c.height, s1⟩ := by rw [← hx]; exact i1.exec hk he
  simp only [exec] at he he2
  split at he
  swap
  · cases he
  split at he2
  swap
  · cases he2
  obtain ⟨p, H, rfl⟩ := report_ok he
  obtain ⟨p2, H2, _⟩ := report_ok he2
  rw [hx] at H
  rw [hx2, hid] at H2
  have T : Track c.st.issueStart c.st.termPeriod (termSeq c.st c.height) (int64 id)
      ⟨c.height, reported c.st x.height (int64 id) p⟩ := by
    refine ⟨rfl, rfl, H.started, le_refl _, fun _ p _ => Or.inr ?_⟩
    show _ ≤ (getPlanetReward (reported c.st x.height (int64 id) _) (int64 id)).lastTN
    rw [getReward_update c.st (int64 id) _ _ (reported c.st x.height (int64 id) _) rfl, if_pos rfl, hx]
    exact le_refl _
  have T2 := T.steps i2 st
  refine ⟨?_, T2.start, T2.period⟩
  rw [spec_term, spec_term]
  refine lt_of_le_of_ne T2.le fun e => ?_
  have := T2.done e.symm p2 H2.planet
  have h1 := H2.old
  have h2 := H2.fresh
  rcases this with h | h <;> omega

/-! Witness: planet 2 reports in term 0 (height 5) and again in term 1 (height 15). -/
example : (exec ⟨5, 4, Demo.mgr, Demo.gov⟩ (Demo.at' Demo.term0).st (.reportPlanetWork 2)).isOk ∧
    (exec ⟨15, 4, Demo.mgr, Demo.gov⟩ (Demo.at' Demo.term1).st (.reportPlanetWork 2)).isOk ∧
    ¬ (exec ⟨5, 4, Demo.mgr, Demo.gov⟩ (Demo.at' Demo.worked).st (.reportPlanetWork 2)).isOk := by
  decide +kernel

/-! ## C25 -/

/-- **C25**: while coins are issued, the shares credited in the current term (one per report) and the
undistributed rest add up to the reward of the term; the rest is never negative and there are never
more reports than planets counted at the start of the term. -/
theorem C25_shares_and_rest {g : EState} {c : Chain} (r : Reachable g c)
    (hs : Spec.Started c.st c.height) (hl : Spec.term c.st c.height < Spec.limit c.st) :
    Spec.share c.st * c.st.working + c.st.rewardRemain = c.st.rewardTotal ∧
    0 ≤ c.st.rewardRemain ∧ 0 ≤ c.st.working ∧ c.st.working ≤ c.st.active := by
  obtain ⟨A, W, R⟩ := r.inv.term.running ((spec_started _ _).1 hs) hl
  refine ⟨?_, r.inv.core.remain, ?_, ?_⟩
  · rw [spec_share, R.remain]; omega
  · rw [← R.working]; omega
  · rw [← R.working, ← R.active]; exact_mod_cast Finset.card_le_card R.sub

/-- **C25**: after the last term with issue a report credits no share. -/
theorem C25_no_share_after_issue {g : EState} {c : Chain} (r : Reachable g c)
    (hs : Spec.Started c.st c.height) (hl : Spec.limit c.st ≤ Spec.term c.st c.height) :
    Spec.share c.st = 0 := by
  have := r.inv.term.after ((spec_started _ _).1 hs) hl
  unfold Spec.share; rw [this]; simp

/-- **C25**: the report of a planet manager for a planet that existed before the term and has not
reported in it never fails for lack of reward. -/
theorem C25_report_succeeds {g : EState} {c : Chain} (r : Reachable g c) {x : Ctx}
    (hx : x.height = c.height) (hm : x.caller ∈ c.st.managers) (hs : Spec.Started c.st c.height)
    {id : Int} {p : Planet} (hp : c.st.planets (int64 id) = some p)
    (ho : p.height < Spec.termFirst c.st c.height)
    (hf : Spec.lastTerm c.st (int64 id) < Spec.term c.st c.height + 1) :
    ∃ s', exec x c.st (.reportPlanetWork id) = .ok s' := by
  have hst := (spec_started _ _).1 hs
  have hc : Core c.st := r.inv.core
  rw [spec_termFirst] at ho
  rw [spec_last] at hf
  have hshare : 0 ≤ rewardPerActivePlanet c.st := by
    unfold rewardPerActivePlanet
    split
    · exact Int.ediv_nonneg hc.total (by omega)
    · exact le_refl _
  have hle : rewardPerActivePlanet c.st = 0 ∨ rewardPerActivePlanet c.st ≤ c.st.rewardRemain := by
    by_cases hl : termSeq c.st c.height < c.st.issueLimit
    · right
      obtain ⟨A, W, R⟩ := r.inv.term.running hst hl
      have hA := R.old _ p hp ho
      have hW : int64 id ∉ W := fun h => by
        have := R.done _ p hp ho h
        have hf' : (getPlanetReward c.st (int64 id)).lastTN < termSeq c.st c.height + 1 := hf
        omega
      have hlt : W.card < A.card :=
        Finset.card_lt_card ⟨R.sub, fun h => hW (h hA)⟩
      have hlt' : c.st.working + 1 ≤ c.st.active := by rw [← R.working, ← R.active]; exact_mod_cast hlt
      have hpos : 0 < c.st.active := by rw [← R.active]; exact_mod_cast (by omega)
      have hmul : rewardPerActivePlanet c.st * c.st.active ≤ c.st.rewardTotal := by
        unfold rewardPerActivePlanet; rw [if_pos hpos]
        exact Int.ediv_mul_le _ (by omega)
      rw [R.remain]
      nlinarith
    · left
      have := r.inv.term.after hst (by omega)
      unfold rewardPerActivePlanet; rw [this]; simp
  have H : ReportOk c.st c.height (int64 id) p :=
    ⟨hst, r.inv.reg.nonneg _ _ hp, hp, ho, hf, hshare, hle⟩
  refine ⟨reported c.st c.height (int64 id) p, ?_⟩
  have hm' : isPlanetManager c.st x.caller = true := by
    simpa [isPlanetManager, List.any_eq_true] using hm
  simp only [exec, hm', if_true, hx]
  exact report_total H (hc.bal _)

/-! Witness -/
example : Spec.share (Demo.at' Demo.worked).st = 333 ∧ (Demo.at' Demo.worked).st.working = 2 ∧
    Spec.Started (Demo.at' Demo.worked).st 5 ∧
    Spec.term (Demo.at' Demo.worked).st 5 < Spec.limit (Demo.at' Demo.worked).st := by
  unfold Spec.Started; decide +kernel
example : Demo.mgr ∈ (Demo.at' Demo.worked).st.managers ∧
    ((Demo.at' Demo.worked).st.planets 3).map (·.height) = some 1 ∧
    Spec.termFirst (Demo.at' Demo.worked).st 5 = 5 ∧ Spec.lastTerm (Demo.at' Demo.worked).st 3 = 0 := by
  decide +kernel

/-! ## C29: subsidies -/

/-- **C29**: the subsidy of a report is at least 0 and at most the hoover fund's balance; if anything
is paid, share and subsidy together do not exceed the guide, and the accumulated reward does not
exceed the price of the planet. -/
theorem C29_subsidy_bounds {g : EState} {c : Chain} (r : Reachable g c) (p : Planet) (i : Int) :
    0 ≤ Spec.subsidy c.st p i ∧ Spec.subsidy c.st p i ≤ c.st.bal hooverFund.id ∧
    (0 < Spec.subsidy c.st p i →
      Spec.share c.st + Spec.subsidy c.st p i ≤ Spec.guide c.st p ∧
      Spec.total c.st i + (Spec.share c.st + Spec.subsidy c.st p i) ≤ p.price) := by
  have hb : 0 ≤ c.st.bal hooverFund.id := r.inv.core.bal _
  have e2 : c.st.bal 0x6000000000000000000000000000000000000000 = c.st.bal hooverFund.id := rfl
  unfold Spec.subsidy
  rw [e2]
  refine ⟨by omega, by omega, fun h => by omega⟩

/-- **C29**: what a successful report takes from the hoover fund respects those bounds, and all of it
goes to the treasury that pays the claims. -/
theorem C29_report_pays_subsidy {g : EState} {c : Chain} (r : Reachable g c) {x : Ctx}
    (hx : x.height = c.height) {id : Int} {s' : EState}
    (he : exec x c.st (.reportPlanetWork id) = .ok s') :
    ∃ p paid, c.st.planets (int64 id) = some p ∧
      s'.bal hooverFund.id = c.st.bal hooverFund.id - paid ∧
      s'.bal publicTreasury.id = c.st.bal publicTreasury.id + paid ∧
      (∀ a, a ≠ hooverFund.id → a ≠ publicTreasury.id → s'.bal a = c.st.bal a) ∧
      0 ≤ paid ∧ paid ≤ c.st.bal hooverFund.id ∧
      (0 < paid → Spec.share c.st + paid ≤ Spec.guide c.st p ∧
        Spec.total s' (int64 id) ≤ p.price ∧
        Spec.total s' (int64 id) = Spec.total c.st (int64 id) + Spec.share c.st + paid) := by
  obtain ⟨p, _, _, hp, _, _, e⟩ := C24_report_exact r hx he
  obtain ⟨b1, b2, b3⟩ := C29_subsidy_bounds r p (int64 id)
  have hne : hooverFund.id ≠ publicTreasury.id := by decide
  refine ⟨p, Spec.subsidy c.st p (int64 id), hp, ?_, ?_, ?_, b1, b2, ?_⟩
  · rw [e]; simp only [if_true, if_neg hne]; omega
  · rw [e]; simp only [if_true, if_neg hne.symm]; omega
  · intro a h1 h2; rw [e]; simp only [if_neg h1, if_neg h2]; omega
  · intro h
    have ht : Spec.total s' (int64 id) =
        Spec.total c.st (int64 id) + (Spec.share c.st + Spec.subsidy c.st p (int64 id)) := by
      conv_lhs => unfold Spec.total
      rw [e]; simp
    obtain ⟨h1, h2⟩ := b3 h
    exact ⟨h1, by omega, by omega⟩

/-! Witness: share 333, guide 400: the fund pays 67. -/
example : ((Demo.at' Demo.term0).st.planets 1).map (fun p =>
    (Spec.guide (Demo.at' Demo.term0).st p, Spec.subsidy (Demo.at' Demo.term0).st p 1)) =
    some (400, 67) := by decide +kernel

/-! ## C30: company planets -/

/-- **C30**: the reward of a report is divided between planet and ecosystem without loss; the
ecosystem gets 60 % rounded down of a company's reward and nothing of another's. -/
theorem C30_company_split {g : EState} {c : Chain} (r : Reachable g c) {x : Ctx}
    (hx : x.height = c.height) {id : Int} {s' : EState}
    (he : exec x c.st (.reportPlanetWork id) = .ok s') :
    ∃ p reward, c.st.planets (int64 id) = some p ∧ 0 ≤ reward ∧
      Spec.total s' (int64 id) - Spec.total c.st (int64 id) = reward ∧
      (Spec.current s' (int64 id) - Spec.current c.st (int64 id)) + (s'.eco - c.st.eco) = reward ∧
      (p.isCompany = true → 5 * (s'.eco - c.st.eco) ≤ 3 * reward ∧
        3 * reward < 5 * (s'.eco - c.st.eco) + 5) ∧
      (p.isCompany = false → s'.eco = c.st.eco) := by
  obtain ⟨p, _, _, hp, _, _, e⟩ := C24_report_exact r hx he
  obtain ⟨b1, b2, b3⟩ := C29_subsidy_bounds r p (int64 id)
  have hsh : 0 ≤ Spec.share c.st := by
    unfold Spec.share
    split
    · exact Int.ediv_nonneg r.inv.core.total (by omega)
    · exact le_refl _
  have ht : Spec.total s' (int64 id) =
      Spec.total c.st (int64 id) + (Spec.share c.st + Spec.subsidy c.st p (int64 id)) := by
    conv_lhs => unfold Spec.total
    rw [e]; simp
  have hcu : Spec.current s' (int64 id) = Spec.current c.st (int64 id) +
        ((Spec.share c.st + Spec.subsidy c.st p (int64 id)) -
          Spec.toEco p (Spec.share c.st + Spec.subsidy c.st p (int64 id))) := by
    conv_lhs => unfold Spec.current
    rw [e]; simp
  have heco : s'.eco = c.st.eco + Spec.toEco p (Spec.share c.st + Spec.subsidy c.st p (int64 id)) := by
    rw [e]
  refine ⟨p, Spec.share c.st + Spec.subsidy c.st p (int64 id), hp, by omega, by omega, by omega, ?_, ?_⟩
  · intro hco
    have : s'.eco - c.st.eco = (Spec.share c.st + Spec.subsidy c.st p (int64 id)) * 3 / 5 := by
      rw [heco]; unfold Spec.toEco; rw [if_pos hco]; omega
    rw [this]; omega
  · intro hco
    rw [heco]; unfold Spec.toEco; rw [hco]; simp

end Verif.Havah
