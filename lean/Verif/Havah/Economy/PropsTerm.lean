import Verif.Havah.Economy.Frame
import Verif.Havah.Economy.PropsCoins
import Verif.Havah.Economy.Demo

/-! # C28 (issue schedule), C29 (hoover refill), C30 (fees), C35 (base transactions) -/
namespace Verif.Havah

/-! ## C28 -/

theorem reduce_nonneg {x : Int} (h : 0 ≤ x) : 0 ≤ Spec.reduce x ∧ Spec.reduce x ≤ x := by
  unfold Spec.reduce; omega

theorem reduce_pos {x : Int} (h : 0 < x) : 0 < Spec.reduce x := by
  unfold Spec.reduce; omega

theorem issueAmountByTS_spec {s : EState} (h : 0 ≤ s.issueAmount) (t : Int) :
    (issueAmountByTS s t).1 =
      if 0 < t ∧ t % s.reductionCycle = 0 then Spec.reduce s.issueAmount else s.issueAmount := by
  unfold issueAmountByTS Spec.reduce
  split
  · simp only
    split
    · rfl
    · simp only; omega
  · rfl

theorem issueOfTerm_succ (x : Int) {cyc : Int} (hc : 0 < cyc) (t : ℕ) :
    Spec.issueOfTerm x cyc (t + 1) =
      if ((t : Int) + 1) % cyc = 0 then Spec.reduce (Spec.issueOfTerm x cyc t)
      else Spec.issueOfTerm x cyc t := by
  unfold Spec.issueOfTerm
  rw [Nat.succ_div]
  have e : ((t : Int) + 1) % cyc = 0 ↔ cyc.toNat ∣ t + 1 := by
    have h1 : ((cyc.toNat : ℕ) : Int) = cyc := Int.toNat_of_nonneg hc.le
    rw [← Int.dvd_iff_emod_eq_zero, ← h1, show ((t : Int) + 1) = ((t + 1 : ℕ) : Int) by push_cast; rfl,
      Int.natCast_dvd_natCast, h1]
  by_cases h : cyc.toNat ∣ t + 1
  · rw [if_pos h, if_pos (e.2 h), Function.iterate_succ_apply']
  · rw [if_neg h, if_neg (fun h' => h (e.1 h')), Nat.add_zero]

/-- **C28**: the amount per term never increases from one term to a later one and is never negative;
a positive amount never decays to zero. -/
theorem C28_schedule_shape {x cyc : Int} (hx : 0 ≤ x) (t u : ℕ) (h : t ≤ u) :
    0 ≤ Spec.issueOfTerm x cyc u ∧ Spec.issueOfTerm x cyc u ≤ Spec.issueOfTerm x cyc t ∧
    (0 < x → 0 < Spec.issueOfTerm x cyc u) := by
  have nn : ∀ n, 0 ≤ Spec.reduce^[n] x := by
    intro n
    induction n with
    | zero => exact hx
    | succ n ih => rw [Function.iterate_succ_apply']; exact (reduce_nonneg ih).1
  have mono : ∀ n k, Spec.reduce^[n + k] x ≤ Spec.reduce^[n] x := by
    intro n k
    induction k with
    | zero => exact le_refl _
    | succ k ih =>
      rw [← Nat.add_assoc, Function.iterate_succ_apply']
      exact le_trans (reduce_nonneg (nn _)).2 ih
  refine ⟨nn _, ?_, fun hp => ?_⟩
  · unfold Spec.issueOfTerm
    obtain ⟨k, hk⟩ := Nat.exists_eq_add_of_le (Nat.div_le_div_right (c := cyc.toNat) h)
    rw [hk]; exact mono _ _
  · unfold Spec.issueOfTerm
    generalize u / cyc.toNat = n
    induction n with
    | zero => exact hp
    | succ n ih => rw [Function.iterate_succ_apply']; exact reduce_pos ih

theorem closed_frame (s : EState) (h : Int) : (closed s h).issueAmount = s.issueAmount ∧
    (closed s h).reductionCycle = s.reductionCycle ∧ (closed s h).supply = s.supply := by
  unfold closed; split <;> exact ⟨rfl, rfl, rfl⟩

/-- The amount issued in the last term with issue up to term `t`. -/
def lastIssueTerm (s : EState) (t : Int) : ℕ := (min t (s.issueLimit - 1)).toNat

/-- The schedule invariant. -/
structure Sched (g : EState) (c : Chain) : Prop where
  raw : c.st.termPeriodRaw = g.termPeriodRaw ∧ c.st.issueLimitRaw = g.issueLimitRaw ∧
    c.st.reductionCycleRaw = g.reductionCycleRaw ∧ c.st.hooverBudget = g.hooverBudget
  before : isIssueStarted c.height c.st.issueStart = false →
    c.st.issueAmount = g.issueAmount ∧ c.st.supply ≤ g.supply
  after : isIssueStarted c.height c.st.issueStart = true →
    c.st.issueAmount = Spec.issueOfTerm g.issueAmount g.reductionCycle
      (lastIssueTerm c.st (termSeq c.st c.height)) ∧
    c.st.supply ≤ g.supply + ∑ t ∈ Finset.range (lastIssueTerm c.st (termSeq c.st c.height) + 1),
      Spec.issueOfTerm g.issueAmount g.reductionCycle t

theorem apply_not_started {x : Ctx} {s : EState} (k : Call) (i : Inv ⟨x.height, s⟩)
    (h : isIssueStarted x.height s.issueStart = false) :
    isIssueStarted x.height (apply x s k).issueStart = false := by
  unfold apply
  split
  · rename_i s' he
    rcases (exec_frame i he).start with e | ⟨n, rfl⟩
    · rw [e]; exact h
    · obtain ⟨_, he⟩ := guard_ok he
      split at he
      · cases he
      rename_i hlt
      unfold setIssueStart at he
      split at he
      · cases he
      split at he
      · cases he
      cases he
      rw [not_started_iff]
      simp only
      omega
  · exact h

theorem Sched.step {g : EState} {c c' : Chain} (S : Sched g c) (i : Inv c) (st : Step c c') :
    Sched g c' := by
  cases st with
  | call h s x k hh hk =>
    subst hh
    have E := apply_effect k i
    obtain ⟨r1, r2, r3, r4, r5, _⟩ := E.raw
    obtain ⟨q1, q2, q3, q4⟩ := S.raw
    simp only at q1 q2 q3 q4
    refine ⟨⟨r1.trans q1, r2.trans q2, r3.trans q3, r5.trans q4⟩, ?_, ?_⟩
    · intro hb
      have hb' : isIssueStarted x.height s.issueStart = false := by
        by_contra hs
        have hs : isIssueStarted x.height s.issueStart = true := by simpa using hs
        have e := E.start hs
        simp only at hb
        rw [e, hs] at hb
        cases hb
      obtain ⟨h1, h2⟩ := S.before hb'
      exact ⟨r4.trans h1, le_trans E.supply h2⟩
    · intro ha
      have ha' : isIssueStarted x.height s.issueStart = true := by
        by_contra hs
        have hs : isIssueStarted x.height s.issueStart = false := by simpa using hs
        have := apply_not_started k i hs
        simp only at ha
        rw [this] at ha
        cases ha
      have e := E.start ha'
      have e2 : lastIssueTerm (apply x s k) (termSeq (apply x s k) x.height) =
          lastIssueTerm s (termSeq s x.height) := by
        unfold lastIssueTerm termSeq EState.issueLimit EState.termPeriod; rw [e, r1, r2]
      obtain ⟨h1, h2⟩ := S.after ha'
      simp only at h1 h2 ⊢
      rw [e2]
      exact ⟨r4.trans h1, le_trans E.supply h2⟩
  | block h s s' prop hb =>
    obtain ⟨q1, q2, q3, q4⟩ := S.raw
    simp only at q1 q2 q3 q4
    have hcyc : s.reductionCycle = g.reductionCycle := by unfold EState.reductionCycle; rw [q3]
    rcases i.begin_ok hb with ⟨hs, h0, rfl, _⟩ | ⟨hn, rfl⟩
    · obtain ⟨_, _, f1, f2, f3, _, _, _, f4, _, _, f5⟩ := opened_frame s (h + 1)
      refine ⟨⟨f2.trans q1, f3.trans q2, f4.trans q3, f5.trans q4⟩, ?_, ?_⟩
      · intro hb'
        simp only at hb'
        rw [f1, hs] at hb'
        cases hb'
      · intro _
        have e2 : lastIssueTerm (opened s (h + 1)) (termSeq (opened s (h + 1)) (h + 1)) =
            lastIssueTerm s (termSeq s (h + 1)) := by
          unfold lastIssueTerm termSeq EState.issueLimit EState.termPeriod; rw [f1, f2, f3]
        simp only
        rw [e2]
        have hc : Core s := i.core
        have hlim := issueLimit_pos s
        have hcp := reductionCycle_pos s
        obtain ⟨c1, c2, c3⟩ := closed_frame s (h + 1)
        have ht0 := termSeq_nonneg hs
        by_cases hl : termSeq s (h + 1) < s.issueLimit
        · have eA : (opened s (h + 1)).issueAmount =
              (issueAmountByTS (closed s (h + 1)) (termSeq s (h + 1))).1 := by
            unfold opened; rw [if_pos hl]; rfl
          have eS : (opened s (h + 1)).supply = s.supply +
              (issueAmountByTS (closed s (h + 1)) (termSeq s (h + 1))).1 := by
            unfold opened; rw [if_pos hl, ← c3]; rfl
          have eB := issueAmountByTS_spec (s := closed s (h + 1)) (by rw [c1]; exact hc.issue)
            (termSeq s (h + 1))
          rw [c1, c2] at eB
          have eL : lastIssueTerm s (termSeq s (h + 1)) = (termSeq s (h + 1)).toNat := by
            unfold lastIssueTerm; congr 1; omega
          rcases eq_or_lt_of_le ht0 with hz | hpos
          · -- first term
            have hnb : isIssueStarted h s.issueStart = false := by
              rw [not_started_iff]
              have := started_iff.1 hs
              have hz' : (h + 1 - s.issueStart) / s.termPeriod = 0 := hz.symm
              have := Int.mul_ediv_add_emod (h + 1 - s.issueStart) s.termPeriod
              rw [hz', h0] at this
              omega
            obtain ⟨b1, b2⟩ := S.before hnb
            simp only at b1 b2
            rw [if_neg (by omega)] at eB
            have eN : (termSeq s (h + 1)).toNat = 0 := by omega
            rw [eL, eN, eA, eS, eB, b1]
            constructor
            · simp [Spec.issueOfTerm]
            · simp [Spec.issueOfTerm]; omega
          · obtain ⟨p1, p2⟩ := prev_term hs h0 hpos
            obtain ⟨a1, a2⟩ := S.after p1
            simp only at a1 a2
            have eL' : lastIssueTerm s (termSeq s h) = (termSeq s (h + 1)).toNat - 1 := by
              unfold lastIssueTerm; rw [p2]; omega
            obtain ⟨n, hn⟩ : ∃ n : ℕ, termSeq s (h + 1) = (n : Int) + 1 :=
              ⟨(termSeq s (h + 1) - 1).toNat, by omega⟩
            have eLn : lastIssueTerm s (termSeq s h) = n := by rw [eL']; omega
            have eLn' : lastIssueTerm s (termSeq s (h + 1)) = n + 1 := by rw [eL]; omega
            rw [eLn] at a1 a2
            have amount : (opened s (h + 1)).issueAmount =
                Spec.issueOfTerm g.issueAmount g.reductionCycle (n + 1) := by
              rw [issueOfTerm_succ _ (hcyc ▸ hcp), eA, eB, a1, hn, hcyc]
              by_cases hm : ((n : Int) + 1) % g.reductionCycle = 0
              · rw [if_pos ⟨by omega, hm⟩, if_pos hm]
              · rw [if_neg (fun h => hm h.2), if_neg hm]
            rw [eLn']
            refine ⟨amount, ?_⟩
            rw [Finset.sum_range_succ, eS, ← eA, amount]
            omega
        · have eO : opened s (h + 1) = closed s (h + 1) := by unfold opened; rw [if_neg hl]
          obtain ⟨p1, p2⟩ := prev_term hs h0 (by omega)
          obtain ⟨a1, a2⟩ := S.after p1
          simp only at a1 a2
          have eL : lastIssueTerm s (termSeq s (h + 1)) = lastIssueTerm s (termSeq s h) := by
            unfold lastIssueTerm; rw [p2]; congr 1; omega
          rw [eO, c1, c3, eL]
          exact ⟨a1, a2⟩
    · refine ⟨⟨q1, q2, q3, q4⟩, ?_, ?_⟩
      · intro hb'
        apply S.before
        rw [not_started_iff] at hb' ⊢
        simp only at hb' ⊢
        omega
      · intro ha
        obtain ⟨p1, p2⟩ := same_term ha (hn ha)
        simp only
        rw [← p2]
        exact S.after p1

theorem Reachable.sched {g : EState} {c : Chain} (r : Reachable g c) : Sched g c := by
  obtain ⟨g0, st⟩ := r
  have i0 := g0.inv
  have h0 : Sched g ⟨0, g⟩ := ⟨⟨rfl, rfl, rfl, rfl⟩, fun _ => ⟨rfl, le_refl _⟩, fun h => by
    rw [started_iff] at h
    simp only [g0.issueStart] at h
    omega⟩
  induction st with
  | refl => exact h0
  | tail h1 h2 ih => exact ih.step (i0.steps h1) h2

/-- **C28**: the schedule (blocks per term, number of terms, reduction cycle) never changes. -/
theorem C28_configuration_fixed {g : EState} {c : Chain} (r : Reachable g c) :
    Spec.period c.st = Spec.period g ∧ Spec.limit c.st = Spec.limit g ∧ Spec.cycle c.st = Spec.cycle g := by
  obtain ⟨h1, h2, h3, _⟩ := r.sched.raw
  unfold Spec.period Spec.limit Spec.cycle
  rw [h1, h2, h3]
  exact ⟨rfl, rfl, rfl⟩

/-- **C28**: before the issue starts the amount per term is the configured one; in term `t` it is the
configured one reduced by 30 % `t / cycle` times, and after the last term it stays. -/
theorem C28_amount {g : EState} {c : Chain} (r : Reachable g c) :
    (¬ Spec.Started c.st c.height → c.st.issueAmount = g.issueAmount) ∧
    (Spec.Started c.st c.height → c.st.issueAmount =
      Spec.issueOfTerm g.issueAmount (Spec.cycle g)
        (min (Spec.term c.st c.height) (Spec.limit g - 1)).toNat) := by
  have hl := (C28_configuration_fixed r).2.1
  rw [spec_started]
  constructor
  · intro h
    exact (r.sched.before (by simpa using h)).1
  · intro h
    rw [← hl]
    exact (r.sched.after h).1

/-- **C28**: a block that starts a term with issue is valid only with exactly the scheduled amount,
and then issues it to the treasury; every other block issues nothing. -/
theorem C28_block_issue {g : EState} {c : Chain} (r : Reachable g c) {x : Int} {s' : EState}
    (hb : beginBlock c.st (c.height + 1) x = .ok s') :
    (Spec.IsTermFirst c.st (c.height + 1) ∧ Spec.term c.st (c.height + 1) < Spec.limit g →
      x = Spec.issueOfTerm g.issueAmount (Spec.cycle g) (Spec.term c.st (c.height + 1)).toNat ∧
      s'.supply = c.st.supply + x) ∧
    (¬ (Spec.IsTermFirst c.st (c.height + 1) ∧ Spec.term c.st (c.height + 1) < Spec.limit g) →
      s'.supply = c.st.supply) := by
  have hl := (C28_configuration_fixed r).2.1
  obtain ⟨h1, h2⟩ := C22_block_supply r hb
  rw [hl] at h1 h2
  refine ⟨fun hf => ⟨?_, h1 hf⟩, h2⟩
  obtain ⟨⟨hs, h0⟩, hlt⟩ := hf
  have S' : Sched g ⟨c.height + 1, s'⟩ := r.sched.step r.inv (.block _ _ _ x hb)
  rcases r.inv.begin_ok hb with ⟨hs', h0', rfl, hx⟩ | ⟨hn, rfl⟩
  · have hlt' : termSeq c.st (c.height + 1) < c.st.issueLimit := by rw [← hl] at hlt; exact hlt
    obtain ⟨_, _, f1, f2, f3, _⟩ := opened_frame c.st (c.height + 1)
    have := (S'.after (by simp only; rw [f1]; exact hs')).1
    simp only at this
    have eA : (opened c.st (c.height + 1)).issueAmount = x := by
      rw [hx hlt']; unfold opened; rw [if_pos hlt']; rfl
    rw [eA] at this
    rw [this]
    congr 1
    have e1 : termSeq (opened c.st (c.height + 1)) (c.height + 1) = termSeq c.st (c.height + 1) := by
      unfold termSeq EState.termPeriod; rw [f1, f2]
    have e2 : (opened c.st (c.height + 1)).issueLimit = c.st.issueLimit := by
      unfold EState.issueLimit; rw [f3]
    unfold lastIssueTerm
    rw [e1, e2, spec_term]
    congr 1; omega
  · exact absurd h0 (hn ((spec_started _ _).1 hs))

/-- **C28** (cap): the total supply never exceeds the genesis supply plus the scheduled issues of the
terms that have begun, hence never the sum over all terms with issue. -/
theorem C28_supply_cap {g : EState} {c : Chain} (r : Reachable g c) :
    c.st.supply ≤ g.supply + ∑ t ∈ Finset.range (Spec.limit g).toNat,
      Spec.issueOfTerm g.issueAmount (Spec.cycle g) t := by
  have hx := r.1.issueAmount
  have nn : ∀ t, 0 ≤ Spec.issueOfTerm g.issueAmount (Spec.cycle g) t :=
    fun t => (C28_schedule_shape hx t t (le_refl _)).1
  have hl := (C28_configuration_fixed r).2.1
  have hp : 0 < c.st.issueLimit := issueLimit_pos c.st
  by_cases h : isIssueStarted c.height c.st.issueStart = true
  · refine le_trans (r.sched.after h).2 ?_
    have : ∑ t ∈ Finset.range (lastIssueTerm c.st (termSeq c.st c.height) + 1),
        Spec.issueOfTerm g.issueAmount g.reductionCycle t ≤
        ∑ t ∈ Finset.range (Spec.limit g).toNat,
          Spec.issueOfTerm g.issueAmount (Spec.cycle g) t := by
      apply Finset.sum_le_sum_of_subset_of_nonneg
      · intro t ht
        rw [Finset.mem_range] at ht ⊢
        unfold lastIssueTerm at ht
        rw [← hl, spec_limit]
        omega
      · exact fun t _ _ => nn t
    omega
  · have := (r.sched.before (by simpa using h)).2
    have := Finset.sum_nonneg (s := Finset.range (Spec.limit g).toNat) (fun t _ => nn t)
    omega

/-! Witness: 1000 in terms 0 and 1, 700 in term 2. -/
example : Spec.issueOfTerm 1000 2 1 = 1000 ∧ Spec.issueOfTerm 1000 2 2 = 700 ∧
    (Demo.at' Demo.term2).st.issueAmount = 700 ∧ Spec.term (Demo.at' Demo.term2).st 25 = 2 ∧
    Spec.limit Demo.genesis = 4 := by decide +kernel

/-! ## C29 (refill) and C30 (fees): the end of a term -/

theorem spec_missed (s : EState) : Spec.missed s = missedReward s := by
  unfold Spec.missed missedReward Spec.share
  split <;> rfl

/-- Balances after the end of a term. -/
theorem ended_bal (s : EState) :
    let T := s.bal treasury.id
    let V := s.bal serviceTreasury.id
    let sf := s.bal sustainableFund.id + (T - T / 5) + (V - V / 5) + missedReward s
    let need := s.hooverBudget - s.bal hooverFund.id
    let refill := if 0 < need then (if sf < need then sf else need) else 0
    (ended s).bal treasury.id = 0 ∧ (ended s).bal serviceTreasury.id = 0 ∧
    (ended s).bal ecoSystem.id = s.bal ecoSystem.id + T / 5 + V / 5 + s.eco ∧
    (ended s).bal sustainableFund.id = sf - refill ∧
    (ended s).bal hooverFund.id = s.bal hooverFund.id + refill ∧
    (ended s).bal publicTreasury.id = s.bal publicTreasury.id - s.eco - missedReward s ∧
    (∀ a, a ≠ treasury.id → a ≠ serviceTreasury.id → a ≠ ecoSystem.id → a ≠ sustainableFund.id →
      a ≠ hooverFund.id → a ≠ publicTreasury.id → (ended s).bal a = s.bal a) := by
  intro T V sf need refill
  have b : ∀ a, (afterMissed (endService s)).bal a =
      s.bal a
      - (if a = publicTreasury.id then s.eco + missedReward s else 0)
      + (if a = ecoSystem.id then s.eco + T / 5 + V / 5 else 0)
      - (if a = treasury.id then T else 0)
      - (if a = serviceTreasury.id then V else 0)
      + (if a = sustainableFund.id then (T - T / 5) + (V - V / 5) + missedReward s else 0) := by
    intro a
    have d1 : publicTreasury.id ≠ ecoSystem.id := by decide
    have d2 : publicTreasury.id ≠ treasury.id := by decide
    have d3 : publicTreasury.id ≠ serviceTreasury.id := by decide
    have d4 : treasury.id ≠ ecoSystem.id := by decide
    have d5 : treasury.id ≠ serviceTreasury.id := by decide
    have d6 : treasury.id ≠ sustainableFund.id := by decide
    have d7 : serviceTreasury.id ≠ sustainableFund.id := by decide
    have d8 : serviceTreasury.id ≠ ecoSystem.id := by decide
    have eE : ∀ a, (afterEco s).bal a = s.bal a - (if a = publicTreasury.id then s.eco else 0) +
        (if a = ecoSystem.id then s.eco else 0) := fun _ => rfl
    have hT : (afterEco s).bal treasury.id = T := by
      rw [eE, if_neg (by decide), if_neg (by decide)]; simp [T]
    have eT : ∀ a, (endTx s).bal a = (afterEco s).bal a - (if a = treasury.id then T - T / 5 else 0) +
        (if a = sustainableFund.id then T - T / 5 else 0) - (if a = treasury.id then T / 5 else 0) +
        (if a = ecoSystem.id then T / 5 else 0) := by
      intro a; rw [← hT]; rfl
    have hV : (endTx s).bal serviceTreasury.id = V := by
      rw [eT, eE]
      simp only [if_neg d3.symm, if_neg d8, if_neg d5.symm, if_neg d7, V]; omega
    have eV : ∀ a, (endService s).bal a = (endTx s).bal a -
        (if a = serviceTreasury.id then V - V / 5 else 0) +
        (if a = sustainableFund.id then V - V / 5 else 0) -
        (if a = serviceTreasury.id then V / 5 else 0) +
        (if a = ecoSystem.id then V / 5 else 0) := by
      intro a; rw [← hV]; rfl
    have eM : (afterMissed (endService s)).bal a = (endService s).bal a -
        (if a = publicTreasury.id then missedReward s else 0) +
        (if a = sustainableFund.id then missedReward s else 0) := rfl
    rw [eM, eV, eT, eE]
    by_cases h1 : a = publicTreasury.id
    · subst h1; simp only [if_true, if_neg d1, if_neg d2, if_neg d3, if_neg (show publicTreasury.id ≠ sustainableFund.id by decide)]; omega
    by_cases h2 : a = ecoSystem.id
    · subst h2; simp only [if_true, if_neg h1, if_neg d4.symm, if_neg d8.symm, if_neg (show ecoSystem.id ≠ sustainableFund.id by decide)]; omega
    by_cases h3 : a = treasury.id
    · subst h3; simp only [if_true, if_neg h1, if_neg h2, if_neg d5, if_neg d6]; omega
    by_cases h4 : a = serviceTreasury.id
    · subst h4; simp only [if_true, if_neg h1, if_neg h2, if_neg h3, if_neg d7]; omega
    by_cases h5 : a = sustainableFund.id
    · subst h5; simp only [if_true, if_neg h1, if_neg h2, if_neg h3, if_neg h4]; omega
    · simp only [if_neg h1, if_neg h2, if_neg h3, if_neg h4, if_neg h5]; omega
  have hsf : (afterMissed (endService s)).bal sustainableFund.id = sf := by
    rw [b, if_neg (by decide), if_neg (by decide), if_neg (by decide), if_neg (by decide), if_pos rfl]
    simp only [sf]; omega
  have hhv : (afterMissed (endService s)).bal hooverFund.id = s.bal hooverFund.id := by
    rw [b, if_neg (by decide), if_neg (by decide), if_neg (by decide), if_neg (by decide),
      if_neg (by decide)]
    omega
  have hre : refillAmount (afterMissed (endService s)) = refill := by
    unfold refillAmount
    rw [hsf, hhv]
    rfl
  have e : ∀ a, (ended s).bal a = (afterMissed (endService s)).bal a
      - (if a = sustainableFund.id then refill else 0) + (if a = hooverFund.id then refill else 0) := by
    intro a
    rw [← hre]; rfl
  refine ⟨?_, ?_, ?_, ?_, ?_, ?_, ?_⟩
  · rw [e, b, if_neg (by decide), if_neg (by decide), if_pos rfl, if_neg (by decide),
      if_neg (by decide), if_neg (by decide), if_neg (by decide)]
    simp only [T]; omega
  · rw [e, b, if_neg (by decide), if_neg (by decide), if_neg (by decide), if_pos rfl,
      if_neg (by decide), if_neg (by decide), if_neg (by decide)]
    simp only [V]; omega
  · rw [e, b, if_neg (by decide), if_pos rfl, if_neg (by decide), if_neg (by decide),
      if_neg (by decide), if_neg (by decide), if_neg (by decide)]
    omega
  · rw [e, hsf, if_pos rfl, if_neg (by decide)]; omega
  · rw [e, hhv, if_neg (by decide), if_pos rfl]; omega
  · rw [e, b, if_pos rfl, if_neg (by decide), if_neg (by decide), if_neg (by decide),
      if_neg (by decide), if_neg (by decide), if_neg (by decide)]
    omega
  · intro a h1 h2 h3 h4 h5 h6
    rw [e, b, if_neg h6, if_neg h3, if_neg h1, if_neg h2, if_neg h4, if_neg h4, if_neg h5]
    omega

/-- **C29**, **C30**: what the first block of a term (after the first, up to the end of the issue) does
with the money. The fee accounts are emptied, a fifth (rounded down) of each goes to the ecosystem and
the rest to the sustainable fund; the ecosystem reward collected from companies is paid out; the missed
rewards go to the sustainable fund; the hoover fund is filled up from the sustainable fund, as far as
that has coins, to its budget; the treasury receives the new issue. No other balance changes. -/
theorem C30_term_boundary {g : EState} {c : Chain} (r : Reachable g c) {x : Int} {s' : EState}
    (hb : beginBlock c.st (c.height + 1) x = .ok s')
    (hf : Spec.IsTermFirst c.st (c.height + 1)) (h1 : 0 < Spec.term c.st (c.height + 1))
    (h2 : Spec.term c.st (c.height + 1) ≤ Spec.limit c.st) :
    ∃ T V sf refill, T = c.st.bal treasury.id ∧ V = c.st.bal serviceTreasury.id ∧
      sf = c.st.bal sustainableFund.id + (T - T / 5) + (V - V / 5) + Spec.missed c.st ∧
      refill = max 0 (min (c.st.hooverBudget - c.st.bal hooverFund.id) sf) ∧
      s'.bal treasury.id = 0 ∧ s'.bal serviceTreasury.id = 0 ∧
      s'.bal ecoSystem.id = c.st.bal ecoSystem.id + T / 5 + V / 5 + c.st.eco ∧
      s'.eco = 0 ∧
      s'.bal sustainableFund.id = sf - refill ∧
      s'.bal hooverFund.id = c.st.bal hooverFund.id + refill ∧
      s'.bal publicTreasury.id = c.st.bal publicTreasury.id - c.st.eco - Spec.missed c.st +
        (if Spec.term c.st (c.height + 1) < Spec.limit c.st then x else 0) ∧
      0 ≤ Spec.missed c.st ∧
      (∀ a, a ≠ treasury.id → a ≠ serviceTreasury.id → a ≠ ecoSystem.id → a ≠ sustainableFund.id →
        a ≠ hooverFund.id → a ≠ publicTreasury.id → s'.bal a = c.st.bal a) := by
  obtain ⟨hs, h0⟩ := hf
  have hs' := (spec_started _ _).1 hs
  have hc : Core c.st := r.inv.core
  have hm := r.inv.missed hs' h0 ⟨h1, h2⟩
  obtain ⟨e1, e2, e3, e4, e5, e6, e7⟩ := ended_bal c.st
  have hcl : closed c.st (c.height + 1) = ended c.st := by
    unfold closed; exact if_pos ⟨h1, h2⟩
  have hop : (∀ a, a ≠ publicTreasury.id → s'.bal a = (ended c.st).bal a) ∧ s'.eco = 0 ∧
      s'.bal publicTreasury.id = (ended c.st).bal publicTreasury.id +
        (if Spec.term c.st (c.height + 1) < Spec.limit c.st then x else 0) := by
    rcases r.inv.begin_ok hb with ⟨_, _, rfl, hx⟩ | ⟨hn, rfl⟩
    · rw [spec_term, spec_limit]
      unfold opened
      rw [hcl]
      by_cases hl : termSeq c.st (c.height + 1) < c.st.issueLimit
      · rw [if_pos hl, if_pos hl, hx hl, hcl]
        refine ⟨fun a ha => ?_, rfl, ?_⟩
        · show credited _ _ _ a = _
          simp only [credited]; rw [if_neg ha]; omega
        · show credited _ _ _ _ = _
          simp only [credited, if_true]
      · rw [if_neg hl, if_neg hl]
        exact ⟨fun _ _ => rfl, rfl, by omega⟩
    · exact absurd h0 (hn hs')
  obtain ⟨o1, o2, o3⟩ := hop
  have nT := hc.bal treasury.id
  have nV := hc.bal serviceTreasury.id
  have nS := hc.bal sustainableFund.id
  rw [spec_missed]
  refine ⟨_, _, _, _, rfl, rfl, rfl, rfl, ?_, ?_, ?_, o2, ?_, ?_, ?_, hm.1, ?_⟩
  · rw [o1 _ (by decide)]; exact e1
  · rw [o1 _ (by decide)]; exact e2
  · rw [o1 _ (by decide)]; exact e3
  · rw [o1 _ (by decide), e4]
    split <;> (try split) <;> omega
  · rw [o1 _ (by decide), e5]
    split <;> (try split) <;> omega
  · rw [o3, e6]
  · intro a a1 a2 a3 a4 a5 a6
    rw [o1 a a6, e7 a a1 a2 a3 a4 a5 a6]

/-- **C29** (refill): at a term boundary the hoover fund never shrinks, never grows beyond its budget,
and what it gains comes from the sustainable fund, which never becomes negative. -/
theorem C29_refill {g : EState} {c : Chain} (r : Reachable g c) {x : Int} {s' : EState}
    (hb : beginBlock c.st (c.height + 1) x = .ok s')
    (hf : Spec.IsTermFirst c.st (c.height + 1)) (h1 : 0 < Spec.term c.st (c.height + 1))
    (h2 : Spec.term c.st (c.height + 1) ≤ Spec.limit c.st) :
    c.st.bal hooverFund.id ≤ s'.bal hooverFund.id ∧
    s'.bal hooverFund.id ≤ max (c.st.bal hooverFund.id) c.st.hooverBudget ∧
    0 ≤ s'.bal sustainableFund.id ∧
    (s'.bal hooverFund.id < c.st.hooverBudget → s'.bal sustainableFund.id = 0) := by
  obtain ⟨T, V, sf, refill, hT, hV, hsf, hre, _, _, _, _, e1, e2, _, hm, _⟩ :=
    C30_term_boundary r hb hf h1 h2
  have hc : Core c.st := r.inv.core
  have nT := hc.bal treasury.id
  have nV := hc.bal serviceTreasury.id
  have nS := hc.bal sustainableFund.id
  rw [e1, e2]
  omega

/-- **C30**: the two shares of a fee account add up, and the ecosystem's is exactly the floor of 1/5. -/
theorem C30_fee_split {g : EState} {c : Chain} (r : Reachable g c) {x : Int} {s' : EState}
    (hb : beginBlock c.st (c.height + 1) x = .ok s')
    (hf : Spec.IsTermFirst c.st (c.height + 1)) (h1 : 0 < Spec.term c.st (c.height + 1))
    (h2 : Spec.term c.st (c.height + 1) ≤ Spec.limit c.st) :
    s'.bal treasury.id = 0 ∧ s'.bal serviceTreasury.id = 0 ∧
    (s'.bal ecoSystem.id - c.st.bal ecoSystem.id - c.st.eco) +
      (s'.bal sustainableFund.id - c.st.bal sustainableFund.id - Spec.missed c.st) +
      (s'.bal hooverFund.id - c.st.bal hooverFund.id) =
      c.st.bal treasury.id + c.st.bal serviceTreasury.id ∧
    s'.bal ecoSystem.id - c.st.bal ecoSystem.id - c.st.eco =
      c.st.bal treasury.id / 5 + c.st.bal serviceTreasury.id / 5 := by
  obtain ⟨T, V, sf, refill, hT, hV, hsf, hre, e1, e2, e3, _, e4, e5, _⟩ :=
    C30_term_boundary r hb hf h1 h2
  refine ⟨e1, e2, ?_, ?_⟩
  · rw [e3, e4, e5]; omega
  · rw [e3]; omega

/-! Witness: the boundary between term 0 and term 1 of the demo (fees 101 and 11, budget 700). -/
example : Spec.term (Demo.at' Demo.last0).st 15 = 1 ∧ Spec.limit (Demo.at' Demo.last0).st = 4 ∧
    Spec.missed (Demo.at' Demo.last0).st = 333 ∧
    (Demo.at' Demo.last0).st.bal treasury.id = 101 ∧
    (Demo.at' Demo.last0).st.bal serviceTreasury.id = 11 ∧
    (Demo.at' Demo.term1).st.bal hooverFund.id = 700 ∧
    (beginBlock (Demo.at' Demo.last0).st 15 1000).isOk := by decide +kernel

end Verif.Havah
