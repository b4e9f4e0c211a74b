import Verif.Havah.Economy.Model
import Mathlib.Tactic.Linarith
import Mathlib.Tactic.Ring
import Mathlib.Tactic.SplitIfs
import Mathlib.Algebra.Order.BigOperators.Group.Finset
import Mathlib.Algebra.BigOperators.Group.Finset.Piecewise

/-! Characterisations of the model functions: what a successful run did. -/
namespace Verif.Havah

/-- `bal` after moving `x` from `a` to `b`. -/
def moved (bal : ℕ → Int) (a b : ℕ) (x : Int) : ℕ → Int :=
  fun i => bal i - (if i = a then x else 0) + (if i = b then x else 0)

theorem moved_zero (bal : ℕ → Int) (a b : ℕ) : moved bal a b 0 = bal := by
  funext i; simp [moved]

theorem moved_self (bal : ℕ → Int) (a : ℕ) (x : Int) : moved bal a a x = bal := by
  funext i; simp [moved]

theorem EState.self_bal (s : EState) : ({ s with bal := s.bal } : EState) = s := rfl

theorem transfer_ok {s s' : EState} {a b : Addr} {x : Int} (h : transfer s a b x = .ok s') :
    0 ≤ x ∧ (x = 0 ∨ a = b ∨ x ≤ s.bal a.id) ∧ s' = { s with bal := moved s.bal a.id b.id x } := by
  unfold transfer at h
  split at h
  · cases h
  rename_i h0
  split at h
  · rename_i h1
    cases h
    refine ⟨by omega, by tauto, ?_⟩
    rcases h1 with h1 | h1
    · subst h1; rw [moved_zero]
    · subst h1; rw [moved_self]
  · rename_i h1
    simp only [addBalance, bind, Except.bind] at h
    split at h
    · cases h
    rename_i v hv
    split at hv
    · cases hv
    cases hv
    split at h
    · cases h
    cases h
    refine ⟨by omega, Or.inr (Or.inr (by omega)), ?_⟩
    congr 1
    funext i
    simp only [moved, Function.update_apply]
    split_ifs <;> (simp_all; try omega)

theorem transfer_total {s : EState} {a b : Addr} {x : Int} (h0 : 0 ≤ x) (h1 : x ≤ s.bal a.id)
    (h2 : 0 ≤ s.bal b.id) :
    transfer s a b x = .ok { s with bal := moved s.bal a.id b.id x } := by
  unfold transfer
  rw [if_neg (by omega)]
  split
  · rename_i h3
    rcases h3 with h3 | h3
    · subst h3; rw [moved_zero]
    · subst h3; rw [moved_self]
  · simp only [addBalance, bind, Except.bind]
    rw [if_neg (by omega)]
    simp only
    rw [if_neg]
    · congr 2
      funext i
      simp only [moved, Function.update_apply]
      split_ifs <;> (simp_all; try omega)
    · simp only [Function.update_apply]
      split_ifs <;> omega

theorem transfer_total_self {s : EState} {a : Addr} {x : Int} (h0 : 0 ≤ x) :
    transfer s a a x = .ok s := by
  unfold transfer; rw [if_neg (by omega), if_pos (Or.inr rfl)]

/-- `bal` after crediting `x` to `a`. -/
def credited (bal : ℕ → Int) (a : ℕ) (x : Int) : ℕ → Int :=
  fun i => bal i + (if i = a then x else 0)

theorem issue_ok {s s' : EState} {a : Addr} {x : Int} (h : issue s a x = .ok s') :
    0 ≤ x ∧ s' = { s with supply := s.supply + x, bal := credited s.bal a.id x } := by
  unfold issue at h
  split at h
  · cases h
  rename_i h0
  split at h
  · simp only [addTotalSupply, addBalance, bind, Except.bind] at h
    split at h
    · cases h
    rename_i v hv
    split at hv
    · cases hv
    cases hv
    split at h
    · cases h
    cases h
    refine ⟨by omega, ?_⟩
    congr 1
    funext i
    simp only [credited, Function.update_apply]
    split_ifs <;> simp_all
  · rename_i h1
    cases h
    have : x = 0 := by omega
    subst this
    refine ⟨le_refl _, ?_⟩
    have : credited s.bal a.id 0 = s.bal := by funext i; simp [credited]
    rw [this]; simp

theorem issue_total {s : EState} {a : Addr} {x : Int} (h0 : 0 ≤ x) (hs : 0 ≤ s.supply)
    (hb : 0 ≤ s.bal a.id) :
    issue s a x = .ok { s with supply := s.supply + x, bal := credited s.bal a.id x } := by
  unfold issue
  rw [if_neg (by omega)]
  split
  · simp only [addTotalSupply, addBalance, bind, Except.bind]
    rw [if_neg (by omega)]
    simp only
    rw [if_neg (by omega)]
    congr 2
    funext i
    simp only [credited, Function.update_apply]
    split_ifs <;> simp_all
  · have : x = 0 := by omega
    subst this
    have : credited s.bal a.id 0 = s.bal := by funext i; simp [credited]
    rw [this]; simp

theorem burn_ok {s s' : EState} {x : Int} (h : burn s x = .ok s') :
    0 ≤ x ∧ x ≤ s.supply ∨ x = 0 := by
  unfold burn at h
  split at h
  · cases h
  rename_i h0
  split at h
  · simp only [addTotalSupply, addBalance, bind, Except.bind] at h
    split at h
    · cases h
    rename_i v hv
    split at hv
    · cases hv
    left; omega
  · right; omega

theorem burn_ok' {s s' : EState} {x : Int} (h : burn s x = .ok s') :
    0 ≤ x ∧ (x = 0 ∨ x ≤ s.bal systemAddress.id) ∧
    s' = { s with supply := s.supply - x, bal := credited s.bal systemAddress.id (-x) } := by
  unfold burn at h
  split at h
  · cases h
  rename_i h0
  split at h
  · simp only [addTotalSupply, addBalance, bind, Except.bind] at h
    split at h
    · cases h
    rename_i v hv
    split at hv
    · cases hv
    cases hv
    split at h
    · cases h
    rename_i hb
    cases h
    refine ⟨by omega, Or.inr (by simp only at hb; omega), ?_⟩
    congr 1
    funext i
    simp only [credited, Function.update_apply]
    split_ifs <;> simp_all
  · rename_i h1
    cases h
    have : x = 0 := by omega
    subst this
    refine ⟨le_refl _, Or.inl rfl, ?_⟩
    have : credited s.bal systemAddress.id (-0) = s.bal := by funext i; simp [credited]
    rw [this]; simp

theorem getOrDefault_pos {v d : Int} (hd : 0 < d) : 0 < getOrDefault v d := by
  unfold getOrDefault; split <;> omega

theorem termPeriod_pos (s : EState) : 0 < s.termPeriod := getOrDefault_pos (by decide)
theorem issueLimit_pos (s : EState) : 0 < s.issueLimit := getOrDefault_pos (by decide)
theorem reductionCycle_pos (s : EState) : 0 < s.reductionCycle := getOrDefault_pos (by decide)

theorem getPlanet_ok {s : EState} {id : Int} {p : Planet} (h : getPlanet s id = .ok p) :
    0 ≤ id ∧ s.planets id = some p := by
  unfold getPlanet at h
  split at h
  · cases h
  split at h
  · cases h
  · cases h; exact ⟨by omega, by assumption⟩

theorem getPlanet_total {s : EState} {id : Int} {p : Planet} (h0 : 0 ≤ id)
    (h : s.planets id = some p) : getPlanet s id = .ok p := by
  unfold getPlanet; rw [if_neg (by omega), h]

/-- `termStart` of the term containing `h`. -/
def termStart (s : EState) (h : Int) : Int :=
  (h - s.issueStart) / s.termPeriod * s.termPeriod + s.issueStart
/-- Sequence number of the term containing `h`. -/
def termSeq (s : EState) (h : Int) : Int := (h - s.issueStart) / s.termPeriod

/-- Coins credited for one report: share plus subsidy. -/
def credit (s : EState) (p : Planet) (id : Int) : Int :=
  rewardPerActivePlanet s + hooverRequest s p (getPlanetReward s id) (rewardPerActivePlanet s)
/-- Part of the credit that goes to the ecosystem. -/
def ecoPart (s : EState) (p : Planet) (id : Int) : Int :=
  if p.isCompany then credit s p id * 3 / 5 else 0

theorem hooverRequest_nonneg (s : EState) (p : Planet) (pr : Reward) (reward : Int) :
    0 ≤ hooverRequest s p pr reward := by
  unfold hooverRequest calcSubsidy
  simp only
  split
  · split
    · split
      · split_ifs <;> omega
      · omega
    · omega
  · omega

theorem hooverRequest_le_balance (s : EState) (p : Planet) (pr : Reward) (reward : Int) :
    hooverRequest s p pr reward = 0 ∨ hooverRequest s p pr reward ≤ s.bal hooverFund.id := by
  unfold hooverRequest calcSubsidy
  simp only
  split
  · split
    · split
      · right; split_ifs <;> omega
      · left; omega
    · left; omega
  · left; omega

/-- The state after a successful report. -/
def reported (s : EState) (h id : Int) (p : Planet) : EState :=
  { s with
    bal := moved s.bal hooverFund.id publicTreasury.id
      (hooverRequest s p (getPlanetReward s id) (rewardPerActivePlanet s))
    rewardRemain := s.rewardRemain - rewardPerActivePlanet s
    eco := s.eco + ecoPart s p id
    rewards := Function.update s.rewards id (some
      ⟨(getPlanetReward s id).total + credit s p id, termSeq s h + 1,
       (getPlanetReward s id).current + (credit s p id - ecoPart s p id)⟩)
    working := s.working + 1 }

/-- Conditions under which a report succeeds. -/
structure ReportOk (s : EState) (h id : Int) (p : Planet) : Prop where
  started : isIssueStarted h s.issueStart
  id_nonneg : 0 ≤ id
  planet : s.planets id = some p
  old : p.height < termStart s h
  fresh : (getPlanetReward s id).lastTN < termSeq s h + 1
  share_nonneg : 0 ≤ rewardPerActivePlanet s
  share_le : rewardPerActivePlanet s = 0 ∨ rewardPerActivePlanet s ≤ s.rewardRemain

theorem offer_ok {s s' : EState} {tn id : Int} {pr : Reward} {a t : Int}
    (h : offerReward s tn id pr a t = .ok s') :
    s' = setPlanetReward s id ⟨pr.total + t, tn, pr.current + a⟩ := by
  unfold offerReward Reward.increment at h
  by_cases h1 : a < 0 ∨ t < 0
  · rw [if_pos h1] at h; cases h
  by_cases h2 : tn ≤ pr.lastTN
  · rw [if_neg h1, if_pos h2] at h; cases h
  rw [if_neg h1, if_neg h2] at h
  cases h; rfl

theorem offer_total {s : EState} {tn id : Int} {pr : Reward} {a t : Int} (ha : 0 ≤ a) (ht : 0 ≤ t)
    (hf : pr.lastTN < tn) :
    offerReward s tn id pr a t = .ok (setPlanetReward s id ⟨pr.total + t, tn, pr.current + a⟩) := by
  unfold offerReward Reward.increment
  rw [if_neg (by omega), if_neg (by omega)]; rfl

theorem creditReport_ok {s s' : EState} {p : Planet} {tn id : Int} {pr : Reward} {w : Int}
    (h : creditReport s p tn id pr w = .ok s') :
    s' = increaseEcoSystemReward (setPlanetReward s id
      ⟨pr.total + w, tn, pr.current + (w - if p.isCompany then w * 3 / 5 else 0)⟩)
      (if p.isCompany then w * 3 / 5 else 0) := by
  unfold creditReport at h
  by_cases hc : p.isCompany
  · simp only [hc, if_true, bind, Except.bind, pure, Except.pure] at h ⊢
    split at h
    · cases h
    rename_i s1 h1
    cases h
    rw [offer_ok h1]
  · simp only [hc] at h ⊢
    rw [offer_ok h]
    simp [increaseEcoSystemReward]

theorem creditReport_total {s : EState} {p : Planet} {tn id : Int} {pr : Reward} {w : Int}
    (hw : 0 ≤ w) (hf : pr.lastTN < tn) :
    creditReport s p tn id pr w = .ok (increaseEcoSystemReward (setPlanetReward s id
      ⟨pr.total + w, tn, pr.current + (w - if p.isCompany then w * 3 / 5 else 0)⟩)
      (if p.isCompany then w * 3 / 5 else 0)) := by
  unfold creditReport
  by_cases hc : p.isCompany
  · simp only [hc, if_true, bind, Except.bind, pure, Except.pure]
    rw [offer_total (by omega) hw hf]
  · simp only [hc]
    simp only [Bool.false_eq_true, if_false, sub_zero, increaseEcoSystemReward, add_zero]
    exact offer_total hw hw hf

theorem report_ok {s s' : EState} {h id : Int} (hr : reportPlanetWork s h id = .ok s') :
    ∃ p, ReportOk s h id p ∧ s' = reported s h id p := by
  unfold reportPlanetWork at hr
  split at hr
  · cases hr
  rename_i hst
  simp only [bind, Except.bind] at hr
  split at hr
  · cases hr
  rename_i p hp
  obtain ⟨hid, hpl⟩ := getPlanet_ok hp
  split at hr
  · cases hr
  rename_i hold
  split at hr
  · cases hr
  rename_i hfresh
  split at hr
  · cases hr
  rename_i s1 hs1
  split at hr
  · cases hr
  rename_i s2 hs2
  split at hr
  · cases hr
  rename_i s3 hs3
  cases hr
  have hd : 0 ≤ rewardPerActivePlanet s ∧
      (rewardPerActivePlanet s = 0 ∨ rewardPerActivePlanet s ≤ s.rewardRemain) ∧
      s1 = { s with rewardRemain := s.rewardRemain - rewardPerActivePlanet s } := by
    unfold decreaseRewardRemain at hs1
    split at hs1
    · cases hs1
    split at hs1
    · rename_i h1 h2
      cases hs1
      refine ⟨by omega, Or.inl h2, ?_⟩
      rw [h2]; simp
    split at hs1
    · cases hs1
    · cases hs1
      exact ⟨by omega, Or.inr (by omega), rfl⟩
  obtain ⟨hd0, hd1, rfl⟩ := hd
  obtain ⟨_, _, rfl⟩ := transfer_ok hs2
  refine ⟨p, ⟨by simpa using hst, hid, hpl, by unfold termStart; omega,
    by unfold termSeq; omega, hd0, hd1⟩, ?_⟩
  have hh : ∀ (b : Int), hooverRequest { s with rewardRemain := b } p (getPlanetReward s id)
      (rewardPerActivePlanet s) = hooverRequest s p (getPlanetReward s id)
      (rewardPerActivePlanet s) := fun _ => rfl
  rw [hh] at hs3
  rw [creditReport_ok hs3]
  rfl

theorem ecoPart_bounds {s : EState} {p : Planet} {id : Int} (h : 0 ≤ credit s p id) :
    0 ≤ ecoPart s p id ∧ ecoPart s p id ≤ credit s p id := by
  unfold ecoPart
  split <;> omega

theorem report_total {s : EState} {h id : Int} {p : Planet} (H : ReportOk s h id p)
    (hhf : 0 ≤ s.bal publicTreasury.id) :
    reportPlanetWork s h id = .ok (reported s h id p) := by
  obtain ⟨hst, hid, hpl, hold, hfresh, h0, h1⟩ := H
  unfold termStart at hold
  unfold termSeq at hfresh
  have hc0 : 0 ≤ credit s p id := by
    unfold credit; have := hooverRequest_nonneg s p (getPlanetReward s id) (rewardPerActivePlanet s)
    omega
  have hec := ecoPart_bounds hc0
  unfold reportPlanetWork
  rw [if_neg (by simpa using hst)]
  simp only [bind, Except.bind]
  rw [getPlanet_total hid hpl]
  simp only
  rw [if_neg (by omega), if_neg (by omega)]
  have hd : decreaseRewardRemain s (rewardPerActivePlanet s) =
      .ok { s with rewardRemain := s.rewardRemain - rewardPerActivePlanet s } := by
    unfold decreaseRewardRemain
    rw [if_neg (by omega)]
    split
    · rename_i h2; rw [h2]; simp
    · rw [if_neg (by omega)]
  rw [hd]
  simp only
  have hh : ∀ (b : Int), hooverRequest { s with rewardRemain := b } p (getPlanetReward s id)
      (rewardPerActivePlanet s) = hooverRequest s p (getPlanetReward s id)
      (rewardPerActivePlanet s) := fun _ => rfl
  rw [hh]
  have ht : ∀ (t : EState), t.bal = s.bal → transfer t hooverFund publicTreasury
      (hooverRequest s p (getPlanetReward s id) (rewardPerActivePlanet s)) =
      .ok { t with bal := moved t.bal hooverFund.id publicTreasury.id (hooverRequest s p
              (getPlanetReward s id) (rewardPerActivePlanet s)) } := by
    intro t htb
    have hn := hooverRequest_nonneg s p (getPlanetReward s id) (rewardPerActivePlanet s)
    rcases hooverRequest_le_balance s p (getPlanetReward s id) (rewardPerActivePlanet s) with h2 | h2
    · rw [h2]; unfold transfer; simp [moved_zero]
    · exact transfer_total hn (by rw [htb]; exact h2) (by rw [htb]; exact hhf)
  rw [ht { s with rewardRemain := s.rewardRemain - rewardPerActivePlanet s } rfl]
  simp only
  rw [show rewardPerActivePlanet s + hooverRequest s p (getPlanetReward s id)
    (rewardPerActivePlanet s) = credit s p id from rfl, creditReport_total hc0 hfresh]
  rfl

theorem register_ok {s s' : EState} {id : Int} {p : Planet} (h : registerPlanet s id p = .ok s') :
    0 ≤ id ∧ s.planets id = none ∧ s.allPlanet < maxPlanetCount ∧
    s' = { s with planets := Function.update s.planets id (some p),
                  allPlanet := s.allPlanet + 1 } := by
  unfold registerPlanet at h
  split at h
  · cases h
  split at h
  · cases h
  split at h
  · cases h
  cases h
  refine ⟨by omega, ?_, by omega, rfl⟩
  simp_all

theorem unregister_ok {s s' : EState} {rev id : Int} (h : unregisterPlanet s rev id = .ok s') :
    0 ≤ id ∧ (s.planets id).isSome ∧ 1 ≤ s.allPlanet ∧
    (2 ≤ rev → 0 ≤ (getPlanetReward s id).current) ∧
    s' = { s with planets := Function.update s.planets id none,
                  allPlanet := s.allPlanet - 1,
                  lost := if 2 ≤ rev then s.lost + (getPlanetReward s id).current else s.lost,
                  rewards := if 2 ≤ rev then Function.update s.rewards id none else s.rewards } := by
  unfold unregisterPlanet at h
  split at h
  · cases h
  split at h
  · cases h
  split at h
  · cases h
  rename_i h1 h2 h3
  simp only [bind, Except.bind, pure, Except.pure] at h
  split at h
  · rename_i hrev
    split at h
    · cases h
    rename_i v hv
    unfold addLost at hv
    split at hv
    · cases hv
    rename_i hneg
    cases hv
    cases h
    refine ⟨by omega, by simpa [Option.isSome_iff_ne_none] using h2, by omega, fun _ => ?_, ?_⟩
    · change ¬ (getPlanetReward s id).current < 0 at hneg; omega
    · simp only [hrev, if_true]; rfl
  · rename_i hrev
    cases h
    refine ⟨by omega, by simpa [Option.isSome_iff_ne_none] using h2, by omega, fun h => absurd h hrev, ?_⟩
    simp only [hrev, if_false]

theorem setOwner_ok {s s' : EState} {id : Int} {o : Addr} (h : setPlanetOwner s id o = .ok s') :
    ∃ p, 0 ≤ id ∧ s.planets id = some p ∧
    s' = { s with planets := Function.update s.planets id (some { p with owner := o }) } := by
  unfold setPlanetOwner at h
  simp only [bind, Except.bind, pure, Except.pure] at h
  split at h
  · cases h
  rename_i p hp
  obtain ⟨h0, h1⟩ := getPlanet_ok hp
  cases h
  exact ⟨p, h0, h1, rfl⟩

theorem calcClaimable_ok {s : EState} {p : Planet} {pr : Reward} {c : Int}
    (h : calcClaimableReward s p pr = .ok c) (h0 : 0 ≤ pr.current) (h1 : 0 ≤ pr.total) :
    0 ≤ c ∧ c ≤ pr.current := by
  unfold calcClaimableReward at h
  split at h
  · cases h; omega
  simp only at h
  split at h
  · cases h
  rename_i hv
  split at h
  · cases h
    rename_i hlt
    have hv' : validClaimRate (privateClaimableRate s).1 (privateClaimableRate s).2 = true := by
      simpa using hv
    unfold validClaimRate at hv'
    simp at hv'
    have : 0 ≤ ((privateClaimableRate s).2 - (privateClaimableRate s).1) * pr.total /
        (privateClaimableRate s).2 := by
      apply Int.ediv_nonneg _ (by omega)
      apply mul_nonneg (by omega) h1
    split <;> omega
  · cases h; omega

theorem stateClaim_ok {s s' : EState} {id : Int} {o : Addr} {c : Int}
    (h : stateClaimPlanetReward s id o = .ok (c, s')) :
    ∃ p, 0 ≤ id ∧ s.planets id = some p ∧ p.owner = o ∧
      calcClaimableReward s p (getPlanetReward s id) = .ok c ∧
      ((c ≤ 0 ∧ s' = s) ∨ (0 < c ∧ c ≤ (getPlanetReward s id).current ∧
        s' = setPlanetReward s id { getPlanetReward s id with
                current := (getPlanetReward s id).current - c })) := by
  unfold stateClaimPlanetReward at h
  simp only [bind, Except.bind, pure, Except.pure] at h
  split at h
  · cases h
  rename_i p hp
  obtain ⟨h0, h1⟩ := getPlanet_ok hp
  split at h
  · cases h
  rename_i ho
  split at h
  · cases h
  rename_i c' hc
  split at h
  · split at h
    · cases h
    rename_i w hw
    unfold Reward.claim at hw
    split at hw
    · cases hw
    split at hw
    · cases hw
    cases hw
    cases h
    refine ⟨p, h0, h1, ?_, hc, Or.inr ⟨by assumption, by omega, rfl⟩⟩
    by_contra hne; exact ho (fun h => hne h.symm)
  · cases h
    refine ⟨p, h0, h1, ?_, hc, Or.inl ⟨by omega, rfl⟩⟩
    by_contra hne; exact ho (fun h => hne h.symm)

end Verif.Havah
