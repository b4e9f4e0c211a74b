import Verif.Havah.Economy.Track
import Verif.Havah.Economy.Demo

/-! # C22 (coin conservation) and C23 (solvency of the public treasury) -/
namespace Verif.Havah

/-! ## C22 -/

/-- **C22**: in every reachable state no balance is negative. -/
theorem C22_balance_nonneg {g : EState} {c : Chain} (r : Reachable g c) (a : ℕ) : 0 ≤ c.st.bal a :=
  r.inv.core.bal a

/-- **C22**: in every reachable state the balances of all accounts sum up to the total supply. -/
theorem C22_supply_is_sum {g : EState} {c : Chain} (r : Reachable g c) :
    ∃ U : Finset ℕ, (∀ a, a ∉ U → c.st.bal a = 0) ∧ ∑ a ∈ U, c.st.bal a = c.st.supply :=
  r.inv.core.cons

/-- **C22**: a transfer moves exactly its amount from the sender to the receiver and changes nothing
else; between accounts with the same body it changes nothing at all. -/
theorem C22_transfer_exact {s s' : EState} {a b : Addr} {x : Int} (h : transfer s a b x = .ok s') :
    0 ≤ x ∧
    (a.id ≠ b.id → s'.bal a.id = s.bal a.id - x ∧ s'.bal b.id = s.bal b.id + x) ∧
    (a.id = b.id → s'.bal = s.bal) ∧
    (∀ i, i ≠ a.id → i ≠ b.id → s'.bal i = s.bal i) ∧
    s' = { s with bal := s'.bal } := by
  obtain ⟨h0, _, rfl⟩ := transfer_ok h
  refine ⟨h0, fun hne => ?_, fun he => ?_, fun i h1 h2 => ?_, rfl⟩
  · have hne' : b.id ≠ a.id := fun e => hne e.symm
    simp only [moved, if_neg hne, if_neg hne', if_true]
    omega
  · rw [he]; exact moved_self _ _ _
  · simp only [moved]
    rw [if_neg h1, if_neg h2]; omega

/-- **C22**: a transfer is refused exactly when the amount is negative or the sender, being another
account than the receiver, has less than it. -/
theorem C22_transfer_iff {s : EState} (hb : ∀ i, 0 ≤ s.bal i) (a b : Addr) (x : Int) :
    (∃ s', transfer s a b x = .ok s') ↔ 0 ≤ x ∧ (a = b ∨ x ≤ s.bal a.id) := by
  constructor
  · rintro ⟨s', h⟩
    obtain ⟨h0, h1, _⟩ := transfer_ok h
    refine ⟨h0, ?_⟩
    rcases h1 with rfl | h1 | h1
    · exact Or.inr (hb _)
    · exact Or.inl h1
    · exact Or.inr h1
  · rintro ⟨h0, rfl | h1⟩
    · exact ⟨s, transfer_total_self h0⟩
    · exact ⟨_, transfer_total h0 h1 (hb _)⟩

/-- **C22**: issuing coins adds the amount to one account and to the total supply. -/
theorem C22_issue_exact {s s' : EState} {a : Addr} {x : Int} (h : issue s a x = .ok s') :
    0 ≤ x ∧ s'.supply = s.supply + x ∧ s'.bal a.id = s.bal a.id + x ∧
    (∀ i, i ≠ a.id → s'.bal i = s.bal i) ∧ s' = { s with bal := s'.bal, supply := s'.supply } := by
  obtain ⟨h0, rfl⟩ := issue_ok h
  refine ⟨h0, rfl, by simp [credited], fun i hi => by simp [credited, hi], rfl⟩

/-- **C22**: burning takes the amount from the system account and from the total supply. -/
theorem C22_burn_exact {s s' : EState} {x : Int} (h : burn s x = .ok s') :
    0 ≤ x ∧ s'.supply = s.supply - x ∧ s'.bal 0 = s.bal 0 - x ∧
    (∀ i, i ≠ 0 → s'.bal i = s.bal i) ∧ s' = { s with bal := s'.bal, supply := s'.supply } := by
  obtain ⟨h0, _, rfl⟩ := burn_ok' h
  refine ⟨h0, rfl, by simp [credited, systemAddress]; omega, fun i hi => by simp [credited, systemAddress, hi], rfl⟩

/-- **C22**: the only call that changes the total supply is a payment to the system SCORE, which burns
exactly what was paid. -/
theorem C22_call_supply {g : EState} {c : Chain} (r : Reachable g c) (x : Ctx)
    (hx : x.height = c.height) (k : Call) {s' : EState} (he : exec x c.st k = .ok s') :
    s'.supply = c.st.supply - Spec.burnedBy k := by
  have i : Inv ⟨x.height, c.st⟩ := by rw [hx]; exact r.inv
  have hc : Core c.st := i.core
  cases k with
  | setUSDTPrice price =>
    obtain ⟨_, he⟩ := guard_ok he
    unfold setUSDTPrice at he
    split at he
    · cases he
    cases he
    simp [Spec.burnedBy]
  | startRewardIssue h =>
    obtain ⟨_, he⟩ := guard_ok he
    split at he
    · cases he
    unfold setIssueStart at he
    split at he
    · cases he
    split at he
    · cases he
    cases he
    simp [Spec.burnedBy]
  | addPlanetManager a =>
    obtain ⟨_, he⟩ := guard_ok he
    unfold addPlanetManager at he
    split at he
    · cases he
    cases he
    simp [Spec.burnedBy]
  | removePlanetManager a =>
    obtain ⟨_, he⟩ := guard_ok he
    obtain ⟨l, rfl, _, _⟩ := remove_ok he
    simp [Spec.burnedBy]
  | registerPlanet id pv co owner usdt price =>
    obtain ⟨_, he⟩ := guard_ok he
    obtain ⟨_, _, _, rfl⟩ := register_ok he
    simp [Spec.burnedBy]
  | unregisterPlanet id =>
    obtain ⟨_, he⟩ := guard_ok he
    obtain ⟨_, _, _, _, e⟩ := unregister_ok he
    rw [e]; simp [Spec.burnedBy]
  | setPlanetOwner id owner =>
    obtain ⟨_, he⟩ := guard_ok he
    obtain ⟨p, _, hp, rfl⟩ := setOwner_ok he
    simp [Spec.burnedBy]
  | reportPlanetWork id =>
    simp only [exec] at he
    split at he
    · obtain ⟨p, H, rfl⟩ := report_ok he
      simp [reported, Spec.burnedBy]
    · cases he
  | claimPlanetReward ids =>
    simp only [exec, claimPlanetReward] at he
    split at he
    · cases he
    split at he
    · cases he
    cases he
    obtain ⟨⟨b, r, e⟩, hl⟩ := claimLoop_frame hc x.caller (ids.map int64)
    rw [e]; simp [Spec.burnedBy]
  | fallback value =>
    simp only [exec, bind, Except.bind] at he
    split at he
    · cases he
    rename_i s1 h1
    obtain ⟨_, _, rfl⟩ := transfer_ok h1
    obtain ⟨h0, _, rfl⟩ := burn_ok' he
    simp [Spec.burnedBy]
  | setPrivateClaimableRate n d =>
    obtain ⟨_, he⟩ := guard_ok he
    unfold setPrivateClaimableRate at he
    split at he
    · cases he
      simp [Spec.burnedBy]
    · cases he
  | withdrawLostTo dst =>
    obtain ⟨_, he⟩ := guard_ok he
    obtain ⟨_, _, rfl⟩ := i.withdrawLost he
    simp [Spec.burnedBy]
  | transfer dst amount =>
    obtain ⟨_, _, rfl⟩ := transfer_ok (show transfer c.st x.caller dst amount = .ok s' from he)
    simp [Spec.burnedBy]
  | fee amount =>
    obtain ⟨_, _, rfl⟩ := transfer_ok (show transfer c.st x.caller treasury amount = .ok s' from he)
    simp [Spec.burnedBy]

theorem closed_supply (s : EState) (h : Int) : (closed s h).supply = s.supply := by
  unfold closed; split <;> rfl

/-- **C22**: the start of a block changes the total supply only at the first block of a term with
issue, by the amount the proposer declared. -/
theorem C22_block_supply {g : EState} {c : Chain} (r : Reachable g c) {x : Int} {s' : EState}
    (hb : beginBlock c.st (c.height + 1) x = .ok s') :
    (Spec.IsTermFirst c.st (c.height + 1) ∧ Spec.term c.st (c.height + 1) < Spec.limit c.st →
      s'.supply = c.st.supply + x) ∧
    (¬ (Spec.IsTermFirst c.st (c.height + 1) ∧ Spec.term c.st (c.height + 1) < Spec.limit c.st) →
      s'.supply = c.st.supply) := by
  rw [spec_term, spec_limit]
  unfold Spec.IsTermFirst
  rw [spec_started, spec_period]
  rcases r.inv.begin_ok hb with ⟨hs, h0, rfl, hx⟩ | ⟨hn, rfl⟩
  · constructor
    · rintro ⟨_, hl⟩
      rw [hx hl, opened, if_pos hl]
      show (closed _ _).supply + _ = _
      rw [closed_supply]
    · intro hn
      have hl : ¬ termSeq c.st (c.height + 1) < c.st.issueLimit := fun hl => hn ⟨⟨hs, h0⟩, hl⟩
      rw [opened, if_neg hl, closed_supply]
  · exact ⟨fun h => absurd h.1.2 (hn h.1.1), fun _ => rfl⟩

/-! Witnesses -/
example : (exec ⟨5, 4, Demo.alice, Demo.gov⟩ (Demo.at' Demo.term0).st (.fallback 300)).toOption.map
    (fun s => (s.supply, s.bal Demo.alice.id, s.bal 0)) = some (8200, 700, 0) := by decide +kernel
example : Spec.IsTermFirst (Demo.at' Demo.last0).st 15 ∧
    Spec.term (Demo.at' Demo.last0).st 15 < Spec.limit (Demo.at' Demo.last0).st := by
  unfold Spec.IsTermFirst Spec.Started; decide +kernel

/-! ## C23 -/

/-- **C23**: at every moment the public treasury holds at least the credited rewards of any set of
planets, the undistributed reward of the term, the ecosystem reward and the lost coins together. -/
theorem C23_solvent {g : EState} {c : Chain} (r : Reachable g c) (S : Finset Int) :
    ∑ i ∈ S, Spec.current c.st i + c.st.rewardRemain + c.st.eco + c.st.lost ≤
      c.st.bal 0x3000000000000000000000000000000000000000 := by
  have := r.inv.core.solv S
  have e : ∀ i, Spec.current c.st i = cur c.st i := spec_current c.st
  simp only [e]
  exact this

/-- **C23**: none of the liabilities is negative. -/
theorem C23_liabilities_nonneg {g : EState} {c : Chain} (r : Reachable g c) :
    (∀ i, 0 ≤ Spec.current c.st i ∧ Spec.current c.st i ≤ Spec.total c.st i) ∧
    0 ≤ c.st.rewardRemain ∧ 0 ≤ c.st.eco ∧ 0 ≤ c.st.lost := by
  have hc := r.inv.core
  refine ⟨fun i => ?_, hc.remain, hc.eco, hc.lost⟩
  rw [spec_current, spec_total]
  exact hc.rew i

/-- The claim loop, remembering which planets it touched. -/
theorem claimLoop_pays {owner : Addr} : ∀ (ids L : List Int) (s0 s : EState), Core s →
    (∀ i ∈ ids, i ∈ L) →
    s.bal = moved s0.bal publicTreasury.id owner.id (∑ i ∈ L.toFinset, (cur s0 i - cur s i)) →
    (∀ i, i ∉ L → s.rewards i = s0.rewards i) →
    (claimLoop owner ids s).bal = moved s0.bal publicTreasury.id owner.id
      (∑ i ∈ L.toFinset, (cur s0 i - cur (claimLoop owner ids s) i)) ∧
    (∀ i, i ∉ L → (claimLoop owner ids s).rewards i = s0.rewards i) := by
  intro ids
  induction ids with
  | nil => intro L s0 s _ _ h1 h2; exact ⟨h1, h2⟩
  | cons id ids ih =>
    intro L s0 s hc hsub h1 h2
    have hsub' : ∀ i ∈ ids, i ∈ L := fun i hi => hsub i (List.mem_cons_of_mem _ hi)
    have hid : id ∈ L := hsub id List.mem_cons_self
    rw [claimLoop_cons hc]
    cases hcl : stateClaimPlanetReward s id owner with
    | error e => exact ih L s0 s hc hsub' h1 h2
    | ok r =>
      obtain ⟨a, s1⟩ := r
      simp only
      by_cases hpos : 0 < a
      · rw [if_pos hpos]
        obtain ⟨_, hle⟩ := claim_step hc hcl hpos
        refine ih L s0 (claimed s id owner a) (hc.claimed hpos.le hle) hsub' ?_ ?_
        · have hcu : cur (claimed s id owner a) = Function.update (cur s) id (cur s id - a) :=
            cur_update s id _ (claimed s id owner a) rfl
          show moved s.bal publicTreasury.id owner.id a = _
          rw [h1, hcu]
          have hs : ∑ i ∈ L.toFinset, (cur s0 i - Function.update (cur s) id (cur s id - a) i) =
              ∑ i ∈ L.toFinset, (cur s0 i - cur s i) + a := by
            rw [Finset.sum_sub_distrib, Finset.sum_sub_distrib,
              sum_update (List.mem_toFinset.2 hid)]
            omega
          rw [hs]
          funext j
          simp only [moved]
          split <;> split <;> omega
        · intro i hi
          have : i ≠ id := fun e => hi (e ▸ hid)
          show Function.update s.rewards id _ i = _
          rw [Function.update_of_ne this]
          exact h2 i hi
      · rw [if_neg hpos]
        exact ih L s0 s hc hsub' h1 h2

/-- **C23**: a claim never silently loses coins: exactly the sum of what is taken off the listed
planets' rewards arrives at the caller's account, paid by the treasury, and nothing else changes. -/
theorem C23_claim_pays_exactly {g : EState} {c : Chain} (r : Reachable g c) (x : Ctx)
    (hx : x.caller.id ≠ publicTreasury.id) (ids : List Int) {s' : EState}
    (he : exec x c.st (.claimPlanetReward ids) = .ok s') :
    ∃ paid, paid = ∑ i ∈ (ids.map int64).toFinset, (Spec.current c.st i - Spec.current s' i) ∧
      0 ≤ paid ∧
      s'.bal x.caller.id = c.st.bal x.caller.id + paid ∧
      s'.bal publicTreasury.id = c.st.bal publicTreasury.id - paid ∧
      (∀ a, a ≠ x.caller.id → a ≠ publicTreasury.id → s'.bal a = c.st.bal a) ∧
      (∀ i, i ∉ ids.map int64 → s'.rewards i = c.st.rewards i) ∧
      s' = { c.st with bal := s'.bal, rewards := s'.rewards } := by
  have hc : Core c.st := r.inv.core
  simp only [exec, claimPlanetReward] at he
  split at he
  · cases he
  split at he
  · cases he
  cases he
  obtain ⟨h1, h2⟩ := claimLoop_pays (owner := x.caller) (ids.map int64) (ids.map int64) c.st c.st hc
    (fun i h => h) (by simp [moved_zero]) (fun _ _ => rfl)
  obtain ⟨⟨b, rw', e⟩, hl⟩ := claimLoop_frame hc x.caller (ids.map int64)
  set s' := claimLoop x.caller (ids.map int64) c.st with hs'
  have ecur : ∀ t i, Spec.current t i = cur t i := fun t i => spec_current t i
  simp only [ecur]
  have hx' : publicTreasury.id ≠ x.caller.id := fun e => hx e.symm
  refine ⟨_, rfl, ?_, ?_, ?_, ?_, h2, by rw [e]⟩
  · exact Finset.sum_nonneg fun i _ => by have := (hl i).2.2; unfold cur; omega
  · rw [h1]; simp only [moved, if_neg hx, if_true]; omega
  · rw [h1]; simp only [moved, if_neg hx', if_true]; omega
  · intro a ha hb
    rw [h1]; simp only [moved, if_neg ha, if_neg hb]; omega

/-- **C23**: a claim is only ever refused for more than 50 ids or before the issue has started; it
does not fail for lack of coins. -/
theorem C23_claim_never_fails (x : Ctx) (s : EState) (ids : List Int) :
    (∃ s', exec x s (.claimPlanetReward ids) = .ok s') ↔
      ids.length ≤ 50 ∧ Spec.Started s x.height := by
  simp only [exec, claimPlanetReward, List.length_map, maxCountToClaim]
  rw [spec_started]
  by_cases h1 : 50 < ids.length
  · rw [if_pos h1]
    constructor
    · rintro ⟨_, h⟩; cases h
    · rintro ⟨h, _⟩; omega
  · rw [if_neg h1]
    by_cases h2 : isIssueStarted x.height s.issueStart = true
    · rw [if_neg (by simp [h2])]
      exact ⟨fun _ => ⟨by omega, h2⟩, fun _ => ⟨_, rfl⟩⟩
    · rw [if_pos (by simpa using h2)]
      constructor
      · rintro ⟨_, h⟩; cases h
      · rintro ⟨_, h⟩; exact absurd h h2

/-- **C23**: the chain never gets stuck at a term boundary: at every reachable state there is an issue
amount with which the next block starts, so the term end can always pay the ecosystem, the missed
rewards and the hoover refill. -/
theorem C23_term_end_can_pay {g : EState} {c : Chain} (r : Reachable g c) :
    ∃ x s', beginBlock c.st (c.height + 1) x = .ok s' := by
  by_cases h : isIssueStarted (c.height + 1) c.st.issueStart = true ∧
      (c.height + 1 - c.st.issueStart) % c.st.termPeriod = 0
  · refine ⟨(issueAmountByTS (closed c.st (c.height + 1)) (termSeq c.st (c.height + 1))).1,
      opened c.st (c.height + 1), ?_⟩
    rw [r.inv.base h.1 h.2, if_neg (by simp)]
  · refine ⟨0, c.st, ?_⟩
    unfold beginBlock
    by_cases hs : isIssueStarted (c.height + 1) c.st.issueStart = true
    · rw [termSeqIdx_started hs]
      simp only
      rw [if_neg]
      rintro ⟨_, h0⟩
      exact h ⟨hs, h0⟩
    · rw [termSeqIdx_not r.inv.core.start (by simpa using hs)]
      rfl

/-! Witness: three kinds of planets with rewards, a private one half locked. -/
example : (Demo.at' Demo.worked).st.bal publicTreasury.id = 1134 ∧
    ∑ i ∈ {1, 2, 3}, Spec.current (Demo.at' Demo.worked).st i = 560 ∧
    (Demo.at' Demo.worked).st.rewardRemain = 334 ∧ (Demo.at' Demo.worked).st.eco = 240 := by
  decide +kernel
example : ∃ s', exec ⟨5, 4, Demo.alice, Demo.gov⟩ (Demo.at' Demo.worked).st
    (.claimPlanetReward [1, 2, 3, 1]) = .ok s' :=
  (C23_claim_never_fails _ _ _).2 ⟨by decide, by unfold Spec.Started; decide +kernel⟩

end Verif.Havah
