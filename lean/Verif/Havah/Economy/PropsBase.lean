import Verif.Havah.Economy.PropsTerm

/-! # C35: proposers and validators agree on base transactions -/
namespace Verif.Havah

/-- What `GetNetworkStatus` says about block votes (`hvhstate/networkstatus.go:16-50`): whether the
network is decentralized, and how often block votes are checked. -/
structure VoteCfg where
  decentralized : Bool
  period : Int

/-- `State.IsItTimeToCheckBlockVote` (state.go:1430-1437) with `IsItTimeToCheckBlockVote`
(utils.go:37-39). Go's `%` is truncated. -/
def isVoteTime (v : VoteCfg) (blockIndex : Int) : Bool :=
  v.decentralized && (0 < v.period && blockIndex.tmod v.period == 0)

/-- `NewBaseTransactionData` (extension.go:179-204): the issue amount the proposer of block `height`
writes, or nothing if it makes no base transaction. The panic for a negative amount is not modelled
(`Inv` excludes negative amounts). -/
def newBaseTransactionData (s : EState) (v : VoteCfg) (height : Int) : Option Int :=
  let amount := getIssueAmount s height
  if amount ≤ 0 then
    let t := termSequenceAndBlockIndex height s.issueStart s.termPeriod
    if isVoteTime v t.2 then some amount else none
  else some amount

/-- `needBaseTX` of `OnValidateTransactions` (platform.go:96-121): whether every node requires the
block to begin with a base transaction. -/
def needBaseTX (s : EState) (v : VoteCfg) (height : Int) : Bool :=
  let t := termSequenceAndBlockIndex height s.issueStart s.termPeriod
  (0 ≤ t.1 && t.2 == 0) || isVoteTime v t.2

/-- The verdict of `OnValidateTransactions` (platform.go:112-120). -/
def validateBase (s : EState) (v : VoteCfg) (height : Int) (hasBase : Bool) : Bool :=
  needBaseTX s v height == hasBase

theorem getIssueAmount_first {s : EState} {h : Int} (hs : isIssueStarted h s.issueStart = true)
    (h0 : (h - s.issueStart) % s.termPeriod = 0) :
    getIssueAmount s h = (issueAmountByTS s (termSeq s h)).1 := by
  unfold getIssueAmount
  rw [if_neg (by simp [hs]), if_neg (by simp [h0])]
  rfl

/-- **C35**: on every chain whose configured issue is positive, the proposer of the next block includes
a base transaction exactly when the other nodes require it, whether or not the network is
decentralized, and its block passes their check. -/
theorem C35_proposer_agrees {g : EState} {c : Chain} (r : Reachable g c) (hg : 0 < g.issueAmount)
    (v : VoteCfg) :
    ((newBaseTransactionData c.st v (c.height + 1)).isSome ↔ needBaseTX c.st v (c.height + 1) = true) ∧
    validateBase c.st v (c.height + 1) (newBaseTransactionData c.st v (c.height + 1)).isSome = true := by
  have hpos : 0 < c.st.issueAmount := by
    by_cases h : isIssueStarted c.height c.st.issueStart = true
    · rw [(r.sched.after h).1]
      exact (C28_schedule_shape hg.le _ _ (le_refl _)).2.2 hg
    · rw [(r.sched.before (by simpa using h)).1]; exact hg
  have key : (newBaseTransactionData c.st v (c.height + 1)).isSome =
      needBaseTX c.st v (c.height + 1) := by
    by_cases hs : isIssueStarted (c.height + 1) c.st.issueStart = true
    · by_cases h0 : (c.height + 1 - c.st.issueStart) % c.st.termPeriod = 0
      · have ha : 0 < getIssueAmount c.st (c.height + 1) := by
          rw [getIssueAmount_first hs h0, issueAmountByTS_spec hpos.le]
          split
          · exact reduce_pos hpos
          · exact hpos
        have ht := termSeq_nonneg hs
        unfold newBaseTransactionData needBaseTX
        rw [termSeqIdx_started hs]
        simp only
        rw [if_neg (by omega), h0]
        simp [ht]
      · have ha : getIssueAmount c.st (c.height + 1) = 0 := by
          unfold getIssueAmount
          rw [if_neg (by simp [hs]), if_pos h0]
        unfold newBaseTransactionData needBaseTX
        rw [termSeqIdx_started hs]
        simp only
        rw [if_pos (by omega)]
        have hb : (((c.height + 1 - c.st.issueStart) % c.st.termPeriod) == 0) = false := by
          simpa using h0
        rw [hb]
        simp only [Bool.and_false, Bool.false_or]
        split
        · rename_i h; rw [h]; rfl
        · rename_i h; simp at h; rw [h]; rfl
    · have hs' : isIssueStarted (c.height + 1) c.st.issueStart = false := by simpa using hs
      have ha : getIssueAmount c.st (c.height + 1) = 0 := by
        unfold getIssueAmount
        rw [if_pos (by simpa using hs)]
      unfold newBaseTransactionData needBaseTX
      rw [termSeqIdx_not r.inv.core.start hs']
      simp only
      rw [if_pos (by omega)]
      split
      · rename_i h; rw [h]; rfl
      · rename_i h; simp at h; rw [h]; rfl
  refine ⟨by rw [key], ?_⟩
  unfold validateBase
  rw [key]; simp

/-- **C35**: the amount the proposer writes is the amount every node computes, so that the execution of
its base transaction succeeds. -/
theorem C35_proposal_accepted {g : EState} {c : Chain} (r : Reachable g c) (v : VoteCfg) {x : Int}
    (hx : newBaseTransactionData c.st v (c.height + 1) = some x) :
    ∃ s', beginBlock c.st (c.height + 1) x = .ok s' := by
  have hxe : x = getIssueAmount c.st (c.height + 1) := by
    unfold newBaseTransactionData at hx
    simp only at hx
    split at hx
    · split at hx
      · cases hx; rfl
      · cases hx
    · cases hx; rfl
  by_cases h : isIssueStarted (c.height + 1) c.st.issueStart = true ∧
      (c.height + 1 - c.st.issueStart) % c.st.termPeriod = 0
  · refine ⟨opened c.st (c.height + 1), ?_⟩
    rw [r.inv.base h.1 h.2, if_neg]
    rintro ⟨_, hne⟩
    apply hne
    obtain ⟨c1, c2, _⟩ := closed_frame c.st (c.height + 1)
    rw [hxe, getIssueAmount_first h.1 h.2]
    unfold issueAmountByTS
    rw [c1, c2]
  · refine ⟨c.st, ?_⟩
    unfold beginBlock
    by_cases hs : isIssueStarted (c.height + 1) c.st.issueStart = true
    · rw [termSeqIdx_started hs]
      simp only
      rw [if_neg]
      rintro ⟨_, h0⟩
      exact h ⟨hs, h0⟩
    · rw [termSeqIdx_not r.inv.core.start (by simpa using hs)]
      rfl

/-- Witness for the positive case. -/
example : newBaseTransactionData (Demo.at' Demo.last0).st ⟨true, 3⟩ 15 = some 1000 ∧
    needBaseTX (Demo.at' Demo.last0).st ⟨true, 3⟩ 15 = true ∧
    newBaseTransactionData (Demo.at' Demo.term1).st ⟨true, 3⟩ 18 = some 0 ∧
    newBaseTransactionData (Demo.at' Demo.term1).st ⟨false, 3⟩ 18 = none := by decide +kernel

/-- The hypothesis of `C35_proposer_agrees` is needed: with a configured issue of zero a chain that is
not decentralized stops at the first block of the first term, as the proposer makes no base transaction
while the validators demand one. -/
theorem C35_zero_issue_stalls {g : EState} {c : Chain} (r : Reachable g c) (hg : g.issueAmount = 0)
    (hf : Spec.IsTermFirst c.st (c.height + 1)) (p : Int) :
    newBaseTransactionData c.st ⟨false, p⟩ (c.height + 1) = none ∧
    validateBase c.st ⟨false, p⟩ (c.height + 1) false = false := by
  obtain ⟨hs, h0⟩ := hf
  have hs' := (spec_started _ _).1 hs
  have hz : c.st.issueAmount = 0 := by
    have z : ∀ n, Spec.reduce^[n] 0 = 0 := by
      intro n
      induction n with
      | zero => rfl
      | succ n ih => rw [Function.iterate_succ_apply', ih]; rfl
    by_cases h : isIssueStarted c.height c.st.issueStart = true
    · rw [(r.sched.after h).1, hg]; exact z _
    · rw [(r.sched.before (by simpa using h)).1]; exact hg
  have ha : getIssueAmount c.st (c.height + 1) = 0 := by
    rw [getIssueAmount_first hs' h0, issueAmountByTS_spec (by omega), hz]
    split <;> rfl
  have ht := termSeq_nonneg hs'
  have h0' : (c.height + 1 - c.st.issueStart) % c.st.termPeriod = 0 := h0
  constructor
  · unfold newBaseTransactionData
    simp [ha, isVoteTime]
  · unfold validateBase needBaseTX
    rw [termSeqIdx_started hs']
    simp [h0', ht]

end Verif.Havah
