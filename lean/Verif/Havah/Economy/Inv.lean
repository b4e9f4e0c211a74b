import Verif.Havah.Economy.Lemmas

/-! Invariants of reachable economy states (definitions and the state-independent lemmas). -/
namespace Verif.Havah

/-- Unclaimed reward of planet `i`. -/
def cur (s : EState) (i : Int) : Int := (getPlanetReward s i).current

/-- All coins are accounted for: the balances of finitely many accounts add up to the supply. -/
def Conserved (s : EState) : Prop :=
  ∃ U : Finset ℕ, (∀ a, a ∉ U → s.bal a = 0) ∧ ∑ a ∈ U, s.bal a = s.supply

/-- The height-independent part of the invariant. -/
structure Core (s : EState) : Prop where
  bal : ∀ a, 0 ≤ s.bal a
  cons : Conserved s
  issue : 0 ≤ s.issueAmount
  start : 0 ≤ s.issueStart
  remain : 0 ≤ s.rewardRemain
  total : 0 ≤ s.rewardTotal
  eco : 0 ≤ s.eco
  lost : 0 ≤ s.lost
  rew : ∀ i, 0 ≤ (getPlanetReward s i).current ∧
    (getPlanetReward s i).current ≤ (getPlanetReward s i).total
  solv : ∀ S : Finset Int,
    ∑ i ∈ S, cur s i + s.rewardRemain + s.eco + s.lost ≤ s.bal publicTreasury.id

/-- The planet registry. -/
structure Reg (h : Int) (s : EState) : Prop where
  fin : ∃ P : Finset Int, (∀ i, i ∈ P ↔ (s.planets i).isSome) ∧ (P.card : Int) = s.allPlanet
  le : s.allPlanet ≤ maxPlanetCount
  nonneg : ∀ i p, s.planets i = some p → 0 ≤ i
  height : ∀ i p, s.planets i = some p → p.height ≤ h

/-- Bookkeeping of the current term, while coins are being issued: `A` are the planets counted at
the start of the term, `W` those that have reported. -/
structure Running (h : Int) (s : EState) (A W : Finset Int) : Prop where
  active : (A.card : Int) = s.active
  working : (W.card : Int) = s.working
  sub : W ⊆ A
  old : ∀ i p, s.planets i = some p → p.height < termStart s h → i ∈ A
  done : ∀ i p, s.planets i = some p → p.height < termStart s h → i ∈ W →
    termSeq s h + 1 ≤ (getPlanetReward s i).lastTN
  remain : s.rewardRemain = s.rewardTotal - rewardPerActivePlanet s * s.working

/-- The term part of the invariant. -/
structure Term (h : Int) (s : EState) : Prop where
  before : isIssueStarted h s.issueStart = false →
    s.active = 0 ∧ s.working = 0 ∧ s.rewardTotal = 0 ∧ s.rewardRemain = 0 ∧
    (∀ i, (getPlanetReward s i).lastTN ≤ 0)
  last : isIssueStarted h s.issueStart = true →
    ∀ i, (getPlanetReward s i).lastTN ≤ termSeq s h + 1
  running : isIssueStarted h s.issueStart = true → termSeq s h < s.issueLimit →
    ∃ A W, Running h s A W
  after : isIssueStarted h s.issueStart = true → s.issueLimit ≤ termSeq s h → s.active = 0

structure Inv (c : Chain) : Prop where
  core : Core c.st
  reg : Reg c.height c.st
  term : Term c.height c.st
  mgr : c.st.managers.Nodup

/-! ### Conservation -/

theorem sum_extend {f : ℕ → Int} {U V : Finset ℕ} (h : U ⊆ V) (h0 : ∀ a, a ∉ U → f a = 0) :
    ∑ a ∈ V, f a = ∑ a ∈ U, f a :=
  (Finset.sum_subset h (fun a _ ha => h0 a ha)).symm

theorem sum_moved {f : ℕ → Int} {U : Finset ℕ} {a b : ℕ} (ha : a ∈ U) (hb : b ∈ U) (x : Int) :
    ∑ i ∈ U, moved f a b x i = ∑ i ∈ U, f i := by
  simp only [moved, Finset.sum_add_distrib, Finset.sum_sub_distrib]
  rw [Finset.sum_ite_eq', Finset.sum_ite_eq', if_pos ha, if_pos hb]; omega

theorem sum_credited {f : ℕ → Int} {U : Finset ℕ} {a : ℕ} (ha : a ∈ U) (x : Int) :
    ∑ i ∈ U, credited f a x i = ∑ i ∈ U, f i + x := by
  simp only [credited, Finset.sum_add_distrib]
  rw [Finset.sum_ite_eq', if_pos ha]

theorem Conserved.moved' {s : EState} (h : Conserved s) (a b : ℕ) (x : Int) {s' : EState}
    (hb : s'.bal = moved s.bal a b x) (hs : s'.supply = s.supply) : Conserved s' := by
  obtain ⟨U, h0, h1⟩ := h
  refine ⟨insert a (insert b U), ?_, ?_⟩
  · intro i hi
    simp only [Finset.mem_insert, not_or] at hi
    rw [hb]; simp [moved, hi, h0 i hi.2.2]
  · rw [hb, sum_moved (by simp) (by simp), hs, ← h1]
    exact sum_extend (fun i hi => by simp [hi]) h0

theorem Conserved.credited' {s : EState} (h : Conserved s) (a : ℕ) (x : Int) {s' : EState}
    (hb : s'.bal = credited s.bal a x) (hs : s'.supply = s.supply + x) : Conserved s' := by
  obtain ⟨U, h0, h1⟩ := h
  refine ⟨insert a U, ?_, ?_⟩
  · intro i hi
    simp only [Finset.mem_insert, not_or] at hi
    rw [hb]; simp [credited, hi, h0 i hi.2]
  · rw [hb, sum_credited (by simp), hs, ← h1]
    rw [sum_extend (fun i hi => by simp [hi]) h0]

theorem Conserved.same {s s' : EState} (h : Conserved s) (hb : s'.bal = s.bal)
    (hs : s'.supply = s.supply) : Conserved s' := by
  unfold Conserved at *; rw [hb, hs]; exact h

theorem Conserved.supply_nonneg {s : EState} (h : Conserved s) (hb : ∀ a, 0 ≤ s.bal a) :
    0 ≤ s.supply := by
  obtain ⟨U, _, h1⟩ := h
  rw [← h1]; exact Finset.sum_nonneg (fun i _ => hb i)

theorem moved_nonneg {f : ℕ → Int} (hf : ∀ a, 0 ≤ f a) {a b : ℕ} {x : Int} (h0 : 0 ≤ x)
    (h1 : x = 0 ∨ a = b ∨ x ≤ f a) (i : ℕ) : 0 ≤ moved f a b x i := by
  have := hf i
  unfold moved
  split_ifs with h2 h3 h3
  · omega
  · subst h2; rcases h1 with h1 | h1 | h1 <;> omega
  · omega
  · omega

theorem addr_id_of_eq {x : Int} {a b : Addr} {y : Int} (h : x = 0 ∨ a = b ∨ x ≤ y) :
    x = 0 ∨ a.id = b.id ∨ x ≤ y := by
  rcases h with h | h | h
  · exact Or.inl h
  · exact Or.inr (Or.inl (by rw [h]))
  · exact Or.inr (Or.inr h)

/-! ### Sums of unclaimed rewards -/

theorem sum_mono_insert {f : Int → Int} (hf : ∀ i, 0 ≤ f i) (S : Finset Int) (id : Int) :
    ∑ i ∈ S, f i ≤ ∑ i ∈ insert id S, f i :=
  Finset.sum_le_sum_of_subset_of_nonneg (Finset.subset_insert _ _) (fun i _ _ => hf i)

theorem sum_update {f : Int → Int} {S : Finset Int} {id : Int} (h : id ∈ S) (c : Int) :
    ∑ i ∈ S, Function.update f id c i = ∑ i ∈ S, f i - f id + c := by
  have h1 := Finset.sum_update_of_mem h f c
  have h2 := Finset.add_sum_erase S f h
  rw [← Finset.sdiff_singleton_eq_erase] at h2
  omega

theorem getReward_update (s : EState) (id : Int) (r : Option Reward) (i : Int) (s' : EState)
    (h : s'.rewards = Function.update s.rewards id r) :
    getPlanetReward s' i = if i = id then r.getD Reward.empty else getPlanetReward s i := by
  unfold getPlanetReward
  rw [h, Function.update_apply]
  split <;> rfl

theorem cur_update (s : EState) (id : Int) (r : Option Reward) (s' : EState)
    (h : s'.rewards = Function.update s.rewards id r) :
    cur s' = Function.update (cur s) id (r.getD Reward.empty).current := by
  funext i
  unfold cur
  rw [getReward_update s id r i s' h, Function.update_apply]
  split <;> rfl

/-- To bound all sums it is enough to bound those over sets containing `id`. -/
theorem solv_of_insert {f : Int → Int} (hf : ∀ i, 0 ≤ f i) (id : Int) {L B : Int}
    (h : ∀ S : Finset Int, id ∈ S → ∑ i ∈ S, f i + L ≤ B) (S : Finset Int) :
    ∑ i ∈ S, f i + L ≤ B := by
  have h1 := h (insert id S) (by simp)
  have h2 := sum_mono_insert hf S id
  omega

theorem Core.cur_nonneg {s : EState} (h : Core s) (i : Int) : 0 ≤ cur s i := (h.rew i).1

theorem Core.liab_nonneg {s : EState} (h : Core s) :
    s.rewardRemain + s.eco + s.lost ≤ s.bal publicTreasury.id := by
  have := h.solv ∅; simpa using this

/-! ### Preservation of `Core` -/

/-- A coin movement out of an account other than the public treasury. -/
theorem Core.move {s s' : EState} (h : Core s) {a b : ℕ} {x : Int} (h0 : 0 ≤ x)
    (h1 : x = 0 ∨ a = b ∨ x ≤ s.bal a) (hne : a ≠ publicTreasury.id)
    (e : s' = { s with bal := moved s.bal a b x }) : Core s' := by
  subst e
  refine ⟨moved_nonneg h.bal h0 h1, h.cons.moved' a b x rfl rfl, h.issue, h.start, h.remain,
    h.total, h.eco, h.lost, h.rew, ?_⟩
  intro S
  have := h.solv S
  have h2 : s.bal publicTreasury.id ≤ moved s.bal a b x publicTreasury.id := by
    unfold moved; rw [if_neg (fun e => hne e.symm)]; split <;> omega
  simp only
  change ∑ i ∈ S, cur s i + s.rewardRemain + s.eco + s.lost ≤ _
  omega

/-- A payment out of the public treasury covered by a decrease of the liabilities. -/
theorem Core.pay {s s' : EState} (h : Core s) {b : ℕ} {x : Int} (h0 : 0 ≤ x)
    (hx : x ≤ s.bal publicTreasury.id)
    (hbal : s'.bal = moved s.bal publicTreasury.id b x) (hsup : s'.supply = s.supply)
    (hiss : s'.issueAmount = s.issueAmount) (hst : s'.issueStart = s.issueStart)
    (htot : s'.rewardTotal = s.rewardTotal)
    (hr : 0 ≤ s'.rewardRemain) (he : 0 ≤ s'.eco) (hl : 0 ≤ s'.lost)
    (hrew : ∀ i, 0 ≤ (getPlanetReward s' i).current ∧
      (getPlanetReward s' i).current ≤ (getPlanetReward s' i).total)
    (hs : ∀ S : Finset Int, ∑ i ∈ S, cur s' i + s'.rewardRemain + s'.eco + s'.lost + x ≤
      s.bal publicTreasury.id) : Core s' := by
  refine ⟨?_, h.cons.moved' _ b x hbal hsup, hiss ▸ h.issue, hst ▸ h.start, hr, htot ▸ h.total,
    he, hl, hrew, ?_⟩
  · intro i; rw [hbal]; exact moved_nonneg h.bal h0 (Or.inr (Or.inr hx)) i
  · intro S
    have := hs S
    rw [hbal]
    have : s.bal publicTreasury.id - x ≤ moved s.bal publicTreasury.id b x publicTreasury.id := by
      unfold moved; rw [if_pos rfl]; split <;> omega
    omega

/-- Only fields outside `Core` changed. -/
theorem Core.frame {s s' : EState} (h : Core s) (hbal : s'.bal = s.bal) (hsup : s'.supply = s.supply)
    (hiss : 0 ≤ s'.issueAmount) (hst : 0 ≤ s'.issueStart)
    (htot : s'.rewardTotal = s.rewardTotal) (hr : s'.rewardRemain = s.rewardRemain)
    (he : s'.eco = s.eco) (hl : s'.lost = s.lost) (hrew : s'.rewards = s.rewards) : Core s' := by
  have hg : ∀ i, getPlanetReward s' i = getPlanetReward s i := by
    intro i; unfold getPlanetReward; rw [hrew]
  refine ⟨by rw [hbal]; exact h.bal, h.cons.same hbal hsup, hiss, hst, hr ▸ h.remain,
    htot ▸ h.total, he ▸ h.eco, hl ▸ h.lost, fun i => by rw [hg]; exact h.rew i, ?_⟩
  intro S
  have := h.solv S
  have hc : ∀ i, cur s' i = cur s i := fun i => by unfold cur; rw [hg]
  simp only [hc, hr, he, hl, hbal]
  exact this

theorem ids_distinct :
    hooverFund.id ≠ publicTreasury.id ∧ treasury.id ≠ publicTreasury.id ∧
    serviceTreasury.id ≠ publicTreasury.id ∧ sustainableFund.id ≠ publicTreasury.id ∧
    systemAddress.id ≠ publicTreasury.id ∧ ecoSystem.id ≠ publicTreasury.id ∧
    planetNFT.id ≠ publicTreasury.id := by decide

theorem Core.report {s : EState} (h : Core s) {ht id : Int} {p : Planet} (H : ReportOk s ht id p) :
    Core (reported s ht id p) := by
  have hh0 := hooverRequest_nonneg s p (getPlanetReward s id) (rewardPerActivePlanet s)
  have hh1 := hooverRequest_le_balance s p (getPlanetReward s id) (rewardPerActivePlanet s)
  have hc0 : 0 ≤ credit s p id := by unfold credit; have := H.share_nonneg; omega
  have hec := ecoPart_bounds hc0
  have hrid := h.rew id
  have hremain : 0 ≤ s.rewardRemain - rewardPerActivePlanet s := by
    have := h.remain; have := H.share_nonneg; rcases H.share_le with h1 | h1 <;> omega
  have hrew : ∀ i, 0 ≤ (getPlanetReward (reported s ht id p) i).current ∧
      (getPlanetReward (reported s ht id p) i).current ≤
        (getPlanetReward (reported s ht id p) i).total := by
    intro i
    rw [getReward_update s id _ i (reported s ht id p) rfl]
    split
    · simp only [Option.getD_some]; constructor <;> omega
    · exact h.rew i
  refine ⟨?_, h.cons.moved' _ _ _ rfl rfl, h.issue, h.start, hremain, h.total, ?_, h.lost, hrew, ?_⟩
  · exact moved_nonneg h.bal hh0 (by rcases hh1 with h1 | h1 <;> simp [h1])
  · have := h.eco; simp only [reported]; omega
  · have hcn : ∀ i, 0 ≤ cur (reported s ht id p) i := fun i => (hrew i).1
    intro S
    have := solv_of_insert hcn id (L := (reported s ht id p).rewardRemain +
      (reported s ht id p).eco + (reported s ht id p).lost)
      (B := (reported s ht id p).bal publicTreasury.id) ?_ S
    · omega
    intro S hS
    have hsolv := h.solv S
    rw [cur_update s id _ (reported s ht id p) rfl, sum_update hS]
    have hpt : (reported s ht id p).bal publicTreasury.id = s.bal publicTreasury.id +
        hooverRequest s p (getPlanetReward s id) (rewardPerActivePlanet s) := by
      simp only [reported, moved]
      rw [if_neg (fun e => ids_distinct.1 e.symm), if_pos trivial]; omega
    rw [hpt]
    simp only [reported, Option.getD_some]
    have : cur s id = (getPlanetReward s id).current := rfl
    unfold credit
    omega

theorem setReward_get (s : EState) (id : Int) (r : Reward) (i : Int) :
    getPlanetReward (setPlanetReward s id r) i = if i = id then r else getPlanetReward s i := by
  rw [getReward_update s id (some r) i (setPlanetReward s id r) rfl]; rfl

/-- What one successful claim of `c` coins by `owner` leaves. -/
def claimed (s : EState) (id : Int) (owner : Addr) (c : Int) : EState :=
  { setPlanetReward s id { getPlanetReward s id with current := (getPlanetReward s id).current - c }
    with bal := moved s.bal publicTreasury.id owner.id c }

theorem Core.single_le {s : EState} (h : Core s) (id : Int) :
    cur s id + s.rewardRemain + s.eco + s.lost ≤ s.bal publicTreasury.id := by
  have := h.solv {id}; simpa using this

theorem Core.claimed {s : EState} (h : Core s) {id : Int} {owner : Addr} {c : Int}
    (h0 : 0 ≤ c) (h1 : c ≤ (getPlanetReward s id).current) : Core (claimed s id owner c) := by
  have hb := h.single_le id
  have hcid : cur s id = (getPlanetReward s id).current := rfl
  have hr := h.remain
  have he := h.eco
  have hl := h.lost
  have hrid := h.rew id
  have hrew : ∀ i, 0 ≤ (getPlanetReward (Havah.claimed s id owner c) i).current ∧
      (getPlanetReward (Havah.claimed s id owner c) i).current ≤
        (getPlanetReward (Havah.claimed s id owner c) i).total := by
    intro i
    rw [getReward_update s id _ i (Havah.claimed s id owner c) rfl]
    split
    · simp only [Option.getD_some]; constructor <;> omega
    · exact h.rew i
  refine h.pay (b := owner.id) (x := c) h0 (by omega) rfl rfl rfl rfl rfl hr he hl hrew ?_
  intro S
  have := solv_of_insert (f := cur (Havah.claimed s id owner c)) (fun i => (hrew i).1) id
    (L := s.rewardRemain + s.eco + s.lost + c) (B := s.bal publicTreasury.id) ?_ S
  · simp only [Havah.claimed, setPlanetReward] at this ⊢; omega
  intro S hS
  have hsolv := h.solv S
  rw [cur_update s id _ (Havah.claimed s id owner c) rfl, sum_update hS]
  simp only [Option.getD_some]
  omega

/-- In a solvent state a claim always pays. -/
theorem claim_step {s s1 : EState} (h : Core s) {id : Int} {owner : Addr} {c : Int}
    (hc : stateClaimPlanetReward s id owner = .ok (c, s1)) (hpos : 0 < c) :
    transfer s1 publicTreasury owner c = .ok (claimed s id owner c) ∧
    c ≤ (getPlanetReward s id).current := by
  obtain ⟨p, _, _, _, _, h1⟩ := stateClaim_ok hc
  rcases h1 with ⟨h1, _⟩ | ⟨_, h1, rfl⟩
  · omega
  refine ⟨?_, h1⟩
  have hb := h.single_le id
  have hcid : cur s id = (getPlanetReward s id).current := rfl
  have hr := h.remain
  have he := h.eco
  have hl := h.lost
  exact transfer_total (by omega) (by change c ≤ s.bal publicTreasury.id; omega) (h.bal _)

theorem claimLoop_cons {s : EState} (h : Core s) (owner : Addr) (id : Int) (ids : List Int) :
    claimLoop owner (id :: ids) s =
      match stateClaimPlanetReward s id owner with
      | .error _ => claimLoop owner ids s
      | .ok (c, _) => if 0 < c then claimLoop owner ids (claimed s id owner c)
                      else claimLoop owner ids s := by
  rw [claimLoop]
  split
  · rename_i e he; rw [he]
  · rename_i c s1 hc
    rw [hc]
    simp only
    split
    · rename_i hpos
      rw [(claim_step h hc hpos).1]
    · rename_i hpos
      obtain ⟨p, _, _, _, _, h1⟩ := stateClaim_ok hc
      rcases h1 with ⟨_, rfl⟩ | ⟨h1, _⟩
      · rfl
      · omega

/-- Induction principle for the claim loop in solvent states. -/
theorem claimLoop_induct {P : EState → Prop} (owner : Addr)
    (step : ∀ s id p c, Core s → P s → s.planets id = some p → p.owner = owner → 0 < c →
      c ≤ (getPlanetReward s id).current → P (claimed s id owner c)) :
    ∀ (ids : List Int) (s : EState), Core s → P s →
      Core (claimLoop owner ids s) ∧ P (claimLoop owner ids s) := by
  intro ids
  induction ids with
  | nil => intro s h hp; exact ⟨h, hp⟩
  | cons id ids ih =>
    intro s h hp
    rw [claimLoop_cons h]
    split
    · exact ih s h hp
    · rename_i c s1 hc
      split
      · rename_i hpos
        obtain ⟨p, _, hpl, ho, _, _⟩ := stateClaim_ok hc
        have h1 := (claim_step h hc hpos).2
        exact ih _ (h.claimed (by omega) h1) (step s id p c h hp hpl ho hpos h1)
      · exact ih s h hp

theorem Core.unregister {s s' : EState} (h : Core s) {rev id : Int}
    (hu : unregisterPlanet s rev id = .ok s') : Core s' := by
  obtain ⟨_, _, _, hc, rfl⟩ := unregister_ok hu
  by_cases hrev : 2 ≤ rev
  · simp only [hrev, if_true] at hc ⊢
    have hrew : ∀ i, 0 ≤ (getPlanetReward { s with
        planets := Function.update s.planets id none, allPlanet := s.allPlanet - 1,
        lost := s.lost + (getPlanetReward s id).current,
        rewards := Function.update s.rewards id none } i).current ∧
        (getPlanetReward { s with
        planets := Function.update s.planets id none, allPlanet := s.allPlanet - 1,
        lost := s.lost + (getPlanetReward s id).current,
        rewards := Function.update s.rewards id none } i).current ≤ (getPlanetReward { s with
        planets := Function.update s.planets id none, allPlanet := s.allPlanet - 1,
        lost := s.lost + (getPlanetReward s id).current,
        rewards := Function.update s.rewards id none } i).total := by
      intro i
      rw [getReward_update s id none i _ rfl]
      split
      · simp [Reward.empty]
      · exact h.rew i
    refine ⟨h.bal, h.cons.same rfl rfl, h.issue, h.start, h.remain, h.total, h.eco, ?_, hrew, ?_⟩
    · have := h.lost; simp only; have := (h.rew id).1; omega
    · intro S
      have := solv_of_insert (fun i => (hrew i).1) id
        (L := s.rewardRemain + s.eco + (s.lost + (getPlanetReward s id).current))
        (B := s.bal publicTreasury.id) ?_ S
      · simp only [cur]; omega
      intro S hS
      have hsolv := h.solv S
      change ∑ i ∈ S, cur _ i + _ ≤ _
      rw [cur_update s id none _ rfl, sum_update hS]
      have : cur s id = (getPlanetReward s id).current := rfl
      simp only [Option.getD_none, Reward.empty]
      omega
  · simp only [hrev, if_false]
    exact h.frame rfl rfl h.issue h.start rfl rfl rfl rfl rfl

end Verif.Havah
