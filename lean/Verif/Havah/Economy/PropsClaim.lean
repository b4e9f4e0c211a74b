import Verif.Havah.Economy.Frame
import Verif.Havah.Economy.Demo

/-! # C26 (claimable rewards) and C37 (lost coins) -/
namespace Verif.Havah

/-! ## C26 -/

theorem RateOk.valid {s : EState} (h : RateOk s) :
    0 ≤ (Spec.rate s).1 ∧ (Spec.rate s).1 ≤ (Spec.rate s).2 ∧ 0 < (Spec.rate s).2 ∧
      (Spec.rate s).2 ≤ 10000 := by
  unfold Spec.rate
  rcases h with h | ⟨n, d, h1, h2, h3, h4, h⟩
  · rw [if_pos (by omega)]; decide
  · have h5 : (n * 65536 + d) / 65536 = n := by omega
    have h6 : (n * 65536 + d) % 65536 = d := by omega
    rw [if_neg (by omega), h, h5, h6]
    exact ⟨h1, h2, h3, h4⟩

theorem spec_rate (s : EState) : privateClaimableRate s = Spec.rate s := by
  unfold privateClaimableRate Spec.rate getOrDefault defaultClaimableRate
  split <;> simp

theorem locked_nonneg {s : EState} (hr : RateOk s) (p : Planet) {t : Int} (ht : 0 ≤ t) :
    0 ≤ Spec.locked s p t := by
  obtain ⟨h1, h2, h3, h4⟩ := hr.valid
  unfold Spec.locked
  split
  · exact Int.ediv_nonneg (mul_nonneg (by omega) ht) (by omega)
  · exact le_refl _

theorem calc_total {s : EState} (hr : RateOk s) (p : Planet) {pr : Reward} (h0 : 0 ≤ pr.current)
    (ht : 0 ≤ pr.total) :
    calcClaimableReward s p pr = .ok (max 0 (pr.current - Spec.locked s p pr.total)) := by
  obtain ⟨h1, h2, h3, h4⟩ := hr.valid
  have hl := locked_nonneg hr p ht
  unfold calcClaimableReward
  simp only [spec_rate]
  by_cases hp : p.isPrivate = true
  · by_cases hz : pr.current = 0
    · rw [if_pos (Or.inr hz), hz]
      congr 1; omega
    · rw [if_neg (by simp [hp, hz]), if_neg]
      · by_cases hlt : (Spec.rate s).1 < (Spec.rate s).2
        · rw [if_pos hlt]
          have : ((Spec.rate s).2 - (Spec.rate s).1) * pr.total / (Spec.rate s).2 =
              Spec.locked s p pr.total := by unfold Spec.locked; rw [if_pos hp]
          rw [this]
          split <;> (congr 1; omega)
        · rw [if_neg hlt]
          have : Spec.locked s p pr.total = 0 := by
            unfold Spec.locked
            rw [if_pos hp, show (Spec.rate s).2 - (Spec.rate s).1 = 0 by omega]
            simp
          rw [this]
          congr 1; omega
      · simp only [validClaimRate, decide_eq_true_eq, not_not]
        omega
  · rw [if_pos (Or.inl hp)]
    have : Spec.locked s p pr.total = 0 := by unfold Spec.locked; rw [if_neg hp]
    rw [this]
    congr 1; omega

/-- **C26**: the release rate in force is always a proper fraction (the loop over the claimed planets
never stops at an invalid rate). -/
theorem C26_rate_valid {g : EState} {c : Chain} (r : Reachable g c) :
    0 ≤ (Spec.rate c.st).1 ∧ (Spec.rate c.st).1 ≤ (Spec.rate c.st).2 ∧ 0 < (Spec.rate c.st).2 ∧
      (Spec.rate c.st).2 ≤ 10000 := r.rateOk.valid

/-- **C26**: governance can set any proper fraction with a denominator up to 10000, which is then the
rate in force; nothing else is accepted. -/
theorem C26_set_rate {x : Ctx} {s s' : EState} {n d : Int} :
    exec x s (.setPrivateClaimableRate n d) = .ok s' ↔
      x.caller = x.gov ∧ 0 ≤ int64 n ∧ int64 n ≤ int64 d ∧ 0 < int64 d ∧ int64 d ≤ 10000 ∧
      s' = { s with claimRateRaw := s'.claimRateRaw } ∧ s'.claimRateRaw = int64 n * 65536 + int64 d ∧
      Spec.rate s' = (int64 n, int64 d) := by
  constructor
  · intro h
    obtain ⟨hg, h⟩ := guard_ok h
    unfold checkGovernance at hg
    split at hg
    · obtain ⟨h1, h2, h3, h4, rfl⟩ := setRate_ok h
      refine ⟨‹_›, h1, h2, h3, h4, rfl, rfl, ?_⟩
      unfold Spec.rate
      simp only
      rw [if_neg (by omega)]
      congr 1 <;> omega
    · cases hg
  · rintro ⟨h1, h2, h3, h4, h5, h6, h7, _⟩
    simp only [exec, checkGovernance, if_pos h1, bind, Except.bind, setPrivateClaimableRate]
    rw [if_pos]
    · rw [h6, h7]
    · simp only [validClaimRate, decide_eq_true_eq]; omega

theorem claimable_some {s : EState} {i : Int} {p : Planet} (hp : s.planets i = some p) :
    Spec.claimable s i = max 0 ((getPlanetReward s i).current -
      Spec.locked s p (getPlanetReward s i).total) := by
  unfold Spec.claimable; rw [hp]; simp only; rw [spec_current, spec_total]

theorem claimable_none {s : EState} {i : Int} (hp : s.planets i = none) : Spec.claimable s i = 0 := by
  unfold Spec.claimable; rw [hp]

theorem locked_congr {s s' : EState} (h : s'.claimRateRaw = s.claimRateRaw) (p : Planet) (t : Int) :
    Spec.locked s' p t = Spec.locked s p t := by
  unfold Spec.locked Spec.rate; rw [h]

open Classical in
/-- The loop over the ids, relative to the state `s0` before the call. -/
theorem claimLoop_exact {owner : Addr} {s0 : EState} (hr : RateOk s0)
    (hn : ∀ i p, s0.planets i = some p → 0 ≤ i) :
    ∀ (ids : List Int) (s : EState) (D : Set Int), Core s →
      s.planets = s0.planets → s.claimRateRaw = s0.claimRateRaw →
      (∀ i, (getPlanetReward s i).total = (getPlanetReward s0 i).total) →
      (∀ i, cur s i = cur s0 i - if i ∈ D ∧ Spec.Owns s0 owner i then Spec.claimable s0 i else 0) →
      ∀ i, cur (claimLoop owner ids s) i = cur s0 i -
        if (i ∈ D ∨ i ∈ ids) ∧ Spec.Owns s0 owner i then Spec.claimable s0 i else 0 := by
  intro ids
  induction ids with
  | nil => intro s D _ _ _ _ h i; simpa [claimLoop] using h i
  | cons id ids ih =>
    intro s D hc hpl hra hto hcu i
    have fin : ∀ j, ((j ∈ D ∪ {id} ∨ j ∈ ids) ↔ (j ∈ D ∨ j ∈ id :: ids)) := by
      intro j; simp only [Set.mem_union, Set.mem_singleton_iff, List.mem_cons]; tauto
    have hrs : RateOk s := by unfold RateOk; rw [hra]; exact hr
    rw [claimLoop_cons hc]
    -- nothing is taken: fine as soon as the planet is not owned or has nothing left
    have skip : (Spec.Owns s0 owner id → id ∉ D → Spec.claimable s0 id = 0) →
        cur (claimLoop owner ids s) i = cur s0 i -
        if (i ∈ D ∨ i ∈ id :: ids) ∧ Spec.Owns s0 owner i then Spec.claimable s0 i else 0 := by
      intro hz
      have := ih s (D ∪ {id}) hc hpl hra hto (by
        intro j
        rw [hcu j]
        by_cases ho : Spec.Owns s0 owner j
        · by_cases hj : j ∈ D
          · rw [if_pos ⟨hj, ho⟩, if_pos ⟨Or.inl hj, ho⟩]
          · rw [if_neg (fun h => hj h.1)]
            by_cases hji : j = id
            · subst hji
              rw [if_pos ⟨Or.inr rfl, ho⟩, hz ho hj]
            · rw [if_neg]
              rintro ⟨h | h, _⟩
              · exact hj h
              · exact hji h
        · rw [if_neg (fun h => ho h.2), if_neg (fun h => ho h.2)]) i
      rw [this]; simp only [fin]
    cases hcl : stateClaimPlanetReward s id owner with
    | error e =>
      simp only
      apply skip
      rintro ⟨p, hp, ho⟩ _
      exfalso
      have h0 := hn _ _ hp
      rw [← hpl] at hp
      have ht : 0 ≤ (getPlanetReward s id).total := le_trans (hc.rew id).1 (hc.rew id).2
      unfold stateClaimPlanetReward at hcl
      rw [getPlanet_total h0 hp] at hcl
      simp only [bind, Except.bind] at hcl
      rw [if_neg (by simp [ho])] at hcl
      rw [calc_total hrs p (hc.rew id).1 ht] at hcl
      simp only at hcl
      split at hcl
      · rename_i hpos
        have hl := locked_nonneg hrs p ht
        unfold Reward.claim at hcl
        rw [if_neg (by omega), if_neg (by omega)] at hcl
        cases hcl
      · cases hcl
    | ok r =>
      obtain ⟨a, s1⟩ := r
      simp only
      obtain ⟨p, h0, hp, ho, hca, hs1⟩ := stateClaim_ok hcl
      have ht : 0 ≤ (getPlanetReward s id).total := le_trans (hc.rew id).1 (hc.rew id).2
      have hp0 : s0.planets id = some p := by rw [← hpl]; exact hp
      have hl := locked_nonneg hrs p ht
      rw [calc_total hrs p (hc.rew id).1 ht] at hca
      simp only [Except.ok.injEq] at hca
      have own : Spec.Owns s0 owner id := ⟨p, hp0, ho⟩
      have e0 := claimable_some hp0
      rw [← hto id, ← locked_congr hra] at e0
      have hcid : (getPlanetReward s id).current = (getPlanetReward s0 id).current -
          if id ∈ D ∧ Spec.Owns s0 owner id then Spec.claimable s0 id else 0 := hcu id
      by_cases hD : id ∈ D
      · rw [if_pos ⟨hD, own⟩] at hcid
        rw [if_neg (by omega)]
        exact skip (fun _ h => absurd hD h)
      · rw [if_neg (fun h => hD h.1)] at hcid
        by_cases hpos : 0 < a
        · rw [if_pos hpos]
          have hle : a ≤ (getPlanetReward s id).current := by omega
          have hcu' : cur (claimed s id owner a) = Function.update (cur s) id (cur s id - a) :=
            cur_update s id _ (claimed s id owner a) rfl
          have := ih (claimed s id owner a) (D ∪ {id}) (hc.claimed hpos.le hle) hpl hra (by
            intro j
            rw [getReward_update s id _ j (claimed s id owner a) rfl]
            split
            · rename_i e; subst e; exact hto j
            · exact hto j) (by
            intro j
            rw [hcu']
            by_cases hji : j = id
            · subst hji
              rw [Function.update_self, if_pos ⟨Or.inr rfl, own⟩]
              have : cur s j = cur s0 j := by
                have := hcu j
                rw [if_neg (fun h => hD h.1)] at this
                omega
              have h3 : Spec.claimable s0 j = a := by omega
              omega
            · rw [Function.update_of_ne hji, hcu j]
              have : (j ∈ D ∧ Spec.Owns s0 owner j) ↔ (j ∈ D ∪ {id} ∧ Spec.Owns s0 owner j) := by
                simp [hji]
              by_cases hj : j ∈ D ∧ Spec.Owns s0 owner j
              · rw [if_pos hj, if_pos (this.1 hj)]
              · rw [if_neg hj, if_neg (fun h => hj (this.2 h))]) i
          rw [this]; simp only [fin]
        · rw [if_neg hpos]
          exact skip (fun _ _ => by omega)

open Classical in
/-- **C26** (exact effect of a claim): every listed planet owned by the caller loses exactly its
claimable amount, once even if listed twice; no other reward changes; accumulated totals stay. -/
theorem C26_claim_exact {g : EState} {c : Chain} (r : Reachable g c) {x : Ctx} {ids : List Int}
    {s' : EState} (he : exec x c.st (.claimPlanetReward ids) = .ok s') (i : Int) :
    Spec.current s' i = Spec.current c.st i -
      (if i ∈ ids.map int64 ∧ Spec.Owns c.st x.caller i then Spec.claimable c.st i else 0) ∧
    Spec.total s' i = Spec.total c.st i := by
  have hc : Core c.st := r.inv.core
  simp only [exec, claimPlanetReward] at he
  split at he
  · cases he
  split at he
  · cases he
  cases he
  have h1 := claimLoop_exact (owner := x.caller) r.rateOk (fun i p h => r.inv.reg.nonneg i p h)
    (ids.map int64) c.st ∅ hc rfl rfl (fun _ => rfl) (fun _ => by simp) i
  obtain ⟨_, h2⟩ := claimLoop_frame hc x.caller (ids.map int64)
  rw [spec_current, spec_current, spec_total, spec_total]
  refine ⟨?_, (h2 i).2.1⟩
  have e : cur (claimLoop x.caller (ids.map int64) c.st) i =
    (getPlanetReward (claimLoop x.caller (ids.map int64) c.st) i).current := rfl
  rw [← e, h1]
  simp only [Set.mem_empty_iff_false, false_or]
  rfl

/-- **C26** (bounds): the claimable amount lies between 0 and the credited reward; of a private planet
what remains is the smaller of the credited reward and the locked part, of another planet nothing. -/
theorem C26_claimable_bounds {g : EState} {c : Chain} (r : Reachable g c) {i : Int} {p : Planet}
    (hp : c.st.planets i = some p) :
    0 ≤ Spec.claimable c.st i ∧ Spec.claimable c.st i ≤ Spec.current c.st i ∧
    (p.isPrivate = false → Spec.claimable c.st i = Spec.current c.st i) ∧
    (p.isPrivate = true → Spec.current c.st i - Spec.claimable c.st i =
      min (Spec.current c.st i)
        (((Spec.rate c.st).2 - (Spec.rate c.st).1) * Spec.total c.st i / (Spec.rate c.st).2)) := by
  have hc := r.inv.core
  have ht : 0 ≤ (getPlanetReward c.st i).total := le_trans (hc.rew i).1 (hc.rew i).2
  have hl := locked_nonneg r.rateOk p ht
  have h0 := (hc.rew i).1
  rw [claimable_some hp, spec_current, spec_total]
  refine ⟨by omega, by omega, fun hpr => ?_, fun hpr => ?_⟩
  · unfold Spec.locked; rw [hpr]; simp; exact h0
  · have : Spec.locked c.st p (getPlanetReward c.st i).total =
      ((Spec.rate c.st).2 - (Spec.rate c.st).1) * (getPlanetReward c.st i).total / (Spec.rate c.st).2 := by
      unfold Spec.locked; rw [if_pos hpr]
    rw [← this]; omega

/-- **C26**: claiming again right away pays nothing more. -/
theorem C26_second_claim {g : EState} {c : Chain} (r : Reachable g c) {x : Ctx} {ids : List Int}
    {s' : EState} (he : exec x c.st (.claimPlanetReward ids) = .ok s')
    {i : Int} (hi : i ∈ ids.map int64) (ho : Spec.Owns c.st x.caller i) :
    Spec.claimable s' i = 0 := by
  obtain ⟨h1, h2⟩ := C26_claim_exact r he i
  rw [if_pos ⟨hi, ho⟩] at h1
  obtain ⟨p, hp, _⟩ := ho
  obtain ⟨b1, b2, b3, b4⟩ := C26_claimable_bounds r hp
  simp only [exec, claimPlanetReward] at he
  split at he
  · cases he
  split at he
  · cases he
  cases he
  obtain ⟨⟨b, r', e⟩, _⟩ := claimLoop_frame r.inv.core x.caller (ids.map int64)
  set s' := claimLoop x.caller (ids.map int64) c.st
  have hp' : s'.planets i = some p := by rw [e]; exact hp
  have hra : s'.claimRateRaw = c.st.claimRateRaw := by rw [e]
  unfold Spec.claimable
  rw [hp']
  simp only
  rw [h1, h2, locked_congr hra]
  have : Spec.claimable c.st i = max 0 (Spec.current c.st i - Spec.locked c.st p (Spec.total c.st i)) := by
    unfold Spec.claimable; rw [hp]
  rw [this]
  have ht : 0 ≤ Spec.total c.st i := by
    rw [spec_total]; exact le_trans (r.inv.core.rew i).1 (r.inv.core.rew i).2
  have := locked_nonneg r.rateOk p ht
  omega

/-- **C26**: a higher release rate never locks more: releasing `n2/d2 ≥ n1/d1` makes at least as much
claimable. -/
theorem C26_monotone_in_rate {n1 d1 n2 d2 t : Int} (hd1 : 0 < d1) (hd2 : 0 < d2)
    (h : n1 * d2 ≤ n2 * d1) (ht : 0 ≤ t) : (d2 - n2) * t / d2 ≤ (d1 - n1) * t / d1 := by
  rw [Int.le_ediv_iff_mul_le hd1]
  have h1 : (d2 - n2) * t / d2 * d2 ≤ (d2 - n2) * t := Int.ediv_mul_le _ (by omega)
  set q := (d2 - n2) * t / d2
  have h2 : q * d1 * d2 ≤ (d1 - n1) * t * d2 := by nlinarith
  exact le_of_mul_le_mul_right h2 hd2

/-- **C26** in terms of the state: with everything else equal, a state with a higher rate has at least
the same claimable amount. -/
theorem C26_claimable_monotone {g g' : EState} {c c' : Chain} (r : Reachable g c)
    (r' : Reachable g' c') {i : Int} (hp : c'.st.planets i = c.st.planets i)
    (hr : c'.st.rewards i = c.st.rewards i)
    (h : (Spec.rate c.st).1 * (Spec.rate c'.st).2 ≤ (Spec.rate c'.st).1 * (Spec.rate c.st).2) :
    Spec.claimable c.st i ≤ Spec.claimable c'.st i := by
  obtain ⟨_, _, h1, _⟩ := r.rateOk.valid
  obtain ⟨_, _, h2, _⟩ := r'.rateOk.valid
  have ht : 0 ≤ Spec.total c.st i := by
    rw [spec_total]; exact le_trans (r.inv.core.rew i).1 (r.inv.core.rew i).2
  have e1 : Spec.current c'.st i = Spec.current c.st i := by unfold Spec.current; rw [hr]
  have e2 : Spec.total c'.st i = Spec.total c.st i := by unfold Spec.total; rw [hr]
  unfold Spec.claimable
  rw [hp]
  cases c.st.planets i with
  | none => exact le_refl _
  | some p =>
    simp only
    rw [e1, e2]
    have : Spec.locked c'.st p (Spec.total c.st i) ≤ Spec.locked c.st p (Spec.total c.st i) := by
      unfold Spec.locked
      split
      · exact C26_monotone_in_rate h1 h2 h ht
      · exact le_refl _
    omega

/-- Observation on **C26**: the lock is computed from the whole accumulated reward, also of a private
planet of a company, which itself keeps only 40 % of it: until more than 60 % are released such a
planet that has claimed nothing can claim nothing. -/
theorem C26_private_company_waits {g : EState} {c : Chain} (r : Reachable g c) {i : Int} {p : Planet}
    (hp : c.st.planets i = some p) (hpr : p.isPrivate = true)
    (hcur : 5 * Spec.current c.st i ≤ 2 * Spec.total c.st i)
    (hrate : 5 * (Spec.rate c.st).1 ≤ 3 * (Spec.rate c.st).2) : Spec.claimable c.st i = 0 := by
  obtain ⟨h1, h2, h3, _⟩ := r.rateOk.valid
  unfold Spec.claimable
  rw [hp]
  simp only
  unfold Spec.locked
  rw [if_pos hpr]
  set n := (Spec.rate c.st).1
  set d := (Spec.rate c.st).2
  set t := Spec.total c.st i
  set u := Spec.current c.st i
  have ht : 0 ≤ t := by
    show 0 ≤ Spec.total c.st i
    rw [spec_total]; exact le_trans (r.inv.core.rew i).1 (r.inv.core.rew i).2
  have : u ≤ (d - n) * t / d := by
    rw [Int.le_ediv_iff_mul_le h3]
    have : 2 * d * t ≤ 5 * ((d - n) * t) := by nlinarith
    nlinarith
  omega

/-! Witness: planet 1 (private, rate 1/2) has 400, of which 200 can be claimed. -/
example : Spec.claimable (Demo.at' Demo.worked).st 1 = 200 ∧
    Spec.rate (Demo.at' Demo.worked).st = (1, 2) ∧
    Spec.current (Demo.at' Demo.last0).st 1 = 200 ∧ Spec.current (Demo.at' Demo.last0).st 2 = 160 := by
  decide +kernel
example : Spec.Owns (Demo.at' Demo.worked).st Demo.alice 1 :=
  ⟨⟨true, false, Demo.alice, 1200000, 10000, 1⟩, by decide +kernel, rfl⟩

/-! ## C37 -/

/-- **C37**: unregistering a planet (revision 2 and later) moves exactly its credited reward to the
lost coins and forgets the planet and its reward; before revision 2 the reward stays. -/
theorem C37_unregister {x : Ctx} {s s' : EState} {id : Int}
    (he : exec x s (.unregisterPlanet id) = .ok s') :
    (s.planets (int64 id)).isSome ∧
    s' = { s with
      planets := fun i => if i = int64 id then none else s.planets i
      allPlanet := s.allPlanet - 1
      lost := if 2 ≤ x.rev then s.lost + Spec.current s (int64 id) else s.lost
      rewards := fun i => if 2 ≤ x.rev ∧ i = int64 id then none else s.rewards i } := by
  obtain ⟨_, he⟩ := guard_ok he
  obtain ⟨_, h1, _, _, e⟩ := unregister_ok he
  refine ⟨h1, ?_⟩
  rw [e, spec_current]
  congr 1
  · funext i; rw [Function.update_apply]
  · funext i
    by_cases hr : 2 ≤ x.rev
    · simp [hr, Function.update_apply]
    · simp [hr]

/-- **C37**: a withdrawal is made by governance for an account that is not a contract; it moves exactly
the lost coins from the treasury to it and resets the counter. It never fails for lack of coins. -/
theorem C37_withdraw {g : EState} {c : Chain} (r : Reachable g c) {x : Ctx} (dst : Addr) :
    (x.caller = x.gov ∧ dst.contract = false →
      exec x c.st (.withdrawLostTo dst) = .ok { c.st with
        lost := 0
        bal := fun a => c.st.bal a - (if a = publicTreasury.id then c.st.lost else 0)
                                   + (if a = dst.id then c.st.lost else 0) }) ∧
    (¬ (x.caller = x.gov ∧ dst.contract = false) →
      ∃ e, exec x c.st (.withdrawLostTo dst) = .error e) := by
  have hc : Core c.st := r.inv.core
  constructor
  · rintro ⟨hg, hd⟩
    have h1 : c.st.lost ≤ c.st.bal publicTreasury.id := by
      have := hc.liab_nonneg; have := hc.remain; have := hc.eco; omega
    simp only [exec, checkGovernance, if_pos hg, bind, Except.bind]
    have e : withdrawLostTo c.st dst = if dst.contract then .error .illegalArgument else
      if 0 < c.st.lost then transfer { c.st with lost := 0 } publicTreasury dst c.st.lost
      else .ok { c.st with lost := 0 } := rfl
    rw [e, if_neg (by simp [hd])]
    split
    · rw [transfer_total (s := { c.st with lost := 0 }) hc.lost h1 (hc.bal _)]
      rfl
    · rename_i hp
      have h0 : c.st.lost = 0 := by have := hc.lost; omega
      simp [h0]
  · intro h
    simp only [exec, checkGovernance, bind, Except.bind, withdrawLostTo]
    by_cases hg : x.caller = x.gov
    · rw [if_pos hg]
      simp only
      have : dst.contract = true := by
        by_contra hd; exact h ⟨hg, by simpa using hd⟩
      rw [if_pos this]
      exact ⟨_, rfl⟩
    · rw [if_neg hg]
      exact ⟨_, rfl⟩

/-- **C37** (once): a second withdrawal moves nothing. -/
theorem C37_withdraw_once {g : EState} {c : Chain} (r : Reachable g c) {x : Ctx} {dst : Addr}
    {s' : EState} (he : exec x c.st (.withdrawLostTo dst) = .ok s') (y : Ctx) (dst2 : Addr) {s'' : EState}
    (he2 : exec y s' (.withdrawLostTo dst2) = .ok s'') : s'' = s' := by
  have h0 : s'.lost = 0 := by
    by_cases h : x.caller = x.gov ∧ dst.contract = false
    · have := (C37_withdraw r (x := x) dst).1 h
      rw [he] at this
      cases this; rfl
    · obtain ⟨e, h⟩ := (C37_withdraw r (x := x) dst).2 h
      rw [he] at h; cases h
  obtain ⟨_, he2⟩ := guard_ok he2
  unfold withdrawLostTo at he2
  split at he2
  · cases he2
  · simp only [deleteLost, h0] at he2
    rw [if_neg (by omega)] at he2
    cases he2
    rw [← h0]

/-- **C37**: no other call and no block changes the amount of lost coins. -/
theorem C37_lost_otherwise_unchanged {g : EState} {c c' : Chain} (r : Reachable g c)
    (st : Step c c') : c'.st.lost = c.st.lost ∨
      ∃ x k, c'.st = apply x c.st k ∧ x.height = c.height ∧
        ((∃ i, k = .unregisterPlanet i) ∨ ∃ a, k = .withdrawLostTo a) := by
  have i : Inv c := r.inv
  cases st with
  | call h s x k hh hk =>
    subst hh
    by_cases ho : ∃ s', exec x s k = .ok s'
    · obtain ⟨s', he⟩ := ho
      have e : apply x s k = s' := by unfold apply; rw [he]
      rcases (exec_frame i he).lost with h | h
      · left; rw [e]; exact h
      · right; exact ⟨x, k, rfl, rfl, h⟩
    · left
      simp only [apply]
      split
      · rename_i s' he; exact absurd ⟨s', he⟩ ho
      · rfl
  | block h s s' prop hb =>
    left
    rcases i.begin_ok hb with ⟨_, _, rfl, _⟩ | ⟨_, rfl⟩
    · exact (opened_frame s (h + 1)).2.2.2.2.2.2.2.1
    · rfl

/-! Witness: planet 1 is unregistered with 200 credited; withdrawing pays 200 to eve, then nothing. -/
example : Spec.current (Demo.at' Demo.term1).st 1 = 200 ∧ (Demo.at' Demo.gone).st.lost = 200 ∧
    (exec ⟨15, 4, Demo.gov, Demo.gov⟩ (Demo.at' Demo.gone).st (.withdrawLostTo Demo.eve)).toOption.map
      (fun s => (s.lost, s.bal Demo.eve.id)) = some (0, 200) := by decide +kernel

end Verif.Havah
