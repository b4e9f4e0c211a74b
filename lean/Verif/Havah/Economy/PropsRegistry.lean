import Verif.Havah.Economy.Frame
import Verif.Havah.Economy.Demo

/-! # C27 (planet registry), C31 (planet managers), C36 (access control) -/
namespace Verif.Havah

theorem Spec.Trace.steps {a c : Chain} {l : List (Ctx × Call)} (t : Spec.Trace a l c) : Steps a c := by
  induction t with
  | nil => exact .refl _
  | call x k _ h1 h2 ih => exact .tail ih (.call _ _ x k h1 h2)
  | block p s' _ h ih => exact .tail ih (.block _ _ s' p h)

/-- Every reachable chain has a history. -/
theorem Steps.trace {a c : Chain} (st : Steps a c) : ∃ l, Spec.Trace a l c := by
  induction st with
  | refl => exact ⟨[], .nil _⟩
  | tail _ h ih =>
    obtain ⟨l, t⟩ := ih
    cases h with
    | call h s x k hh hk => exact ⟨_, .call x k t hh hk⟩
    | block h s s' p hb => exact ⟨_, .block p s' t hb⟩

/-! ## C27 -/

/-- **C27**: the reported number of planets is the number of registered planets, at most 50000, and
all ids are non-negative. -/
theorem C27_count {g : EState} {c : Chain} (r : Reachable g c) :
    (∃ P : Finset Int, (∀ i, i ∈ P ↔ (c.st.planets i).isSome) ∧ (P.card : Int) = c.st.allPlanet) ∧
    c.st.allPlanet ≤ 50000 ∧ ∀ i, (c.st.planets i).isSome → 0 ≤ i := by
  refine ⟨r.inv.reg.fin, r.inv.reg.le, fun i h => ?_⟩
  obtain ⟨p, hp⟩ := Option.isSome_iff_exists.1 h
  exact r.inv.reg.nonneg i p hp

theorem checkNFT_iff {x : Ctx} : checkNFT x = .ok () ↔ x.caller = planetNFT := by
  unfold checkNFT; split <;> simp_all

theorem checkGov_iff {x : Ctx} : checkGovernance x = .ok () ↔ x.caller = x.gov := by
  unfold checkGovernance; split <;> simp_all

/-- **C27**: registering succeeds exactly for the PlanetNFT contract with a new non-negative id below
the limit, and then adds just this planet. -/
theorem C27_register (x : Ctx) (s s' : EState) (id : Int) (pv co : Bool) (o : Addr) (u pr : Int) :
    exec x s (.registerPlanet id pv co o u pr) = .ok s' ↔
      x.caller = planetNFT ∧ 0 ≤ int64 id ∧ s.planets (int64 id) = none ∧ s.allPlanet < 50000 ∧
      s' = { s with
        planets := fun i => if i = int64 id then some ⟨pv, co, o, u, pr, x.height⟩ else s.planets i
        allPlanet := s.allPlanet + 1 } := by
  have e : Function.update s.planets (int64 id) (some ⟨pv, co, o, u, pr, x.height⟩) =
      fun i => if i = int64 id then some ⟨pv, co, o, u, pr, x.height⟩ else s.planets i := by
    funext i; rw [Function.update_apply]
  constructor
  · intro h
    obtain ⟨h1, h⟩ := guard_ok h
    obtain ⟨h2, h3, h4, rfl⟩ := register_ok h
    exact ⟨checkNFT_iff.1 h1, h2, h3, h4, by rw [e]⟩
  · rintro ⟨h1, h2, h3, h4, rfl⟩
    simp only [exec, checkNFT_iff.2 h1, bind, Except.bind, registerPlanet]
    rw [if_neg (by omega), if_neg (by simp [h3]), if_neg (by unfold maxPlanetCount; omega), e]

/-- **C27**: unregistering succeeds exactly for the PlanetNFT contract with a registered id, and then
removes just this planet. -/
theorem C27_unregister {g : EState} {c : Chain} (r : Reachable g c) (x : Ctx) (id : Int) :
    ((∃ s', exec x c.st (.unregisterPlanet id) = .ok s') ↔
      x.caller = planetNFT ∧ (c.st.planets (int64 id)).isSome) ∧
    ∀ s', exec x c.st (.unregisterPlanet id) = .ok s' →
      s'.allPlanet = c.st.allPlanet - 1 ∧
      ∀ i, s'.planets i = if i = int64 id then none else c.st.planets i := by
  constructor
  · constructor
    · rintro ⟨s', h⟩
      obtain ⟨h1, h⟩ := guard_ok h
      obtain ⟨_, h2, _⟩ := unregister_ok h
      exact ⟨checkNFT_iff.1 h1, h2⟩
    · rintro ⟨h1, h2⟩
      obtain ⟨p, hp⟩ := Option.isSome_iff_exists.1 h2
      have h0 := r.inv.reg.nonneg _ _ hp
      obtain ⟨P, hP, hcard⟩ := r.inv.reg.fin
      have : 1 ≤ c.st.allPlanet := by
        rw [← hcard]
        exact_mod_cast Finset.card_pos.2 ⟨int64 id, (hP _).2 h2⟩
      have hcur : 0 ≤ (getPlanetReward c.st (int64 id)).current := (r.inv.core.rew _).1
      simp only [exec, checkNFT_iff.2 h1, bind, Except.bind, unregisterPlanet]
      rw [if_neg (by omega), if_neg (by simp [hp]), if_neg (by omega)]
      split
      · unfold addLost
        have e : (getPlanetReward { c.st with
              planets := Function.update c.st.planets (int64 id) none,
              allPlanet := c.st.allPlanet - 1 } (int64 id)).current =
            (getPlanetReward c.st (int64 id)).current := rfl
        rw [if_neg (by rw [e]; omega)]
        exact ⟨_, rfl⟩
      · exact ⟨_, rfl⟩
  · intro s' h
    obtain ⟨h1, h⟩ := guard_ok h
    obtain ⟨_, h2, _, _, e⟩ := unregister_ok h
    rw [e]
    exact ⟨rfl, fun i => by simp only [Function.update_apply]⟩

/-- **C27**: changing the owner succeeds exactly for the PlanetNFT contract with a registered id, and
changes just the owner of this planet. -/
theorem C27_set_owner {g : EState} {c : Chain} (r : Reachable g c) (x : Ctx) (id : Int) (o : Addr)
    (s' : EState) :
    exec x c.st (.setPlanetOwner id o) = .ok s' ↔
      x.caller = planetNFT ∧ ∃ p, c.st.planets (int64 id) = some p ∧
      s' = { c.st with planets := fun i => if i = int64 id then some { p with owner := o }
                                          else c.st.planets i } := by
  constructor
  · intro h
    obtain ⟨h1, h⟩ := guard_ok h
    obtain ⟨p, _, h2, rfl⟩ := setOwner_ok h
    refine ⟨checkNFT_iff.1 h1, p, h2, ?_⟩
    congr 1
    funext i; rw [Function.update_apply]
  · rintro ⟨h1, p, h2, rfl⟩
    have h0 := r.inv.reg.nonneg _ _ h2
    simp only [exec, checkNFT_iff.2 h1, bind, Except.bind, setPlanetOwner, getPlanet_total h0 h2, pure,
      Except.pure]
    congr 2
    funext i; rw [Function.update_apply]

/-! Witnesses: a third planet can be registered, a second with the same id cannot, not even with the
id written as `2^64 + 1`, which the entry point wraps to 1. -/
example : (Demo.at' Demo.setup).st.allPlanet = 3 ∧
    (exec ⟨4, 4, planetNFT, Demo.gov⟩ (Demo.at' Demo.setup).st
      (.registerPlanet 4 true false Demo.bob 1 1)).isOk ∧
    ¬ (exec ⟨4, 4, planetNFT, Demo.gov⟩ (Demo.at' Demo.setup).st
      (.registerPlanet (2^64 + 1) true false Demo.bob 1 1)).isOk ∧
    (exec ⟨4, 4, planetNFT, Demo.gov⟩ (Demo.at' Demo.setup).st (.unregisterPlanet 2)).isOk ∧
    ¬ (exec ⟨4, 4, planetNFT, Demo.gov⟩ (Demo.at' Demo.setup).st (.unregisterPlanet 7)).isOk := by
  decide +kernel

/-! ## C31 -/

theorem isManager_iff {s : EState} {a : Addr} : isPlanetManager s a = true ↔ a ∈ s.managers := by
  simp [isPlanetManager, List.any_eq_true]

/-- One call changes the managers as the specification says. -/
theorem managers_apply {x : Ctx} {s : EState} (i : Inv ⟨x.height, s⟩) (k : Call) :
    {a | a ∈ (apply x s k).managers} = Spec.managersAfter x k {a | a ∈ s.managers} := by
  have hnd : s.managers.Nodup := i.mgr
  cases he : exec x s k with
  | ok s' =>
    have ea : apply x s k = s' := by unfold apply; rw [he]
    rw [ea]
    rcases (exec_frame i he).managers with h | ⟨a, rfl⟩ | ⟨a, rfl⟩
    · rw [h]
      unfold Spec.managersAfter
      split
      · rename_i a
        split
        · ext b
          simp only [Set.mem_ofPred_eq]
          obtain ⟨_, he⟩ := guard_ok he
          unfold addPlanetManager at he
          split at he
          · cases he
          cases he
          have := congrArg List.length h
          simp at this
        · rfl
      · rename_i a
        split
        · obtain ⟨_, he⟩ := guard_ok he
          obtain ⟨l, rfl, h1, h2⟩ := remove_ok he
          simp only at h
          have := ((h1 hnd).2 a).1 (by rw [h]; exact h2)
          exact absurd rfl this.2
        · rfl
      · rfl
    · obtain ⟨hg, he⟩ := guard_ok he
      unfold addPlanetManager at he
      split at he
      · cases he
      cases he
      unfold Spec.managersAfter
      simp only
      rw [if_pos (checkGov_iff.1 hg)]
      ext b
      simp only [Set.mem_ofPred_eq, List.mem_append, List.mem_singleton]
      tauto
    · obtain ⟨hg, he⟩ := guard_ok he
      obtain ⟨l, rfl, h1, h2⟩ := remove_ok he
      unfold Spec.managersAfter
      simp only
      rw [if_pos (checkGov_iff.1 hg)]
      ext b
      simp only [Set.mem_ofPred_eq, (h1 hnd).2 b]
      tauto
  | error e =>
    have ea : apply x s k = s := by unfold apply; rw [he]
    rw [ea]
    unfold Spec.managersAfter
    split
    · rename_i a
      split
      · rename_i hg
        simp only [exec, checkGov_iff.2 hg, bind, Except.bind, addPlanetManager] at he
        split at he
        · rename_i hm
          have := isManager_iff.1 hm
          ext b
          simp only [Set.mem_ofPred_eq]
          constructor
          · exact Or.inr
          · rintro (rfl | h)
            · exact this
            · exact h
        · cases he
      · rfl
    · rename_i a
      split
      · rename_i hg
        simp only [exec, checkGov_iff.2 hg, bind, Except.bind, removePlanetManager] at he
        have hno : a ∉ s.managers := by
          intro hm
          have hlt : s.managers.findIdx (fun m => a == m) < s.managers.length :=
            List.findIdx_lt_length_of_exists ⟨a, hm, by simp⟩
          rw [if_pos hlt] at he
          split at he
          · rename_i hn
            rw [List.getLast?_eq_none_iff] at hn
            rw [hn] at hm
            cases hm
          · cases he
        ext b
        simp only [Set.mem_ofPred_eq]
        constructor
        · exact fun h => ⟨fun e => hno (e ▸ h), h⟩
        · exact fun h => h.2
      · rfl
    · rfl

/-- **C31**: after any history the planet managers are exactly the addresses that governance has added
and not removed since. -/
theorem C31_managers_are_history {g : EState} {c : Chain} (hg : Genesis g)
    {l : List (Ctx × Call)} (t : Spec.Trace ⟨0, g⟩ l c) :
    {a | a ∈ c.st.managers} = l.foldl (fun m xk => Spec.managersAfter xk.1 xk.2 m) ∅ := by
  induction t with
  | nil => simp [hg.managers]
  | @call b l x k t h1 h2 ih =>
    rw [List.foldl_append, List.foldl_cons, List.foldl_nil, ← ih]
    have i : Inv ⟨x.height, b.st⟩ := by rw [h1]; exact hg.inv.steps t.steps
    exact managers_apply i k
  | @block b l p s' t h ih =>
    rw [← ih]
    have i : Inv b := hg.inv.steps t.steps
    have : s'.managers = b.st.managers := by
      rcases i.begin_ok h with ⟨_, _, rfl, _⟩ | ⟨_, rfl⟩
      · exact (opened_frame _ _).2.2.2.2.2.2.1
      · rfl
    show {a | a ∈ s'.managers} = _
    rw [this]

/-- **C31**: the list of managers never contains an address twice. -/
theorem C31_no_duplicates {g : EState} {c : Chain} (r : Reachable g c) : c.st.managers.Nodup :=
  r.inv.mgr

/-- **C31**: adding a manager twice and removing a non-manager are refused. -/
theorem C31_refusals (s : EState) (x : Ctx) (a : Addr) :
    ((∃ s', exec x s (.addPlanetManager a) = .ok s') ↔ x.caller = x.gov ∧ a ∉ s.managers) ∧
    ((∃ s', exec x s (.removePlanetManager a) = .ok s') ↔ x.caller = x.gov ∧ a ∈ s.managers) := by
  constructor
  · constructor
    · rintro ⟨s', he⟩
      obtain ⟨hg, he⟩ := guard_ok he
      unfold addPlanetManager at he
      split at he
      · cases he
      · rename_i h; exact ⟨checkGov_iff.1 hg, fun hm => h (isManager_iff.2 hm)⟩
    · rintro ⟨hg, hm⟩
      refine ⟨{ s with managers := s.managers ++ [a] }, ?_⟩
      simp only [exec, checkGov_iff.2 hg, bind, Except.bind, addPlanetManager]
      rw [if_neg (fun h => hm (isManager_iff.1 h))]
  · constructor
    · rintro ⟨s', he⟩
      obtain ⟨hg, he⟩ := guard_ok he
      obtain ⟨_, _, _, h⟩ := remove_ok he
      exact ⟨checkGov_iff.1 hg, h⟩
    · rintro ⟨hg, hm⟩
      simp only [exec, checkGov_iff.2 hg, bind, Except.bind, removePlanetManager]
      have hlt : s.managers.findIdx (fun m => a == m) < s.managers.length :=
        List.findIdx_lt_length_of_exists ⟨a, hm, by simp⟩
      rw [if_pos hlt]
      split
      · rename_i hn
        rw [List.getLast?_eq_none_iff] at hn
        rw [hn] at hm; cases hm
      · exact ⟨_, rfl⟩

/-! Witness: two managers added, one removed. -/
example : (Demo.at' Demo.setup).st.managers = [Demo.mgr] := by decide +kernel

/-! ## C36 -/

/-- **C36**: a successful call was made by somebody allowed to make it. -/
theorem C36_only_allowed {x : Ctx} {s s' : EState} {k : Call} (he : exec x s k = .ok s') :
    Spec.Allowed x s k := by
  cases k with
  | setUSDTPrice price =>
    obtain ⟨h, _⟩ := guard_ok he
    unfold checkPriceSetter at h
    split at h
    · exact Or.inr (checkGov_iff.1 h)
    · exact Or.inl (by omega)
  | startRewardIssue h => obtain ⟨h, _⟩ := guard_ok he; exact checkGov_iff.1 h
  | addPlanetManager a => obtain ⟨h, _⟩ := guard_ok he; exact checkGov_iff.1 h
  | removePlanetManager a => obtain ⟨h, _⟩ := guard_ok he; exact checkGov_iff.1 h
  | registerPlanet id pv co owner usdt price => obtain ⟨h, _⟩ := guard_ok he; exact checkNFT_iff.1 h
  | unregisterPlanet id => obtain ⟨h, _⟩ := guard_ok he; exact checkNFT_iff.1 h
  | setPlanetOwner id owner => obtain ⟨h, _⟩ := guard_ok he; exact checkNFT_iff.1 h
  | reportPlanetWork id =>
    simp only [exec] at he
    split at he
    · exact isManager_iff.1 ‹_›
    · cases he
  | setPrivateClaimableRate n d => obtain ⟨h, _⟩ := guard_ok he; exact checkGov_iff.1 h
  | withdrawLostTo dst => obtain ⟨h, _⟩ := guard_ok he; exact checkGov_iff.1 h
  | claimPlanetReward ids => trivial
  | fallback v => trivial
  | transfer d v => trivial
  | fee v => trivial

/-- **C36**: a call by anybody else is refused and changes nothing. -/
theorem C36_others_change_nothing {x : Ctx} {s : EState} {k : Call} (h : ¬ Spec.Allowed x s k) :
    (∃ e, exec x s k = .error e) ∧ apply x s k = s := by
  cases he : exec x s k with
  | ok s' => exact absurd (C36_only_allowed he) h
  | error e => exact ⟨⟨e, rfl⟩, by unfold apply; rw [he]⟩

/-- **C36**: any refused call leaves the state as it was. -/
theorem C36_failed_call {x : Ctx} {s : EState} {k : Call} {e : Err} (he : exec x s k = .error e) :
    apply x s k = s := by unfold apply; rw [he]

/-- **C36** over histories: as long as governance makes no call (revision 3 and later), the managers,
the start of the issue, the release rate and the price stay as they are, whoever calls what. -/
theorem C36_no_governance_no_change {g : EState} {c c' : Chain} (r : Reachable g c)
    {l : List (Ctx × Call)} (t : Spec.Trace c l c')
    (h : ∀ xk ∈ l, xk.1.caller ≠ xk.1.gov ∧ 3 ≤ xk.1.rev) :
    c'.st.managers = c.st.managers ∧ c'.st.issueStart = c.st.issueStart ∧
    Spec.rate c'.st = Spec.rate c.st ∧ c'.st.usdtPrice = c.st.usdtPrice := by
  have key : c'.st.managers = c.st.managers ∧ c'.st.issueStart = c.st.issueStart ∧
      c'.st.claimRateRaw = c.st.claimRateRaw ∧ c'.st.usdtPrice = c.st.usdtPrice := by
    induction t with
    | nil => exact ⟨rfl, rfl, rfl, rfl⟩
    | @call b l x k t h1 h2 ih =>
      obtain ⟨i1, i2, i3, i4⟩ := ih (fun xk hx => h xk (List.mem_append_left _ hx))
      obtain ⟨hg, hr⟩ := h (x, k) (List.mem_append_right _ (List.mem_singleton.2 rfl))
      simp only at hg hr
      have i : Inv ⟨x.height, b.st⟩ := by rw [h1]; exact r.inv.steps t.steps
      simp only [← i1, ← i2, ← i3, ← i4]
      cases he : exec x b.st k with
      | error e => rw [C36_failed_call he]; exact ⟨rfl, rfl, rfl, rfl⟩
      | ok s' =>
        have ea : apply x b.st k = s' := by unfold apply; rw [he]
        rw [ea]
        have F := exec_frame i he
        have al := C36_only_allowed he
        refine ⟨?_, ?_, ?_, ?_⟩
        · rcases F.managers with h | ⟨a, rfl⟩ | ⟨a, rfl⟩
          · exact h
          · exact absurd al hg
          · exact absurd al hg
        · rcases F.start with h | ⟨a, rfl⟩
          · exact h
          · exact absurd al hg
        · rcases F.rate with h | ⟨n, d, rfl⟩
          · exact h
          · exact absurd al hg
        · rcases F.price with h | ⟨p, rfl⟩
          · exact h
          · rcases al with h | h
            · omega
            · exact absurd h hg
    | @block b l p s' t hb ih =>
      obtain ⟨i1, i2, i3, i4⟩ := ih h
      have i : Inv b := r.inv.steps t.steps
      simp only [← i1, ← i2, ← i3, ← i4]
      rcases i.begin_ok hb with ⟨_, _, rfl, _⟩ | ⟨_, rfl⟩
      · obtain ⟨_, _, e1, _, _, _, e2, _, _, e3, e4, _⟩ := opened_frame b.st (b.height + 1)
        exact ⟨e2, e1, e3, e4⟩
      · exact ⟨rfl, rfl, rfl, rfl⟩
  obtain ⟨h1, h2, h3, h4⟩ := key
  refine ⟨h1, h2, ?_, h4⟩
  unfold Spec.rate; rw [h3]

/-- **C36**: only the owner's claims reduce the reward of a planet: a call by anybody else leaves it or
increases it, except that the PlanetNFT contract can unregister the planet. -/
theorem C36_reward_protected {g : EState} {c : Chain} (r : Reachable g c) {x : Ctx}
    (hx : x.height = c.height) {k : Call} {s' : EState} (he : exec x c.st k = .ok s') (i : Int)
    (ho : ¬ Spec.Owns c.st x.caller i) (hu : ∀ j, k = .unregisterPlanet j → int64 j ≠ i) :
    Spec.current c.st i ≤ Spec.current s' i := by
  have iv : Inv ⟨x.height, c.st⟩ := by rw [hx]; exact r.inv
  have hc : Core c.st := r.inv.core
  have same : s'.rewards i = c.st.rewards i → Spec.current c.st i ≤ Spec.current s' i := by
    intro h; unfold Spec.current; rw [h]
  rcases (exec_frame iv he).rewards with h | ⟨j, rfl⟩ | ⟨j, rfl⟩ | ⟨ids, rfl⟩
  · exact same (by rw [h])
  · simp only [exec] at he
    split at he
    swap
    · cases he
    obtain ⟨p, H, rfl⟩ := report_ok he
    by_cases hji : i = int64 j
    · rw [spec_current, spec_current,
        getReward_update c.st (int64 j) _ i (reported c.st x.height (int64 j) p) rfl, if_pos hji, hji]
      have h1 : 0 ≤ credit c.st p (int64 j) := by
        have := hooverRequest_nonneg c.st p (getPlanetReward c.st (int64 j)) (rewardPerActivePlanet c.st)
        have := H.share_nonneg
        unfold credit; omega
      have := ecoPart_bounds h1
      simp only [Option.getD_some]
      omega
    · exact same (Function.update_of_ne hji _ _)
  · obtain ⟨_, he⟩ := guard_ok he
    obtain ⟨_, _, _, _, e⟩ := unregister_ok he
    have hne : i ≠ int64 j := fun e => hu j rfl e.symm
    apply same
    rw [e]
    simp only
    split
    · exact Function.update_of_ne hne _ _
    · rfl
  · simp only [exec, claimPlanetReward] at he
    split at he
    · cases he
    split at he
    · cases he
    cases he
    have := (claimLoop_induct (P := fun t => t.planets = c.st.planets ∧ t.rewards i = c.st.rewards i)
      x.caller (by
        rintro t id p a _ ⟨hP1, hP2⟩ hp ho' hpos hle
        refine ⟨hP1, ?_⟩
        show Function.update t.rewards id _ i = _
        rw [Function.update_of_ne, hP2]
        rintro rfl
        exact ho ⟨p, by rw [← hP1]; exact hp, ho'⟩) (ids.map int64) c.st hc ⟨rfl, rfl⟩).2.2
    exact same this

/-! Witness: the same call by different callers. -/
example : (exec ⟨4, 4, Demo.gov, Demo.gov⟩ (Demo.at' Demo.setup).st (.setUSDTPrice 5)).isOk ∧
    ¬ (exec ⟨4, 4, Demo.eve, Demo.gov⟩ (Demo.at' Demo.setup).st (.setUSDTPrice 5)).isOk ∧
    (exec ⟨4, 2, Demo.eve, Demo.gov⟩ (Demo.at' Demo.setup).st (.setUSDTPrice 5)).isOk ∧
    ¬ (exec ⟨5, 4, Demo.eve, Demo.gov⟩ (Demo.at' Demo.term0).st (.reportPlanetWork 1)).isOk := by
  decide +kernel

end Verif.Havah
