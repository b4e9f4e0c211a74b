import Verif.Havah.Validators.Reach
import Verif.Havah.Validators.Spec

/-! # C32: the validator registry is consistent -/
namespace Verif.Havah.Val
open Verif.Havah Spec

/-! ### What a block leaves alone -/

theorem votes_same {s t : St} (h : VoteRel s t) : SameReg s t := by
  obtain ⟨f, rfl, _⟩ := h; exact ⟨rfl, rfl, rfl, rfl, rfl⟩

/-- Shape of a successful base transaction: the active set and the index change, the network
status is renewed, and then perhaps votes are counted. -/
theorem baseTx_shape {s t : St} {b : Block} (hn : s.active.Nodup) (h : baseTx s b = .ok t) :
    ∃ s1, (s1 = s ∨ ∃ i a, s1 = { s with
        net := ⟨true, s.period, s.allowance, s.count⟩, svIndex := i, active := a }) ∧
      s1.active.Nodup ∧
      ((s1.net.decentralized && timeToCheck b.index s.net.period) = true ∧
        (∃ i a, t = { (checkVotes s1 b.votes).1 with svIndex := i, active := a }) ∨
       (s1.net.decentralized && timeToCheck b.index s.net.period) = false ∧ t = s1) := by
  unfold baseTx at h
  obtain ⟨s1, h1, h⟩ := bind_ok.mp h
  have hs1 : (s1 = s ∨ ∃ i a, s1 = { s with
      net := ⟨true, s.period, s.allowance, s.count⟩, svIndex := i, active := a }) ∧
      s1.active.Nodup := by
    split_ifs at h1
    · rcases termStart_state h1 hn with ⟨rfl, _⟩ | ⟨i, a, rfl, ha, _⟩
      · exact ⟨.inl rfl, hn⟩
      · exact ⟨.inr ⟨i, a, rfl⟩, ha⟩
    · cases h1; exact ⟨.inl rfl, hn⟩
  refine ⟨s1, hs1.1, hs1.2, ?_⟩
  by_cases hc : (s1.net.decentralized && timeToCheck b.index s.net.period) = true
  · rw [if_pos hc] at h
    refine .inl ⟨hc, ?_⟩
    unfold handleBlockVote at h
    dsimp only at h
    have hact : (checkVotes s1 b.votes).1.active = s1.active := by
      obtain ⟨f, hf, _⟩ := checkVotes_rel b.votes s1
      rw [hf]
    split_ifs at h
    · cases h; exact ⟨_, _, rfl⟩
    · obtain ⟨i, a, rfl, _⟩ := replacePenalized_state h (by rw [hact]; exact hs1.2)
      exact ⟨i, a, rfl⟩
  · rw [if_neg hc] at h
    cases h
    exact .inr ⟨by simpa using hc, rfl⟩

theorem baseTx_same {s t : St} {b : Block} (hn : s.active.Nodup) (h : baseTx s b = .ok t) :
    SameReg s t ∧ (∀ o, s.status o = none → t.status o = none) ∧
      ∀ o st, s.status o = some st →
        ∃ st', t.status o = some st' ∧ VoteStep (s.info o) st st' := by
  obtain ⟨s1, hs1, _, h⟩ := baseTx_shape hn h
  have e : SameReg s s1 ∧ s1.status = s.status := by
    rcases hs1 with rfl | ⟨i, a, rfl⟩
    · exact ⟨.refl _, rfl⟩
    · exact ⟨⟨rfl, rfl, rfl, rfl, rfl⟩, rfl⟩
  rcases h with ⟨_, i, a, rfl⟩ | ⟨_, rfl⟩
  · obtain ⟨f, hf, h1, h2⟩ := checkVotes_rel b.votes s1
    rw [hf]
    rw [e.1.info, e.2] at h2
    rw [e.2] at h1
    exact ⟨⟨e.1.info, e.1.nodeOwner, e.1.main, e.1.sub, e.1.disq⟩, h1, h2⟩
  · refine ⟨e.1, fun o h => by rw [e.2]; exact h, fun o st h => ⟨st, by rw [e.2]; exact h, .refl _ _⟩⟩

/-! ### Monotone facts -/

theorem exec_nodeOwner {c : Config} {s t : St} {op : Op} (hr : Reg s)
    (h : exec c s op = .ok t) {n o : Addr} (ho : s.nodeOwner n = some o) :
    t.nodeOwner n = some o := by
  cases op with
  | register frm ow pk gr nm url btp =>
    obtain ⟨_, m, g, _, _, _, _, _, h1⟩ := register_ok h
    obtain ⟨_, _, hno, rfl⟩ := stRegister_ok h1
    have : n ≠ m := by rintro rfl; rw [hno] at ho; cases ho
    cases g <;> simpa [addToList, Function.update_of_ne this] using ho
  | unregister frm ow =>
    obtain ⟨_, _, st, _, ⟨_, rfl⟩ | ⟨_, vi, m', s', _, _, rfl⟩⟩ := unregister_ok h <;> exact ho
  | setNodePublicKey frm pk btp =>
    obtain ⟨_, m, vi, st, _, _, _, _, _, ⟨_, rfl⟩ | ⟨_, hno, a, rfl, _⟩⟩ := setNodePublicKey_ok h
    · exact ho
    · have : n ≠ m := by rintro rfl; rw [hno] at ho; cases ho
      simpa [Function.update_of_ne this] using ho
  | setValidatorInfo frm v =>
    rcases setValidatorInfo_ok h with rfl | ⟨vi, vi', _, _, _, rfl⟩ <;> exact ho
  | enable frm ow => obtain ⟨_, _, st, _, _, k, rfl, _⟩ := enable_ok h; exact ho
  | setParams frm p a => obtain ⟨_, _, _, rfl⟩ := setParams_ok h; exact ho
  | setCount frm k => obtain ⟨_, _, _, rfl⟩ := setCount_ok h; exact ho
  | grant frm a m => obtain ⟨_, _, rfl⟩ := grant_ok h; exact ho
  | revoke frm a => obtain ⟨_, _, _, _, rfl⟩ := revoke_ok h; exact ho
  | block b => rw [(baseTx_same hr.activeNodup h).1.nodeOwner]; exact ho

theorem run_nodeOwner {c : Config} {s : St} (hr : Reg s) (ops : List Op) {n o : Addr}
    (ho : s.nodeOwner n = some o) : (run c s ops).nodeOwner n = some o := by
  induction ops generalizing s with
  | nil => exact ho
  | cons op ops ih =>
    refine ih (hr.step op) ?_
    rcases step_cases c s op with ⟨t, he, ht⟩ | ⟨_, ht⟩
    · rw [ht]; exact exec_nodeOwner hr he ho
    · rw [ht]; exact ho

/-- **C32 (node addresses).** In every reachable state a node address is used by at most one
registered validator. -/
theorem C32_node_unique {c : Config} {s : St} (hr : Reachable c s) {o1 o2 : Addr}
    {v1 v2 : VInfo} (h1 : s.info o1 = some v1) (h2 : s.info o2 = some v2)
    (hn : v1.node = v2.node) : o1 = o2 := by
  have a := hr.reg.nodeOwner o1 v1 h1
  have b := hr.reg.nodeOwner o2 v2 h2
  rw [hn, b] at a
  exact (Option.some.inj a).symm

/-- **C32 (node addresses, over time).** A node address that was ever used by one validator is
never used by another one, also not after key changes and unregistrations. -/
theorem C32_node_never_reassigned {c : Config} {s : St} (hr : Reachable c s) (ops : List Op)
    {o1 o2 : Addr} {v1 v2 : VInfo} (h1 : s.info o1 = some v1)
    (h2 : (run c s ops).info o2 = some v2) (hn : v1.node = v2.node) : o1 = o2 := by
  have a := run_nodeOwner (c := c) hr.reg ops (hr.reg.nodeOwner o1 v1 h1)
  have b := (hr.run ops).reg.nodeOwner o2 v2 h2
  rw [hn, b] at a
  exact (Option.some.inj a).symm

/-- **C32 (lists).** The main list, the sub list and the list of unregistered validators have
no repetition; a registered validator that was not unregistered is in the list of its grade and
in no other one, an unregistered one is in the list of unregistered validators and in no other
one, and everything in a list is registered. -/
theorem C32_lists_partition {c : Config} {s : St} (hr : Reachable c s) :
    s.main.Nodup ∧ s.sub.Nodup ∧ s.disq.Nodup ∧
    (∀ o, (o ∈ s.main ∨ o ∈ s.sub ∨ o ∈ s.disq) ↔ (s.info o).isSome) ∧
    ∀ o vi, s.info o = some vi →
      (o ∈ s.main ↔ vi.grade = .main ∧ ¬ Disqualified s o) ∧
      (o ∈ s.sub ↔ vi.grade = .sub ∧ ¬ Disqualified s o) ∧
      (o ∈ s.disq ↔ Disqualified s o) := by
  have h := hr.reg
  refine ⟨h.mainNodup, h.subNodup, h.disqNodup, fun o => ?_, fun o vi hvi => ?_⟩
  · rw [h.mainIff, h.subIff, h.disqIff]
    constructor
    · rintro (⟨vi, _, h1, _⟩ | ⟨vi, _, h1, _⟩ | ⟨st, h1, _⟩)
      · rw [h1]; rfl
      · rw [h1]; rfl
      · rw [h.infoStatus, h1]; rfl
    · intro hi
      have hs := (h.infoStatus o).mp hi
      obtain ⟨vi, hvi⟩ := Option.isSome_iff_exists.mp hi
      obtain ⟨st, hst⟩ := Option.isSome_iff_exists.mp hs
      cases hd : st.disqualified
      · cases hg : vi.grade
        · exact .inr (.inl ⟨vi, st, hvi, hst, hg, hd⟩)
        · exact .inl ⟨vi, st, hvi, hst, hg, hd⟩
      · exact .inr (.inr ⟨st, hst, hd⟩)
  · obtain ⟨st, hst⟩ := Option.isSome_iff_exists.mp ((h.infoStatus o).mp (by rw [hvi]; rfl))
    rw [h.mainIff, h.subIff, h.disqIff]
    unfold Disqualified
    simp [hvi, hst]

theorem exec_disq {c : Config} {s t : St} {op : Op} (hr : Reg s)
    (h : exec c s op = .ok t) {o : Addr} {st : VStatus} (hs : s.status o = some st)
    (hd : st.disqualified = true) : t.status o = some st ∧ t.info o = s.info o ∨
      t.status o = some st ∧ ∃ v, op = .setValidatorInfo o v := by
  cases op with
  | register frm ow pk gr nm url btp =>
    obtain ⟨_, m, g, _, _, _, _, _, h1⟩ := register_ok h
    obtain ⟨_, hst, hno, rfl⟩ := stRegister_ok h1
    have : o ≠ ow := by rintro rfl; rw [hs] at hst; cases hst
    left
    cases g <;> simpa [addToList, Function.update_of_ne this] using hs
  | unregister frm ow =>
    obtain ⟨_, _, st', hs', ⟨_, rfl⟩ | ⟨hd', vi, m', s', _, _, rfl⟩⟩ := unregister_ok h
    · exact .inl ⟨hs, rfl⟩
    · have : o ≠ ow := by
        rintro rfl; rw [hs] at hs'; cases hs'; rw [hd] at hd'; cases hd'
      left
      exact ⟨by simpa [Function.update_of_ne this] using hs, rfl⟩
  | setNodePublicKey frm pk btp =>
    obtain ⟨_, m, vi, st', _, _, _, hs', hd', ⟨_, rfl⟩ | ⟨_, hno, a, rfl, _⟩⟩ :=
      setNodePublicKey_ok h
    · exact .inl ⟨hs, rfl⟩
    · have : o ≠ frm := by
        rintro rfl; rw [hs] at hs'; cases hs'; rw [hd] at hd'; cases hd'
      left
      exact ⟨hs, by simp [Function.update_of_ne this]⟩
  | setValidatorInfo frm v =>
    rcases setValidatorInfo_ok h with rfl | ⟨vi, vi', _, _, _, rfl⟩
    · exact .inl ⟨hs, rfl⟩
    · by_cases e : frm = o
      · subst e; exact .inr ⟨hs, v, rfl⟩
      · left; exact ⟨hs, by simp [Function.update_of_ne (Ne.symm e)]⟩
  | enable frm ow =>
    obtain ⟨_, _, st', hs', hd', k, rfl, _⟩ := enable_ok h
    have : o ≠ ow := by
      rintro rfl; rw [hs] at hs'; cases hs'; rw [hd] at hd'; cases hd'
    left
    exact ⟨by simpa [Function.update_of_ne this] using hs, rfl⟩
  | setParams frm p a => obtain ⟨_, _, _, rfl⟩ := setParams_ok h; exact .inl ⟨hs, rfl⟩
  | setCount frm k => obtain ⟨_, _, _, rfl⟩ := setCount_ok h; exact .inl ⟨hs, rfl⟩
  | grant frm a m => obtain ⟨_, _, rfl⟩ := grant_ok h; exact .inl ⟨hs, rfl⟩
  | revoke frm a => obtain ⟨_, _, _, _, rfl⟩ := revoke_ok h; exact .inl ⟨hs, rfl⟩
  | block b =>
    obtain ⟨h1, h2, h3⟩ := baseTx_same hr.activeNodup h
    obtain ⟨st', hst', hv⟩ := h3 o st hs
    have : st' = st := hv.off (by unfold VStatus.enabled; rw [hd]; simp)
    subst this
    exact .inl ⟨hst', by rw [h1.info]⟩

/-- **C32 (unregistered for ever).** Once a validator has been unregistered, in every later
state its status is exactly the same, it is in neither the main nor the sub list, it cannot be
registered or enabled again and cannot change its node key. -/
theorem C32_disqualified_forever {c : Config} {s : St} (hr : Reachable c s) {o : Addr}
    (hd : Disqualified s o) (ops : List Op) :
    (run c s ops).status o = s.status o ∧ Disqualified (run c s ops) o ∧
    o ∉ (run c s ops).main ∧ o ∉ (run c s ops).sub ∧
    (∀ frm pk gr nm url btp, ∃ e, register c (run c s ops) frm o pk gr nm url btp = .error e) ∧
    (∀ frm, ∃ e, enable c (run c s ops) frm o = .error e) ∧
    (∀ pk btp, ∃ e, setNodePublicKey c (run c s ops) o pk btp = .error e) := by
  obtain ⟨st, hst, hd⟩ := hd
  have key : (run c s ops).status o = some st := by
    induction ops generalizing s with
    | nil => exact hst
    | cons op ops ih =>
      refine ih (hr.step op) ?_
      rcases step_cases c s op with ⟨t, he, ht⟩ | ⟨_, ht⟩
      · rw [ht]
        rcases exec_disq hr.reg he hst hd with h | h <;> exact h.1
      · rw [ht]; exact hst
  have h := (hr.run ops).reg
  refine ⟨key.trans hst.symm, ⟨st, key, hd⟩, fun hm => ?_, fun hm => ?_, ?_, ?_, ?_⟩
  · obtain ⟨_, st', _, h2, _, h4⟩ := (h.mainIff o).mp hm
    rw [key] at h2; cases h2; rw [hd] at h4; cases h4
  · obtain ⟨_, st', _, h2, _, h4⟩ := (h.subIff o).mp hm
    rw [key] at h2; cases h2; rw [hd] at h4; cases h4
  · intro frm pk gr nm url btp
    cases he : register c (run c s ops) frm o pk gr nm url btp with
    | error e => exact ⟨e, rfl⟩
    | ok t =>
      obtain ⟨_, m, g, _, _, _, _, _, h1⟩ := register_ok he
      have := (stRegister_ok h1).2.1
      rw [key] at this; cases this
  · intro frm
    cases he : enable c (run c s ops) frm o with
    | error e => exact ⟨e, rfl⟩
    | ok t =>
      obtain ⟨_, _, st', h2, h4, _⟩ := enable_ok he
      rw [key] at h2; cases h2; rw [hd] at h4; cases h4
  · intro pk btp
    cases he : setNodePublicKey c (run c s ops) o pk btp with
    | error e => exact ⟨e, rfl⟩
    | ok t =>
      obtain ⟨_, m, vi, st', _, _, _, h2, h4, _⟩ := setNodePublicKey_ok he
      rw [key] at h2; cases h2; rw [hd] at h4; cases h4

/-- The stored number of self-enablings, 0 for unknown owners. -/
def ecount (s : St) (o : Addr) : ℕ := ((s.status o).map (·.enabledCount)).getD 0

theorem ecount_step {c : Config} {s : St} (hr : Reg s) {o : Addr} {op : Op}
    (hop : op ≠ .enable c.gov o) :
    ecount (step c s op) o =
      (if Disabled s o ∧ ¬ Disabled (step c s op) o then 1 else 0) + ecount s o := by
  -- nothing changes for `o`
  have triv : ∀ t : St, t.status o = s.status o →
      ecount t o = (if Disabled s o ∧ ¬ Disabled t o then 1 else 0) + ecount s o := by
    intro t ht
    have : ¬ (Disabled s o ∧ ¬ Disabled t o) := by
      unfold Disabled; rw [ht]; exact fun h => h.2 h.1
    rw [if_neg this]
    unfold ecount; rw [ht]; omega
  rcases step_cases c s op with ⟨t, h, ht⟩ | ⟨_, ht⟩
  swap
  · rw [ht]; exact triv s rfl
  rw [ht]
  cases op with
  | register frm ow pk gr nm url btp =>
    obtain ⟨_, m, g, _, _, _, _, _, h1⟩ := register_ok h
    obtain ⟨_, hst, hno, rfl⟩ := stRegister_ok h1
    by_cases e : o = ow
    · subst e
      have : ¬ Disabled s o := by rintro ⟨st, h, _⟩; rw [hst] at h; cases h
      rw [if_neg (fun h => this h.1)]
      cases g <;> simp [addToList, ecount, hst]
    · apply triv
      cases g <;> simp [addToList, Function.update_of_ne e]
  | unregister frm ow =>
    obtain ⟨_, _, st', hs', ⟨_, rfl⟩ | ⟨hd', vi, m', s', _, _, rfl⟩⟩ := unregister_ok h
    · exact triv _ rfl
    · by_cases e : o = ow
      · subst e
        have : ¬ (Disabled s o ∧ ¬ Disabled { s with
            status := Function.update s.status o (some { st' with disqualified := true })
            main := m', sub := s', disq := s.disq ++ [o]
            active := s.active.erase vi.node } o) := by
          unfold Disabled; simp [hs']
        rw [if_neg this]
        simp [ecount, hs']
      · apply triv
        simp [Function.update_of_ne e]
  | setNodePublicKey frm pk btp =>
    obtain ⟨_, m, vi, st', _, _, _, hs', hd', ⟨_, rfl⟩ | ⟨_, hno, a, rfl, _⟩⟩ :=
      setNodePublicKey_ok h <;> exact triv _ rfl
  | setValidatorInfo frm v =>
    rcases setValidatorInfo_ok h with rfl | ⟨vi, vi', _, _, _, rfl⟩ <;> exact triv _ rfl
  | enable frm ow =>
    obtain ⟨_, hfrm, st', hs', hd', k, rfl, hk⟩ := enable_ok h
    by_cases e : o = ow
    · subst e
      have hne : frm ≠ c.gov := by rintro rfl; exact hop rfl
      rcases hk with ⟨hdis, rfl⟩ | ⟨_, hg, _⟩ | ⟨hdis, _, _, rfl⟩
      · have : ¬ Disabled s o := by
          rintro ⟨st, h, h'⟩; rw [hs'] at h; cases h; rw [hdis] at h'; cases h'
        rw [if_neg (fun h => this h.1)]
        simp [ecount, hs']
      · exact absurd hg hne
      · rw [if_pos ⟨⟨st', hs', hdis⟩, by unfold Disabled; simp⟩]
        simp [ecount, hs', Nat.add_comm]
    · apply triv
      simp [Function.update_of_ne e]
  | setParams frm p a => obtain ⟨_, _, _, rfl⟩ := setParams_ok h; exact triv _ rfl
  | setCount frm k => obtain ⟨_, _, _, rfl⟩ := setCount_ok h; exact triv _ rfl
  | grant frm a m => obtain ⟨_, _, rfl⟩ := grant_ok h; exact triv _ rfl
  | revoke frm a => obtain ⟨_, _, _, _, rfl⟩ := revoke_ok h; exact triv _ rfl
  | block b =>
    obtain ⟨h1, h2, h3⟩ := baseTx_same hr.activeNodup h
    cases hs : s.status o with
    | none => exact triv t (by rw [h2 o hs, hs])
    | some st =>
      obtain ⟨st', hst', hv⟩ := h3 o st hs
      have : ¬ (Disabled s o ∧ ¬ Disabled t o) := by
        rintro ⟨⟨st1, ha, hb⟩, hc⟩
        rw [hs] at ha; cases ha
        have : st' = st := hv.off (by unfold VStatus.enabled; rw [hb]; rfl)
        subst this
        exact hc ⟨st', hst', hb⟩
      rw [if_neg this]
      simp [ecount, hs, hst', hv.cnt]

/-- **C32 (limited self-enabling).** In every part of a history in which governance does not
enable the validator, it returns from disabled to not disabled at most three times. -/
theorem C32_self_enable_limit {c : Config} {s : St} (hr : Reachable c s) (o : Addr)
    (ops : List Op) (hops : ∀ op ∈ ops, op ≠ .enable c.gov o) :
    reenabled c o s ops ≤ 3 := by
  have key : ∀ (ops : List Op) (s : St), Reachable c s → (∀ op ∈ ops, op ≠ .enable c.gov o) →
      ecount (run c s ops) o = reenabled c o s ops + ecount s o := by
    intro ops
    induction ops with
    | nil => intro s _ _; simp [run_nil, reenabled]
    | cons op ops ih =>
      intro s hr hops
      rw [run_cons, ih _ (hr.step op) (fun x hx => hops x (List.mem_cons_of_mem _ hx)),
        ecount_step hr.reg (hops op (by simp))]
      rw [reenabled]
      omega
  have h1 := key ops s hr hops
  have h2 : ecount (run c s ops) o ≤ 3 := by
    unfold ecount
    cases hs : (run c s ops).status o with
    | none => simp
    | some st => simpa [maxEnableCount] using (hr.run ops).reg.count o st hs
  omega

/-- **C32 (governance only).** Only governance registers validators; only governance or the
owner itself unregisters or enables one; only the owner changes its node key. -/
theorem C32_permissions {c : Config} {s t : St} :
    (∀ frm o pk gr nm url btp, exec c s (.register frm o pk gr nm url btp) = .ok t →
      frm = c.gov) ∧
    (∀ frm o, exec c s (.unregister frm o) = .ok t → frm = c.gov ∨ frm = o) ∧
    (∀ frm o, exec c s (.enable frm o) = .ok t → frm = c.gov ∨ frm = o) ∧
    (∀ frm pk btp o, exec c s (.setNodePublicKey frm pk btp) = .ok t →
      (t.info o).map (·.node) ≠ (s.info o).map (·.node) → frm = o) := by
  refine ⟨fun _ _ _ _ _ _ _ h => (register_ok h).1, fun _ _ h => (unregister_ok h).2.1,
    fun _ _ h => (enable_ok h).2.1, fun frm pk btp o h hne => ?_⟩
  by_contra hc
  obtain ⟨_, m, vi, st', _, _, _, hs', hd', ⟨_, rfl⟩ | ⟨_, hno, a, rfl, _⟩⟩ :=
    setNodePublicKey_ok h
  · exact hne rfl
  · exact hne (by simp [Function.update_of_ne (Ne.symm hc)])

end Verif.Havah.Val
