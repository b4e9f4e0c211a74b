import Verif.Havah.Economy.TermInv

/-! Every step of the chain preserves the invariants. -/
namespace Verif.Havah

theorem started_iff {h i : Int} : isIssueStarted h i = true ↔ 0 < i ∧ i ≤ h := by
  simp [isIssueStarted]

theorem not_started_iff {h i : Int} : isIssueStarted h i = false ↔ ¬ (0 < i ∧ i ≤ h) := by
  rw [← started_iff]; simp

/-! ### `Reg` and `Term` under changes of other fields -/

theorem Reg.frame {h : Int} {s s' : EState} (r : Reg h s) (hp : s'.planets = s.planets)
    (ha : s'.allPlanet = s.allPlanet) : Reg h s' :=
  ⟨by rw [hp, ha]; exact r.fin, by rw [ha]; exact r.le, by rw [hp]; exact r.nonneg,
   by rw [hp]; exact r.height⟩

theorem Running.frame {h : Int} {s s' : EState} {A W : Finset Int} (r : Running h s A W)
    (e1 : s'.planets = s.planets) (e2 : ∀ i, (getPlanetReward s' i).lastTN = (getPlanetReward s i).lastTN)
    (e3 : s'.issueStart = s.issueStart) (e4 : s'.termPeriodRaw = s.termPeriodRaw)
    (e6 : s'.active = s.active) (e7 : s'.working = s.working)
    (e8 : s'.rewardTotal = s.rewardTotal) (e9 : s'.rewardRemain = s.rewardRemain) :
    Running h s' A W := by
  have h1 : termStart s' h = termStart s h := by
    unfold termStart EState.termPeriod; rw [e3, e4]
  have h2 : termSeq s' h = termSeq s h := by unfold termSeq EState.termPeriod; rw [e3, e4]
  have h3 : rewardPerActivePlanet s' = rewardPerActivePlanet s := by
    unfold rewardPerActivePlanet; rw [e6, e8]
  refine ⟨by rw [e6]; exact r.active, by rw [e7]; exact r.working, r.sub, ?_, ?_, ?_⟩
  · rw [e1, h1]; exact r.old
  · rw [e1, h1, h2]; intro i p; rw [e2 i]; exact r.done i p
  · rw [e9, e8, h3, e7]; exact r.remain

theorem Term.frame {h : Int} {s s' : EState} (t : Term h s)
    (e1 : s'.planets = s.planets) (e2 : ∀ i, (getPlanetReward s' i).lastTN = (getPlanetReward s i).lastTN)
    (e3 : s'.issueStart = s.issueStart) (e4 : s'.termPeriodRaw = s.termPeriodRaw)
    (e5 : s'.issueLimitRaw = s.issueLimitRaw)
    (e6 : s'.active = s.active) (e7 : s'.working = s.working)
    (e8 : s'.rewardTotal = s.rewardTotal) (e9 : s'.rewardRemain = s.rewardRemain) :
    Term h s' := by
  have h2 : termSeq s' h = termSeq s h := by unfold termSeq EState.termPeriod; rw [e3, e4]
  have h5 : s'.issueLimit = s.issueLimit := by unfold EState.issueLimit; rw [e5]
  refine ⟨?_, ?_, ?_, ?_⟩
  · rw [e3, e6, e7, e8, e9]; intro hs
    obtain ⟨a, b, c, d, e⟩ := t.before hs
    exact ⟨a, b, c, d, fun i => by rw [e2]; exact e i⟩
  · rw [e3, h2]; intro hs i; rw [e2]; exact t.last hs i
  · rw [e3, h2, h5]; intro hs hl
    obtain ⟨A, W, r⟩ := t.running hs hl
    exact ⟨A, W, r.frame e1 e2 e3 e4 e6 e7 e8 e9⟩
  · rw [e3, h2, h5, e6]; exact t.after

theorem Inv.frame {h : Int} {s s' : EState} (i : Inv ⟨h, s⟩) (c : Core s')
    (e1 : s'.planets = s.planets) (e2 : ∀ i, (getPlanetReward s' i).lastTN = (getPlanetReward s i).lastTN)
    (e3 : s'.issueStart = s.issueStart) (e4 : s'.termPeriodRaw = s.termPeriodRaw)
    (e5 : s'.issueLimitRaw = s.issueLimitRaw)
    (e6 : s'.active = s.active) (e7 : s'.working = s.working)
    (e8 : s'.rewardTotal = s.rewardTotal) (e9 : s'.rewardRemain = s.rewardRemain)
    (e10 : s'.allPlanet = s.allPlanet) (e11 : s'.managers.Nodup) : Inv ⟨h, s'⟩ :=
  ⟨c, i.reg.frame e1 e10, i.term.frame e1 e2 e3 e4 e5 e6 e7 e8 e9, e11⟩

/-! ### Calls -/

theorem Inv.transfer {h : Int} {s s' : EState} (i : Inv ⟨h, s⟩) {a b : Addr} {x : Int}
    (ha : a.id ≠ publicTreasury.id) (ht : transfer s a b x = .ok s') : Inv ⟨h, s'⟩ := by
  obtain ⟨h0, h1, rfl⟩ := transfer_ok ht
  exact i.frame (i.core.move h0 (addr_id_of_eq h1) ha rfl) rfl (fun _ => rfl) rfl rfl rfl rfl rfl
    rfl rfl rfl i.mgr

theorem Inv.burn {h : Int} {s s' : EState} (i : Inv ⟨h, s⟩) {x : Int}
    (hb : burn s x = .ok s') : Inv ⟨h, s'⟩ := by
  obtain ⟨h0, h1, rfl⟩ := burn_ok' hb
  have hc : Core s := i.core
  have hs := hc.bal systemAddress.id
  refine i.frame ⟨?_, hc.cons.credited' systemAddress.id (-x) rfl (by simp only; omega), hc.issue, hc.start,
    hc.remain, hc.total, hc.eco, hc.lost, hc.rew, ?_⟩ rfl (fun _ => rfl) rfl rfl rfl rfl rfl
    rfl rfl rfl i.mgr
  · intro a
    have := hc.bal a
    simp only [credited]
    split
    · rename_i e; subst e; rcases h1 with h1 | h1 <;> omega
    · omega
  · intro S
    have := hc.solv S
    simp only [credited]
    rw [if_neg (fun e => ids_distinct.2.2.2.2.1 e.symm)]
    change ∑ i ∈ S, cur s i + s.rewardRemain + s.eco + s.lost ≤ _
    simpa using this

theorem Inv.register {h : Int} {s s' : EState} (i : Inv ⟨h, s⟩) {id : Int} {p : Planet}
    (hph : p.height = h) (hr : registerPlanet s id p = .ok s') : Inv ⟨h, s'⟩ := by
  obtain ⟨h0, h1, h2, rfl⟩ := register_ok hr
  have hc : Core s := i.core
  refine ⟨hc.frame rfl rfl hc.issue hc.start rfl rfl rfl rfl rfl, ⟨?_, ?_, ?_, ?_⟩, ?_, i.mgr⟩
  · obtain ⟨P, hP, hcard⟩ := i.reg.fin
    have hni : id ∉ P := by rw [hP, h1]; simp
    refine ⟨insert id P, ?_, ?_⟩
    · intro j
      simp only [Finset.mem_insert, hP, Function.update_apply]
      split <;> simp_all
    · rw [Finset.card_insert_of_notMem hni]; push_cast; rw [hcard]
  · simp only; omega
  · intro j q hj
    simp only [Function.update_apply] at hj
    split at hj
    · omega
    · exact i.reg.nonneg j q hj
  · intro j q hj
    simp only [Function.update_apply] at hj
    split at hj
    · cases hj; simp only; omega
    · exact i.reg.height j q hj
  · have ht : Term h s := i.term
    refine ⟨ht.before, ht.last, ?_, ht.after⟩
    intro hs hl
    obtain ⟨A, W, r⟩ := ht.running hs hl
    have hts : termStart s h ≤ h := by
      unfold termStart
      have := Int.ediv_mul_le (h - s.issueStart) (Int.ne_of_gt (termPeriod_pos s))
      omega
    refine ⟨A, W, r.active, r.working, r.sub, ?_, ?_, r.remain⟩
    · intro j q hj hq
      simp only [Function.update_apply] at hj
      split at hj
      · cases hj
        change p.height < termStart s h at hq
        omega
      · exact r.old j q hj hq
    · intro j q hj hq hw
      simp only [Function.update_apply] at hj
      split at hj
      · cases hj
        change p.height < termStart s h at hq
        omega
      · exact r.done j q hj hq hw

theorem Inv.unregister {h : Int} {s s' : EState} (i : Inv ⟨h, s⟩) {rev id : Int}
    (hu : unregisterPlanet s rev id = .ok s') : Inv ⟨h, s'⟩ := by
  have hcore := i.core.unregister hu
  obtain ⟨h0, h1, h2, _, e⟩ := unregister_ok hu
  have hpl : s'.planets = Function.update s.planets id none := by rw [e]
  have hlast : ∀ j, (getPlanetReward s' j).lastTN = (getPlanetReward s j).lastTN ∨
      (j = id ∧ (getPlanetReward s' j).lastTN = 0) := by
    intro j
    by_cases hrev : 2 ≤ rev
    · have hrw : s'.rewards = Function.update s.rewards id none := by rw [e]; simp [hrev]
      rw [getReward_update s id none j s' hrw]
      split
      · right; exact ⟨by assumption, rfl⟩
      · left; rfl
    · left; rw [e]; simp only [hrev, if_false]; rfl
  have e3 : s'.issueStart = s.issueStart := by rw [e]
  have e4 : s'.termPeriodRaw = s.termPeriodRaw := by rw [e]
  have e5 : s'.issueLimitRaw = s.issueLimitRaw := by rw [e]
  have e6 : s'.active = s.active := by rw [e]
  have e7 : s'.working = s.working := by rw [e]
  have e8 : s'.rewardTotal = s.rewardTotal := by rw [e]
  have e9 : s'.rewardRemain = s.rewardRemain := by rw [e]
  have e10 : s'.allPlanet = s.allPlanet - 1 := by rw [e]
  have e11 : s'.managers = s.managers := by rw [e]
  have k1 : termStart s' h = termStart s h := by
    unfold termStart EState.termPeriod; rw [e3, e4]
  have k2 : termSeq s' h = termSeq s h := by unfold termSeq EState.termPeriod; rw [e3, e4]
  have k3 : rewardPerActivePlanet s' = rewardPerActivePlanet s := by
    unfold rewardPerActivePlanet; rw [e6, e8]
  have k5 : s'.issueLimit = s.issueLimit := by unfold EState.issueLimit; rw [e5]
  have hmem : ∀ j q, s'.planets j = some q → j ≠ id ∧ s.planets j = some q := by
    intro j q hj
    rw [hpl, Function.update_apply] at hj
    split at hj
    · cases hj
    · exact ⟨by assumption, hj⟩
  refine ⟨hcore, ⟨?_, ?_, ?_, ?_⟩, ?_, by rw [e11]; exact i.mgr⟩
  · obtain ⟨P, hP, hcard⟩ := i.reg.fin
    have hin : id ∈ P := by rw [hP]; exact h1
    refine ⟨P.erase id, ?_, ?_⟩
    · intro j
      simp only [Finset.mem_erase, hP, hpl, Function.update_apply]
      split <;> simp_all
    · rw [e10]
      have := Finset.card_erase_add_one hin
      simp only at hcard; omega
  · have := i.reg.le; simp only at this ⊢; omega
  · intro j q hj; exact i.reg.nonneg j q (hmem j q hj).2
  · intro j q hj; exact i.reg.height j q (hmem j q hj).2
  · have ht : Term h s := i.term
    refine ⟨?_, ?_, ?_, ?_⟩
    · simp only; rw [e3, e6, e7, e8, e9]; intro hs
      obtain ⟨a, b, c, d, f⟩ := ht.before hs
      refine ⟨a, b, c, d, fun j => ?_⟩
      rcases hlast j with hj | ⟨_, hj⟩
      · rw [hj]; exact f j
      · omega
    · simp only; rw [e3, k2]; intro hs j
      rcases hlast j with hj | ⟨_, hj⟩
      · rw [hj]; exact ht.last hs j
      · rw [hj]
        have h3 := started_iff.mp hs
        have : 0 ≤ termSeq s h := Int.ediv_nonneg (by omega) (Int.le_of_lt (termPeriod_pos s))
        omega
    · simp only; rw [e3, k2, k5]; intro hs hl
      obtain ⟨A, W, r⟩ := ht.running hs hl
      refine ⟨A, W, by rw [e6]; exact r.active, by rw [e7]; exact r.working, r.sub, ?_, ?_, ?_⟩
      · intro j q hj hq; rw [k1] at hq; exact r.old j q (hmem j q hj).2 hq
      · intro j q hj hq hw
        rw [k1] at hq; rw [k2]
        rcases hlast j with hj' | ⟨hj', _⟩
        · rw [hj']; exact r.done j q (hmem j q hj).2 hq hw
        · exact absurd hj' (hmem j q hj).1
      · rw [e9, e8, k3, e7]; exact r.remain
    · simp only; rw [e3, k2, k5, e6]; exact ht.after

theorem Inv.setOwner {h : Int} {s s' : EState} (i : Inv ⟨h, s⟩) {id : Int} {o : Addr}
    (hu : setPlanetOwner s id o = .ok s') : Inv ⟨h, s'⟩ := by
  obtain ⟨p, h0, h1, rfl⟩ := setOwner_ok hu
  have hc : Core s := i.core
  have hmem : ∀ j q, Function.update s.planets id (some { p with owner := o }) j = some q →
      ∃ q', s.planets j = some q' ∧ q'.height = q.height := by
    intro j q hj
    rw [Function.update_apply] at hj
    split at hj
    · rename_i e; subst e; cases hj; exact ⟨p, h1, rfl⟩
    · exact ⟨q, hj, rfl⟩
  refine ⟨hc.frame rfl rfl hc.issue hc.start rfl rfl rfl rfl rfl, ⟨?_, i.reg.le, ?_, ?_⟩, ?_, i.mgr⟩
  · obtain ⟨P, hP, hcard⟩ := i.reg.fin
    refine ⟨P, ?_, hcard⟩
    intro j
    simp only [hP, Function.update_apply]
    split <;> simp_all
  · intro j q hj
    obtain ⟨q', h2, _⟩ := hmem j q hj
    exact i.reg.nonneg j q' h2
  · intro j q hj
    obtain ⟨q', h2, h3⟩ := hmem j q hj
    rw [← h3]; exact i.reg.height j q' h2
  · have ht : Term h s := i.term
    refine ⟨ht.before, ht.last, ?_, ht.after⟩
    intro hs hl
    obtain ⟨A, W, r⟩ := ht.running hs hl
    refine ⟨A, W, r.active, r.working, r.sub, ?_, ?_, r.remain⟩
    · intro j q hj hq
      obtain ⟨q', h2, h3⟩ := hmem j q hj
      exact r.old j q' h2 (by rw [h3]; exact hq)
    · intro j q hj hq hw
      obtain ⟨q', h2, h3⟩ := hmem j q hj
      exact r.done j q' h2 (by rw [h3]; exact hq) hw

theorem Inv.report {h : Int} {s s' : EState} (i : Inv ⟨h, s⟩) {id : Int}
    (hr : reportPlanetWork s h id = .ok s') : Inv ⟨h, s'⟩ := by
  obtain ⟨p, H, rfl⟩ := report_ok hr
  refine ⟨i.core.report H, i.reg.frame rfl rfl, ?_, i.mgr⟩
  have ht : Term h s := i.term
  have hget : ∀ j, getPlanetReward (reported s h id p) j =
      if j = id then ⟨(getPlanetReward s id).total + credit s p id, termSeq s h + 1,
        (getPlanetReward s id).current + (credit s p id - ecoPart s p id)⟩
      else getPlanetReward s j := fun j => by
    rw [getReward_update s id _ j (reported s h id p) rfl]; rfl
  refine ⟨?_, ?_, ?_, ht.after⟩
  · intro hs
    have := H.started
    simp only [reported] at hs
    rw [this] at hs; cases hs
  · intro hs j
    rw [hget]
    split
    · exact le_refl _
    · exact ht.last hs j
  · intro hs hl
    obtain ⟨A, W, r⟩ := ht.running hs hl
    have hA : id ∈ A := r.old id p H.planet H.old
    have hW : id ∉ W := by
      intro hw
      have := r.done id p H.planet H.old hw
      have := H.fresh
      omega
    refine ⟨A, insert id W, r.active, ?_, ?_, r.old, ?_, ?_⟩
    · rw [Finset.card_insert_of_notMem hW]; push_cast; rw [r.working]; rfl
    · intro j hj
      rcases Finset.mem_insert.mp hj with e | hj
      · rw [e]; exact hA
      · exact r.sub hj
    · intro j q hj hq hw
      rw [hget]
      split
      · exact le_refl _
      · rename_i hne
        exact r.done j q hj hq ((Finset.mem_insert.mp hw).resolve_left hne)
    · have hrem := r.remain
      have : rewardPerActivePlanet (reported s h id p) = rewardPerActivePlanet s := rfl
      rw [this]
      simp only [reported]
      rw [hrem]; ring

theorem Inv.claim {h : Int} {s : EState} (i : Inv ⟨h, s⟩) (owner : Addr) (ids : List Int) :
    Inv ⟨h, claimLoop owner ids s⟩ := by
  have := claimLoop_induct (P := fun s => Inv ⟨h, s⟩) owner (fun s id p c hc hP _ _ hpos hle => by
    refine hP.frame (hc.claimed (by omega) hle) rfl (fun j => ?_) rfl rfl rfl rfl rfl rfl rfl rfl hP.mgr
    rw [getReward_update s id _ j (claimed s id owner c) rfl]
    split
    · rename_i e; rw [e]; rfl
    · rfl) ids s i.core i
  exact this.2

theorem Inv.withdrawLost {h : Int} {s s' : EState} (i : Inv ⟨h, s⟩) {dst : Addr}
    (hw : withdrawLostTo s dst = .ok s') :
    Inv ⟨h, s'⟩ ∧ dst.contract = false ∧
      s' = { s with lost := 0, bal := moved s.bal publicTreasury.id dst.id s.lost } := by
  have hc : Core s := i.core
  have h1 := hc.liab_nonneg
  have h2 := hc.remain
  have h3 := hc.eco
  have h4 := hc.lost
  unfold withdrawLostTo deleteLost at hw
  split at hw
  · cases hw
  rename_i hcon
  simp only at hw
  have hs' : s' = { s with lost := 0, bal := moved s.bal publicTreasury.id dst.id s.lost } := by
    split at hw
    · obtain ⟨_, _, rfl⟩ := transfer_ok hw; rfl
    · cases hw
      have : s.lost = 0 := by omega
      rw [this, moved_zero]
  refine ⟨?_, by simpa using hcon, hs'⟩
  subst hs'
  refine i.frame (hc.pay (b := dst.id) (x := s.lost) h4 (by omega) rfl rfl rfl rfl rfl h2 h3
    (le_refl _) hc.rew ?_) rfl (fun _ => rfl) rfl rfl rfl rfl rfl rfl rfl rfl i.mgr
  intro S
  have := hc.solv S
  change ∑ i ∈ S, cur s i + s.rewardRemain + s.eco + 0 + s.lost ≤ _
  omega

theorem findIdx_append_skip {a : Addr} {l1 l2 : List Addr} (h : ∀ x ∈ l1, a ≠ x) :
    List.findIdx (fun m => a == m) (l1 ++ l2) = l1.length + List.findIdx (fun m => a == m) l2 := by
  induction l1 with
  | nil => simp
  | cons x l ih =>
    have hx : (a == x) = false := by simpa using h x (by simp)
    rw [List.cons_append, List.findIdx_cons, hx, ih (fun y hy => h y (by simp [hy]))]
    simp; omega

theorem remove_ok {s s' : EState} {a : Addr} (h : removePlanetManager s a = .ok s') :
    ∃ l, s' = { s with managers := l } ∧ (s.managers.Nodup → l.Nodup ∧ ∀ x, x ∈ l ↔ x ∈ s.managers ∧ x ≠ a) ∧
      a ∈ s.managers := by
  unfold removePlanetManager at h
  simp only at h
  split at h
  · rename_i hi
    split at h
    · cases h
    rename_i last hlast
    cases h
    refine ⟨_, rfl, ?_, ?_⟩
    · intro hnd
      obtain ⟨l, hl⟩ : ∃ l, s.managers = l ++ [last] := by
        rw [List.getLast?_eq_some_iff] at hlast; exact hlast
      rw [hl] at hnd hi ⊢
      simp only [List.dropLast_concat, List.length_append, List.length_singleton,
        Nat.add_sub_cancel] at hi ⊢
      rw [List.nodup_append] at hnd
      obtain ⟨hnl, _, hdis⟩ := hnd
      have hln : last ∉ l := fun hm => hdis last hm last (by simp) rfl
      by_cases hal : a ∈ l
      · obtain ⟨l1, l2, hsp, ha1⟩ : ∃ l1 l2, l = l1 ++ a :: l2 ∧ a ∉ l1 := by
          obtain ⟨l1, l2, h1, h2⟩ := List.append_of_mem hal |> fun ⟨x, y, h⟩ => List.eq_append_cons_of_mem hal
          exact ⟨l1, l2, h1, h2⟩
        have hidx : List.findIdx (fun m => a == m) (l ++ [last]) = l1.length := by
          rw [hsp, List.append_assoc, findIdx_append_skip]
          · simp [List.findIdx_cons]
          · intro x hx e; exact ha1 (e ▸ hx)
        rw [hidx]
        rw [if_pos (by rw [hsp]; simp)]
        have hset : l.set l1.length last = l1 ++ last :: l2 := by
          rw [hsp]; simp
        rw [hset]
        rw [hsp] at hnl hln
        have ha2 : a ∉ l2 := by
          rw [List.nodup_append] at hnl
          exact (List.nodup_cons.mp hnl.2.1).1
        constructor
        · rw [List.nodup_append] at hnl ⊢
          obtain ⟨n1, n2, n3⟩ := hnl
          refine ⟨n1, ?_, ?_⟩
          · rw [List.nodup_cons] at n2 ⊢
            exact ⟨fun hm => hln (by simp [hm]), n2.2⟩
          · intro x hx y hy
            rcases List.mem_cons.mp hy with e | hy
            · intro e'; exact hln (by rw [← e, ← e']; simp [hx])
            · exact n3 x hx y (by simp [hy])
        · intro x
          have hla : last ≠ a := fun e => hln (by rw [e]; simp)
          rw [hsp]
          simp only [List.mem_append, List.mem_cons, List.not_mem_nil, or_false]
          constructor
          · rintro (hx | rfl | hx)
            · exact ⟨by simp [hx], fun e => ha1 (e ▸ hx)⟩
            · exact ⟨by simp, hla⟩
            · exact ⟨by simp [hx], fun e => ha2 (e ▸ hx)⟩
          · rintro ⟨(hx | rfl | hx) | rfl, hne⟩
            · simp [hx]
            · exact absurd rfl hne
            · simp [hx]
            · simp
      · have hidx : List.findIdx (fun m => a == m) (l ++ [last]) = l.length + List.findIdx (fun m => a == m) [last] := by
          rw [findIdx_append_skip]
          intro x hx e; exact hal (e ▸ hx)
        rw [hidx] at hi ⊢
        rw [if_neg (by omega)]
        have hla : a = last := by
          have : List.findIdx (fun m => a == m) [last] < 1 := by omega
          rw [List.findIdx_cons] at this
          by_contra hne
          have : (a == last) = false := by simpa using hne
          simp_all
        refine ⟨hnl, fun x => ?_⟩
        simp only [List.mem_append, List.mem_cons, List.not_mem_nil, or_false]
        constructor
        · intro hx; exact ⟨Or.inl hx, fun e => hal (e ▸ hx)⟩
        · rintro ⟨hx | rfl, hne⟩
          · exact hx
          · exact absurd hla.symm hne
    · have := List.findIdx_lt_length.mp hi
      obtain ⟨x, hx, he⟩ := this
      simp only [beq_iff_eq] at he
      exact he ▸ hx
  · cases h

end Verif.Havah
