import Verif.Havah.Validators.Step

/-! # The registry invariant holds in every reachable state -/
namespace Verif.Havah.Val
open Verif.Havah

theorem addNode_ok {s t : St} {n o : Addr} (h : addNodeToOwner s n o = .ok t) :
    s.nodeOwner n = none ∧ t = { s with nodeOwner := Function.update s.nodeOwner n (some o) } := by
  unfold addNodeToOwner at h
  split at h
  · cases h
  · rename_i hn; cases h; exact ⟨hn, rfl⟩

/-- Effect of a successful registration on the registry. -/
theorem stRegister_ok {s t : St} {o n : Addr} {g : Grade} {nm url : String}
    (h : stRegister s o n g nm url = .ok t) :
    s.info o = none ∧ s.status o = none ∧ s.nodeOwner n = none ∧
    t = addToList { s with
      info := Function.update s.info o (some ⟨n, g, nm, url⟩)
      status := Function.update s.status o (some {})
      nodeOwner := Function.update s.nodeOwner n (some o) } g o := by
  unfold stRegister at h
  split at h
  · cases h
  rename_i h1
  split at h
  · cases h
  rename_i h2
  obtain ⟨s2, h3, h⟩ := bind_ok.mp h
  obtain ⟨h4, rfl⟩ := addNode_ok h3
  cases h
  exact ⟨h1, h2, h4, rfl⟩

theorem btpResult_ok {b : Option Bool} {s t : St} (h : btpResult b s = .ok t) : t = s := by
  unfold btpResult at h; split_ifs at h; cases h; rfl

theorem nodeOfKey_ok {c : Config} {pk : List UInt8} {n : Addr} (h : nodeOfKey c pk = .ok n) :
    pk.length = 33 ∧ c.parse pk = some n := by
  unfold nodeOfKey at h
  split_ifs at h with h1
  split at h
  · cases h
  · rename_i m hm; cases h; exact ⟨h1, hm⟩

theorem register_ok {c : Config} {s t : St} {frm o : Addr} {pk : List UInt8}
    {gr nm : String} {url : Option String} {btp : Option Bool}
    (h : register c s frm o pk gr nm url btp = .ok t) :
    frm = c.gov ∧ ∃ n g, pk.length = 33 ∧ c.parse pk = some n ∧ stringToGrade gr = some g ∧
      nm.utf8ByteSize ≤ 100 ∧ (url.getD "").utf8ByteSize ≤ 200 ∧
      stRegister s o n g nm (url.getD "") = .ok t := by
  unfold register at h
  by_cases h1 : frm ≠ c.gov
  · rw [if_pos h1] at h; cases h
  rw [if_neg h1] at h
  obtain ⟨n, hn, h⟩ := bind_ok.mp h
  obtain ⟨hl, hp⟩ := nodeOfKey_ok hn
  split at h
  · cases h
  rename_i g hg
  split_ifs at h with h2 h3
  obtain ⟨s1, hs, h⟩ := bind_ok.mp h
  cases btpResult_ok h
  exact ⟨by simpa using h1, n, g, hl, hp, hg, by unfold maxValidatorNameLen at h2; omega,
    by unfold maxValidatorUrlLen at h3; omega, hs⟩

theorem Reg.stRegister {s t : St} {o n : Addr} {g : Grade} {nm url : String} (h : Reg s)
    (he : stRegister s o n g nm url = .ok t) : Reg t := by
  obtain ⟨hi, hst, hno, rfl⟩ := stRegister_ok he
  have hnm : o ∉ s.main := fun hm => by
    obtain ⟨vi, st, h1, _⟩ := (h.mainIff o).mp hm; rw [hi] at h1; cases h1
  have hns : o ∉ s.sub := fun hm => by
    obtain ⟨vi, st, h1, _⟩ := (h.subIff o).mp hm; rw [hi] at h1; cases h1
  have hnd : o ∉ s.disq := fun hm => by
    obtain ⟨st, h1, _⟩ := (h.disqIff o).mp hm; rw [hst] at h1; cases h1
  -- facts not depending on the grade
  have core : ∀ (m' s' : List Addr),
      (∀ x, x ∈ m' ↔ x ∈ s.main ∨ (x = o ∧ g = .main)) →
      (∀ x, x ∈ s' ↔ x ∈ s.sub ∨ (x = o ∧ g = .sub)) → m'.Nodup → s'.Nodup →
      Reg { s with
        info := Function.update s.info o (some ⟨n, g, nm, url⟩)
        status := Function.update s.status o (some {})
        nodeOwner := Function.update s.nodeOwner n (some o)
        main := m', sub := s' } := by
    intro m' s' hm' hs' hmn hsn
    refine { h with
      infoStatus := fun x => ?_, nodeOwner := fun x vi hx => ?_, ownerInfo := fun m x hx => ?_
      mainIff := fun x => ?_, subIff := fun x => ?_, disqIff := fun x => ?_
      mainNodup := hmn, subNodup := hsn
      count := fun x st hx => ?_, mainEnabled := fun x vi st hx hx' hm => ?_ }
    · by_cases e : x = o
      · subst e; simp
      · simpa [Function.update_of_ne e] using h.infoStatus x
    · by_cases e : x = o
      · subst e
        simp only [Function.update_self, Option.some.injEq] at hx
        subst hx; simp
      · simp only [Function.update_of_ne e] at hx
        have := h.nodeOwner x vi hx
        have hne : vi.node ≠ n := by rintro rfl; rw [hno] at this; cases this
        simpa [Function.update_of_ne hne] using this
    · by_cases e : m = n
      · subst e
        simp only [Function.update_self, Option.some.injEq] at hx
        subst hx; simp
      · simp only [Function.update_of_ne e] at hx
        have := h.ownerInfo m x hx
        have hne : x ≠ o := by rintro rfl; rw [hi] at this; cases this
        simpa [Function.update_of_ne hne] using this
    · show x ∈ m' ↔ _
      rw [hm']
      by_cases e : x = o
      · subst e; simp [hnm]
      · simp only [Function.update_of_ne e, e, false_and, or_false]; exact h.mainIff x
    · show x ∈ s' ↔ _
      rw [hs']
      by_cases e : x = o
      · subst e; simp [hns]
      · simp only [Function.update_of_ne e, e, false_and, or_false]; exact h.subIff x
    · by_cases e : x = o
      · subst e; simp [hnd]
      · simpa only [Function.update_of_ne e] using h.disqIff x
    · by_cases e : x = o
      · subst e
        simp only [Function.update_self, Option.some.injEq] at hx
        subst hx; simp
      · simp only [Function.update_of_ne e] at hx; exact h.count x st hx
    · by_cases e : x = o
      · subst e
        simp only [Function.update_self, Option.some.injEq] at hx'
        subst hx'; rfl
      · simp only [Function.update_of_ne e] at hx hx'; exact h.mainEnabled x vi st hx hx' hm
  cases g with
  | main =>
    refine core (s.main ++ [o]) s.sub (fun x => by simp) (fun x => by simp) ?_ h.subNodup
    exact List.nodup_append.mpr ⟨h.mainNodup, by simp, fun a ha b hb => by
      simp only [List.mem_singleton] at hb; subst hb; rintro rfl; exact hnm ha⟩
  | sub =>
    refine core s.main (s.sub ++ [o]) (fun x => by simp) (fun x => by simp) h.mainNodup ?_
    exact List.nodup_append.mpr ⟨h.subNodup, by simp, fun a ha b hb => by
      simp only [List.mem_singleton] at hb; subst hb; rintro rfl; exact hns ha⟩

/-- Shape of a successful unregistration. -/
theorem unregister_ok {c : Config} {s t : St} {frm o : Addr}
    (h : unregister c s frm o = .ok t) :
    o.contract = false ∧ (frm = c.gov ∨ frm = o) ∧ ∃ st, s.status o = some st ∧
    ((st.disqualified = true ∧ t = s) ∨
     (st.disqualified = false ∧ ∃ vi m' s', s.info o = some vi ∧
       (vi.grade = .main ∧ removeFromArray s.main o = .ok m' ∧ s' = s.sub ∨
        vi.grade = .sub ∧ removeFromArray s.sub o = .ok s' ∧ m' = s.main) ∧
       t = { s with
         status := Function.update s.status o (some { st with disqualified := true })
         main := m', sub := s', disq := s.disq ++ [o], active := s.active.erase vi.node })) := by
  unfold unregister at h
  split_ifs at h with h1 h2
  have hfrm : frm = c.gov ∨ frm = o := by tauto
  obtain ⟨r, hr, h⟩ := bind_ok.mp h
  unfold stUnregister at hr
  rw [if_neg h1] at hr
  obtain ⟨st, hst, hr⟩ := bind_ok.mp hr
  rw [getStatus_ok] at hst
  refine ⟨by simpa using h1, hfrm, st, hst, ?_⟩
  by_cases hd : st.disqualified = true
  · rw [if_pos hd] at hr
    cases hr
    simp only at h; cases h
    exact .inl ⟨hd, rfl⟩
  · rw [if_neg hd] at hr
    dsimp only at hr
    obtain ⟨vi, hvi, hr⟩ := bind_ok.mp hr
    rw [getInfo_ok] at hvi
    obtain ⟨s2, hs2, hr⟩ := bind_ok.mp hr
    cases hr
    simp only at h; cases h
    refine .inr ⟨by simpa using hd, vi, ?_⟩
    unfold removeFromList at hs2
    cases hg : vi.grade with
    | main =>
      rw [hg] at hs2
      obtain ⟨l, hl, hs2⟩ := bind_ok.mp hs2
      cases hs2
      exact ⟨l, s.sub, hvi, .inl ⟨rfl, hl, rfl⟩, rfl⟩
    | sub =>
      rw [hg] at hs2
      obtain ⟨l, hl, hs2⟩ := bind_ok.mp hs2
      cases hs2
      exact ⟨s.main, l, hvi, .inr ⟨rfl, hl, rfl⟩, rfl⟩

theorem Reg.unregister {c : Config} {s t : St} {frm o : Addr} (h : Reg s)
    (he : unregister c s frm o = .ok t) : Reg t := by
  obtain ⟨_, _, st, hst, ⟨_, rfl⟩ | ⟨hd, vi, m', s', hvi, hl, rfl⟩⟩ := unregister_ok he
  · exact h
  have hm : m'.Nodup ∧ ∀ x, x ∈ m' ↔ x ∈ s.main ∧ x ≠ o := by
    rcases hl with ⟨_, hr, _⟩ | ⟨hg, _, rfl⟩
    · exact (removeFromArray_ok hr h.mainNodup).2
    · refine ⟨h.mainNodup, fun x => ⟨fun hx => ⟨hx, ?_⟩, fun hx => hx.1⟩⟩
      rintro rfl
      obtain ⟨vi', _, h1, _, h3, _⟩ := (h.mainIff x).mp hx
      rw [hvi] at h1; cases h1; rw [hg] at h3; cases h3
  have hs : s'.Nodup ∧ ∀ x, x ∈ s' ↔ x ∈ s.sub ∧ x ≠ o := by
    rcases hl with ⟨hg, _, rfl⟩ | ⟨_, hr, _⟩
    · refine ⟨h.subNodup, fun x => ⟨fun hx => ⟨hx, ?_⟩, fun hx => hx.1⟩⟩
      rintro rfl
      obtain ⟨vi', _, h1, _, h3, _⟩ := (h.subIff x).mp hx
      rw [hvi] at h1; cases h1; rw [hg] at h3; cases h3
    · exact (removeFromArray_ok hr h.subNodup).2
  have hnd : o ∉ s.disq := fun hm => by
    obtain ⟨st', h1, h2⟩ := (h.disqIff o).mp hm; rw [hst] at h1; cases h1; rw [hd] at h2; cases h2
  refine { h with
    infoStatus := fun x => ?_, mainIff := fun x => ?_, subIff := fun x => ?_
    disqIff := fun x => ?_, mainNodup := hm.1, subNodup := hs.1, disqNodup := ?_
    count := fun x st' hx => ?_, mainEnabled := fun x vi' st' hx hx' hg => ?_
    activeNodup := h.activeNodup.erase _ }
  · by_cases e : x = o
    · subst e; simpa using (h.infoStatus x).mpr (by rw [hst]; rfl)
    · simpa [Function.update_of_ne e] using h.infoStatus x
  · show x ∈ m' ↔ _
    rw [hm.2]
    by_cases e : x = o
    · subst e; simp
    · simp only [Function.update_of_ne e, ne_eq, e, not_false_eq_true, and_true]; exact h.mainIff x
  · show x ∈ s' ↔ _
    rw [hs.2]
    by_cases e : x = o
    · subst e; simp
    · simp only [Function.update_of_ne e, ne_eq, e, not_false_eq_true, and_true]; exact h.subIff x
  · by_cases e : x = o
    · subst e; simp
    · simp only [Function.update_of_ne e, List.mem_append, List.mem_singleton, e, or_false]
      exact h.disqIff x
  · exact List.nodup_append.mpr ⟨h.disqNodup, by simp, fun a ha b hb => by
      simp only [List.mem_singleton] at hb; subst hb; rintro rfl; exact hnd ha⟩
  · by_cases e : x = o
    · subst e
      simp only [Function.update_self, Option.some.injEq] at hx
      subst hx; exact h.count x st hst
    · simp only [Function.update_of_ne e] at hx; exact h.count x st' hx
  · by_cases e : x = o
    · subst e
      simp only [Function.update_self, Option.some.injEq] at hx'
      subst hx'; exact h.mainEnabled x vi' st hx hst hg
    · simp only [Function.update_of_ne e] at hx'; exact h.mainEnabled x vi' st' hx hx' hg

/-- Shape of a successful change of the node key. -/
theorem setNodePublicKey_ok {c : Config} {s t : St} {frm : Addr} {pk : List UInt8}
    {btp : Option Bool} (h : setNodePublicKey c s frm pk btp = .ok t) :
    frm.contract = false ∧ ∃ n vi st, pk.length = 33 ∧ c.parse pk = some n ∧
      s.info frm = some vi ∧ s.status frm = some st ∧ st.disqualified = false ∧
      ((vi.node = n ∧ t = s) ∨
       (vi.node ≠ n ∧ s.nodeOwner n = none ∧ ∃ a, t = { s with
          nodeOwner := Function.update s.nodeOwner n (some frm)
          info := Function.update s.info frm (some { vi with node := n })
          active := a } ∧
          ((vi.node ∉ s.active ∧ a = s.active) ∨
           (vi.node ∈ s.active ∧ n ∈ s.active ∧ a = s.active ∧ btp ≠ none) ∨
           (vi.node ∈ s.active ∧ n ∉ s.active ∧
             a = s.active.set (s.active.idxOf vi.node) n)))) := by
  unfold setNodePublicKey at h
  by_cases h1 : frm.contract = true
  · rw [if_pos h1] at h; cases h
  rw [if_neg h1] at h
  obtain ⟨n, hn, h⟩ := bind_ok.mp h
  obtain ⟨hl, hp⟩ := nodeOfKey_ok hn
  obtain ⟨⟨s1, old, new⟩, hr, h⟩ := bind_ok.mp h
  unfold stSetNodePublicKey at hr
  obtain ⟨vi, hvi, hr⟩ := bind_ok.mp hr
  obtain ⟨st, hst, hr⟩ := bind_ok.mp hr
  rw [getInfo_ok] at hvi
  rw [getStatus_ok] at hst
  split_ifs at hr with h2 h3
  · cases hr
    refine ⟨by simpa using h1, n, vi, st, hl, hp, hvi, hst, by simpa using h2, .inl ⟨h3, ?_⟩⟩
    have : replaceActiveNode s vi.node n = .ok s := by
      unfold replaceActiveNode; rw [if_pos h3]
    simp only [this] at h
    exact btpResult_ok h
  · obtain ⟨s2, hs2, hr⟩ := bind_ok.mp hr
    obtain ⟨h4, rfl⟩ := addNode_ok hs2
    cases hr
    refine ⟨by simpa using h1, n, vi, st, hl, hp, hvi, hst, by simpa using h2, .inr ⟨h3, h4, ?_⟩⟩
    unfold replaceActiveNode at h
    simp only [h3, if_false] at h
    by_cases hm : vi.node ∈ s.active
    · have hidx : indexOf s.active vi.node = some (s.active.idxOf vi.node) := by
        unfold indexOf; rw [if_pos hm]
      have hget : s.active[s.active.idxOf vi.node]? = some vi.node := List.getElem?_idxOf hm
      simp only [hidx, vsSetAt, hget, h3, if_false] at h
      by_cases hm2 : n ∈ s.active
      · simp only [hm2, if_true] at h
        change (if btp = none then Except.error VErr.illegalArgument else btpResult btp _) = _ at h
        split_ifs at h with h5
        cases btpResult_ok h
        exact ⟨_, rfl, .inr (.inl ⟨hm, hm2, rfl, h5⟩)⟩
      · simp only [hm2, if_false] at h
        cases btpResult_ok h
        exact ⟨_, rfl, .inr (.inr ⟨hm, hm2, rfl⟩)⟩
    · have hidx : indexOf s.active vi.node = none := indexOf_none.mpr hm
      simp only [hidx] at h
      cases btpResult_ok h
      exact ⟨_, rfl, .inl ⟨hm, rfl⟩⟩

theorem Reg.setInfo {s : St} (h : Reg s) {o : Addr} {vi vi' : VInfo} (hvi : s.info o = some vi)
    (hg : vi'.grade = vi.grade) {f : Addr → Option Addr}
    (hf : f vi'.node = some o) (hf1 : ∀ n x, s.nodeOwner n = some x → f n = some x)
    (hf2 : ∀ n x, f n = some x → s.nodeOwner n = some x ∨ x = o) {a : List Addr} (ha : a.Nodup) :
    Reg { s with
      info := Function.update s.info o (some vi')
      nodeOwner := f
      active := a } := by
  have hlist : ∀ (x : Addr) (g : Grade),
      (∃ v st, s.info x = some v ∧ s.status x = some st ∧ v.grade = g ∧
        st.disqualified = false) ↔
      ∃ v st, Function.update s.info o (some vi') x = some v ∧ s.status x = some st ∧
        v.grade = g ∧ st.disqualified = false := by
    intro x g
    by_cases e : x = o
    · subst e
      simp only [Function.update_self]
      constructor
      · rintro ⟨v, st, h1, h2, h3, h4⟩
        rw [hvi] at h1; cases h1
        exact ⟨vi', st, rfl, h2, hg.trans h3, h4⟩
      · rintro ⟨v, st, h1, h2, h3, h4⟩
        cases h1
        exact ⟨vi, st, hvi, h2, hg.symm.trans h3, h4⟩
    · simp only [Function.update_of_ne e]
  refine { h with
    infoStatus := fun x => ?_, nodeOwner := fun x v hx => ?_, ownerInfo := fun m x hx => ?_
    mainIff := fun x => (h.mainIff x).trans (hlist x .main)
    subIff := fun x => (h.subIff x).trans (hlist x .sub)
    mainEnabled := fun x v st hx hx' hm => ?_
    activeNodup := ha }
  · by_cases e : x = o
    · subst e; simpa using (h.infoStatus x).mp (by rw [hvi]; rfl)
    · simpa [Function.update_of_ne e] using h.infoStatus x
  · by_cases e : x = o
    · subst e
      simp only [Function.update_self, Option.some.injEq] at hx
      subst hx; exact hf
    · simp only [Function.update_of_ne e] at hx
      exact hf1 _ _ (h.nodeOwner x v hx)
  · by_cases e : x = o
    · subst e; simp
    · rcases hf2 m x hx with h1 | h1
      · simpa [Function.update_of_ne e] using h.ownerInfo m x h1
      · exact absurd h1 e
  · by_cases e : x = o
    · subst e
      simp only [Function.update_self, Option.some.injEq] at hx
      subst hx
      exact h.mainEnabled x vi st hvi hx' (hg.symm.trans hm)
    · simp only [Function.update_of_ne e] at hx
      exact h.mainEnabled x v st hx hx' hm

theorem Reg.setNodePublicKey {c : Config} {s t : St} {frm : Addr} {pk : List UInt8}
    {btp : Option Bool} (h : Reg s) (he : setNodePublicKey c s frm pk btp = .ok t) : Reg t := by
  obtain ⟨_, n, vi, st, _, _, hvi, _, _, ⟨_, rfl⟩ | ⟨hne, hno, a, rfl, ha⟩⟩ :=
    setNodePublicKey_ok he
  · exact h
  · have hnd : a.Nodup := by
      rcases ha with ⟨_, rfl⟩ | ⟨_, _, rfl, _⟩ | ⟨_, hm, rfl⟩
      · exact h.activeNodup
      · exact h.activeNodup
      · exact nodup_set h.activeNodup hm
    refine h.setInfo (vi' := { vi with node := n }) hvi rfl (by simp) (fun m x hx => ?_)
      (fun m x hx => ?_) hnd
    · have : m ≠ n := by rintro rfl; rw [hno] at hx; cases hx
      rw [Function.update_of_ne this]; exact hx
    · by_cases e : m = n
      · subst e
        simp only [Function.update_self, Option.some.injEq] at hx
        exact .inr hx.symm
      · rw [Function.update_of_ne e] at hx; exact .inl hx

theorem setInfoEntry_ok {vi vi' : VInfo} {kv : String × String}
    (h : setInfoEntry vi kv = .ok vi') : vi'.grade = vi.grade ∧ vi'.node = vi.node := by
  unfold setInfoEntry at h
  split_ifs at h <;> cases h <;> exact ⟨rfl, rfl⟩

theorem setInfo_fold : ∀ (l : List (String × String)) {vi vi' : VInfo},
    l.foldlM setInfoEntry vi = .ok vi' → vi'.grade = vi.grade ∧ vi'.node = vi.node
  | [], vi, vi', h => by cases h; exact ⟨rfl, rfl⟩
  | kv :: l, vi, vi', h => by
      rw [List.foldlM_cons] at h
      obtain ⟨v1, h1, h⟩ := bind_ok.mp h
      have a := setInfoEntry_ok h1
      have b := setInfo_fold l h
      exact ⟨b.1.trans a.1, b.2.trans a.2⟩

theorem setValidatorInfo_ok {s t : St} {frm : Addr} {values : List (String × String)}
    (h : setValidatorInfo s frm values = .ok t) : t = s ∨ ∃ vi vi', s.info frm = some vi ∧
      vi'.grade = vi.grade ∧ vi'.node = vi.node ∧
      t = { s with info := Function.update s.info frm (some vi') } := by
  unfold setValidatorInfo at h
  split_ifs at h
  · cases h; exact .inl rfl
  · unfold stSetInfo at h
    obtain ⟨vi, hvi, h⟩ := bind_ok.mp h
    obtain ⟨vi', hv', h⟩ := bind_ok.mp h
    cases h
    obtain ⟨a, b⟩ := setInfo_fold values hv'
    exact .inr ⟨vi, vi', getInfo_ok.mp hvi, a, b, rfl⟩

theorem Reg.setValidatorInfo {s t : St} {frm : Addr} {values : List (String × String)}
    (h : Reg s) (he : setValidatorInfo s frm values = .ok t) : Reg t := by
  rcases setValidatorInfo_ok he with rfl | ⟨vi, vi', hvi, hg, hn, rfl⟩
  · exact h
  · exact h.setInfo (vi' := vi') hvi hg (by rw [hn]; exact h.nodeOwner _ _ hvi)
      (fun _ _ hx => hx) (fun _ _ hx => .inl hx) h.activeNodup

/-- Shape of a successful `enableValidator`. -/
theorem enable_ok {c : Config} {s t : St} {frm o : Addr} (h : enable c s frm o = .ok t) :
    o.contract = false ∧ (frm = c.gov ∨ frm = o) ∧ ∃ st, s.status o = some st ∧
      st.disqualified = false ∧ ∃ n, t = { s with
        status := Function.update s.status o (some ⟨false, false, 0, n⟩) } ∧
      ((st.disabled = false ∧ n = st.enabledCount) ∨
       (st.disabled = true ∧ frm = c.gov ∧ n = 0) ∨
       (st.disabled = true ∧ frm ≠ c.gov ∧ st.enabledCount < maxEnableCount ∧
        n = st.enabledCount + 1)) := by
  unfold enable at h
  split_ifs at h with h1 h2
  refine ⟨by simpa using h1, by tauto, ?_⟩
  unfold stEnable at h
  obtain ⟨st, hst, h⟩ := bind_ok.mp h
  obtain ⟨st1, hst1, h⟩ := bind_ok.mp h
  cases h
  rw [getStatus_ok] at hst
  refine ⟨st, hst, ?_⟩
  unfold VStatus.enable VStatus.enabled at hst1
  rcases st with ⟨dis, dq, nv, ec⟩
  cases dq
  · refine ⟨rfl, ?_⟩
    cases dis
    · simp at hst1; subst hst1
      exact ⟨ec, rfl, .inl ⟨rfl, rfl⟩⟩
    · simp at hst1
      split_ifs at hst1 with h3 h4
      · cases hst1; exact ⟨0, rfl, .inr (.inl ⟨rfl, h3, rfl⟩)⟩
      · cases hst1; exact ⟨ec + 1, rfl, .inr (.inr ⟨rfl, h3, by simpa using h4, rfl⟩)⟩
  · simp at hst1

theorem Reg.enable {c : Config} {s t : St} {frm o : Addr} (h : Reg s)
    (he : enable c s frm o = .ok t) : Reg t := by
  obtain ⟨_, _, st, hst, hd, n, rfl, hn⟩ := enable_ok he
  have hcnt : n ≤ maxEnableCount := by
    rcases hn with ⟨_, rfl⟩ | ⟨_, _, rfl⟩ | ⟨_, _, h1, rfl⟩
    · exact h.count o st hst
    · exact Nat.zero_le _
    · omega
  have hlist : ∀ (x : Addr) (g : Grade),
      (∃ v st, s.info x = some v ∧ s.status x = some st ∧ v.grade = g ∧
        st.disqualified = false) ↔
      ∃ v st, s.info x = some v ∧ Function.update s.status o (some ⟨false, false, 0, n⟩) x = some st ∧
        v.grade = g ∧ st.disqualified = false := by
    intro x g
    by_cases e : x = o
    · subst e
      simp only [Function.update_self]
      constructor
      · rintro ⟨v, st', h1, h2, h3, h4⟩
        exact ⟨v, _, h1, rfl, h3, rfl⟩
      · rintro ⟨v, st', h1, h2, h3, h4⟩
        exact ⟨v, st, h1, hst, h3, hd⟩
    · simp only [Function.update_of_ne e]
  refine { h with
    infoStatus := fun x => ?_
    mainIff := fun x => (h.mainIff x).trans (hlist x .main)
    subIff := fun x => (h.subIff x).trans (hlist x .sub)
    disqIff := fun x => ?_
    count := fun x st' hx => ?_, mainEnabled := fun x v st' hx hx' hm => ?_ }
  · by_cases e : x = o
    · subst e; simpa using (h.infoStatus x).mpr (by rw [hst]; rfl)
    · simpa [Function.update_of_ne e] using h.infoStatus x
  · by_cases e : x = o
    · subst e
      rw [h.disqIff]
      simp [hst, hd]
    · simpa only [Function.update_of_ne e] using h.disqIff x
  · by_cases e : x = o
    · subst e
      simp only [Function.update_self, Option.some.injEq] at hx
      subst hx; exact hcnt
    · simp only [Function.update_of_ne e] at hx; exact h.count x st' hx
  · by_cases e : x = o
    · subst e
      simp only [Function.update_self, Option.some.injEq] at hx'
      subst hx'; rfl
    · simp only [Function.update_of_ne e] at hx'; exact h.mainEnabled x v st' hx hx' hm

theorem setParams_ok {c : Config} {s t : St} {frm : Addr} {p a : ℤ}
    (h : setParams c s frm p a = .ok t) : frm = c.gov ∧ 0 ≤ int64 p ∧ 0 ≤ int64 a ∧
      t = { s with period := int64 p, allowance := int64 a } := by
  unfold setParams stSetParams at h
  split_ifs at h with h1 h2 h3
  cases h
  exact ⟨by simpa using h1, by omega, by omega, rfl⟩

theorem setCount_ok {c : Config} {s t : St} {frm : Addr} {n : ℤ}
    (h : setCount c s frm n = .ok t) : frm = c.gov ∧ 0 < int64 n ∧ int64 n ≤ 1000 ∧
      t = { s with count := int64 n } := by
  unfold setCount at h
  dsimp only at h
  split_ifs at h with h1 h2
  cases h
  exact ⟨by simpa using h1, h2.1, h2.2, rfl⟩

theorem grant_ok {c : Config} {s t : St} {frm a : Addr} {m : Bool}
    (h : grant c s frm a m = .ok t) : frm = c.gov ∧ a.contract = false ∧
      t = { s with active := if a ∈ s.active then s.active else s.active ++ [a] } := by
  unfold grant at h
  split_ifs at h with h1 h2 h3
  cases h
  exact ⟨by simpa using h1, by simpa using h2, rfl⟩

theorem revoke_ok {c : Config} {s t : St} {frm a : Addr}
    (h : revoke c s frm a = .ok t) : frm = c.gov ∧ a.contract = false ∧ a ∈ s.active ∧
      s.active.erase a ≠ [] ∧ t = { s with active := s.active.erase a } := by
  unfold revoke vsRemove at h
  split_ifs at h with h1 h2 h3 h4
  cases h
  exact ⟨by simpa using h1, by simpa using h2, h3,
    fun e => h4 (by rw [e]; rfl), rfl⟩

/-- Every successful transaction preserves the registry invariant. -/
theorem Reg.exec {c : Config} {s t : St} {op : Op} (h : Reg s) (he : exec c s op = .ok t) :
    Reg t := by
  cases op with
  | register frm o pk gr nm url btp =>
    obtain ⟨_, n, g, _, _, _, _, _, h1⟩ := register_ok he
    exact h.stRegister h1
  | unregister frm o => exact Reg.unregister h he
  | setNodePublicKey frm pk btp => exact Reg.setNodePublicKey h he
  | setValidatorInfo frm v => exact Reg.setValidatorInfo h he
  | enable frm o => exact Reg.enable h he
  | setParams frm p a =>
    obtain ⟨_, h1, h2, rfl⟩ := setParams_ok he
    obtain ⟨_, _, a3, a4, a5⟩ := h.params
    exact { h with params := ⟨h1, h2, a3, a4, a5⟩ }
  | setCount frm n =>
    obtain ⟨_, h1, _, rfl⟩ := setCount_ok he
    obtain ⟨a1, a2, _, a4, a5⟩ := h.params
    exact { h with params := ⟨a1, a2, h1.le, a4, a5⟩, decCount := fun _ => h1 }
  | grant frm a m =>
    obtain ⟨_, _, rfl⟩ := grant_ok he
    refine { h with activeNodup := ?_ }
    show (if a ∈ s.active then s.active else s.active ++ [a]).Nodup
    split_ifs with hm
    · exact h.activeNodup
    · exact List.nodup_append.mpr ⟨h.activeNodup, by simp, fun x hx b hb => by
        simp only [List.mem_singleton] at hb; subst hb; rintro rfl; exact hm hx⟩
  | revoke frm a =>
    obtain ⟨_, _, _, _, rfl⟩ := revoke_ok he
    exact { h with activeNodup := h.activeNodup.erase a }
  | block b => exact Reg.baseTx h he

theorem step_cases (c : Config) (s : St) (op : Op) :
    (∃ t, exec c s op = .ok t ∧ step c s op = t) ∨
    ((∃ e, exec c s op = .error e) ∧ step c s op = s) := by
  unfold step
  cases h : exec c s op with
  | ok t => exact .inl ⟨t, rfl, rfl⟩
  | error e => exact .inr ⟨⟨e, rfl⟩, rfl⟩

theorem Reg.step {c : Config} {s : St} (h : Reg s) (op : Op) : Reg (step c s op) := by
  rcases step_cases c s op with ⟨t, he, ht⟩ | ⟨_, ht⟩
  · rw [ht]; exact h.exec he
  · rw [ht]; exact h

theorem run_nil (c : Config) (s : St) : run c s [] = s := rfl
theorem run_cons (c : Config) (s : St) (op : Op) (ops : List Op) :
    run c s (op :: ops) = run c (step c s op) ops := rfl
theorem run_append (c : Config) (s : St) (a b : List Op) :
    run c s (a ++ b) = run c (run c s a) b := List.foldl_append

theorem Reg.run {c : Config} {s : St} (h : Reg s) : ∀ ops, Reg (run c s ops) := by
  intro ops
  induction ops generalizing s with
  | nil => exact h
  | cons op ops ih => exact ih (h.step op)

theorem Reg.genesis {vals : List Addr} (h : vals.Nodup) : Reg (genesis vals) where
  infoStatus _ := by simp [Val.genesis]
  nodeOwner _ _ h := by cases h
  ownerInfo _ _ h := by cases h
  mainIff _ := by simp [Val.genesis]
  subIff _ := by simp [Val.genesis]
  disqIff _ := by simp [Val.genesis]
  mainNodup := List.nodup_nil
  subNodup := List.nodup_nil
  disqNodup := List.nodup_nil
  count _ _ h := by cases h
  mainEnabled _ _ _ h := by cases h
  activeNodup := h
  params := by simp [Val.genesis, defaultBlockVoteCheckPeriod, defaultNonVoteAllowance]
  decCount := by simp [Val.genesis]

theorem Reachable.reg {c : Config} {s : St} (h : Reachable c s) : Reg s := by
  obtain ⟨vals, ops, hn, rfl⟩ := h
  exact (Reg.genesis hn).run ops

theorem Reachable.run {c : Config} {s : St} (h : Reachable c s) (ops : List Op) :
    Reachable c (run c s ops) := by
  obtain ⟨vals, ops', hn, rfl⟩ := h
  exact ⟨vals, ops' ++ ops, hn, (run_append ..).symm⟩

theorem Reachable.step {c : Config} {s : St} (h : Reachable c s) (op : Op) :
    Reachable c (step c s op) := h.run [op]

end Verif.Havah.Val
