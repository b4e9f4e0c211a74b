import Verif.Havah.Validators.PropsBlock

/-! # C34: term starts, and who is in the active set -/
namespace Verif.Havah.Val
open Verif.Havah Spec

theorem termStart_init {s t : St} {b : Block} (h : termStart s b = .ok t)
    (hd : t.net.decentralized = true) (hn : s.active.Nodup) :
    ∃ ns, initActive { s with net := ns } b.hasKey = .ok t ∧
      ns = ⟨true, s.period, s.allowance, s.count⟩ ∧ ns.decentralized = true ∧
      (s.net.decentralized = true ∨ isDecentralizationPossible s b.rev = true) := by
  rcases termStart_state h hn with ⟨rfl, h0⟩ | ⟨_, _, _, _, hor⟩
  · rw [h0] at hd; cases hd
  unfold termStart at h
  dsimp only at h
  by_cases hd : s.net.decentralized = true
  · simp only [hd, Bool.not_true, Bool.false_and, Bool.false_eq_true, if_false, if_true] at h
    obtain ⟨s2, h2, h⟩ := bind_ok.mp h
    rcases renew_state h2 with ⟨_, h3⟩ | ⟨_, rfl⟩
    · rw [hd] at h3; cases h3
    · exact ⟨_, h, rfl, rfl, .inl hd⟩
  · have hd' : s.net.decentralized = false := by simpa using hd
    have hp : isDecentralizationPossible s b.rev = true := by
      rcases hor with h | h
      · exact absurd h hd
      · exact h
    simp only [hd', hp, Bool.not_false, Bool.true_and, if_true] at h
    obtain ⟨s2, h2, h⟩ := bind_ok.mp h
    rcases renew_state h2 with ⟨_, h3⟩ | ⟨_, rfl⟩
    · cases h3
    · exact ⟨_, h, rfl, rfl, .inr hp⟩

theorem not_enabled_of_disabled {s : St} {o : Addr} (h : Disabled s o) : ¬ Enabled s o := by
  rintro ⟨st, h1, h2, _⟩
  obtain ⟨st', h3, h4⟩ := h
  rw [h1] at h3; cases h3; rw [h2] at h4; cases h4

/-- **C34 (term start).** After the first block of a term of a decentralised network: the
active validators are distinct, at most as many as the configured count, each is the current
node of a registered validator that was enabled when the term started and has its key; if there
are fewer than the count, no enabled sub validator with its key is left out; the main validators
come first: if any sub validator is active or the main validators fit, every main validator with
its key is active. -/
theorem C34_term_start {c : Config} {s t : St} (hr : Reachable c s) {b : Block}
    (hb : b.index = 0) (h : exec c s (.block b) = .ok t) (hd : t.net.decentralized = true) :
    t.active.Nodup ∧ (t.active.length : ℤ) ≤ s.count ∧
    (∀ n ∈ t.active, b.hasKey n = true ∧ ∃ o vi, t.info o = some vi ∧ vi.node = n ∧ Enabled s o) ∧
    ((t.active.length : ℤ) < s.count → ∀ n, Eligible t b.hasKey [] n → n ∈ t.active) ∧
    (((s.main.length : ℤ) ≤ s.count ∨
        ∃ n ∈ t.active, ∃ o vi, t.info o = some vi ∧ vi.node = n ∧ vi.grade = .sub) →
      ∀ o vi, t.info o = some vi → vi.grade = .main → ¬ Disqualified s o →
        b.hasKey vi.node = true → vi.node ∈ t.active) := by
  have hreg := hr.reg
  have h' : baseTx s b = .ok t := h
  unfold baseTx at h'
  rw [if_pos hb] at h'
  obtain ⟨s1, hs1, h'⟩ := bind_ok.mp h'
  have hr1 : Reg s1 := hreg.termStart hs1
  -- the votes do not change the network status
  have hd1 : s1.net.decentralized = true := by
    by_contra hc
    have : (s1.net.decentralized && timeToCheck b.index s.net.period) = false := by
      simp [hc]
    rw [this] at h'
    cases h'
    exact hc hd
  obtain ⟨ns, hinit, hns, hnd, _⟩ := termStart_init hs1 hd1 hreg.activeNodup
  have hregN : Reg { s with net := ns } := by
    refine { hreg with params := ?_, decCount := ?_ }
    · obtain ⟨a1, a2, a3, _, _⟩ := hreg.params
      rw [hns]; exact ⟨a1, a2, a3, a1, a2⟩
    · intro _
      show 1 ≤ s.count
      have := hr1.decCount hd1
      obtain ⟨i, a, rfl, _⟩ := initActive_state hinit hreg.activeNodup
      exact this
  obtain ⟨mains, subs, hact, hmains, hsubnd, hsubel, hle, hfew⟩ := initActive_spec hregN hinit
  obtain ⟨i0, a0, hs1eq, _⟩ := initActive_state hinit hreg.activeNodup
  have hinfo1 : s1.info = s.info := by rw [hs1eq]
  have hstat1 : s1.status = s.status := by rw [hs1eq]
  have hown1 : s1.nodeOwner = s.nodeOwner := by rw [hs1eq]
  change mains = ((s.main.filterMap fun o => (s.info o).map (·.node)).filter b.hasKey).take
    s.count.toNat at hmains
  change (mains.length : ℤ) + subs.length ≤ s.count at hle
  change (mains.length : ℤ) + subs.length < s.count → _ at hfew
  have hsubel' : ∀ x ∈ subs, Eligible s b.hasKey [] x := hsubel
  have hfew' : (mains.length : ℤ) + subs.length < s.count → ∀ x, Eligible s b.hasKey [] x →
    x ∈ subs := hfew
  -- members of the set made at the term start
  have hmain_mem : ∀ n ∈ mains, b.hasKey n = true ∧ ∃ o vi, s.info o = some vi ∧ vi.node = n ∧
      vi.grade = .main ∧ Enabled s o := by
    intro n hn
    rw [hmains] at hn
    obtain ⟨h1, h2⟩ := List.mem_filter.mp (List.mem_of_mem_take hn)
    obtain ⟨o, ho, hon⟩ := List.mem_filterMap.mp h1
    obtain ⟨vi, st, hvi, hst, hg, hq⟩ := (hreg.mainIff o).mp ho
    rw [hvi] at hon
    simp only [Option.map_some, Option.some.injEq] at hon
    exact ⟨h2, o, vi, hvi, hon, hg, st, hst, hreg.mainEnabled o vi st hvi hst hg, hq⟩
  have hmain_all : (mains.length : ℤ) < s.count ∨ (s.main.length : ℤ) ≤ s.count →
      ∀ o vi, s.info o = some vi → vi.grade = .main →
      ¬ Disqualified s o → b.hasKey vi.node = true → vi.node ∈ mains := by
    intro hlen o vi hvi hg hq hk
    have hst : ∃ st, s.status o = some st := by
      have := (hreg.infoStatus o).mp (by rw [hvi]; rfl)
      exact Option.isSome_iff_exists.mp this
    obtain ⟨st, hst⟩ := hst
    have hq' : st.disqualified = false := by
      by_contra hc; exact hq ⟨st, hst, by simpa using hc⟩
    have ho : o ∈ s.main := (hreg.mainIff o).mpr ⟨vi, st, hvi, hst, hg, hq'⟩
    have hin : vi.node ∈ (s.main.filterMap fun o => (s.info o).map (·.node)).filter b.hasKey :=
      List.mem_filter.mpr ⟨List.mem_filterMap.mpr ⟨o, ho, by rw [hvi]; rfl⟩, hk⟩
    rw [hmains, List.take_of_length_le]
    · exact hin
    · rcases hlen with hlen | hlen
      · by_contra hc
        rw [hmains, List.length_take] at hlen
        omega
      · have h1 := List.length_filter_le b.hasKey
          (s.main.filterMap fun o => (s.info o).map (·.node))
        have h2 := List.length_filterMap_le (fun o => (s.info o).map (·.node)) s.main
        omega
  have hcur : ∀ n ∈ s1.active, b.hasKey n = true ∧ ∃ o vi, s.info o = some vi ∧ vi.node = n ∧
      Enabled s o ∧ (n ∈ mains → vi.grade = .main) ∧ (n ∈ subs → vi.grade = .sub) := by
    intro n hn
    have huniq : ∀ o o' vi vi', s.info o = some vi → s.info o' = some vi' → vi.node = n →
        vi'.node = n → vi = vi' := by
      intro o o' vi vi' h1 h2 h3 h4
      have e1 := hreg.nodeOwner o vi h1
      have e2 := hreg.nodeOwner o' vi' h2
      rw [h3] at e1; rw [h4, e1] at e2
      cases e2; rw [h1] at h2; exact Option.some.inj h2
    rw [hact, List.mem_append] at hn
    rcases hn with hn | hn
    · obtain ⟨hk, o, vi, h1, h2, h3, h4⟩ := hmain_mem n hn
      refine ⟨hk, o, vi, h1, h2, h4, fun _ => h3, fun hsub => ?_⟩
      obtain ⟨o', vi', g1, g2, g3, _⟩ := hsubel' n hsub
      rw [huniq o o' vi vi' h1 g1 h2 g2]; exact g3
    · obtain ⟨o, vi, g1, g2, g3, g4, g5, _⟩ := hsubel' n hn
      refine ⟨g5, o, vi, g1, g2, g4, fun hm => ?_, fun _ => g3⟩
      obtain ⟨_, o', vi', h1, h2, h3, h4⟩ := hmain_mem n hm
      rw [huniq o o' vi vi' g1 h1 g2 h2]; exact h3
  have hlen1 : (s1.active.length : ℤ) = mains.length + subs.length := by
    rw [hact, List.length_append]; push_cast; rfl
  have hsub_room : subs ≠ [] → (mains.length : ℤ) < s.count := by
    intro hne
    have := List.length_pos_iff.mpr hne
    omega
  by_cases hc : (s1.net.decentralized && timeToCheck b.index s.net.period) = true
  swap
  · rw [if_neg hc] at h'
    cases h'
    rw [hinfo1]
    refine ⟨hr1.activeNodup, by omega, fun n hn => ?_, fun hlt n hn => ?_, ?_⟩
    · obtain ⟨hk, o, vi, h1, h2, h3, _⟩ := hcur n hn
      exact ⟨hk, o, vi, h1, h2, h3⟩
    · rw [hact, List.mem_append]
      exact .inr (hfew' (by omega) n ((eligible_congr hinfo1 hstat1).mp hn))
    · intro hor o vi hvi hg hq hk
      rw [hact, List.mem_append]
      refine .inl (hmain_all ?_ o vi hvi hg hq hk)
      rcases hor with hor | ⟨n, hn, o', vi', g1, g2, g3⟩
      · exact .inr hor
      · refine .inl (hsub_room ?_)
        rintro rfl
        rw [List.append_nil] at hact
        rw [hact] at hn
        obtain ⟨_, o2, vi2, e1, e2, e3, _⟩ := hmain_mem n hn
        have f1 := hreg.nodeOwner o2 vi2 e1
        have f2 := hreg.nodeOwner o' vi' g1
        rw [e2] at f1; rw [g2, f1] at f2
        cases f2; rw [e1] at g1; cases g1; rw [e3] at g3; cases g3
  rw [if_pos hc] at h'
  rcases handle_members hr1 b.hasKey b.votes with ⟨e, he⟩ | ⟨idx, adds, a1, a2, a3, a4, hall⟩
  · rw [he] at h'; cases h'
  obtain ⟨a, h1, hnd', hperm, _⟩ := hall b.order
  rw [h1] at h'
  have ht := (Except.ok.inj h').symm
  have hrel := checkVotes_rel b.votes s1
  have htact : t.active = a := by rw [ht]
  have htst : t.status = (checkVotes s1 b.votes).1.status := by rw [ht]
  have hcin : (checkVotes s1 b.votes).1.info = s1.info := (votes_same hrel).info
  have htin : t.info = s.info := by rw [ht, ← hinfo1]; exact hcin
  have hdis : ∀ o, Disabled (checkVotes s1 b.votes).1 o ↔ Disabled t o := by
    intro o; unfold Disabled; rw [htst]
  have hen : ∀ o, Enabled t o → Enabled s o := by
    intro o ho
    have h2 : Enabled (checkVotes s1 b.votes).1 o := by
      unfold Enabled at ho ⊢; rw [← htst]; exact ho
    have h3 := enabled_of_step hrel h2
    unfold Enabled at h3 ⊢; rw [hstat1] at h3; exact h3
  have hmem : ∀ x, x ∈ a ↔ (x ∈ s1.active ∧ x ∉ (checkVotes s1 b.votes).2) ∨ x ∈ adds := by
    intro x; rw [hperm.mem_iff, List.mem_append, List.mem_filter]; simp
  have hlen : (s1.active.filter (· ∈ (checkVotes s1 b.votes).2)).length +
      (s1.active.filter (· ∉ (checkVotes s1 b.votes).2)).length = s1.active.length := by
    rw [← List.countP_eq_length_filter, ← List.countP_eq_length_filter,
      List.length_eq_countP_add_countP (fun x => decide (x ∈ (checkVotes s1 b.votes).2))]
    congr 1
    apply List.countP_congr; intro x _; simp
  have hla : a.length = (s1.active.filter (· ∉ (checkVotes s1 b.votes).2)).length +
      adds.length := by
    rw [hperm.length_eq, List.length_append]
  have hadd : ∀ x ∈ adds, Eligible t b.hasKey s1.active x := by
    intro x hx
    exact (eligible_congr (by rw [htin, hcin, hinfo1]) htst).mpr (a2 x hx)
  -- a penalised current node belongs to a disabled validator
  have hpen : ∀ o vi, s.info o = some vi → vi.node ∈ (checkVotes s1 b.votes).2 →
      Disabled t o := by
    intro o vi hvi hp
    obtain ⟨o', e1, _, _, e4⟩ := checkVotes_pen b.votes s1 hp
    rw [hown1, hreg.nodeOwner o vi hvi] at e1
    cases e1
    exact (hdis o).mp e4
  have hregt : Reg t := hreg.baseTx h
  have hmain_en : ∀ o vi, s.info o = some vi → vi.grade = .main →
      vi.node ∉ (checkVotes s1 b.votes).2 := by
    intro o vi hvi hg hp
    obtain ⟨st, h2, h3⟩ := hpen o vi hvi hp
    have := hregt.mainEnabled o vi st (by rw [htin]; exact hvi) h2 hg
    rw [this] at h3; cases h3
  rw [htact, htin]
  refine ⟨hnd', by omega, fun n hn => ?_, fun hlt n hn => ?_, ?_⟩
  · rcases (hmem n).mp hn with ⟨h2, _⟩ | h2
    · obtain ⟨hk, o, vi, h1, h2, h3, _⟩ := hcur n h2
      exact ⟨hk, o, vi, h1, h2, h3⟩
    · obtain ⟨o, vi, g1, g2, _, g4, g5, _⟩ := hadd n h2
      rw [htin] at g1
      exact ⟨g5, o, vi, g1, g2, hen o g4⟩
  · obtain ⟨o, vi, g1, g2, g3, g4, g5, _⟩ := hn
    rw [htin] at g1
    rw [hmem]
    by_cases hin : n ∈ s1.active
    · refine .inl ⟨hin, fun hp => ?_⟩
      rw [← g2] at hp
      exact not_enabled_of_disabled (hpen o vi g1 hp) g4
    · right
      have hel : Eligible (checkVotes s1 b.votes).1 b.hasKey s1.active n :=
        ⟨o, vi, by rw [hcin, hinfo1]; exact g1, g2, g3, by
          unfold Enabled at g4 ⊢; rw [← htst]; exact g4, g5, hin⟩
      by_cases hsh : adds.length < (s1.active.filter (· ∈ (checkVotes s1 b.votes).2)).length
      · exact a4 hsh n hel
      · -- the set kept its size, so it was short from the start
        exfalso
        have : (mains.length : ℤ) + subs.length < s.count := by omega
        have hmem' := hfew' this n ⟨o, vi, g1, g2, g3, hen o g4, g5, by simp⟩
        exact hin (by rw [hact, List.mem_append]; exact .inr hmem')
  · intro hor o vi hvi hg hq hk
    rw [hmem]
    refine .inl ⟨?_, hmain_en o vi hvi hg⟩
    rw [hact, List.mem_append]
    refine .inl (hmain_all ?_ o vi hvi hg hq hk)
    rcases hor with hor | ⟨n, hn, o', vi', g1, g2, g3⟩
    · exact .inr hor
    · refine .inl (hsub_room ?_)
      rintro rfl
      rw [List.append_nil] at hact
      -- no sub validator was active, so none was penalised and none added
      have hnone : s1.active.filter (· ∈ (checkVotes s1 b.votes).2) = [] := by
        rw [List.filter_eq_nil_iff]
        intro x hx
        simp only [decide_eq_true_eq]
        rw [hact] at hx
        obtain ⟨_, o2, vi2, e1, e2, e3, _⟩ := hmain_mem x hx
        rw [← e2]; exact hmain_en o2 vi2 e1 e3
      have hadds : adds = [] := by
        apply List.length_eq_zero_iff.mp
        rw [hnone] at a3; simpa using a3
      subst hadds
      rcases (hmem n).mp hn with ⟨h2, _⟩ | h2
      · rw [hact] at h2
        obtain ⟨_, o2, vi2, e1, e2, e3, _⟩ := hmain_mem n h2
        have f1 := hreg.nodeOwner o2 vi2 e1
        have f2 := hreg.nodeOwner o' vi' g1
        rw [e2] at f1; rw [g2, f1] at f2
        cases f2; rw [e1] at g1; cases g1; rw [e3] at g3; cases g3
      · simp at h2

/-! ### Membership is kept by every transaction except a grant -/

/-- Every consensus validator is the current node of a validator that is not unregistered. -/
def AllCurrent (s : St) : Prop := ∀ n ∈ s.active, CurrentNode s n

theorem decentralized_exec {c : Config} {s t : St} {op : Op} (hr : Reg s)
    (h : exec c s op = .ok t) (hd : s.net.decentralized = true) :
    t.net.decentralized = true := by
  cases op with
  | register frm o pk gr nm url btp =>
    obtain ⟨_, n, g, _, _, _, _, _, h1⟩ := register_ok h
    unfold stRegister at h1
    split at h1
    · cases h1
    split at h1
    · cases h1
    obtain ⟨s2, h2, h1⟩ := bind_ok.mp h1
    obtain ⟨_, rfl⟩ := addNode_ok h2
    cases h1
    cases g <;> exact hd
  | unregister frm o =>
    obtain ⟨_, _, st, _, ⟨_, rfl⟩ | ⟨_, vi, m', s', _, _, rfl⟩⟩ := unregister_ok h
    · exact hd
    · exact hd
  | setNodePublicKey frm pk btp =>
    obtain ⟨_, n, vi, st, _, _, _, _, _, ⟨_, rfl⟩ | ⟨_, _, a, rfl, _⟩⟩ := setNodePublicKey_ok h
    · exact hd
    · exact hd
  | setValidatorInfo frm v =>
    rcases setValidatorInfo_ok h with rfl | ⟨_, _, _, _, _, rfl⟩ <;> exact hd
  | enable frm o =>
    obtain ⟨_, _, st, _, _, n, rfl, _⟩ := enable_ok h
    exact hd
  | setParams frm p a => obtain ⟨_, _, _, rfl⟩ := setParams_ok h; exact hd
  | setCount frm n => obtain ⟨_, _, _, rfl⟩ := setCount_ok h; exact hd
  | grant frm a m => obtain ⟨_, _, rfl⟩ := grant_ok h; exact hd
  | revoke frm a => obtain ⟨_, _, _, _, rfl⟩ := revoke_ok h; exact hd
  | block b =>
    obtain ⟨s1, hs1, _, hs⟩ := baseTx_shape hr.activeNodup h
    have hd1 : s1.net.decentralized = true := by
      rcases hs1 with rfl | ⟨_, _, rfl⟩
      · exact hd
      · rfl
    rcases hs with ⟨_, i, a, rfl⟩ | ⟨_, rfl⟩
    · obtain ⟨f, hf, _⟩ := checkVotes_rel b.votes s1
      rw [hf]; exact hd1
    · exact hd1

theorem disq_of_same {s t : St} {o : Addr}
    (h : ∀ st', t.status o = some st' → st'.disqualified = true →
      ∃ st, s.status o = some st ∧ st.disqualified = true) :
    ¬ Disqualified s o → ¬ Disqualified t o := by
  rintro h1 ⟨st', h2, h3⟩
  exact h1 (h st' h2 h3)

theorem current_block {c : Config} {s t : St} (hr : Reachable c s) {b : Block}
    (h : exec c s (.block b) = .ok t) {n : Addr} (hn : CurrentNode s n) : CurrentNode t n := by
  obtain ⟨hsame, h0, h1⟩ := baseTx_same hr.reg.activeNodup h
  obtain ⟨o, vi, hvi, hnode, hq⟩ := hn
  refine ⟨o, vi, by rw [hsame.info]; exact hvi, hnode, disq_of_same ?_ hq⟩
  intro st' e1 e2
  cases hs : s.status o with
  | none => rw [h0 o hs] at e1; cases e1
  | some st =>
    obtain ⟨st'', e3, e4⟩ := h1 o st hs
    rw [e1] at e3; cases e3
    exact ⟨st, rfl, by rw [← e4.disq]; exact e2⟩

theorem enabled_current {c : Config} {s t : St} (hr : Reachable c s) {b : Block}
    (h : exec c s (.block b) = .ok t) {o n : Addr} {vi : VInfo} (hvi : t.info o = some vi)
    (hn : vi.node = n) (he : Enabled s o) : CurrentNode t n := by
  obtain ⟨hsame, _, _⟩ := baseTx_same hr.reg.activeNodup h
  refine current_block hr h ⟨o, vi, by rw [← hsame.info]; exact hvi, hn, ?_⟩
  rintro ⟨st, h1, h2⟩
  obtain ⟨st', h3, _, h4⟩ := he
  rw [h1] at h3; cases h3; rw [h2] at h4; cases h4

theorem allCurrent_exec {c : Config} {s t : St} {op : Op} (hr : Reachable c s)
    (hop : ∀ frm a m, op ≠ .grant frm a m) (h : exec c s op = .ok t)
    (hd : s.net.decentralized = true) (ha : AllCurrent s) : AllCurrent t := by
  have hreg := hr.reg
  -- a change of the record or status of an owner that keeps the node and the flag
  cases op with
  | register frm o pk gr nm url btp =>
    obtain ⟨_, n, g, _, _, _, _, _, h1⟩ := register_ok h
    unfold stRegister at h1
    split at h1
    · cases h1
    rename_i hno
    split at h1
    · cases h1
    obtain ⟨s2, h2, h1⟩ := bind_ok.mp h1
    obtain ⟨_, rfl⟩ := addNode_ok h2
    have hact : t.active = s.active ∧ t.info = Function.update s.info o (some ⟨n, g, nm, url.getD ""⟩)
        ∧ t.status = Function.update s.status o (some {}) := by
      cases h1; cases g <;> exact ⟨rfl, rfl, rfl⟩
    intro x hx
    rw [hact.1] at hx
    obtain ⟨o', vi, hvi, hnode, hq⟩ := ha x hx
    have hne : o' ≠ o := by rintro rfl; rw [hno] at hvi; cases hvi
    refine ⟨o', vi, by rw [hact.2.1, Function.update_of_ne hne]; exact hvi, hnode, ?_⟩
    unfold Disqualified
    rw [hact.2.2, Function.update_of_ne hne]; exact hq
  | unregister frm o =>
    obtain ⟨_, _, st, hst, ⟨_, rfl⟩ | ⟨_, vi, m', s', hvi, _, rfl⟩⟩ := unregister_ok h
    · exact ha
    · intro x hx
      have hx' := (hreg.activeNodup.mem_erase_iff).mp hx
      obtain ⟨o', vi', hvi', hnode, hq⟩ := ha x hx'.2
      have hne : o' ≠ o := by
        rintro rfl; rw [hvi] at hvi'; cases hvi'; exact hx'.1 hnode.symm
      refine ⟨o', vi', hvi', hnode, ?_⟩
      unfold Disqualified
      simp only [Function.update_of_ne hne]; exact hq
  | setNodePublicKey frm pk btp =>
    obtain ⟨_, n, vi, st, _, _, hvi, hst, hq, ⟨_, rfl⟩ | ⟨hvn, hnone, a, rfl, hor⟩⟩ :=
      setNodePublicKey_ok h
    · exact ha
    have hnact : n ∉ s.active := by
      intro hn
      obtain ⟨o', vi', hvi', hnode, _⟩ := ha n hn
      have := hreg.nodeOwner o' vi' hvi'
      rw [hnode, hnone] at this; cases this
    -- any other active node keeps its owner
    have hother : ∀ x, x ∈ s.active → x ≠ vi.node → CurrentNode { s with
        nodeOwner := Function.update s.nodeOwner n (some frm)
        info := Function.update s.info frm (some { vi with node := n })
        active := a } x := by
      intro x hx hxn
      obtain ⟨o', vi', hvi', hnode, hq'⟩ := ha x hx
      have hne : o' ≠ frm := by
        rintro rfl; rw [hvi] at hvi'; cases hvi'; exact hxn hnode.symm
      exact ⟨o', vi', by simp only [Function.update_of_ne hne]; exact hvi', hnode, hq'⟩
    rcases hor with ⟨h1, rfl⟩ | ⟨_, h2, _⟩ | ⟨h1, _, rfl⟩
    · intro x hx
      exact hother x hx (by rintro rfl; exact h1 hx)
    · exact absurd h2 hnact
    · intro x hx
      have hget : s.active[s.active.idxOf vi.node]? = some vi.node := List.getElem?_idxOf h1
      rcases (mem_set_iff hreg.activeNodup hget hnact x).mp hx with rfl | ⟨h3, h4⟩
      · refine ⟨frm, { vi with node := x }, Function.update_self .., rfl, ?_⟩
        rintro ⟨st', h5, h6⟩
        change s.status frm = _ at h5
        rw [hst] at h5; cases h5; rw [hq] at h6; cases h6
      · exact hother x h3 h4
  | setValidatorInfo frm v =>
    rcases setValidatorInfo_ok h with rfl | ⟨vi, vi', hvi, _, hnode, rfl⟩
    · exact ha
    · intro x hx
      obtain ⟨o', vi2, hvi2, hnode2, hq⟩ := ha x hx
      by_cases hne : o' = frm
      · subst hne
        rw [hvi] at hvi2; cases hvi2
        exact ⟨o', vi', Function.update_self .., hnode.trans hnode2, hq⟩
      · exact ⟨o', vi2, by simp only [Function.update_of_ne hne]; exact hvi2, hnode2, hq⟩
  | enable frm o =>
    obtain ⟨_, _, st, hst, hq0, n, rfl, _⟩ := enable_ok h
    intro x hx
    obtain ⟨o', vi2, hvi2, hnode2, hq⟩ := ha x hx
    refine ⟨o', vi2, hvi2, hnode2, disq_of_same ?_ hq⟩
    intro st' e1 e2
    by_cases hne : o' = o
    · subst hne
      simp only [Function.update_self, Option.some.injEq] at e1
      subst e1; cases e2
    · simp only [Function.update_of_ne hne] at e1
      exact ⟨st', e1, e2⟩
  | setParams frm p a => obtain ⟨_, _, _, rfl⟩ := setParams_ok h; exact ha
  | setCount frm n => obtain ⟨_, _, _, rfl⟩ := setCount_ok h; exact ha
  | grant frm a m => exact absurd rfl (hop frm a m)
  | revoke frm a =>
    obtain ⟨_, _, _, _, rfl⟩ := revoke_ok h
    intro x hx
    exact ha x (List.mem_of_mem_erase hx)
  | block b =>
    by_cases hb : b.index = 0
    · have hdt := decentralized_exec hreg h hd
      obtain ⟨_, _, h3, _⟩ := C34_term_start hr hb h hdt
      intro x hx
      obtain ⟨_, o, vi, e1, e2, e3⟩ := h3 x hx
      exact enabled_current hr h e1 e2 e3
    · obtain ⟨_, _, _, h4, _⟩ := C34_block hr hb h
      intro x hx
      by_cases hin : x ∈ s.active
      · exact current_block hr h (ha x hin)
      · obtain ⟨o, vi, e1, e2, _, e4, _⟩ := h4 x hx hin
        refine ⟨o, vi, e1, e2, ?_⟩
        rintro ⟨st, q1, q2⟩
        obtain ⟨st', q3, _, q4⟩ := e4
        rw [q1] at q3; cases q3; rw [q2] at q4; cases q4

/-- **C34 (members).** From the first term start of the decentralised network on, as long as
governance grants no validator by hand, every consensus validator is the current node of a
registered validator that has not been unregistered — through key changes, penalties,
unregistrations and term changes. -/
theorem C34_members {c : Config} {s : St} (hr : Reachable c s) {b : Block} (hb : b.index = 0)
    {t : St} (h : exec c s (.block b) = .ok t) (hd : t.net.decentralized = true)
    (ops : List Op) (hops : ∀ op ∈ ops, ∀ frm a m, op ≠ .grant frm a m) :
    ∀ n ∈ (run c t ops).active, CurrentNode (run c t ops) n := by
  have hrt : Reachable c t := by
    have := hr.step (.block b)
    unfold step at this; rw [h] at this; exact this
  have hstart : AllCurrent t := by
    obtain ⟨_, _, h3, _⟩ := C34_term_start hr hb h hd
    intro x hx
    obtain ⟨_, o, vi, e1, e2, e3⟩ := h3 x hx
    exact enabled_current hr h e1 e2 e3
  have gen : ∀ (ops : List Op) (t : St), Reachable c t → t.net.decentralized = true →
      AllCurrent t → (∀ op ∈ ops, ∀ frm a m, op ≠ .grant frm a m) →
      AllCurrent (run c t ops) := by
    intro ops
    induction ops with
    | nil => intro t _ _ h _; exact h
    | cons op ops ih =>
      intro t hr hd ha hops
      rw [run_cons]
      refine ih _ (hr.step op) ?_ ?_ (fun o ho => hops o (by simp [ho]))
      · rcases step_cases c t op with ⟨t', h1, h2⟩ | ⟨_, h2⟩
        · rw [h2]; exact decentralized_exec hr.reg h1 hd
        · rw [h2]; exact hd
      · rcases step_cases c t op with ⟨t', h1, h2⟩ | ⟨_, h2⟩
        · rw [h2]; exact allCurrent_exec hr (hops op (by simp)) h1 hd ha
        · rw [h2]; exact ha
  exact gen ops t hrt hd hstart hops

/-- **C34 (negative: unregistered consensus validators).** If a consensus validator belongs to
no registered validator (it was there at genesis or was granted by governance), the first block
of every term of a decentralised network fails, whatever the block contains. -/
theorem C34_unowned_validator_blocks_term {c : Config} {s : St} (hr : Reachable c s)
    (hd : s.net.decentralized = true) {n : Addr} (hn : n ∈ s.active)
    (hno : s.nodeOwner n = none) {b : Block} (hb : b.index = 0) :
    ∃ e, exec c s (.block b) = .error e := by
  have hreg := hr.reg
  cases h : exec c s (.block b) with
  | error e => exact ⟨e, rfl⟩
  | ok t =>
    exfalso
    have h' : baseTx s b = .ok t := h
    unfold baseTx at h'
    rw [if_pos hb] at h'
    obtain ⟨s1, hs1, _⟩ := bind_ok.mp h'
    have hr1 : Reg s1 := hreg.termStart hs1
    have hd1 : s1.net.decentralized = true := by
      rcases termStart_state hs1 hreg.activeNodup with ⟨rfl, _⟩ | ⟨_, _, rfl, _⟩
      · exact hd
      · rfl
    obtain ⟨ns, hinit, _⟩ := termStart_init hs1 hd1 hreg.activeNodup
    unfold initActive at hinit
    obtain ⟨nodes, hnodes, hinit⟩ := bind_ok.mp hinit
    obtain ⟨⟨s2, subs⟩, h2, hinit⟩ := bind_ok.mp hinit
    dsimp only at hinit
    have hs2 : ∃ i, s2 = { s with net := ns, svIndex := i } := by
      split_ifs at h2
      · obtain ⟨i, rfl⟩ := getNextActive_state h2; exact ⟨i, rfl⟩
      · cases h2; exact ⟨_, rfl⟩
    obtain ⟨i, rfl⟩ := hs2
    by_cases hc : changedHaveOwner { s with net := ns, svIndex := i } (nodes ++ subs) = true
    swap
    · rw [if_neg hc] at hinit; cases hinit
    rw [if_pos hc] at hinit
    obtain ⟨a, ha, hinit⟩ := bind_ok.mp hinit
    obtain ⟨rfl, _⟩ := vsSet_nodup ha hreg.activeNodup
    have hact : s1.active = nodes ++ subs := by cases hinit; rfl
    have hown1 : s1.nodeOwner = s.nodeOwner := by cases hinit; rfl
    unfold changedHaveOwner at hc
    simp only [Bool.and_eq_true, List.all_eq_true, Bool.or_eq_true, decide_eq_true_eq] at hc
    rcases hc.1 n hn with hin | hown
    · -- nodes of the new set are nodes of registered validators
      have hregN : Reg { s with net := ns } := by
        have hreg2 := hr1
        refine { hreg with params := ?_, decCount := ?_ }
        · obtain ⟨_, hns, _⟩ := termStart_init hs1 hd1 hreg.activeNodup
          obtain ⟨a1, a2, a3, a4, a5⟩ := hr1.params
          have e : s1 = { s with net := ns, svIndex := i, active := nodes ++ subs } := by
            cases hinit; rfl
          rw [e] at a1 a2 a3 a4 a5
          exact ⟨a1, a2, a3, a4, a5⟩
        · intro _; exact hreg.decCount hd
      have hinit' : initActive { s with net := ns } b.hasKey = .ok s1 := by
        obtain ⟨ns', hi', hns', _⟩ := termStart_init hs1 hd1 hreg.activeNodup
        have e : ns = s1.net := by cases hinit; rfl
        have e' : ns' = s1.net := by
          obtain ⟨_, _, rfl, _⟩ := initActive_state hi' hreg.activeNodup; rfl
        rw [e, ← e']; exact hi'
      obtain ⟨mains, subs', hact', hm, _, hel, _⟩ := initActive_spec hregN hinit'
      rw [← hact, hact', List.mem_append] at hin
      rcases hin with hin | hin
      · rw [hm] at hin
        obtain ⟨h1, _⟩ := List.mem_filter.mp (List.mem_of_mem_take hin)
        obtain ⟨o, _, ho⟩ := List.mem_filterMap.mp h1
        change (s.info o).map (·.node) = some n at ho
        obtain ⟨vi, hvi, rfl⟩ := Option.map_eq_some_iff.mp ho
        rw [hreg.nodeOwner o vi hvi] at hno; cases hno
      · obtain ⟨o, vi, hvi, rfl, _⟩ := hel n hin
        change s.info o = some vi at hvi
        rw [hreg.nodeOwner o vi hvi] at hno; cases hno
    · change (s.nodeOwner n).isSome = true at hown
      rw [hno] at hown; cases hown

/-- **C34 (determinism with one penalty).** If a block within a term removes at most one
consensus validator, its result — including every position — does not depend on the iteration
order. -/
theorem C34_order_single {c : Config} {s t : St} (hr : Reachable c s) {b : Block}
    (hb : b.index ≠ 0) (h : exec c s (.block b) = .ok t)
    (hone : ∀ n ∈ s.active, ∀ n' ∈ s.active, n ∉ t.active → n' ∉ t.active → n = n')
    (io : IterOrder) : exec c s (.block { b with order := io }) = .ok t := by
  have hreg := hr.reg
  have h' : baseTx s b = .ok t := h
  show baseTx s { b with order := io } = .ok t
  unfold baseTx at h' ⊢
  rw [if_neg hb] at h'
  simp only [if_neg hb] at h' ⊢
  obtain ⟨s1, hs1, h'⟩ := bind_ok.mp h'
  cases hs1
  simp only [show ∀ (f : St → M St), (Except.ok s >>= f) = f s from fun _ => rfl]
  by_cases hc : (s.net.decentralized && timeToCheck b.index s.net.period) = true
  swap
  · rw [if_neg hc] at h' ⊢; exact h'
  rw [if_pos hc] at h' ⊢
  rcases handle_members hreg b.hasKey b.votes with ⟨e, he⟩ | ⟨idx, adds, a1, a2, a3, a4, hall⟩
  · rw [he] at h'; cases h'
  obtain ⟨a, h1, hnd, hperm, _⟩ := hall b.order
  have hact : (checkVotes s b.votes).1.active = s.active := by
    obtain ⟨f, hf, _⟩ := checkVotes_rel b.votes s; rw [hf]
  have htact : t.active = a := by
    have := h'; rw [h1] at this; rw [← Except.ok.inj this]
  have hout : ∀ n ∈ s.active, n ∈ (checkVotes s b.votes).2 → n ∉ t.active := by
    intro n hn hp hin
    rw [htact, hperm.mem_iff, List.mem_append, List.mem_filter] at hin
    rcases hin with ⟨_, h2⟩ | h2
    · simp [hp] at h2
    · obtain ⟨_, _, _, _, _, _, _, hna⟩ := a2 n h2; exact hna hn
  obtain ⟨hmap, hkeys⟩ := penalizedMap_spec (active := (checkVotes s b.votes).1.active)
    (by rw [hact]; exact hreg.activeNodup) (checkVotes s b.votes).2
  have hlen : (penalizedMap (checkVotes s b.votes).1.active (checkVotes s b.votes).2).length ≤ 1 := by
    by_contra hgt
    match hm : penalizedMap (checkVotes s b.votes).1.active (checkVotes s b.votes).2 with
    | [] => rw [hm] at hgt; simp at hgt
    | [_] => rw [hm] at hgt; simp at hgt
    | (i, n) :: (j, n') :: rest =>
      rw [hm] at hmap hkeys
      obtain ⟨p1, q1⟩ := (hmap i n).mp (by simp)
      obtain ⟨p2, q2⟩ := (hmap j n').mp (by simp)
      rw [hact] at q1 q2
      have m1 := List.mem_of_getElem? q1
      have m2 := List.mem_of_getElem? q2
      have : n = n' := hone n m1 n' m2 (hout n m1 p1) (hout n' m2 p2)
      subst this
      obtain ⟨b1, b1'⟩ := List.getElem?_eq_some_iff.mp q1
      obtain ⟨b2, b2'⟩ := List.getElem?_eq_some_iff.mp q2
      have hij : i = j := (List.Nodup.getElem_inj_iff hreg.activeNodup).mp (b1'.trans b2'.symm)
      subst hij
      simp at hkeys
  have hord : ∀ (io : IterOrder),
      io.ord (penalizedMap (checkVotes s b.votes).1.active (checkVotes s b.votes).2) =
        penalizedMap (checkVotes s b.votes).1.active (checkVotes s b.votes).2 := by
    intro io
    have hp := io.perm (penalizedMap (checkVotes s b.votes).1.active (checkVotes s b.votes).2)
    generalize penalizedMap (checkVotes s b.votes).1.active (checkVotes s b.votes).2 = m at *
    match m, hlen with
    | [], _ => exact List.perm_nil.mp hp
    | [x], _ => exact List.perm_singleton.mp hp
  rw [← h']
  unfold handleBlockVote replacePenalized
  dsimp only
  rw [hord, hord]

end Verif.Havah.Val
