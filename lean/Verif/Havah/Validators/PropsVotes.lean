import Verif.Havah.Validators.PropsRegistry

/-! # C33: who is penalised by block votes -/
namespace Verif.Havah.Val
open Verif.Havah Spec

/-! ### The votes that concern one validator -/

/-- The votes of a block that concern one owner. -/
def votesFor (s : St) (o : Addr) (votes : List (Addr × Bool)) : List Bool :=
  votes.filterMap fun nv => if s.nodeOwner nv.1 = some o then some nv.2 else none

/-- Status of a validator after a list of its votes. -/
def foldVotes (g : Grade) (al : ℤ) : VStatus → List Bool → VStatus
  | st, [] => st
  | st, v :: vs => foldVotes g al (if st.enabled then (voteStatus st g al v).1 else st) vs

theorem checkVotes_status : ∀ (votes : List (Addr × Bool)) (s : St) (o : Addr) (vi : VInfo)
    (st : VStatus), s.info o = some vi → s.status o = some st →
    (checkVotes s votes).1.status o =
      some (foldVotes vi.grade s.net.allowance st (votesFor s o votes))
  | [], s, o, vi, st, _, hst => by
      unfold checkVotes; simpa [votesFor, foldVotes] using hst
  | (n, v) :: rest, s, o, vi, st, hvi, hst => by
      by_cases ho : s.nodeOwner n = some o
      · have e : votesFor s o ((n, v) :: rest) = v :: votesFor s o rest := by
          simp [votesFor, ho]
        rw [e, foldVotes]
        unfold checkVotes
        by_cases hen : st.enabled = true
        · have hv : onBlockVote s n v = some ({ s with status := (Function.update s.status o
                (some (voteStatus st vi.grade s.net.allowance v).1)) },
              (voteStatus st vi.grade s.net.allowance v).2, o) := by
            unfold onBlockVote; simp only [ho, hvi, hst, hen, if_true]
          simp only [hv, hen, if_true]
          exact checkVotes_status rest _ o vi _ hvi (Function.update_self ..)
        · have hv : onBlockVote s n v = some (s, false, o) := by
            unfold onBlockVote; simp only [ho, hvi, hst, hen]; rfl
          simp only [hv, hen]
          exact checkVotes_status rest s o vi st hvi hst
      · have e : votesFor s o ((n, v) :: rest) = votesFor s o rest := by
          simp [votesFor, ho]
        rw [e]
        unfold checkVotes
        split
        · exact checkVotes_status rest s o vi st hvi hst
        · rename_i s1 p o' h
          have hne : o' ≠ o ∧ ∃ f, s1 = { s with status := f } ∧ f o = s.status o := by
            unfold onBlockVote at h
            split at h
            · cases h
            rename_i ow how
            have hwo : ow ≠ o := by rintro rfl; exact ho how
            split at h
            · cases h
            split at h
            · cases h
            split_ifs at h
            · cases h
              exact ⟨hwo, _, rfl, Function.update_of_ne (Ne.symm hwo) ..⟩
            · cases h
              exact ⟨hwo, s.status, rfl, rfl⟩
          obtain ⟨_, f, rfl, hf⟩ := hne
          exact checkVotes_status rest _ o vi st hvi (hf.trans hst)

/-- Running count of consecutive misses. -/
def runMisses : ℕ → List Bool → ℕ
  | n, [] => n
  | n, v :: vs => runMisses (if v then 0 else n + 1) vs

theorem runMisses_append (n : ℕ) (a b : List Bool) :
    runMisses n (a ++ b) = runMisses (runMisses n a) b := by
  induction a generalizing n with
  | nil => rfl
  | cons v a ih => exact ih _

theorem foldVotes_off {g : Grade} {al : ℤ} {st : VStatus} (h : st.enabled = false) :
    ∀ vs, foldVotes g al st vs = st
  | [] => rfl
  | v :: vs => by rw [foldVotes, h]; exact foldVotes_off h vs

/-- What a list of votes does to an enabled validator. -/
theorem foldVotes_spec {g : Grade} {al : ℤ} (hal : 0 ≤ al) : ∀ (vs : List Bool) (st : VStatus),
    st.enabled = true →
    ((foldVotes g al st vs).disabled = true ↔
      g = .sub ∧ ∃ pre, pre <+: vs ∧ pre ≠ [] ∧ al < (runMisses st.nonVotes pre : ℤ)) ∧
    ((foldVotes g al st vs).disabled = false →
      (foldVotes g al st vs).nonVotes = runMisses st.nonVotes vs)
  | [], st, hen => by
      have hd : st.disabled = false := by
        unfold VStatus.enabled at hen; simp at hen; exact hen.1
      refine ⟨?_, fun _ => rfl⟩
      simp only [foldVotes, hd, Bool.false_eq_true, false_iff]
      rintro ⟨_, pre, hp, hne, _⟩
      exact hne (List.prefix_nil.mp hp)
  | v :: vs, st, hen => by
      have hd : st.disabled = false := by
        unfold VStatus.enabled at hen; simp at hen; exact hen.1
      have hq : st.disqualified = false := by
        unfold VStatus.enabled at hen; simp at hen; exact hen.2
      rw [foldVotes, hen, if_pos rfl]
      -- the status after this vote
      set n1 : ℕ := if v then 0 else st.nonVotes + 1 with hn1
      have hst1 : voteStatus st g al v =
          if g ≠ .main ∧ (n1 : ℤ) > al then ({ st with nonVotes := n1, disabled := true }, true)
          else ({ st with nonVotes := n1 }, false) := by
        unfold voteStatus
        cases v <;> simp [hn1]
      by_cases hp : g ≠ .main ∧ (n1 : ℤ) > al
      · rw [hst1, if_pos hp]
        have hoff : ({ st with nonVotes := n1, disabled := true } : VStatus).enabled = false := by
          simp [VStatus.enabled]
        rw [foldVotes_off hoff]
        refine ⟨⟨fun _ => ⟨?_, [v], ?_, by simp, ?_⟩, fun _ => rfl⟩, fun h => by cases h⟩
        · cases g
          · rfl
          · exact absurd rfl hp.1
        · exact ⟨vs, rfl⟩
        · simpa [runMisses, hn1] using hp.2
      · rw [hst1, if_neg hp]
        have hon : ({ st with nonVotes := n1 } : VStatus).enabled = true := by
          simp [VStatus.enabled, hd, hq]
        obtain ⟨ih1, ih2⟩ := foldVotes_spec (g := g) hal vs { st with nonVotes := n1 } hon
        refine ⟨ih1.trans ?_, ih2⟩
        constructor
        · rintro ⟨hg, pre, hpre, hne, hlt⟩
          refine ⟨hg, v :: pre, ?_, by simp, hlt⟩
          exact List.cons_prefix_cons.mpr ⟨rfl, hpre⟩
        · rintro ⟨hg, pre, hpre, hne, hlt⟩
          refine ⟨hg, ?_⟩
          cases pre with
          | nil => exact absurd rfl hne
          | cons w pre =>
            obtain ⟨rfl, hpre'⟩ := List.cons_prefix_cons.mp hpre
            refine ⟨pre, hpre', ?_, hlt⟩
            rintro rfl
            have : ¬ (n1 : ℤ) > al := by
              intro h; exact hp ⟨by rw [hg]; simp, h⟩
            exact this (by simpa [runMisses, hn1] using hlt)

/-! ### Ballots -/

theorem ballotsOfVotes_eq (s : St) (o : Addr) (votes : List (Addr × Bool)) :
    ballotsOfVotes s o votes =
      (votesFor s o votes).map (fun v => if v then Ballot.voted else .missed) := by
  unfold ballotsOfVotes votesFor
  rw [List.map_filterMap]
  congr 1
  funext nv
  split_ifs <;> simp_all

theorem trailing_append_singleton (l : List Ballot) (b : Ballot) :
    trailingMisses (l ++ [b]) = if b = .missed then trailingMisses l + 1 else 0 := by
  unfold trailingMisses
  rw [List.reverse_append]
  cases b <;> simp

theorem trailing_votes (l : List Ballot) (vs : List Bool) :
    trailingMisses (l ++ vs.map (fun v => if v then Ballot.voted else .missed)) =
      runMisses (trailingMisses l) vs := by
  induction vs generalizing l with
  | nil => simp [runMisses]
  | cons v vs ih =>
    have : l ++ (v :: vs).map (fun v => if v then Ballot.voted else .missed) =
        (l ++ [if v then Ballot.voted else .missed]) ++
          vs.map (fun v => if v then Ballot.voted else .missed) := by simp
    rw [this, ih, trailing_append_singleton, runMisses]
    cases v <;> simp

theorem ballots_append (c : Config) (o : Addr) (s : St) (a b : List Op) :
    ballots c o s (a ++ b) = ballots c o s a ++ ballots c o (run c s a) b := by
  induction a generalizing s with
  | nil => rfl
  | cons op a ih =>
    show ballotsOf c o s op ++ ballots c o (step c s op) (a ++ b) = _
    rw [ih, ← List.append_assoc]; rfl

theorem ballots_snoc (c : Config) (o : Addr) (s : St) (a : List Op) (op : Op) :
    ballots c o s (a ++ [op]) = ballots c o s a ++ ballotsOf c o (run c s a) op := by
  rw [ballots_append]
  simp [ballots]

/-! ### One block -/

/-- Effect of a successful block on one enabled validator. -/
theorem block_effect {c : Config} {s t : St} {b : Block} (hr : Reg s)
    (h : exec c s (.block b) = .ok t) {o : Addr} {vi : VInfo} {st : VStatus}
    (hvi : s.info o = some vi) (hst : s.status o = some st) :
    (Checks c s b ∧ t.status o =
        some (foldVotes vi.grade t.net.allowance st (votesFor s o b.votes)) ∧
        0 ≤ t.net.allowance) ∨
    (¬ Checks c s b ∧ t.status o = some st) := by
  have hstep : step c s (.block b) = t := by unfold step; rw [h]
  obtain ⟨s1, hs1, hn1, hs⟩ := baseTx_shape hr.activeNodup h
  have hchk : Checks c s b ↔ (t.net.decentralized = true ∧
      timeToCheck b.index s.net.period = true) := by
    unfold Checks timeToCheck
    rw [hstep]
    simp only [Bool.and_eq_true, decide_eq_true_eq]
    exact ⟨fun h => h.2, fun h' => ⟨⟨t, h⟩, h'⟩⟩
  have e1 : s1.info = s.info ∧ s1.status = s.status ∧ s1.nodeOwner = s.nodeOwner := by
    rcases hs1 with rfl | ⟨i, a, rfl⟩ <;> exact ⟨rfl, rfl, rfl⟩
  rcases hs with ⟨hc, i, a, rfl⟩ | ⟨hc, rfl⟩
  · have hnet : (checkVotes s1 b.votes).1.net = s1.net := by
      obtain ⟨f, hf, _⟩ := checkVotes_rel b.votes s1
      rw [hf]
    left
    refine ⟨hchk.mpr ?_, ?_, ?_⟩
    · rw [Bool.and_eq_true] at hc
      exact ⟨by show (checkVotes s1 b.votes).1.net.decentralized = true; rw [hnet]; exact hc.1, hc.2⟩
    · show (checkVotes s1 b.votes).1.status o = some (foldVotes vi.grade
        (checkVotes s1 b.votes).1.net.allowance st (votesFor s o b.votes))
      rw [hnet, checkVotes_status b.votes s1 o vi st (by rw [e1.1]; exact hvi)
        (by rw [e1.2.1]; exact hst)]
      have : votesFor s1 o b.votes = votesFor s o b.votes := by
        unfold votesFor; rw [e1.2.2]
      rw [this]
    · exact (hr.exec h).params.2.2.2.2
  · right
    refine ⟨fun hk => ?_, by rw [e1.2.1]; exact hst⟩
    obtain ⟨h1, h2⟩ := hchk.mp hk
    rw [h1, h2] at hc
    cases hc

/-! ### The stored counter is the number of consecutive misses -/

theorem enabled_iff {s : St} {o : Addr} :
    Enabled s o ↔ ∃ st, s.status o = some st ∧ st.enabled = true := by
  unfold Enabled VStatus.enabled
  constructor
  · rintro ⟨st, h, h1, h2⟩; exact ⟨st, h, by rw [h1, h2]; rfl⟩
  · rintro ⟨st, h, h1⟩
    simp only [Bool.and_eq_true, Bool.not_eq_true'] at h1
    exact ⟨st, h, h1.1, h1.2⟩

theorem ballotsOf_block_pos {c : Config} {o : Addr} {s : St} {b : Block} (h : Checks c s b) :
    ballotsOf c o s (.block b) = ballotsOfVotes s o b.votes := by
  simp only [ballotsOf]; exact if_pos h

theorem ballotsOf_block_neg {c : Config} {o : Addr} {s : St} {b : Block} (h : ¬ Checks c s b) :
    ballotsOf c o s (.block b) = [] := by
  simp only [ballotsOf]; exact if_neg h

theorem ballotsOf_enable_pos {c : Config} {o : Addr} {s t : St} {frm : Addr}
    (h : exec c s (.enable frm o) = .ok t) : ballotsOf c o s (.enable frm o) = [.pardoned] := by
  simp only [ballotsOf]; exact if_pos ⟨rfl, t, h⟩

theorem ballotsOf_enable_neg {c : Config} {o : Addr} {s : St} {frm o' : Addr}
    (h : o' = o → ∀ t, exec c s (.enable frm o') ≠ .ok t) :
    ballotsOf c o s (.enable frm o') = [] := by
  simp only [ballotsOf]; exact if_neg fun ⟨e, t, h'⟩ => h e t h'

theorem ballots_unregistered {c : Config} {vals : List Addr} (hn : vals.Nodup) (o : Addr)
    (ops : List Op) : (run c (genesis vals) ops).status o = none →
      ballots c o (genesis vals) ops = [] := by
  induction ops using List.reverseRecOn with
  | nil => intro _; rfl
  | append_singleton ops op ih' =>
    intro hnone
    have hr' : Reachable c (run c (genesis vals) ops) := ⟨vals, ops, hn, rfl⟩
    have hprev : (run c (genesis vals) ops).status o = none := by
      cases hp : (run c (genesis vals) ops).status o with
      | none => rfl
      | some st0 =>
        exfalso
        have hinfo : ((run c (genesis vals) ops).info o).isSome :=
          (hr'.reg.infoStatus o).mpr (by rw [hp]; rfl)
        obtain ⟨v0, hv0⟩ := Option.isSome_iff_exists.mp hinfo
        have h1 := hr'.reg.nodeOwner o v0 hv0
        have h2 := run_nodeOwner (c := c) hr'.reg [op] h1
        rw [← run_append] at h2
        have hr2 : Reachable c (run c (genesis vals) (ops ++ [op])) :=
          ⟨vals, ops ++ [op], hn, rfl⟩
        have h3 := (hr2.reg.infoStatus o).mp (hr2.reg.ownerInfo _ _ h2)
        rw [hnone] at h3; cases h3
    rw [ballots_snoc, ih' hprev, List.nil_append]
    generalize run c (genesis vals) ops = s' at hprev hr'
    have hnoinfo : s'.info o = none := by
      have := hr'.reg.infoStatus o
      rw [hprev] at this
      cases hi : s'.info o with
      | none => rfl
      | some v => rw [hi] at this; simp at this
    cases op with
    | block b =>
      by_cases hc : Checks c s' b
      · rw [ballotsOf_block_pos hc]
        unfold ballotsOfVotes
        rw [List.filterMap_eq_nil_iff]
        intro nv _
        rw [if_neg]
        intro hno'
        have := hr'.reg.ownerInfo _ _ hno'
        rw [hnoinfo] at this; cases this
      · exact ballotsOf_block_neg hc
    | enable frm o' =>
      apply ballotsOf_enable_neg
      rintro rfl t h'
      obtain ⟨_, _, st1, hs1, _⟩ := enable_ok h'
      rw [hprev] at hs1; cases hs1
    | _ => rfl

theorem nonVotes_history {c : Config} {vals : List Addr} (hn : vals.Nodup) (o : Addr)
    (ops : List Op) : ∀ st, (run c (genesis vals) ops).status o = some st →
      st.enabled = true → st.nonVotes = trailingMisses (ballots c o (genesis vals) ops) := by
  induction ops using List.reverseRecOn with
  | nil => intro st h; cases h
  | append_singleton ops op ih =>
    intro st hst hen
    have hrs : Reachable c (run c (genesis vals) ops) := ⟨vals, ops, hn, rfl⟩
    rw [run_append] at hst
    change (step c (run c (genesis vals) ops) op).status o = some st at hst
    rw [ballots_snoc]
    generalize hs : run c (genesis vals) ops = s at hst ih hrs
    generalize hl : ballots c o (genesis vals) ops = l at ih
    -- the validator is untouched
    have same : s.status o = some st → ballotsOf c o s op = [] →
        st.nonVotes = trailingMisses (l ++ ballotsOf c o s op) := by
      intro h1 h2
      rw [h2, List.append_nil]; exact ih st h1 hen
    rcases step_cases c s op with ⟨t, h, ht⟩ | ⟨⟨e, h⟩, ht⟩
    swap
    · rw [ht] at hst
      apply same hst
      cases op with
      | block b =>
        have : ¬ Checks c s b := by rintro ⟨⟨t, h'⟩, _⟩; rw [h] at h'; cases h'
        exact ballotsOf_block_neg this
      | enable frm o' =>
        apply ballotsOf_enable_neg
        intro _ t h'; rw [h] at h'; cases h'
      | _ => rfl
    rw [ht] at hst
    cases op with
    | register frm ow pk gr nm url btp =>
      obtain ⟨_, m, g, _, _, _, _, _, h1⟩ := register_ok h
      obtain ⟨_, hno, _, rfl⟩ := stRegister_ok h1
      by_cases e : o = ow
      · subst e
        have hst' : st = {} := by
          cases g <;> simp [addToList] at hst <;> exact hst.symm
        subst hst'
        -- no ballots so far: the owner was unknown
        have : trailingMisses l = 0 := by
          rw [← hl, ballots_unregistered hn o ops (by rw [hs]; exact hno)]; rfl
        rw [show ballotsOf c o s (.register frm o pk gr nm url btp) = [] from rfl,
          List.append_nil, this]
      · apply same _ rfl
        cases g <;> simpa [addToList, Function.update_of_ne e] using hst
    | unregister frm ow =>
      obtain ⟨_, _, st', hs', ⟨_, rfl⟩ | ⟨hd', vi, m', s', _, _, rfl⟩⟩ := unregister_ok h
      · exact same hst rfl
      · by_cases e : o = ow
        · subst e
          simp only [Function.update_self, Option.some.injEq] at hst
          subst hst
          simp [VStatus.enabled] at hen
        · exact same (by simpa [Function.update_of_ne e] using hst) rfl
    | setNodePublicKey frm pk btp =>
      obtain ⟨_, m, vi, st', _, _, _, hs', hd', ⟨_, rfl⟩ | ⟨_, hno, a, rfl, _⟩⟩ :=
        setNodePublicKey_ok h <;> exact same hst rfl
    | setValidatorInfo frm v =>
      rcases setValidatorInfo_ok h with rfl | ⟨vi, vi', _, _, _, rfl⟩ <;> exact same hst rfl
    | enable frm ow =>
      obtain ⟨_, hfrm, st', hs', hd', k, rfl, hk⟩ := enable_ok h
      by_cases e : o = ow
      · subst e
        simp only [Function.update_self, Option.some.injEq] at hst
        subst hst
        rw [ballotsOf_enable_pos h, trailing_append_singleton]; rfl
      · refine same (by simpa [Function.update_of_ne e] using hst) ?_
        apply ballotsOf_enable_neg
        rintro rfl; exact absurd rfl e
    | setParams frm p a => obtain ⟨_, _, _, rfl⟩ := setParams_ok h; exact same hst rfl
    | setCount frm k => obtain ⟨_, _, _, rfl⟩ := setCount_ok h; exact same hst rfl
    | grant frm a m => obtain ⟨_, _, rfl⟩ := grant_ok h; exact same hst rfl
    | revoke frm a => obtain ⟨_, _, _, _, rfl⟩ := revoke_ok h; exact same hst rfl
    | block b =>
      obtain ⟨h1, h2, h3⟩ := baseTx_same hrs.reg.activeNodup h
      cases hs0 : s.status o with
      | none => rw [h2 o hs0] at hst; cases hst
      | some st0 =>
        obtain ⟨vi, hvi⟩ := Option.isSome_iff_exists.mp
          ((hrs.reg.infoStatus o).mpr (by rw [hs0]; rfl))
        rcases block_effect hrs.reg h hvi hs0 with ⟨hc, hst', hal⟩ | ⟨hc, hst'⟩
        · rw [hst'] at hst
          simp only [Option.some.injEq] at hst
          have hen0 : st0.enabled = true := by
            by_contra hoff
            have hoff : st0.enabled = false := by simpa using hoff
            rw [foldVotes_off hoff] at hst
            rw [hst, hen] at hoff; cases hoff
          rw [ballotsOf_block_pos hc, ballotsOfVotes_eq, trailing_votes, ← ih st0 hs0 hen0, ← hst]
          refine (foldVotes_spec hal _ st0 hen0).2 ?_
          rw [hst]
          unfold VStatus.enabled at hen; simp at hen; exact hen.1
        · rw [hst'] at hst; cases hst
          refine same hs0 ?_
          exact ballotsOf_block_neg hc

/-! ### The properties -/

theorem prefix_filterMap {α β : Type} (f : α → Option β) : ∀ (l : List α) (q : List β) (w : β),
    q ++ [w] <+: l.filterMap f ↔
      ∃ pre x, pre ++ [x] <+: l ∧ f x = some w ∧ pre.filterMap f = q
  | [], q, w => by simp
  | a :: l, q, w => by
      cases hfa : f a with
      | none =>
        rw [List.filterMap_cons_none hfa, prefix_filterMap f l]
        constructor
        · rintro ⟨pre, x, h1, h2, h3⟩
          exact ⟨a :: pre, x, List.cons_prefix_cons.mpr ⟨rfl, h1⟩, h2, by
            rw [List.filterMap_cons_none hfa]; exact h3⟩
        · rintro ⟨pre, x, h1, h2, h3⟩
          cases pre with
          | nil =>
            obtain ⟨rfl, _⟩ := List.cons_prefix_cons.mp h1
            rw [hfa] at h2; cases h2
          | cons b pre =>
            obtain ⟨rfl, h1'⟩ := List.cons_prefix_cons.mp h1
            rw [List.filterMap_cons_none hfa] at h3
            exact ⟨pre, x, h1', h2, h3⟩
      | some v =>
        rw [List.filterMap_cons_some hfa]
        cases q with
        | nil =>
          simp only [List.nil_append]
          constructor
          · intro h
            obtain ⟨rfl, _⟩ := List.cons_prefix_cons.mp h
            exact ⟨[], a, List.cons_prefix_cons.mpr ⟨rfl, List.nil_prefix⟩, hfa, rfl⟩
          · rintro ⟨pre, x, h1, h2, h3⟩
            cases pre with
            | nil =>
              obtain ⟨rfl, _⟩ := List.cons_prefix_cons.mp h1
              rw [hfa] at h2; cases h2
              exact List.cons_prefix_cons.mpr ⟨rfl, List.nil_prefix⟩
            | cons b pre =>
              obtain ⟨rfl, h1'⟩ := List.cons_prefix_cons.mp h1
              rw [List.filterMap_cons_some hfa] at h3; cases h3
        | cons u q =>
          rw [List.cons_append, List.cons_prefix_cons, prefix_filterMap f l]
          constructor
          · rintro ⟨rfl, pre, x, h1, h2, h3⟩
            exact ⟨a :: pre, x, List.cons_prefix_cons.mpr ⟨rfl, h1⟩, h2, by
              rw [List.filterMap_cons_some hfa, h3]⟩
          · rintro ⟨pre, x, h1, h2, h3⟩
            cases pre with
            | nil => cases h3
            | cons b pre =>
              obtain ⟨rfl, h1'⟩ := List.cons_prefix_cons.mp h1
              rw [List.filterMap_cons_some hfa] at h3
              obtain ⟨rfl, h3'⟩ := List.cons.inj h3
              exact ⟨rfl, pre, x, h1', h2, h3'⟩

/-- The internal condition, in terms of the ballots of the history. -/
theorem exceed_iff (s : St) (o : Addr) (votes : List (Addr × Bool)) (l : List Ballot) {al : ℤ}
    (hal : 0 ≤ al) :
    (∃ pre, pre <+: votesFor s o votes ∧ pre ≠ [] ∧
      al < (runMisses (trailingMisses l) pre : ℤ)) ↔
    ∃ pre n, pre ++ [(n, false)] <+: votes ∧ s.nodeOwner n = some o ∧
      al < (trailingMisses (l ++ ballotsOfVotes s o (pre ++ [(n, false)])) : ℤ) := by
  constructor
  · rintro ⟨p, hp, hne, hlt⟩
    obtain ⟨q, w, rfl⟩ : ∃ q w, p = q ++ [w] :=
      ⟨p.dropLast, p.getLast hne, (List.dropLast_append_getLast hne).symm⟩
    have hw : w = false := by
      cases w with
      | false => rfl
      | true => rw [runMisses_append] at hlt; simp [runMisses] at hlt; omega
    subst hw
    unfold votesFor at hp
    obtain ⟨pre, ⟨n, v⟩, h1, h2, h3⟩ := (prefix_filterMap _ _ _ _).mp hp
    dsimp only at h2
    split_ifs at h2 with hno
    cases h2
    refine ⟨pre, n, h1, hno, ?_⟩
    rw [ballotsOfVotes_eq, trailing_votes]
    have : votesFor s o (pre ++ [(n, false)]) = q ++ [false] := by
      unfold votesFor; rw [List.filterMap_append, h3]; simp [hno]
    rw [this]; exact hlt
  · rintro ⟨pre, n, h1, hno, hlt⟩
    rw [ballotsOfVotes_eq, trailing_votes] at hlt
    refine ⟨votesFor s o (pre ++ [(n, false)]), ?_, ?_, hlt⟩
    · obtain ⟨suf, rfl⟩ := h1
      unfold votesFor
      rw [List.filterMap_append (l := pre ++ [(n, false)])]; exact List.prefix_append _ _
    · unfold votesFor; rw [List.filterMap_append]; simp [hno]

/-- **C33 (when a validator is penalised).** An enabled validator becomes disabled exactly when
it is a sub validator and, in a block that checks votes, it misses a vote such that the number
of its consecutive misses — over all checked votes of the history since its last counted vote,
its last `enableValidator` call or its registration — exceeds the allowance. -/
theorem C33_penalty_iff {c : Config} {vals : List Addr} (hn : vals.Nodup) (ops : List Op)
    (op : Op) {o : Addr} {vi : VInfo} (hvi : (run c (genesis vals) ops).info o = some vi)
    (hen : Enabled (run c (genesis vals) ops) o) :
    Disabled (step c (run c (genesis vals) ops) op) o ↔
      vi.grade = .sub ∧ ∃ b, op = .block b ∧ Checks c (run c (genesis vals) ops) b ∧
        ∃ pre n, pre ++ [(n, false)] <+: b.votes ∧
          (run c (genesis vals) ops).nodeOwner n = some o ∧
          (step c (run c (genesis vals) ops) op).net.allowance <
            (trailingMisses (ballots c o (genesis vals) ops ++
              ballotsOfVotes (run c (genesis vals) ops) o (pre ++ [(n, false)])) : ℤ) := by
  have hrs : Reachable c (run c (genesis vals) ops) := ⟨vals, ops, hn, rfl⟩
  obtain ⟨st, hst, hse⟩ := enabled_iff.mp hen
  have hist := nonVotes_history (c := c) hn o ops st hst hse
  generalize hs : run c (genesis vals) ops = s at *
  generalize ballots c o (genesis vals) ops = l at *
  have hd : st.disabled = false := by
    unfold VStatus.enabled at hse; simp at hse; exact hse.1
  have notdis : ∀ t : St, t.status o = some st → ¬ Disabled t o := by
    rintro t ht ⟨st', h1, h2⟩; rw [ht] at h1; cases h1; rw [hd] at h2; cases h2
  by_cases hb : ∃ b, op = .block b
  · obtain ⟨b, rfl⟩ := hb
    rcases step_cases c s (.block b) with ⟨t, h, ht⟩ | ⟨⟨e, h⟩, ht⟩
    · rw [ht]
      rcases block_effect hrs.reg h hvi hst with ⟨hc, hst', hal⟩ | ⟨hc, hst'⟩
      · have h1 := (foldVotes_spec (g := vi.grade) hal (votesFor s o b.votes) st hse).1
        rw [hist] at h1
        rw [exceed_iff s o b.votes l hal] at h1
        have h2 : Disabled t o ↔ (foldVotes vi.grade t.net.allowance st
            (votesFor s o b.votes)).disabled = true := by
          unfold Disabled; rw [hst']; simp
        rw [h2, h1]
        constructor
        · rintro ⟨hg, pre, n, h3⟩
          exact ⟨hg, b, rfl, hc, pre, n, h3⟩
        · rintro ⟨hg, b', hb', _, pre, n, h3⟩
          cases hb'
          exact ⟨hg, pre, n, h3⟩
      · refine iff_of_false (notdis t hst') ?_
        rintro ⟨_, b', hb', hc', _⟩
        cases hb'; exact hc hc'
    · rw [ht]
      refine iff_of_false (notdis s hst) ?_
      rintro ⟨_, b', hb', ⟨⟨t, h'⟩, _⟩, _⟩
      cases hb'; rw [h] at h'; cases h'
  · refine iff_of_false ?_ (fun ⟨_, b, hb', _⟩ => hb ⟨b, hb'⟩)
    rcases step_cases c s op with ⟨t, h, ht⟩ | ⟨⟨e, h⟩, ht⟩
    swap
    · rw [ht]; exact notdis s hst
    rw [ht]
    cases op with
    | block b => exact absurd ⟨b, rfl⟩ hb
    | register frm ow pk gr nm url btp =>
      obtain ⟨_, m, g, _, _, _, _, _, h1⟩ := register_ok h
      obtain ⟨_, hno, _, rfl⟩ := stRegister_ok h1
      have e : o ≠ ow := by rintro rfl; rw [hst] at hno; cases hno
      apply notdis
      cases g <;> simpa [addToList, Function.update_of_ne e] using hst
    | unregister frm ow =>
      obtain ⟨_, _, st', hs', ⟨_, rfl⟩ | ⟨hd', vi, m', s', _, _, rfl⟩⟩ := unregister_ok h
      · exact notdis _ hst
      · by_cases e : o = ow
        · subst e
          rw [hst] at hs'; cases hs'
          unfold Disabled; simp [hd]
        · exact notdis _ (by simpa [Function.update_of_ne e] using hst)
    | setNodePublicKey frm pk btp =>
      obtain ⟨_, m, vi, st', _, _, _, hs', hd', ⟨_, rfl⟩ | ⟨_, hno, a, rfl, _⟩⟩ :=
        setNodePublicKey_ok h <;> exact notdis _ hst
    | setValidatorInfo frm v =>
      rcases setValidatorInfo_ok h with rfl | ⟨vi, vi', _, _, _, rfl⟩ <;> exact notdis _ hst
    | enable frm ow =>
      obtain ⟨_, hfrm, st', hs', hd', k, rfl, hk⟩ := enable_ok h
      by_cases e : o = ow
      · subst e; unfold Disabled; simp
      · exact notdis _ (by simpa [Function.update_of_ne e] using hst)
    | setParams frm p a => obtain ⟨_, _, _, rfl⟩ := setParams_ok h; exact notdis _ hst
    | setCount frm k => obtain ⟨_, _, _, rfl⟩ := setCount_ok h; exact notdis _ hst
    | grant frm a m => obtain ⟨_, _, rfl⟩ := grant_ok h; exact notdis _ hst
    | revoke frm a => obtain ⟨_, _, _, _, rfl⟩ := revoke_ok h; exact notdis _ hst

/-- **C33 (nobody else is penalised).** A validator that is not enabled (unknown or
unregistered) and not disabled does not become disabled. -/
theorem C33_penalty_only_enabled {c : Config} {s : St} (hr : Reachable c s) (op : Op) {o : Addr}
    (h1 : ¬ Enabled s o) (h2 : ¬ Disabled s o) : ¬ Disabled (step c s op) o := by
  cases hst : s.status o with
  | some st =>
    have hd : st.disabled = false := by
      by_contra h; exact h2 ⟨st, hst, by simpa using h⟩
    have hq : st.disqualified = true := by
      by_contra h; exact h1 ⟨st, hst, hd, by simpa using h⟩
    have := (C32_disqualified_forever hr ⟨st, hst, hq⟩ [op]).1
    change (step c s op).status o = s.status o at this
    rintro ⟨st', h3, h4⟩
    rw [this, hst] at h3; cases h3; rw [hd] at h4; cases h4
  | none =>
    rcases step_cases c s op with ⟨t, h, ht⟩ | ⟨⟨e, h⟩, ht⟩
    swap
    · rw [ht]; exact h2
    rw [ht]
    have none_ok : ∀ t : St, t.status o = none → ¬ Disabled t o := by
      rintro t ht ⟨st, h, _⟩; rw [ht] at h; cases h
    cases op with
    | register frm ow pk gr nm url btp =>
      obtain ⟨_, m, g, _, _, _, _, _, h1⟩ := register_ok h
      obtain ⟨_, hno, _, rfl⟩ := stRegister_ok h1
      by_cases e : o = ow
      · subst e; unfold Disabled; cases g <;> simp [addToList]
      · apply none_ok
        cases g <;> simpa [addToList, Function.update_of_ne e] using hst
    | unregister frm ow =>
      obtain ⟨_, _, st', hs', ⟨_, rfl⟩ | ⟨hd', vi, m', s', _, _, rfl⟩⟩ := unregister_ok h
      · exact none_ok _ hst
      · have e : o ≠ ow := by rintro rfl; rw [hst] at hs'; cases hs'
        exact none_ok _ (by simpa [Function.update_of_ne e] using hst)
    | setNodePublicKey frm pk btp =>
      obtain ⟨_, m, vi, st', _, _, _, hs', hd', ⟨_, rfl⟩ | ⟨_, hno, a, rfl, _⟩⟩ :=
        setNodePublicKey_ok h <;> exact none_ok _ hst
    | setValidatorInfo frm v =>
      rcases setValidatorInfo_ok h with rfl | ⟨vi, vi', _, _, _, rfl⟩ <;> exact none_ok _ hst
    | enable frm ow =>
      obtain ⟨_, hfrm, st', hs', hd', k, rfl, hk⟩ := enable_ok h
      have e : o ≠ ow := by rintro rfl; rw [hst] at hs'; cases hs'
      exact none_ok _ (by simpa [Function.update_of_ne e] using hst)
    | setParams frm p a => obtain ⟨_, _, _, rfl⟩ := setParams_ok h; exact none_ok _ hst
    | setCount frm k => obtain ⟨_, _, _, rfl⟩ := setCount_ok h; exact none_ok _ hst
    | grant frm a m => obtain ⟨_, _, rfl⟩ := grant_ok h; exact none_ok _ hst
    | revoke frm a => obtain ⟨_, _, _, _, rfl⟩ := revoke_ok h; exact none_ok _ hst
    | block b => exact none_ok _ ((baseTx_same hr.reg.activeNodup h).2.1 o hst)

/-- **C33 (main validators).** A main validator is never disabled. -/
theorem C33_main_never_disabled {c : Config} {s : St} (hr : Reachable c s) {o : Addr}
    {vi : VInfo} (hvi : s.info o = some vi) (hg : vi.grade = .main) : ¬ Disabled s o := by
  rintro ⟨st, hst, hd⟩
  rw [hr.reg.mainEnabled o vi st hvi hst hg] at hd; cases hd

theorem block_net {c : Config} {s t : St} {b : Block} (hr : Reg s)
    (h : exec c s (.block b) = .ok t) :
    (t.net.allowance = s.net.allowance ∨ t.net.allowance = s.allowance) ∧
      t.allowance = s.allowance := by
  obtain ⟨s1, hs1, _, hs⟩ := baseTx_shape hr.activeNodup h
  have e : (s1.net.allowance = s.net.allowance ∨ s1.net.allowance = s.allowance) ∧
      s1.allowance = s.allowance := by
    rcases hs1 with rfl | ⟨i, a, rfl⟩
    · exact ⟨.inl rfl, rfl⟩
    · exact ⟨.inr rfl, rfl⟩
  rcases hs with ⟨_, i, a, rfl⟩ | ⟨_, rfl⟩
  · obtain ⟨f, hf, _⟩ := checkVotes_rel b.votes s1
    rw [hf]; exact e
  · exact e

/-- **C33 (a way around the penalty).** `enableValidator` called by the owner of a validator
that is *not* disabled resets its miss counter and costs none of its three self-enablings. So a
validator that calls it after every block with a checked vote is never penalised, however many
votes in a row it misses, provided the allowance is at least one. -/
theorem C33_self_pardon {c : Config} {s : St} (hr : Reachable c s) {o : Addr} {k : ℕ}
    (hoc : o.contract = false) (hst : s.status o = some ⟨false, false, 0, k⟩)
    (hal : 1 ≤ s.allowance ∧ 1 ≤ s.net.allowance) (bs : List Block)
    (hbs : ∀ b ∈ bs, (b.votes.filter (fun nv => s.nodeOwner nv.1 = some o)).length ≤ 1) :
    (run c s (bs.flatMap fun b => [.block b, .enable o o])).status o =
      some ⟨false, false, 0, k⟩ := by
  induction bs generalizing s with
  | nil => exact hst
  | cons b bs ih =>
    rw [List.flatMap_cons, run_append]
    obtain ⟨vi, hvi⟩ := Option.isSome_iff_exists.mp
      ((hr.reg.infoStatus o).mpr (by rw [hst]; rfl))
    -- after the block
    have hblock : ∃ j, (step c s (.block b)).status o = some ⟨false, false, j, k⟩ ∧
        (1 ≤ (step c s (.block b)).allowance ∧ 1 ≤ (step c s (.block b)).net.allowance) ∧
        (step c s (.block b)).nodeOwner = s.nodeOwner := by
      rcases step_cases c s (.block b) with ⟨t, h, ht⟩ | ⟨⟨e, h⟩, ht⟩
      · rw [ht]
        have hnet := block_net hr.reg h
        have hown := (baseTx_same hr.reg.activeNodup h).1.nodeOwner
        have hal' : 1 ≤ t.allowance ∧ 1 ≤ t.net.allowance := by
          refine ⟨by rw [hnet.2]; exact hal.1, ?_⟩
          rcases hnet.1 with e | e <;> rw [e]
          · exact hal.2
          · exact hal.1
        rcases block_effect hr.reg h hvi hst with ⟨hc, hst', hal0⟩ | ⟨hc, hst'⟩
        · have hlen : (votesFor s o b.votes).length ≤ 1 := by
            have h1 := hbs b (by simp)
            have h2 : votesFor s o b.votes =
                (b.votes.filter (fun nv => s.nodeOwner nv.1 = some o)).map Prod.snd := by
              unfold votesFor
              induction b.votes with
              | nil => rfl
              | cons nv l ihl =>
                by_cases hno : s.nodeOwner nv.1 = some o <;> simp [hno, ihl]
            rw [h2, List.length_map]; exact h1
          refine ⟨runMisses 0 (votesFor s o b.votes), ?_, hal', hown⟩
          rw [hst']
          congr 1
          rcases hv : votesFor s o b.votes with _ | ⟨v, _ | ⟨w, l⟩⟩
          · rfl
          · cases v
            · simp only [foldVotes, VStatus.enabled, voteStatus, runMisses]
              have : ¬ t.net.allowance < 1 := by have := hal'.2; omega
              simp [this]
            · simp only [foldVotes, VStatus.enabled, voteStatus, runMisses]
              have : ¬ t.net.allowance < 0 := by have := hal'.2; omega
              simp [this]
          · rw [hv] at hlen; simp at hlen
        · exact ⟨0, hst', hal', hown⟩
      · rw [ht]; exact ⟨0, hst, hal, rfl⟩
    obtain ⟨j, hj, hal', hown⟩ := hblock
    generalize hs1 : step c s (.block b) = s1 at *
    have hr1 : Reachable c s1 := by rw [← hs1]; exact hr.step _
    -- after the call of `enableValidator`
    have hcall : exec c s1 (.enable o o) = .ok { s1 with
        status := Function.update s1.status o (some ⟨false, false, 0, k⟩) } := by
      show enable c s1 o o = _
      unfold enable
      rw [if_neg (by rw [hoc]; simp), if_neg (by simp)]
      unfold stEnable getStatus
      rw [hj]
      rfl
    have hrun : run c s [.block b, .enable o o] = { s1 with
        status := Function.update s1.status o (some ⟨false, false, 0, k⟩) } := by
      show step c (step c s (.block b)) (.enable o o) = _
      rw [hs1]
      unfold step
      rw [hcall]
    rw [hrun]
    refine ih (s := { s1 with
        status := Function.update s1.status o (some ⟨false, false, 0, k⟩) }) ?_ (by simp) hal' ?_
    · have := hr1.step (.enable o o)
      unfold step at this
      rw [hcall] at this
      exact this
    · intro b' hb'
      show (b'.votes.filter (fun nv => s1.nodeOwner nv.1 = some o)).length ≤ 1
      rw [hown]
      exact hbs b' (by simp [hb'])

end Verif.Havah.Val
