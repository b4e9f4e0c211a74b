import Verif.Consensus.EngineLock

/-!
# Agreement

From the invariants of the single nodes to the properties of the network.
-/

namespace Verif.Consensus.Engine

variable {D B P : Type} [DecidableEq B] [DecidableEq P] {c : Cfg D B P}

namespace Node

variable {A : ℕ → Vote D → Prop}

/-! ### Commit -/

/-- The block in the commit step is decided by precommits. -/
def Decided (c : Cfg D B P) (A : ℕ → Vote D → Prop) (nd : Node D B P) : Prop :=
  nd.step = stCommit → ∃ x r, nd.current = some x ∧ Quo c A .precommit r (some x.id)

/-- Before the block is finalized. -/
def CMO (c : Cfg D B P) (A : ℕ → Vote D → Prop) (nd : Node D B P) : Prop :=
  nd.final = none ∧ Decided c A nd

/-- What is finalized is decided by precommits. -/
structure CM (c : Cfg D B P) (A : ℕ → Vote D → Prop) (nd : Node D B P) : Prop where
  dec : Decided c A nd
  fin : ∀ p, nd.final = some p → ∃ r, Quo c A .precommit r (some p)
  full : ∀ p, nd.final = some p → ∃ x, nd.current = some x ∧ x.id = p ∧ x.complete = true

theorem CM.mono {A' : ℕ → Vote D → Prop} (h : ∀ j v, A j v → A' j v) {nd : Node D B P}
    (k : CM c A nd) : CM c A' nd := by
  refine ⟨fun e => ?_, fun p e => ?_, k.full⟩
  · obtain ⟨x, r, a, b⟩ := k.dec e
    exact ⟨x, r, a, b.mono h⟩
  · obtain ⟨r, b⟩ := k.fin p e
    exact ⟨r, b.mono h⟩

theorem CMO.cm {nd : Node D B P} (k : CMO c A nd) : CM c A nd :=
  ⟨k.2, (fun p e => by rw [k.1] at e; cases e), (fun p e => by rw [k.1] at e; cases e)⟩

theorem setByID_id (cur : Option (Parts P)) (p : P) : ∃ x, setByID cur p = some x ∧ x.id = p := by
  unfold setByID
  split
  · rename_i h
    rw [Option.map_eq_some_iff] at h
    exact h
  · exact ⟨_, rfl, rfl⟩

theorem CMO.same {nd nd' : Node D B P} (k : CMO c A nd) (h1 : nd'.final = nd.final)
    (h2 : nd'.step = nd.step) (h3 : nd'.current = nd.current) : CMO c A nd' :=
  ⟨h1.trans k.1, by unfold Decided; rw [h2, h3]; exact k.2⟩

theorem CMO.lt {nd : Node D B P} (h1 : nd.final = none) (h2 : nd.step ≠ stCommit) : CMO c A nd :=
  ⟨h1, fun e => absurd e h2⟩

theorem enterCommit_cm {nd : Node D B P} (h : nd.final = none) {r p} (hq : Quo c A .precommit r (some p)) :
    CMO c A (nd.enterCommit c r p) := by
  refine ⟨h, fun _ => ?_⟩
  obtain ⟨x, e1, e2⟩ := setByID_id nd.current p
  exact ⟨x, r, e1, by rw [e2]; exact hq⟩

theorem seePrevotes_eqs (nd : Node D B P) (mr o) :
    (nd.seePrevotes mr o).final = nd.final ∧ (nd.seePrevotes mr o).step = nd.step := by
  cases o with
  | none => exact ⟨rfl, rfl⟩
  | some q =>
    unfold seePrevotes seePolka
    cases q <;> simp only [] <;> split_ifs <;> exact ⟨rfl, rfl⟩

theorem handlePrevote_cm {nd : Node D B P} (k : CMO c A nd) (mr) : CMO c A (nd.handlePrevote c mr) := by
  unfold handlePrevote
  split
  · exact k
  · rename_i h
    simp only []
    obtain ⟨e1, e2⟩ := nd.seePrevotes_eqs mr (nd.votes c mr .prevote).overPSID
    generalize (nd.votes c mr .prevote).overPSID = o at e1 e2 ⊢
    generalize nd.seePrevotes mr o = nd1 at e1 e2 ⊢
    have h1 : nd1.final = none := e1.trans k.1
    have h2 : nd1.step ≠ stCommit := by rw [e2]; omega
    split_ifs <;> first | exact CMO.lt h1 h2 | exact CMO.lt h1 (by simp [resetForNewRound])

theorem handlePrecommit_cm (hc : c.Sound) {nd : Node D B P} (k : CMO c A nd) (hk : HvsOK c A nd.hvs) (mr) :
    CMO c A (nd.handlePrecommit c mr) := by
  unfold handlePrecommit
  simp only []
  split
  · split
    · rename_i ho
      exact enterCommit_cm k.1 (hk.quo hc ho)
    · exact k
  split
  · exact k.same rfl rfl rfl
  split
  · exact k.same rfl rfl rfl
  split
  · split
    · rename_i ho
      exact enterCommit_cm k.1 (hk.quo hc ho)
    · exact k.same rfl rfl rfl
    · exact k
  split
  · exact CMO.lt k.1 (by simp [resetForNewRound])
  · exact k

theorem recvVote_cm (hc : c.Sound) {nd : Node D B P} (k : CMO c A nd) (hk : HvsOK c A nd.hvs) {j v}
    (hj : j < c.n) (ha : A j v) : CMO c A (nd.recvVote c j v) := by
  unfold recvVote
  simp only []
  have k1 : HvsOK c A ({ nd with hvs := (nd.hvs.add c j v).1 } : Node D B P).hvs := hk.add hj ha
  have h0 : CMO c A ({ nd with hvs := (nd.hvs.add c j v).1 } : Node D B P) := k.same rfl rfl rfl
  split
  · exact h0
  split
  · exact h0
  split
  · exact handlePrevote_cm h0 _
  · exact handlePrecommit_cm hc h0 k1 _

theorem later_step {a b : ℤ × ℕ} {m : ℕ} (ha : a.2 ≤ m) (hb : b.2 ≤ m) : (later a b).2 ≤ m := by
  unfold later; split <;> assumption

theorem stepOf_le (t : VoteType) : stepOf t ≤ stPrecommit := by cases t <;> decide

theorem listPos_step (h : Hvs D B P) (l) {pos : ℤ × ℕ} (hp : pos.2 ≤ stPrecommit) :
    (listPos c h l pos).2 ≤ stPrecommit := by
  unfold listPos
  split
  · exact hp
  · split
    · exact later_step hp (stepOf_le _)
    · exact hp

theorem applyRound_step {i} (l : List (RRec D)) (s : Hvs D B P × (ℤ × ℕ)) (h : s.2.2 ≤ stPrecommit) :
    (applyRound c i l s).2.2 ≤ stPrecommit := by
  induction l generalizing s with
  | nil => exact h
  | cons r l ih =>
    cases r with
    | proposal r => exact ih _ (later_step h (show stPropose ≤ stPrecommit by decide))
    | vote v => exact ih _ (later_step h (stepOf_le _))
    | list x => exact ih _ (listPos_step _ _ h)

theorem applyLock_step (l : List (LRec D P)) (s : LockScan D B P) (h : s.pos.2 ≤ stPrecommit) :
    (applyLock c l s).pos.2 ≤ stPrecommit := by
  induction l generalizing s with
  | nil => exact h
  | cons r l ih =>
    cases r with
    | list x => exact ih _ (listPos_step _ _ h)
    | parts p => exact ih _ h

theorem applyCommit_step (l : List (List (Signed D))) (s : Hvs D B P × (ℤ × ℕ)) (h : s.2.2 ≤ stPrecommit) :
    (applyCommit c l s).2.2 ≤ stPrecommit := by
  induction l generalizing s with
  | nil => exact h
  | cons x l ih => exact ih _ (listPos_step _ _ h)

theorem restart_cm {i} (nd : Node D B P) (kr kl kc) : CMO c A (nd.restart c i kr kl kc) := by
  unfold restart
  have h : (nd.loaded c i kr kl kc).step ≤ stPrecommit := by
    refine applyCommit_step _ _ (applyLock_step _ _ (applyRound_step _ _ ?_))
    exact Nat.zero_le _
  have hf : (nd.loaded c i kr kl kc).final = none := rfl
  generalize nd.loaded c i kr kl kc = m at h hf
  refine CMO.lt ((resume_eqs m).2.2.2.2.2.2.2.2.2.2.2.2.2.trans hf) ?_
  have h1 : stPrecommit < stCommit := by decide
  have h2 : stTransactionWait < stCommit := by decide
  unfold resume
  split_ifs <;> simp only [ne_eq] <;> omega

theorem runAct_cm (hc : c.Sound) {i ch a} {nd nd' : Node D B P} (k : CMO c A nd) (hk : HvsOK c A nd.hvs)
    (hv : ∀ v, a = .recv v → i < c.n ∧ A i v) (e : nd.runAct c i ch a = some nd') : CMO c A nd' := by
  cases a with
  | propose =>
    simp only [runAct, Option.map_eq_some_iff] at e
    obtain ⟨x, hx, rfl⟩ := e
    obtain ⟨_, rfl⟩ := begin_eq hx
    unfold doPropose
    split
    · split <;> exact CMO.lt k.1 (show stPropose ≠ stCommit by decide)
    · split <;> exact CMO.lt k.1 (show stPropose ≠ stCommit by decide)
  | prevote =>
    simp only [runAct, Option.map_eq_some_iff] at e
    obtain ⟨x, hx, rfl⟩ := e
    obtain ⟨_, rfl⟩ := begin_eq hx
    unfold doPrevote
    split
    · exact CMO.lt k.1 (by simp [thenVote])
    split
    · exact CMO.lt k.1 (by simp [thenVote])
    split_ifs <;> exact CMO.lt k.1 (by simp [thenVote])
  | prevoteWait =>
    simp only [runAct, Option.map_eq_some_iff] at e
    obtain ⟨x, hx, rfl⟩ := e
    obtain ⟨_, rfl⟩ := begin_eq hx
    unfold doPrevoteWait
    simp only []
    split <;> exact CMO.lt k.1 (by simp)
  | precommit =>
    simp only [runAct, Option.bind_eq_some_iff] at e
    obtain ⟨x, hx, e⟩ := e
    obtain ⟨_, rfl⟩ := begin_eq hx
    unfold doPrecommit at e
    split at e
    · cases e; exact CMO.lt k.1 (by simp [thenVote])
    · cases e; exact CMO.lt k.1 (by simp [thenVote])
    · split at e
      · cases e; exact CMO.lt k.1 (by simp [thenVote])
      · split at e
        · split at e
          · cases e; exact CMO.lt k.1 (by simp)
          · split at e
            · cases e
            · cases e; exact CMO.lt k.1 (by simp [thenVote])
        · cases e; exact CMO.lt k.1 (by simp [thenVote])
  | precommitWait =>
    simp only [runAct, Option.map_eq_some_iff] at e
    obtain ⟨x, hx, rfl⟩ := e
    obtain ⟨_, rfl⟩ := begin_eq hx
    unfold doPrecommitWait
    simp only []
    split
    · rename_i ho
      exact enterCommit_cm k.1 (hk.quo hc ho)
    · exact CMO.lt k.1 (by simp)
    · exact CMO.lt k.1 (by simp)
  | newRound =>
    simp only [runAct, Option.some.injEq] at e
    subst e
    unfold doNewRound
    simp only []
    split <;> exact CMO.lt k.1 (by simp [resetForNewRound])
  | lockVote p =>
    simp only [runAct, Option.some.injEq] at e
    subst e
    exact k.same rfl rfl rfl
  | vote t p =>
    simp only [runAct, Option.some.injEq] at e
    subst e
    unfold doVote
    split <;> exact k.same rfl rfl rfl
  | flush v =>
    simp only [runAct, Option.some.injEq] at e
    subst e
    exact k.same rfl rfl rfl
  | recv v =>
    simp only [runAct, Option.some.injEq] at e
    subst e
    have := hv v rfl
    exact recvVote_cm hc k hk this.1 this.2
  | commit =>
    simp only [runAct, Option.some.injEq] at e
    subst e
    exact k.same rfl rfl rfl

theorem afterParts_cm {nd : Node D B P} (k : CMO c A nd) : CMO c A (nd.afterParts c) := by
  unfold afterParts
  split <;> exact k.same rfl rfl rfl

theorem nodeStep_cm (hc : c.Sound) {i ev} {nd nd' : Node D B P} (k : CM c A nd) (kn : Net c A nd)
    (kn' : Net c A nd') (ho : Own c i nd) (hAs : ∀ v ∈ nd.sent, A i v)
    (hd : ∀ j v, ev = .recv j v → j < c.n ∧ A j v)
    (e : nodeStep c i nd ev = some nd') : CM c A nd' := by
  unfold nodeStep at e
  split at e
  · cases e
  · rename_i hf
    have k0 : CMO c A nd := ⟨by simpa using hf, k.dec⟩
    cases ev with
    | restart kr kl kc =>
      simp only [] at e
      split at e
      · cases e; exact (restart_cm _ _ _ _).cm
      · cases e
    | run ch =>
      simp only [] at e
      split at e
      · rename_i a ha
        refine (runAct_cm hc (k0.same (nd' := ({ nd with act := none } : Node D B P)) rfl rfl rfl) kn.hvs ?_ e).cm
        rintro v rfl
        have hm : v ∈ nd.sent := ho.act _ ha
        exact ⟨(ho.base.form v hm).1, hAs v hm⟩
      · split at e
        · cases e
          rename_i kk ks _
          refine CMO.cm ?_
          cases kk <;> unfold runChk <;> simp only [] <;> split <;> exact k0.same rfl rfl rfl
        · cases e
    | recv j v =>
      simp only [] at e; split at e
      · cases e; have := hd j v rfl
        exact (recvVote_cm hc k0 kn.hvs this.1 this.2).cm
      · cases e
    | timeout =>
      simp only [] at e; split at e
      · unfold timeout at e
        have hs : ∀ x, CM c A ({ nd with act := x } : Node D B P) := fun x =>
          (k0.same (nd' := ({ nd with act := x } : Node D B P)) rfl rfl rfl).cm
        split_ifs at e <;> cases e
        · exact CMO.cm ⟨k0.1, fun h => absurd (show stTransactionWait = stCommit from h) (by decide)⟩
        all_goals exact hs _
      · cases e
    | proposal mr p pol got =>
      simp only [] at e; split at e
      · cases e
        unfold proposal
        split
        · exact k
        · rename_i h
          split
          · exact k
          · refine (afterParts_cm ?_).cm
            exact CMO.lt k0.1 (by simp only []; omega)
      · cases e
    | parts b =>
      simp only [] at e; split at e
      · cases e
        unfold parts
        split
        · exact k
        · rename_i x hx
          split
          · exact k
          · refine (afterParts_cm ?_).cm
            refine ⟨k0.1, fun h => ?_⟩
            obtain ⟨y, r, h1, h2⟩ := k.dec h
            rw [hx] at h1
            cases h1
            exact ⟨_, r, rfl, h2⟩
      · cases e
    | imported ok =>
      simp only [] at e; split at e
      · unfold imported at e
        split at e
        · cases e
        · simp only [] at e
          split at e
          · cases e; refine CMO.cm ?_; exact k0.same rfl rfl rfl
          · rename_i h
            have h' : nd.step ≠ stCommit := by omega
            split at e
            · split at e
              · split at e
                · cases e
                · cases e; refine CMO.cm ?_; exact CMO.lt k0.1 h'
              · split at e
                · split at e
                  · cases e; refine CMO.cm ?_; exact CMO.lt k0.1 h'
                  · cases e
                · cases e; refine CMO.cm ?_; exact CMO.lt k0.1 h'
            · split at e
              · cases e; refine CMO.cm ?_; exact CMO.lt k0.1 h'
              · cases e; refine CMO.cm ?_; exact CMO.lt k0.1 h'
      · cases e
    | proposed p =>
      simp only [] at e; split at e
      · unfold proposed at e
        split at e
        · rename_i h
          have h' : nd.step ≠ stCommit := by rw [h.1]; decide
          split at e <;> cases e <;> refine CMO.cm ?_ <;> exact CMO.lt k0.1 h'
        · cases e
      · cases e
    | syncBlock r p l =>
      simp only [] at e; split at e
      · cases e
        have hh : (nd.syncBlock c r p l).hvs = nd.hvs.addAll c l := by
          unfold syncBlock; simp only []; split
          · split <;> rfl
          · rfl
        have hk : HvsOK c A (nd.hvs.addAll c l) := hh ▸ kn'.hvs
        refine CMO.cm ?_
        unfold syncBlock
        simp only []
        split
        · rename_i ho
          have hq : Quo c A .precommit r (some p) := hk.quo hc ho
          split
          · refine enterCommit_cm ?_ hq
            exact k0.1
          · exact ⟨k0.1, fun _ => ⟨_, r, rfl, hq⟩⟩
        · exact k0.same rfl rfl rfl
      · cases e
    | finalize =>
      simp only [] at e; split at e
      · unfold finalize at e
        split at e
        · cases e
        · rename_i x hx
          split at e
          · rename_i h
            cases e
            obtain ⟨y, r, h1, h2⟩ := k.dec h.1
            rw [hx] at h1
            cases h1
            refine ⟨fun _ => ⟨_, r, hx, h2⟩, ?_, ?_⟩
            · intro p hp
              simp only [Option.some.injEq] at hp
              exact ⟨r, by rw [← hp]; exact h2⟩
            · intro p hp
              simp only [Option.some.injEq] at hp
              exact ⟨x, hx, hp, h.2⟩
          · cases e
      · cases e

theorem init_cm : CM c A (init : Node D B P) := (CMO.lt rfl (show stNewHeight ≠ stCommit by decide)).cm

/-! ### The votes sent in one step -/

theorem runAct_sent {i ch a} {nd nd' : Node D B P} (e : nd.runAct c i ch a = some nd') :
    nd'.sent = nd.sent ∨ ∃ v, a = .flush v ∧ nd'.sent = v :: nd.sent := by
  cases a with
  | propose =>
    simp only [runAct, Option.map_eq_some_iff] at e
    obtain ⟨x, hx, rfl⟩ := e
    obtain ⟨_, rfl⟩ := begin_eq hx
    left
    unfold doPropose
    split
    · split <;> rfl
    · split <;> rfl
  | prevote =>
    simp only [runAct, Option.map_eq_some_iff] at e
    obtain ⟨x, hx, rfl⟩ := e
    obtain ⟨_, rfl⟩ := begin_eq hx
    left
    unfold doPrevote
    split
    · rfl
    split
    · rfl
    split_ifs <;> rfl
  | prevoteWait =>
    simp only [runAct, Option.map_eq_some_iff] at e
    obtain ⟨x, hx, rfl⟩ := e
    obtain ⟨_, rfl⟩ := begin_eq hx
    left
    unfold doPrevoteWait
    simp only []
    split <;> rfl
  | precommit =>
    simp only [runAct, Option.bind_eq_some_iff] at e
    obtain ⟨x, hx, e⟩ := e
    obtain ⟨_, rfl⟩ := begin_eq hx
    left
    unfold doPrecommit at e
    split at e
    · cases e; rfl
    · cases e; rfl
    · split at e
      · cases e; rfl
      · split at e
        · split at e
          · cases e; rfl
          · split at e
            · cases e
            · cases e; rfl
        · cases e; rfl
  | precommitWait =>
    simp only [runAct, Option.map_eq_some_iff] at e
    obtain ⟨x, hx, rfl⟩ := e
    obtain ⟨_, rfl⟩ := begin_eq hx
    left
    unfold doPrecommitWait
    simp only []
    split <;> rfl
  | newRound =>
    simp only [runAct, Option.some.injEq] at e
    subst e
    left
    unfold doNewRound
    simp only []
    split <;> rfl
  | lockVote p =>
    simp only [runAct, Option.some.injEq] at e
    subst e
    exact Or.inl rfl
  | vote t p =>
    simp only [runAct, Option.some.injEq] at e
    subst e
    left
    unfold doVote
    split <;> rfl
  | flush v =>
    simp only [runAct, Option.some.injEq] at e
    subst e
    exact Or.inr ⟨v, rfl, rfl⟩
  | recv v =>
    simp only [runAct, Option.some.injEq] at e
    subst e
    exact Or.inl (recvVote_passive _ _ _).sent
  | commit =>
    simp only [runAct, Option.some.injEq] at e
    subst e
    exact Or.inl rfl

theorem nodeStep_sent {i ev} {nd nd' : Node D B P} (ho : Own c i nd) (e : nodeStep c i nd ev = some nd') :
    (∀ v ∈ nd.sent, v ∈ nd'.sent) ∧ ∀ v ∈ nd'.sent, nd.Said v := by
  have key : nd'.sent = nd.sent → (∀ v ∈ nd.sent, v ∈ nd'.sent) ∧ ∀ v ∈ nd'.sent, nd.Said v := by
    intro h
    rw [h]
    exact ⟨fun _ h => h, fun _ h => Or.inl h⟩
  unfold nodeStep at e
  split at e
  · cases e
  · cases ev with
    | restart kr kl kc =>
      simp only [] at e
      split at e
      · cases e
        unfold restart
        rw [(resume_eqs _).1]
        refine ⟨fun v hv => List.mem_append_right _ hv, fun v hv => ?_⟩
        rcases List.mem_append.1 hv with a | a
        · exact ho.base.wal v (ownVotes_take_sub _ _ _ a)
        · exact Or.inl a
      · cases e
    | run ch =>
      simp only [] at e
      split at e
      · rename_i a ha
        rcases runAct_sent e with h | ⟨v, rfl, h⟩
        · exact key h
        · rw [h]
          refine ⟨fun w hw => List.mem_cons_of_mem _ hw, fun w hw => ?_⟩
          rcases List.mem_cons.1 hw with rfl | hw
          · right; rw [ha]; rfl
          · exact Or.inl hw
      · split at e
        · cases e; exact key (runChk_passive _ _).sent
        · cases e
    | recv j v =>
      simp only [] at e; split at e
      · cases e; exact key (recvVote_passive _ _ _).sent
      · cases e
    | timeout =>
      simp only [] at e; split at e
      · exact key (timeout_passive e).sent
      · cases e
    | proposal mr p pol got =>
      simp only [] at e; split at e
      · cases e; exact key (proposal_passive _ _ _ _ _).sent
      · cases e
    | parts b =>
      simp only [] at e; split at e
      · cases e; exact key (parts_passive _ _).sent
      · cases e
    | imported ok =>
      simp only [] at e; split at e
      · refine key ?_
        unfold imported at e
        split at e
        · cases e
        · simp only [] at e
          split at e
          · cases e; rfl
          · split at e
            · split at e
              · split at e
                · cases e
                · cases e; rfl
              · split at e
                · split at e
                  · cases e; rfl
                  · cases e
                · cases e; rfl
            · split at e
              · cases e; rfl
              · cases e; rfl
      · cases e
    | proposed p =>
      simp only [] at e; split at e
      · refine key ?_
        unfold proposed at e
        split at e
        · split at e <;> cases e <;> rfl
        · cases e
      · cases e
    | syncBlock r p l =>
      simp only [] at e; split at e
      · cases e; exact key (syncBlock_passive _ _ _ _).sent
      · cases e
    | finalize =>
      simp only [] at e; split at e
      · exact key (finalize_passive e).sent
      · cases e

end Node

/-! ### The network -/

theorem auth_mono {bad : ℕ → Prop} {s : ℕ → Node D B P} {i : ℕ} {nd : Node D B P}
    (h : ∀ v ∈ (s i).sent, v ∈ nd.sent) (j : ℕ) (v : Vote D) (k : Auth c bad s j v) :
    Auth c bad (Function.update s i nd) j v := by
  refine ⟨k.1, k.2.1, k.2.2.1, ?_⟩
  rcases k.2.2.2 with a | a
  · exact Or.inl a
  · right
    by_cases hj : j = i
    · subst hj; rw [Function.update_self]; exact h v a
    · rw [Function.update_of_ne hj]; exact a

theorem reach_own {bad : ℕ → Prop} {lossy : Bool} {s : ℕ → Node D B P} (h : Reach c bad lossy s) (i : ℕ) :
    Node.Own c i (s i) := by
  induction h generalizing i with
  | init => exact Node.init_own i
  | step j e nd _ _ _ _ hs ih =>
    by_cases hj : i = j
    · subst hj; rw [Function.update_self]; exact Node.nodeStep_own (ih i) hs
    · rw [Function.update_of_ne hj]; exact ih i

theorem own_auth {bad : ℕ → Prop} {s : ℕ → Node D B P} {i : ℕ} (h : Node.Own c i (s i)) :
    ∀ v ∈ (s i).sent, Auth c bad s i v := by
  intro v hv
  obtain ⟨h1, h2, h3, _⟩ := h.base.form v hv
  exact ⟨h1, h2, h3, Or.inr hv⟩

/-- The invariants that need no bound on the faulty nodes. -/
theorem reach_net (hc : c.Sound) {bad : ℕ → Prop} {lossy : Bool} {s : ℕ → Node D B P}
    (h : Reach c bad lossy s) (i : ℕ) : Net c (Auth c bad s) (s i) ∧ Node.CM c (Auth c bad s) (s i) := by
  induction h generalizing i with
  | init => exact ⟨Node.init_net, Node.init_cm⟩
  | @step s j e nd hr hb hd _ hs ih =>
    have ho := reach_own hr j
    have hsent := Node.nodeStep_sent ho hs
    have hm : ∀ k v, Auth c bad s k v → Auth c bad (Function.update s j nd) k v := auth_mono hsent.1
    by_cases hj : i = j
    · subst hj
      have ho' := Node.nodeStep_own ho hs
      rw [Function.update_self]
      have hA : ∀ v ∈ nd.sent, Auth c bad (Function.update s i nd) i v := by
        have := own_auth (c := c) (bad := bad) (s := Function.update s i nd) (i := i)
        rw [Function.update_self] at this
        exact this ho'
      have hrecv : ∀ k v, e = .recv k v → k < c.n ∧ Auth c bad (Function.update s i nd) k v := by
        rintro k v rfl
        exact ⟨hd.1, hm _ _ hd⟩
      have kn := (ih i).1.mono hm
      have kn' := Node.nodeStep_net kn ho hA hrecv (by
        rintro r p l rfl x hx
        exact ⟨(hd x hx).1.1, hm _ _ (hd x hx).1⟩) hs
      exact ⟨kn', Node.nodeStep_cm hc ((ih i).2.mono hm) kn kn' ho (fun v hv => hA v (hsent.1 v hv)) hrecv hs⟩
    · rw [Function.update_of_ne hj]
      exact ⟨(ih i).1.mono hm, (ih i).2.mono hm⟩

/-- Two quorums share a correct validator. -/
theorem quorum_inter {n : ℕ} {F S T : Finset ℕ} (hF : 3 * F.card < n) (hS : S ⊆ Finset.range n)
    (hT : T ⊆ Finset.range n) (kS : 2 * n < 3 * S.card) (kT : 2 * n < 3 * T.card) :
    ∃ j, j ∈ S ∧ j ∈ T ∧ j ∉ F := by
  by_contra hne
  push Not at hne
  have h1 : S ∩ T ⊆ F := fun j hj => hne j (Finset.mem_inter.1 hj).1 (Finset.mem_inter.1 hj).2
  have h2 := Finset.card_le_card h1
  have h3 := Finset.card_union_add_card_inter S T
  have h4 : (S ∪ T).card ≤ n := by
    simpa using Finset.card_le_card (Finset.union_subset hS hT)
  omega

theorem one_decision {F : Finset ℕ} (hF : 3 * F.card < c.n) {s : ℕ → Node D B P}
    (ho : ∀ i, Node.Own c i (s i)) : OneDecision c (Auth c (· ∈ F) s) := by
  intro t r q q' h h'
  obtain ⟨S, a1, a2, a3⟩ := h
  obtain ⟨T, b1, b2, b3⟩ := h'
  obtain ⟨j, hS, hT, hj⟩ := quorum_inter hF a1 b1 a2 b2
  obtain ⟨v, v1, v2, v3, v4⟩ := a3 j hS
  obtain ⟨w, w1, w2, w3, w4⟩ := b3 j hT
  have hv := v1.2.2.2.resolve_left hj
  have hw := w1.2.2.2.resolve_left hj
  have := (ho j).base.uniq v hv w hw (v3.trans w3.symm) (v2.trans w2.symm)
  rw [← v4, ← w4, this]

/-- Validator `j` precommitted `p` in round `r0`, or still can. -/
def Pot (c : Cfg D B P) (F : Finset ℕ) (s : ℕ → Node D B P) (j : ℕ) (p : P) (r0 : ℤ) : Prop :=
  j ∈ F ∨ (∃ v ∈ (s j).sent, v.typ = .precommit ∧ v.round = r0 ∧ c.psid v.dec = some p) ∨
    ∀ v ∈ (s j).sent, v.round < r0 ∨ (v.round = r0 ∧ v.typ = .prevote)

/-- While a block can still be decided in a round, no later round prevotes something else. -/
def Safe (c : Cfg D B P) (F : Finset ℕ) (s : ℕ → Node D B P) : Prop :=
  ∀ p r0, (∃ S : Finset ℕ, S ⊆ Finset.range c.n ∧ 2 * c.n < 3 * S.card ∧ ∀ j ∈ S, Pot c F s j p r0) →
    ¬ Bad c (Auth c (· ∈ F) s) p r0

theorem pot_back {F : Finset ℕ} {s : ℕ → Node D B P} {i : ℕ} {nd : Node D B P}
    (ho : Node.Own c i (s i)) (h1 : ∀ v ∈ (s i).sent, v ∈ nd.sent) (h2 : ∀ v ∈ nd.sent, (s i).Said v)
    {j p r0} (k : Pot c F (Function.update s i nd) j p r0) : Pot c F s j p r0 := by
  by_cases hj : j = i
  · subst hj
    unfold Pot at k
    rw [Function.update_self] at k
    rcases k with k | ⟨v, k1, k2, k3, k4⟩ | k
    · exact Or.inl k
    · rcases h2 v k1 with a | a
      · exact Or.inr (Or.inl ⟨v, a, k2, k3, k4⟩)
      · right; right
        intro w hw
        rcases ha : (s j).act with _ | x
        · rw [ha] at a; cases a
        · cases x with
          | flush u =>
            rw [ha] at a
            simp only [Node.pending, Option.some.injEq] at a
            subst a
            obtain ⟨e1, e2, _, e3, _⟩ := ho.act _ ha
            rcases ho.base.pos w hw with b | b
            · left; omega
            · right
              refine ⟨by omega, ?_⟩
              rcases hwt : w.typ with _ | _
              · rfl
              · exact absurd ⟨b.1, by rw [hwt, k2]⟩ (e2 w hw)
          | _ => rw [ha] at a; cases a
    · exact Or.inr (Or.inr (fun v hv => k v (h1 v hv)))
  · unfold Pot at k ⊢
    rw [Function.update_of_ne hj] at k
    exact k

theorem reach_lock (hc : c.Sound) {F : Finset ℕ} (hF : 3 * F.card < c.n) {s : ℕ → Node D B P}
    (h : Reach c (· ∈ F) false s) :
    (∀ i, Node.LK c (Auth c (· ∈ F) s) (s i)) ∧ Safe c F s := by
  induction h with
  | init =>
    refine ⟨fun i => Node.init_lk, ?_⟩
    rintro p r0 _ ⟨r', q, _, _, S, h1, h2, h3⟩
    obtain ⟨j, hS, _, hj⟩ := quorum_inter hF h1 h1 h2 h2
    obtain ⟨v, hv, _⟩ := h3 j hS
    have := hv.2.2.2.resolve_left hj
    simp [Node.init] at this
  | @step s i e nd hr hb hd hst hs ih =>
    have ho := reach_own hr i
    have hr' : Reach c (· ∈ F) false (Function.update s i nd) := .step i e nd hr hb hd hst hs
    have hsent := Node.nodeStep_sent ho hs
    have hm : ∀ k v, Auth c (· ∈ F) s k v → Auth c (· ∈ F) (Function.update s i nd) k v :=
      auth_mono hsent.1
    have hu := one_decision hF (reach_own hr')
    have ho' : Node.Own c i nd := Node.nodeStep_own ho hs
    have hA : ∀ v ∈ nd.sent, Auth c (· ∈ F) (Function.update s i nd) i v := by
      have := own_auth (c := c) (bad := (· ∈ F)) (s := Function.update s i nd) (i := i)
      rw [Function.update_self] at this
      exact this ho'
    refine ⟨?_, ?_⟩
    · intro j
      by_cases hj : j = i
      · subst hj
        rw [Function.update_self]
        refine Node.nodeStep_lk hc hu ho ((reach_net hc hr j).1.mono hm) ((ih.1 j).mono hm) hA
          (fun v hv => hA v (hsent.1 v hv)) ?_ ?_ hs
        · rintro k v rfl
          exact ⟨hd.1, hm _ _ hd⟩
        · rintro kr kl kc rfl
          rcases hst kr kl kc rfl with x | x
          · cases x
          · exact x
      · rw [Function.update_of_ne hj]
        exact (ih.1 j).mono hm
    · rintro p r0 ⟨S, s1, s2, s3⟩ ⟨r', q, q1, q2, T, t1, t2, t3⟩
      have hsafe : ¬ Bad c (Auth c (· ∈ F) s) p r0 :=
        ih.2 p r0 ⟨S, s1, s2, fun j hj => pot_back ho hsent.1 hsent.2 (s3 j hj)⟩
      obtain ⟨j, jS, jT, jF⟩ := quorum_inter hF s1 t1 s2 t2
      obtain ⟨w, w1, w2, w3, w4⟩ := t3 j jT
      have hw := w1.2.2.2.resolve_left jF
      have hsaid : ∀ v ∈ (Function.update s i nd j).sent, (s j).Said v := by
        intro v hv
        by_cases hj : j = i
        · subst hj; rw [Function.update_self] at hv; exact hsent.2 v hv
        · rw [Function.update_of_ne hj] at hv; exact Or.inl hv
      rcases s3 j jS with k | ⟨v, k1, k2, k3, k4⟩ | k
      · exact jF k
      · rcases (ih.1 j).words.keep v w (hsaid v k1) (hsaid w hw) k2 w2 (by omega) p k4 with a | a
        · exact q2 (w4.symm.trans a)
        · rw [k3] at a; exact hsafe a
      · rcases k w hw with a | a <;> omega

end Verif.Consensus.Engine
