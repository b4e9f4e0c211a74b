import Verif.Consensus.EngineThms

/-!
# Validity

What a correct validator votes for was checked by a correct validator.
-/

namespace Verif.Consensus.Engine

variable {D B P : Type} [DecidableEq B] [DecidableEq P] {c : Cfg D B P}

namespace Node

variable {A : ℕ → Vote D → Prop} {G : P → Prop}

/-- A node between two functions: everything it may vote for is good. -/
structure VB (c : Cfg D B P) (G : P → Prop) (nd : Node D B P) : Prop where
  sent : ∀ v ∈ nd.sent, ∀ p, c.psid v.dec = some p → G p
  lock : ∀ p, nd.lockedID = some p → G p
  cur : ∀ x, nd.current = some x → x.valid = true → G x.id
  imp : ∀ r p, nd.imp = some (r, p) → r = nd.round → nd.step ≤ stPrevoteWait →
    ∃ x, nd.current = some x ∧ (x.id = p ∨ G x.id)

/-- The same, with the vote being made. -/
structure VI (c : Cfg D B P) (G : P → Prop) (nd : Node D B P) : Prop where
  base : VB c G nd
  pend : ∀ v, pending nd.act = some v → ∀ p, c.psid v.dec = some p → G p
  vote : ∀ t p, nd.act = some (.vote t (some p)) → G p
  lockVote : ∀ p, nd.act = some (.lockVote p) → G p

theorem VB.mono {G' : P → Prop} (h : ∀ p, G p → G' p) {nd : Node D B P} (k : VB c G nd) : VB c G' nd :=
  ⟨fun v hv p e => h p (k.sent v hv p e), fun p e => h p (k.lock p e), fun x e hx => h _ (k.cur x e hx),
   fun r p a b d => by
     obtain ⟨x, e, y⟩ := k.imp r p a b d
     exact ⟨x, e, y.imp id (h _)⟩⟩

theorem VI.mono {G' : P → Prop} (h : ∀ p, G p → G' p) {nd : Node D B P} (k : VI c G nd) : VI c G' nd :=
  ⟨k.base.mono h, fun v hv p e => h p (k.pend v hv p e), fun t p e => h p (k.vote t p e),
   fun p e => h p (k.lockVote p e)⟩

theorem VB.vi {nd : Node D B P} (k : VB c G nd) (h : Plain nd.act) : VI c G nd := by
  refine ⟨k, ?_, ?_, ?_⟩
  · rw [pending_plain h]; intro v hv; cases hv
  · intro t p e; rw [e] at h; exact h.elim
  · intro p e; rw [e] at h; exact h.elim

/-- How the lock and the current block change within a round. -/
structure CurF (G : P → Prop) (nd nd' : Node D B P) : Prop where
  lock : nd'.lockedID = none ∨ nd'.lockedID = nd.lockedID
  valid : (∀ x, nd.current = some x → x.valid = true → G x.id) →
    ∀ x, nd'.current = some x → x.valid = true → G x.id
  keep : nd'.round = nd.round → nd'.step ≤ stPrevoteWait → ∀ x, nd.current = some x →
    ∃ y, nd'.current = some y ∧ (y.id = x.id ∨ G y.id)
  pos : nd.round < nd'.round ∨ (nd.round = nd'.round ∧ nd.step ≤ nd'.step)

theorem CurF.refl (nd : Node D B P) : CurF G nd nd :=
  ⟨Or.inr rfl, fun h => h, fun _ _ x e => ⟨x, e, Or.inl rfl⟩, Or.inr ⟨rfl, le_refl _⟩⟩

theorem CurF.same {nd nd' : Node D B P} (h1 : nd'.lockedID = nd.lockedID) (h2 : nd'.current = nd.current)
    (h3 : nd.round < nd'.round ∨ (nd.round = nd'.round ∧ nd.step ≤ nd'.step)) : CurF G nd nd' :=
  ⟨Or.inr h1, by rw [h2]; exact id, fun _ _ x e => ⟨x, by rw [h2]; exact e, Or.inl rfl⟩, h3⟩

theorem CurF.trans {a b d : Node D B P} (h : CurF G a b) (k : CurF G b d) : CurF G a d where
  lock := by
    rcases k.lock with e | e
    · exact Or.inl e
    · rw [e]; exact h.lock
  valid := fun x => k.valid (h.valid x)
  keep := by
    intro e1 e2 x hx
    have p1 := h.pos
    have p2 := k.pos
    obtain ⟨y, y1, y2⟩ := h.keep (by omega) (by omega) x hx
    obtain ⟨z, z1, z2⟩ := k.keep (by omega) e2 y y1
    refine ⟨z, z1, ?_⟩
    rcases z2 with z2 | z2
    · rw [z2]; exact y2
    · exact Or.inr z2
  pos := by have p1 := h.pos; have p2 := k.pos; omega

theorem VB.frame {i x} {nd nd' : Node D B P} (k : VB c G nd) (hb : Base c i x nd) (p : Passive nd nd')
    (h : CurF G nd nd') : VB c G nd' := by
  refine ⟨by rw [p.sent]; exact k.sent, ?_, h.valid k.cur, ?_⟩
  · intro q e
    rcases h.lock with e' | e'
    · rw [e'] at e; cases e
    · exact k.lock q (e' ▸ e)
  · intro r q e1 e2 e3
    rw [p.imp] at e1
    have hpos := h.pos
    rcases hb.imp r q e1 with b | b
    · omega
    · obtain ⟨y, y1, y2⟩ := k.imp r q e1 (by omega) (by omega)
      obtain ⟨z, z1, z2⟩ := h.keep (by omega) e3 y y1
      refine ⟨z, z1, ?_⟩
      rcases z2 with z2 | z2
      · rw [z2]; exact y2
      · exact Or.inr z2

theorem VB.passive {i} {nd nd' : Node D B P} (k : VB c G nd) (hb : Base c i none nd) (hp : Plain nd.act)
    (p : Passive nd nd') (h : CurF G nd nd') : VI c G nd' :=
  (k.frame hb p h).vi (p.act hp)

theorem setByID_curF (nd : Node D B P) {p : P} (hp : G p) (cur' : Option (Parts P))
    (e : cur' = setByID nd.current p) :
    ((∀ x, nd.current = some x → x.valid = true → G x.id) → ∀ x, cur' = some x → x.valid = true → G x.id) ∧
      ∀ x, nd.current = some x → ∃ y, cur' = some y ∧ (y.id = x.id ∨ G y.id) := by
  subst e
  unfold setByID
  split
  · rename_i h
    exact ⟨id, fun x e => ⟨x, e, Or.inl rfl⟩⟩
  · refine ⟨fun _ x e hv => ?_, fun x e => ⟨_, rfl, Or.inr hp⟩⟩
    cases e; cases hv

theorem seePrevotes_curF (hc : c.Sound) (hQ : ∀ r p, Quo c A .prevote r (some p) → G p) {nd : Node D B P}
    (k : HvsOK c A nd.hvs) (mr) :
    CurF G nd (nd.seePrevotes mr (nd.votes c mr .prevote).overPSID) := by
  rcases ho : (nd.votes c mr .prevote).overPSID with _ | q
  · exact CurF.refl _
  · have hq := k.quo hc ho
    unfold seePrevotes seePolka
    simp only []
    have h1 : CurF G nd (if nd.lockedRound < mr ∧ nd.locked.isSome ∧ nd.lockedID ≠ q then
        { nd with lockedRound := -1, locked := none } else nd) := by
      split
      · exact ⟨Or.inl rfl, id, fun _ _ x e => ⟨x, e, Or.inl rfl⟩, Or.inr ⟨rfl, le_refl _⟩⟩
      · exact CurF.refl _
    refine h1.trans ?_
    generalize (if nd.lockedRound < mr ∧ nd.locked.isSome ∧ nd.lockedID ≠ q then
        { nd with lockedRound := -1, locked := none } else nd) = nd1
    cases q with
    | none => exact CurF.refl _
    | some p =>
      simp only []
      split
      · have := setByID_curF nd1 (hQ _ _ hq) _ rfl
        exact ⟨Or.inr rfl, this.1, fun _ _ => this.2, Or.inr ⟨rfl, le_refl _⟩⟩
      · exact CurF.refl _

theorem act_curF (nd : Node D B P) (a) : CurF G nd { nd with act := a } :=
  CurF.same rfl rfl (Or.inr ⟨rfl, le_refl _⟩)

theorem reset_curF (nd : Node D B P) (r : ℤ) (h : nd.round < r) : CurF G nd (nd.resetForNewRound r) :=
  ⟨Or.inr rfl, (fun _ x e => by cases e), (fun e => by
    have e' : r = nd.round := e
    omega), Or.inl h⟩

theorem handlePrevote_curF (hc : c.Sound) (hQ : ∀ r p, Quo c A .prevote r (some p) → G p)
    {nd : Node D B P} (k : HvsOK c A nd.hvs) (mr) : CurF G nd (nd.handlePrevote c mr) := by
  unfold handlePrevote
  split
  · exact CurF.refl _
  · simp only []
    refine (seePrevotes_curF hc hQ k mr).trans ?_
    generalize nd.seePrevotes mr _ = nd1
    split
    · exact act_curF _ _
    split
    · exact act_curF _ _
    split
    · exact act_curF _ _
    split
    · split
      · exact act_curF _ _
      · exact CurF.refl _
    split
    · rename_i h
      exact (reset_curF nd1 mr h.1).trans (act_curF _ _)
    · exact CurF.refl _

theorem enterCommit_curF (nd : Node D B P) (r p) (h : nd.step < stCommit) :
    CurF G nd (nd.enterCommit c r p) := by
  refine ⟨Or.inr rfl, ?_, ?_, Or.inr ⟨rfl, le_of_lt h⟩⟩
  · intro hv x hx hx'
    have hx2 : setByID nd.current p = some x := hx
    unfold setByID at hx2
    split at hx2
    · exact hv x hx2 hx'
    · cases hx2; cases hx'
  · intro _ h2
    have : stCommit ≤ stPrevoteWait := h2
    exact absurd this (by decide)

theorem handlePrecommit_curF {nd : Node D B P} (mr) : CurF G nd (nd.handlePrecommit c mr) := by
  unfold handlePrecommit
  simp only []
  split
  · rename_i h
    split
    · exact enterCommit_curF _ _ _ h.2
    · exact CurF.refl _
  split
  · exact act_curF _ _
  split
  · exact act_curF _ _
  split
  · rename_i h
    split
    · exact enterCommit_curF _ _ _ (by rw [h.2]; decide)
    · exact act_curF _ _
    · exact CurF.refl _
  split
  · rename_i h
    exact (reset_curF nd mr h.1).trans (act_curF _ _)
  · exact CurF.refl _

theorem recvVote_curF (hc : c.Sound) (hQ : ∀ r p, Quo c A .prevote r (some p) → G p) {nd : Node D B P}
    (k : HvsOK c A nd.hvs) {j v} (hj : j < c.n) (ha : A j v) : CurF G nd (nd.recvVote c j v) := by
  unfold recvVote
  simp only []
  have k1 : HvsOK c A ({ nd with hvs := (nd.hvs.add c j v).1 } : Node D B P).hvs := k.add hj ha
  have h0 : CurF G nd ({ nd with hvs := (nd.hvs.add c j v).1 } : Node D B P) :=
    CurF.same rfl rfl (Or.inr ⟨rfl, le_refl _⟩)
  split
  · exact h0
  split
  · exact h0
  split
  · exact h0.trans (handlePrevote_curF hc hQ k1 _)
  · exact h0.trans (handlePrecommit_curF _)

theorem runChk_curF (nd : Node D B P) (k) : CurF G nd (nd.runChk c k) := by
  cases k <;> unfold runChk <;> simp only [] <;> split <;> first | exact act_curF _ _ | exact CurF.refl _

theorem timeout_curF {nd nd' : Node D B P} (e : nd.timeout = some nd') : CurF G nd nd' := by
  have hp := (timeout_passive e).pos
  unfold timeout at e
  split_ifs at e <;> cases e <;> exact CurF.same rfl rfl hp

theorem afterParts_curF (nd : Node D B P) : CurF G nd (nd.afterParts c) := by
  unfold afterParts
  split
  · exact act_curF _ _
  · exact CurF.refl _

theorem proposal_curF (nd : Node D B P) (mr p pol got) : CurF G nd (nd.proposal c mr p pol got) := by
  unfold proposal
  split
  · exact CurF.refl _
  split
  · exact CurF.refl _
  · rename_i h
    refine CurF.trans (b := ({ nd with
      polRound := pol, current := some ⟨p, got.isSome, got = some true, false⟩ } : Node D B P)) ?_
      (afterParts_curF _)
    refine ⟨Or.inr rfl, (fun _ x e hv => by cases e; cases hv), fun _ _ x e => ?_, Or.inr ⟨rfl, le_refl _⟩⟩
    rw [e] at h; exact absurd rfl h

theorem parts_curF (nd : Node D B P) (b) : CurF G nd (nd.parts c b) := by
  unfold parts
  split
  · exact CurF.refl _
  · rename_i x hx
    split
    · exact CurF.refl _
    · refine CurF.trans (b := ({ nd with current := some { x with complete := true, block := b } } :
        Node D B P)) ?_ (afterParts_curF _)
      refine ⟨Or.inr rfl, fun h y e hv => ?_, fun _ _ y e => ?_, Or.inr ⟨rfl, le_refl _⟩⟩
      · cases e; exact h x hx hv
      · rw [hx] at e; cases e; exact ⟨_, rfl, Or.inl rfl⟩

theorem syncBlock_curF (nd : Node D B P) (r p l) : CurF G nd (nd.syncBlock c r p l) := by
  unfold syncBlock
  simp only []
  have hv : (∀ x, nd.current = some x → x.valid = true → G x.id) → curValid nd.current p = true → G p := by
    intro h e
    unfold curValid at e
    split at e
    · rename_i x hx
      simp only [Bool.and_eq_true, decide_eq_true_eq] at e
      rw [← e.1]; exact h x hx e.2
    · cases e
  have hid : setByID (some ⟨p, true, true, curValid nd.current p⟩) p =
      some ⟨p, true, true, curValid nd.current p⟩ := by
    unfold setByID; simp
  split
  · split
    · rename_i hlt
      refine ⟨Or.inr rfl, fun h x e hx => ?_, fun _ h => ?_, Or.inr ⟨rfl, le_of_lt hlt⟩⟩
      · have e' : setByID (some ⟨p, true, true, curValid nd.current p⟩) p = some x := e
        rw [hid] at e'
        cases e'; exact hv h hx
      · have : stCommit ≤ stPrevoteWait := h
        exact absurd this (by decide)
    · rename_i hge
      refine ⟨Or.inr rfl, fun h x e hx => ?_, fun _ h => ?_, Or.inr ⟨rfl, le_refl _⟩⟩
      · cases e; exact hv h hx
      · have h1 : nd.step ≤ stPrevoteWait := h
        have h2 : stPrevoteWait < stCommit := by decide
        omega
  · exact CurF.same rfl rfl (Or.inr ⟨rfl, le_refl _⟩)

theorem finalize_curF {nd nd' : Node D B P} (e : nd.finalize = some nd') : CurF G nd nd' := by
  unfold finalize at e
  split at e
  · cases e
  · split at e <;> cases e
    exact CurF.same rfl rfl (Or.inr ⟨rfl, le_refl _⟩)

/-! ### The functions that make votes -/

theorem VB.same {nd nd' : Node D B P} (k : VB c G nd) (h1 : nd'.sent = nd.sent)
    (h2 : nd'.lockedID = nd.lockedID) (h3 : nd'.current = nd.current) (h4 : nd'.imp = nd.imp)
    (h5 : nd'.round = nd.round) (h6 : nd'.step = nd.step) : VB c G nd' :=
  ⟨by rw [h1]; exact k.sent, by rw [h2]; exact k.lock, by rw [h3]; exact k.cur,
   by rw [h4, h5, h6, h3]; exact k.imp⟩

theorem thenVote_vi {nd : Node D B P} (k : VB c G nd) (t p kk) (h : ∀ q, p = some q → G q) :
    VI c G (nd.thenVote t p kk) := by
  refine ⟨k.same rfl rfl rfl rfl rfl rfl, ?_, ?_, ?_⟩
  · intro v hv; cases hv
  · intro t' q e
    simp only [thenVote, Option.some.injEq, Act.vote.injEq] at e
    exact h q e.2
  · intro q e; cases e

theorem doPropose_vi {i x} {nd : Node D B P} (k : VB c G nd) (hb : Base c i x nd) (ha : nd.act = none)
    (hs : nd.step = stPropose) : VI c G (nd.doPropose c i) := by
  unfold doPropose
  split
  · split
    · rename_i l hl
      refine VB.vi ⟨k.sent, k.lock, ?_, ?_⟩ (by simp only [ha]; trivial)
      · intro y e _
        cases e
        exact k.lock _ (by unfold lockedID; rw [hl]; rfl)
      · intro r p e1 e2 _
        have h1 : stPropose < stPrevote := by decide
        have e2' : r = nd.round := e2
        rcases hb.imp r p e1 with a | a <;> omega
    · exact k.vi (by rw [ha]; trivial)
  · split
    · exact VB.vi (k.same rfl rfl rfl rfl rfl rfl) trivial
    · exact k.vi (by rw [ha]; trivial)

theorem doPrevote_vi {ch} {nd : Node D B P} (k : VB c G nd) (ha : nd.act = none) :
    VI c G (nd.doPrevote c ch) := by
  unfold doPrevote
  split
  · rename_i l hl
    refine thenVote_vi k _ _ _ ?_
    intro q e
    cases e
    exact k.lock _ (by unfold lockedID; rw [hl]; rfl)
  · split
    · exact thenVote_vi k _ _ _ (by intro q e; cases e)
    · rename_i x hx
      split
      · exact thenVote_vi k _ _ _ (by intro q e; cases e)
      split
      · rename_i hv
        exact thenVote_vi k _ _ _ (by intro q e; cases e; exact k.cur x hx hv)
      split
      · exact thenVote_vi k _ _ _ (by intro q e; cases e)
      split
      · refine ⟨k.same rfl rfl rfl rfl rfl rfl, ?_, ?_, ?_⟩
        · intro v hv; cases hv
        · intro t' q e; cases e
        · intro q e; cases e
      · refine VB.vi ⟨k.sent, k.lock, k.cur, ?_⟩ (by simp only [ha]; trivial)
        intro r p e _ _
        simp only [Option.some.injEq, Prod.mk.injEq] at e
        exact ⟨x, hx, Or.inl e.2⟩

theorem doPrecommit_vi (hc : c.Sound) (hQ : ∀ r p, Quo c A .prevote r (some p) → G p) {nd nd' : Node D B P}
    (k : VB c G nd) (hk : HvsOK c A nd.hvs) (hs : nd.step = stPrecommit)
    (e : nd.doPrecommit c = some nd') : VI c G nd' := by
  have hst : ¬ nd.step ≤ stPrevoteWait := by rw [hs]; decide
  have key : ∀ (lr : ℤ) (lk : Option (Parts P)) (cur : Option (Parts P)) (q : Option P),
      (∀ l, lk = some l → G l.id) → (∀ x, cur = some x → x.valid = true → G x.id) →
      (∀ p, q = some p → G p) → VI c G
        (({ nd with current := cur, lockedRound := lr, locked := lk } : Node D B P).thenVote
          .precommit q .precommits) := by
    intro lr lk cur q h1 h2 h3
    refine thenVote_vi (nd := ({ nd with current := cur, lockedRound := lr, locked := lk } : Node D B P))
      ⟨k.sent, ?_, h2, fun r p _ _ h => absurd h hst⟩ _ _ _ h3
    intro p hp
    unfold lockedID at hp
    rw [Option.map_eq_some_iff] at hp
    obtain ⟨l, hl, rfl⟩ := hp
    exact h1 l hl
  unfold doPrecommit at e
  split at e
  · cases e
    exact thenVote_vi k _ _ _ (by intro q e; cases e)
  · cases e
    exact key _ _ nd.current _ (by intro l e; cases e) k.cur (by intro l e; cases e)
  · rename_i p ho
    have hp : G p := hQ _ _ (hk.quo hc ho)
    have hcur := (setByID_curF nd hp (setByID nd.current p) rfl).1 k.cur
    split at e
    · cases e
      refine key _ nd.locked nd.current _ ?_ k.cur (by intro l e; cases e; exact hp)
      intro l hl
      exact k.lock _ (by unfold lockedID; rw [hl]; rfl)
    · split at e
      · rename_i y hy
        split at e
        · rename_i hh
          cases e
          refine ⟨⟨k.sent, ?_, k.cur, fun r p _ _ h => absurd h hst⟩, ?_, ?_, ?_⟩
          · intro q hq
            simp only [lockedID, Option.map_some, Option.some.injEq] at hq
            rw [← hq, hh.1]; exact hp
          · intro v hv; cases hv
          · intro t' q e; cases e
          · intro q e; cases e; exact hp
        · split at e
          · cases e
          · cases e
            exact key _ none _ none (by intro l e; cases e) hcur (by intro l e; cases e)
      · cases e
        exact key _ none _ none (by intro l e; cases e) hcur (by intro l e; cases e)

theorem runAct_vi (hc : c.Sound) (hQ : ∀ r p, Quo c A .prevote r (some p) → G p) {i ch}
    {nd nd' : Node D B P} {a : Act D P} (h : Own c i { nd with act := some a }) (kn : HvsOK c A nd.hvs)
    (k : VI c G { nd with act := some a }) (hv : ∀ v, a = .recv v → i < c.n ∧ A i v)
    (e : ({ nd with act := none } : Node D B P).runAct c i ch a = some nd') : VI c G nd' := by
  have hb := h.base
  have hplain : ∀ (_ : pending (some a) = none), Base c i none ({ nd with act := none } : Node D B P) := by
    intro hp
    simp only [hp] at hb
    exact ⟨hb.rnn, hb.wal, hb.dur, hb.pos, hb.uniq, hb.form, hb.imp⟩
  have kb : VB c G ({ nd with act := none } : Node D B P) := k.base.same rfl rfl rfl rfl rfl rfl
  have step : ∀ {s : ℕ} (hlt : nd.step < s), pending (some a) = none →
      VB c G ({ nd with act := none, step := s } : Node D B P) := by
    intro s hlt hp
    exact kb.frame (hplain hp) (step_passive ({ nd with act := none } : Node D B P) s hlt)
      (CurF.same rfl rfl (Or.inr ⟨rfl, le_of_lt hlt⟩))
  cases a with
  | propose =>
    simp only [runAct, Option.map_eq_some_iff] at e
    obtain ⟨x, hx, rfl⟩ := e
    obtain ⟨hlt, rfl⟩ := begin_eq hx
    exact doPropose_vi (step hlt rfl) ((hplain rfl).frame (step_passive _ _ hlt)) rfl rfl
  | prevote =>
    simp only [runAct, Option.map_eq_some_iff] at e
    obtain ⟨x, hx, rfl⟩ := e
    obtain ⟨hlt, rfl⟩ := begin_eq hx
    exact doPrevote_vi (step hlt rfl) rfl
  | prevoteWait =>
    simp only [runAct, Option.map_eq_some_iff] at e
    obtain ⟨x, hx, rfl⟩ := e
    obtain ⟨hlt, rfl⟩ := begin_eq hx
    unfold doPrevoteWait
    simp only []
    split
    · exact VB.vi ((step hlt rfl).same rfl rfl rfl rfl rfl rfl) trivial
    · exact VB.vi ((step hlt rfl).same rfl rfl rfl rfl rfl rfl) trivial
  | precommit =>
    simp only [runAct, Option.bind_eq_some_iff] at e
    obtain ⟨x, hx, e⟩ := e
    obtain ⟨hlt, rfl⟩ := begin_eq hx
    exact doPrecommit_vi hc hQ (step hlt rfl) kn rfl e
  | precommitWait =>
    simp only [runAct, Option.map_eq_some_iff] at e
    obtain ⟨x, hx, rfl⟩ := e
    obtain ⟨hlt, rfl⟩ := begin_eq hx
    unfold doPrecommitWait
    simp only []
    split
    · refine VB.passive (nd := ({ nd with step := stPrecommitWait, act := none, rwal := nd.rwal ++
          [.list (votesIn (nd.votes c nd.round .precommit))] } : Node D B P)) (i := i)
        ((step hlt rfl).same rfl rfl rfl rfl rfl rfl)
        (((hplain rfl).frame (step_passive _ _ hlt)).log _
          (list_own (votesIn (nd.votes c nd.round .precommit))) _ (le_refl _)) trivial
        (enterCommit_passive _ _ _ (by simp)) (enterCommit_curF _ _ _ (by simp))
    · exact VB.vi ((step hlt rfl).same rfl rfl rfl rfl rfl rfl) trivial
    · exact VB.vi ((step hlt rfl).same rfl rfl rfl rfl rfl rfl) trivial
  | newRound =>
    simp only [runAct, Option.some.injEq] at e
    subst e
    have hp : Passive ({ nd with act := none } : Node D B P)
        (({ nd with act := none } : Node D B P).resetForNewRound (nd.round + 1)) :=
      reset_passive _ _ (by simp only []; omega)
    have hf : CurF G ({ nd with act := none } : Node D B P)
        (({ nd with act := none } : Node D B P).resetForNewRound (nd.round + 1)) :=
      reset_curF _ _ (by simp only []; omega)
    unfold doNewRound
    simp only []
    split
    · exact kb.passive (hplain rfl) trivial hp hf
    · exact kb.passive (hplain rfl) trivial (hp.trans (act_passive _ _ trivial)) (hf.trans (act_curF _ _))
  | lockVote p =>
    simp only [runAct, Option.some.injEq] at e
    subst e
    refine ⟨kb.same rfl rfl rfl rfl rfl rfl, ?_, ?_, ?_⟩
    · intro v hv; cases hv
    · intro t' q e
      simp only [Option.some.injEq, Act.vote.injEq] at e
      rw [← e.2]; exact k.lockVote p rfl
    · intro q e; cases e
  | vote t p =>
    simp only [runAct, Option.some.injEq] at e
    subst e
    unfold doVote
    split
    · refine ⟨kb.same rfl rfl rfl rfl rfl rfl, ?_, ?_, ?_⟩
      · intro v hv q hq
        simp only [pending, Option.some.injEq] at hv
        subst hv
        simp only [hc.honest] at hq
        subst hq
        exact k.vote t q rfl
      · intro t' q e; cases e
      · intro q e; cases e
    · exact kb.vi trivial
  | flush v =>
    simp only [runAct, Option.some.injEq] at e
    subst e
    refine ⟨⟨?_, kb.lock, kb.cur, kb.imp⟩, ?_, ?_, ?_⟩
    · intro w hw p hp
      simp only [doFlush, List.mem_cons] at hw
      rcases hw with rfl | hw
      · exact k.pend w rfl p hp
      · exact kb.sent w hw p hp
    · intro w hw; cases hw
    · intro t' q e; cases e
    · intro q e; cases e
  | recv v =>
    simp only [runAct, Option.some.injEq] at e
    subst e
    have := hv v rfl
    exact kb.passive (hplain rfl) trivial (recvVote_passive _ _ _)
      (recvVote_curF hc hQ (nd := ({ nd with act := none } : Node D B P)) kn this.1 this.2)
  | commit =>
    simp only [runAct, Option.some.injEq] at e
    subst e
    exact VB.vi (kb.same rfl rfl rfl rfl rfl rfl) trivial

theorem imported_vi {ok} {nd nd' : Node D B P} (k : VB c G nd) (ha : nd.act = none)
    (e : nd.imported ok = some nd') (hG : ∀ p ∈ nd'.checked, G p) : VI c G nd' := by
  unfold imported at e
  split at e
  · cases e
  · rename_i r p hi
    have hcur : ∀ cur ck, (∀ x, cur = some x → x.valid = true → G x.id) →
        VB c G ({ nd with imp := none, current := cur, checked := ck } : Node D B P) := fun cur ck h =>
      ⟨k.sent, k.lock, h, by intro r p e; cases e⟩
    have hpl : Plain nd.act := by rw [ha]; trivial
    have hvote : ∀ cur ck q, (∀ x, cur = some x → x.valid = true → G x.id) → (∀ p, q = some p → G p) →
        VI c G ({ nd with imp := none, current := cur, checked := ck, act := some (.vote .prevote q) } :
          Node D B P) := by
      intro cur ck q h1 h2
      refine ⟨(hcur cur ck h1).same rfl rfl rfl rfl rfl rfl, ?_, ?_, ?_⟩
      · intro v hv; cases hv
      · intro t' p' e
        simp only [Option.some.injEq, Act.vote.injEq] at e
        exact h2 p' e.2
      · intro p' e; cases e
    simp only [] at e
    split at e
    · cases e
      exact (hcur nd.current _ k.cur).vi hpl
    · rename_i hl
      push Not at hl
      split at e
      · rename_i hok
        split at e
        · rename_i hc0
          split at e
          · cases e
          · cases e; exact (hcur nd.current _ k.cur).vi hpl
        · rename_i x hx
          have hx' : ∀ ck : List P, (∀ q ∈ ck, G q) → p ∈ ck →
              ∀ y, some (if x.block = true ∧ x.id = p then { x with complete := true, valid := true } else x)
                = some y → y.valid = true → G y.id := by
            intro ck h1 h2 y e hv
            cases e
            split at hv
            · rename_i h
              rw [if_pos h]
              simp only [h.2]
              exact h1 p h2
            · rename_i h
              rw [if_neg h]
              exact k.cur x hx hv
          split at e
          · rename_i hs
            split at e
            · cases e
              have hGp : G p := hG p (by simp)
              refine hvote _ _ _ (hx' _ hG (by simp)) ?_
              intro q hq
              cases hq
              obtain ⟨y, y1, y2⟩ := k.imp r p hi hl.1 hs
              rw [hx] at y1
              cases y1
              rcases y2 with y2 | y2
              · rw [y2]; exact hGp
              · exact y2
            · cases e
          · cases e
            exact (hcur _ _ (hx' _ hG (by simp))).vi hpl
      · split at e
        · cases e; exact hvote nd.current _ _ k.cur (by intro p e; cases e)
        · cases e; exact (hcur nd.current _ k.cur).vi hpl

theorem proposed_vi {i x p} {nd nd' : Node D B P} (k : VB c G nd) (hb : Base c i x nd)
    (e : nd.proposed c i p = some nd') (hG : ∀ p ∈ nd'.checked, G p) : VI c G nd' := by
  unfold proposed at e
  split at e
  · rename_i h
    split at e
    · cases e
      exact VB.vi (k.same rfl rfl rfl rfl rfl rfl) trivial
    · rename_i q
      cases e
      refine VB.vi ⟨k.sent, k.lock, ?_, ?_⟩ trivial
      · intro y e _
        cases e
        exact hG q (by simp)
      · intro r p' e1 e2 _
        have h1 : stPropose < stPrevote := by decide
        have e2' : r = nd.round := e2
        have := h.1
        rcases hb.imp r p' e1 with a | a <;> omega
  · cases e

/-! ### The lock log -/

/-- The locks in a lock log are backed by prevotes. -/
theorem Locks_quo {l cd x} (k : Locks c A l cd x) :
    (∀ y, cd = some y → Quo c A .prevote y.2 (some y.1)) ∧
    (∀ y, x = some y → Quo c A .prevote y.2 (some y.1)) := by
  induction k with
  | nil => exact ⟨(by intro y e; cases e), (by intro y e; cases e)⟩
  | list _ hp ih => exact ⟨(by intro y e; cases e; exact hp.quo), ih.2⟩
  | parts _ ih => exact ⟨ih.1, (by intro y e; cases e; exact ih.1 _ rfl)⟩

/-- The lock log is well formed. -/
def LW (c : Cfg D B P) (A : ℕ → Vote D → Prop) (nd : Node D B P) : Prop := ∃ cd x, Locks c A nd.lwal cd x

theorem restart_vi (hc : c.Sound) {A' : ℕ → Vote D → Prop} (hAA : ∀ j v, A j v → A' j v)
    (hu : OneDecision c A') (hQ : ∀ r p, Quo c A .prevote r (some p) → G p) {i} {nd : Node D B P}
    (ho : Own c i nd) (kn : Net c A nd) (k : VI c G nd) (kl : LW c A nd) {kr ks kc}
    (h2 : ∀ v ∈ ownVotes (nd.rwal.take kr), i < c.n ∧ A' i v) :
    VI c G (nd.restart c i kr ks kc) := by
  obtain ⟨cd, x, hl⟩ := kl
  obtain ⟨cd', x', hl'⟩ := hl.take ks
  have hlast : ∀ cw, (scan c i (nd.rwal.take kr) (nd.lwal.take ks) cw : LockScan D B P × _).1.last = x' :=
    fun cw => scan_last hc hu (kn.mono hAA) h2 (hl'.mono hAA) cw
  have hgood : ∀ y, x' = some y → G y.1 := fun y e => hQ _ _ ((Locks_quo hl').2 y e)
  unfold restart
  obtain ⟨e1, e2, e3, e4, e5, e6, e7, e8, e9, e10, e11, e12, e13, e14⟩ := resume_eqs (nd.loaded c i kr ks kc)
  have hpl : Plain (nd.loaded c i kr ks kc).resume.act := (resume_passive _).act trivial
  refine VB.vi ⟨?_, ?_, ?_, ?_⟩ hpl
  · rw [e1]
    intro v hv p hp
    rcases List.mem_append.1 hv with a | a
    · rcases ho.base.wal v (ownVotes_take_sub _ _ _ a) with b | b
      · exact k.base.sent v b p hp
      · exact k.pend v b p hp
    · exact k.base.sent v a p hp
  · intro p hp
    unfold lockedID at hp
    rw [e11] at hp
    unfold loaded at hp
    simp only [hlast] at hp
    rcases x' with _ | y
    · cases hp
    · simp only [Option.map_some, Option.some.injEq] at hp
      rw [← hp]; exact hgood y rfl
  · rw [e13]
    intro z hz hv
    unfold loaded at hz
    simp only [hlast] at hz
    rcases x' with _ | y
    · cases hz
    · simp only [Option.map_some, Option.some.injEq] at hz
      rw [← hz] at hv; cases hv
  · rw [e7]; intro r p h; cases h

theorem runAct_lw (hc : c.Sound) {i ch a} {nd nd' : Node D B P} (k : LW c A nd) (hk : HvsOK c A nd.hvs)
    (e : nd.runAct c i ch a = some nd') : LW c A nd' := by
  by_cases ha : a = .precommit
  · subst ha
    simp only [runAct, Option.bind_eq_some_iff] at e
    obtain ⟨x, hx, e⟩ := e
    obtain ⟨_, rfl⟩ := begin_eq hx
    unfold doPrecommit at e
    split at e
    · cases e; exact k
    · cases e; exact k
    · rename_i p ho
      split at e
      · cases e; exact k
      · split at e
        · split at e
          · cases e
            obtain ⟨cd, z, h1⟩ := k
            refine ⟨some (p, nd.round), some (p, nd.round), ?_⟩
            have := (h1.list (votesIn_polka hc hk ho)).parts
            rw [List.append_assoc] at this
            exact this
          · split at e
            · cases e
            · cases e; exact k
        · cases e; exact k
  · suffices h : nd'.lwal = nd.lwal by unfold LW; rw [h]; exact k
    cases a with
    | precommit => exact absurd rfl ha
    | propose =>
      simp only [runAct, Option.map_eq_some_iff] at e
      obtain ⟨x, hx, rfl⟩ := e
      obtain ⟨_, rfl⟩ := begin_eq hx
      unfold doPropose
      split
      · split <;> rfl
      · split <;> rfl
    | prevote =>
      simp only [runAct, Option.map_eq_some_iff] at e
      obtain ⟨x, hx, rfl⟩ := e
      obtain ⟨_, rfl⟩ := begin_eq hx
      unfold doPrevote
      split
      · rfl
      split
      · rfl
      split_ifs <;> rfl
    | prevoteWait =>
      simp only [runAct, Option.map_eq_some_iff] at e
      obtain ⟨x, hx, rfl⟩ := e
      obtain ⟨_, rfl⟩ := begin_eq hx
      unfold doPrevoteWait
      simp only []
      split <;> rfl
    | precommitWait =>
      simp only [runAct, Option.map_eq_some_iff] at e
      obtain ⟨x, hx, rfl⟩ := e
      obtain ⟨_, rfl⟩ := begin_eq hx
      unfold doPrecommitWait
      simp only []
      split <;> rfl
    | newRound =>
      simp only [runAct, Option.some.injEq] at e
      subst e
      unfold doNewRound
      simp only []
      split <;> rfl
    | lockVote p => simp only [runAct, Option.some.injEq] at e; subst e; rfl
    | vote t p =>
      simp only [runAct, Option.some.injEq] at e
      subst e
      unfold doVote
      split <;> rfl
    | flush v => simp only [runAct, Option.some.injEq] at e; subst e; rfl
    | recv v =>
      simp only [runAct, Option.some.injEq] at e; subst e
      exact (recvVote_passive _ _ _).lwal
    | commit => simp only [runAct, Option.some.injEq] at e; subst e; rfl

theorem nodeStep_vi (hc : c.Sound) {A' : ℕ → Vote D → Prop} (hAA : ∀ j v, A j v → A' j v)
    (hu : OneDecision c A') (hQ : ∀ r p, Quo c A .prevote r (some p) → G p) {i ev} {nd nd' : Node D B P}
    (ho : Own c i nd) (kn : Net c A nd) (k : VI c G nd) (kl : LW c A nd) (hG : ∀ p ∈ nd'.checked, G p)
    (hA' : ∀ v ∈ nd'.sent, A' i v) (hAs : ∀ v ∈ nd.sent, A i v)
    (hd : ∀ j v, ev = .recv j v → j < c.n ∧ A j v)
    (e : nodeStep c i nd ev = some nd') : VI c G nd' ∧ LW c A nd' := by
  have hidle : nd.idle = true → nd.act = none := by
    unfold idle; intro x; simp at x; exact x.1
  have hbase : nd.act = none → Base c i none nd := fun x => by
    have := ho.base; rw [x] at this; exact this
  have hplain : nd.act = none → Plain nd.act := fun x => by rw [x]; trivial
  have hpas : nd.act = none → Passive nd nd' → CurF G nd nd' → VI c G nd' ∧ LW c A nd' := fun x p f =>
    ⟨k.base.passive (hbase x) (hplain x) p f, by unfold LW; rw [p.lwal]; exact kl⟩
  unfold nodeStep at e
  split at e
  · cases e
  · cases ev with
    | restart kr ks kc =>
      simp only [] at e
      split at e
      · rename_i hk
        cases e
        constructor
        · refine restart_vi hc hAA hu hQ ho kn k kl (fun v hv => ?_)
          have hm : v ∈ (nd.restart c i kr ks kc).sent := by
            unfold restart
            rw [(resume_eqs _).1]
            exact List.mem_append_left _ hv
          exact ⟨((restart_own ho kr ks kc hk.1).base.form v hm).1, hA' v hm⟩
        · obtain ⟨cd, x, hl⟩ := kl
          unfold LW restart
          rw [(resume_eqs _).2.2.2.1]
          exact hl.take ks
      · cases e
    | run ch =>
      simp only [] at e
      split at e
      · rename_i a ha
        have hnd : ({ nd with act := some a } : Node D B P) = nd := by rw [← ha]
        constructor
        · refine runAct_vi hc hQ (nd := nd) (by rw [hnd]; exact ho) kn.hvs (by rw [hnd]; exact k) ?_ e
          rintro v rfl
          have hm : v ∈ nd.sent := ho.act _ ha
          exact ⟨(ho.base.form v hm).1, hAs v hm⟩
        · exact runAct_lw hc (nd := ({ nd with act := none } : Node D B P)) kl kn.hvs e
      · rename_i ha
        split at e
        · cases e
          rename_i kk ks _
          have hb := hbase ha
          constructor
          · exact VB.passive (nd := ({ nd with chks := ks } : Node D B P)) (i := i)
              (k.base.same rfl rfl rfl rfl rfl rfl)
              ⟨hb.rnn, hb.wal, hb.dur, hb.pos, hb.uniq, hb.form, hb.imp⟩ (hplain ha) (runChk_passive _ _)
              (runChk_curF _ _)
          · unfold LW; rw [(runChk_passive _ _).lwal]; exact kl
        · cases e
    | recv j v =>
      simp only [] at e; split at e
      · rename_i hi; cases e; have := hd j v rfl
        exact hpas (hidle hi) (recvVote_passive _ _ _) (recvVote_curF hc hQ kn.hvs this.1 this.2)
      · cases e
    | timeout =>
      simp only [] at e; split at e
      · rename_i hi
        exact hpas (hidle hi) (timeout_passive e) (timeout_curF e)
      · cases e
    | proposal mr p pol got =>
      simp only [] at e; split at e
      · rename_i hi; cases e
        exact hpas (hidle hi) (proposal_passive _ _ _ _ _) (proposal_curF _ _ _ _ _)
      · cases e
    | parts b =>
      simp only [] at e; split at e
      · rename_i hi; cases e
        exact hpas (hidle hi) (parts_passive _ _) (parts_curF _ _)
      · cases e
    | imported ok =>
      simp only [] at e; split at e
      · rename_i hi
        refine ⟨imported_vi k.base (hidle hi) e hG, ?_⟩
        suffices h : nd'.lwal = nd.lwal by unfold LW; rw [h]; exact kl
        unfold imported at e
        split at e
        · cases e
        · simp only [] at e
          split at e
          · cases e; rfl
          · split at e
            · split at e
              · split at e
                · cases e
                · cases e; rfl
              · split at e
                · split at e
                  · cases e; rfl
                  · cases e
                · cases e; rfl
            · split at e
              · cases e; rfl
              · cases e; rfl
      · cases e
    | proposed p =>
      simp only [] at e; split at e
      · rename_i hi
        refine ⟨proposed_vi k.base (hbase (hidle hi)) e hG, ?_⟩
        suffices h : nd'.lwal = nd.lwal by unfold LW; rw [h]; exact kl
        unfold proposed at e
        split at e
        · split at e <;> cases e <;> rfl
        · cases e
      · cases e
    | syncBlock r p l =>
      simp only [] at e; split at e
      · rename_i hi; cases e
        exact hpas (hidle hi) (syncBlock_passive _ _ _ _) (syncBlock_curF _ _ _ _)
      · cases e
    | finalize =>
      simp only [] at e; split at e
      · rename_i hi
        exact hpas (hidle hi) (finalize_passive e) (finalize_curF e)
      · cases e

theorem init_vi : VI c G (init : Node D B P) := by
  refine VB.vi ⟨?_, ?_, ?_, ?_⟩ trivial
  · intro v hv; cases hv
  · intro p e; cases e
  · intro x e; cases e
  · intro r p e; cases e

end Node

/-- Block `p` passed the checks of a correct validator: its block manager imported it without error, or
built it. -/
def CheckedBy (c : Cfg D B P) (F : Finset ℕ) (s : ℕ → Node D B P) (p : P) : Prop :=
  ∃ j, j ∉ F ∧ j < c.n ∧ p ∈ (s j).checked

namespace Node

theorem seePrevotes_checked (nd : Node D B P) (mr o) : (nd.seePrevotes mr o).checked = nd.checked := by
  cases o with
  | none => rfl
  | some q =>
    unfold seePrevotes seePolka
    cases q <;> simp only [] <;> split_ifs <;> rfl

theorem recvVote_checked (nd : Node D B P) (j v) : (nd.recvVote c j v).checked = nd.checked := by
  have h1 : ∀ (m : Node D B P) mr, (m.handlePrevote c mr).checked = m.checked := by
    intro m mr
    unfold handlePrevote
    split
    · rfl
    · simp only []
      have e := m.seePrevotes_checked mr (m.votes c mr .prevote).overPSID
      generalize m.seePrevotes mr _ = m1 at e ⊢
      rw [← e]
      split_ifs <;> rfl
  have h2 : ∀ (m : Node D B P) mr, (m.handlePrecommit c mr).checked = m.checked := by
    intro m mr
    unfold handlePrecommit
    simp only []
    split
    · split <;> rfl
    split
    · rfl
    split
    · rfl
    split
    · split <;> rfl
    split <;> rfl
  unfold recvVote
  simp only []
  split
  · rfl
  split
  · rfl
  split
  · exact h1 _ _
  · exact h2 _ _

theorem runAct_checked {i ch a} {nd nd' : Node D B P} (e : nd.runAct c i ch a = some nd') :
    nd'.checked = nd.checked := by
  cases a with
  | propose =>
    simp only [runAct, Option.map_eq_some_iff] at e
    obtain ⟨x, hx, rfl⟩ := e
    obtain ⟨_, rfl⟩ := begin_eq hx
    unfold doPropose
    split
    · split <;> rfl
    · split <;> rfl
  | prevote =>
    simp only [runAct, Option.map_eq_some_iff] at e
    obtain ⟨x, hx, rfl⟩ := e
    obtain ⟨_, rfl⟩ := begin_eq hx
    unfold doPrevote
    split
    · rfl
    split
    · rfl
    split_ifs <;> rfl
  | prevoteWait =>
    simp only [runAct, Option.map_eq_some_iff] at e
    obtain ⟨x, hx, rfl⟩ := e
    obtain ⟨_, rfl⟩ := begin_eq hx
    unfold doPrevoteWait
    simp only []
    split <;> rfl
  | precommit =>
    simp only [runAct, Option.bind_eq_some_iff] at e
    obtain ⟨x, hx, e⟩ := e
    obtain ⟨_, rfl⟩ := begin_eq hx
    unfold doPrecommit at e
    split at e
    · cases e; rfl
    · cases e; rfl
    · split at e
      · cases e; rfl
      · split at e
        · split at e
          · cases e; rfl
          · split at e
            · cases e
            · cases e; rfl
        · cases e; rfl
  | precommitWait =>
    simp only [runAct, Option.map_eq_some_iff] at e
    obtain ⟨x, hx, rfl⟩ := e
    obtain ⟨_, rfl⟩ := begin_eq hx
    unfold doPrecommitWait
    simp only []
    split <;> rfl
  | newRound =>
    simp only [runAct, Option.some.injEq] at e
    subst e
    unfold doNewRound
    simp only []
    split <;> rfl
  | lockVote p => simp only [runAct, Option.some.injEq] at e; subst e; rfl
  | vote t p =>
    simp only [runAct, Option.some.injEq] at e
    subst e
    unfold doVote
    split <;> rfl
  | flush v => simp only [runAct, Option.some.injEq] at e; subst e; rfl
  | recv v =>
    simp only [runAct, Option.some.injEq] at e; subst e
    exact recvVote_checked _ _ _
  | commit => simp only [runAct, Option.some.injEq] at e; subst e; rfl

end Node

/-- The record of checked blocks only grows. -/
theorem nodeStep_checked {i ev} {nd nd' : Node D B P} (e : nodeStep c i nd ev = some nd') :
    ∀ p ∈ nd.checked, p ∈ nd'.checked := by
  have key : nd'.checked = nd.checked → ∀ p ∈ nd.checked, p ∈ nd'.checked := fun h => by rw [h]; exact fun _ h => h
  unfold nodeStep at e
  split at e
  · cases e
  · cases ev with
    | restart kr ks kc =>
      simp only [] at e
      split at e
      · cases e
        refine key ?_
        unfold Node.restart Node.resume
        split_ifs <;> rfl
      · cases e
    | run ch =>
      simp only [] at e
      split at e
      · have h := Node.runAct_checked e
        exact key h
      · split at e
        · cases e
          rename_i kk ks _
          refine key ?_
          cases kk <;> unfold Node.runChk <;> simp only [] <;> split <;> rfl
        · cases e
    | recv j v =>
      simp only [] at e; split at e
      · cases e; exact key (Node.recvVote_checked _ _ _)
      · cases e
    | timeout =>
      simp only [] at e; split at e
      · refine key ?_
        unfold Node.timeout at e
        split_ifs at e <;> cases e <;> rfl
      · cases e
    | proposal mr p pol got =>
      simp only [] at e; split at e
      · cases e
        refine key ?_
        unfold Node.proposal Node.afterParts
        split_ifs <;> rfl
      · cases e
    | parts b =>
      simp only [] at e; split at e
      · cases e
        refine key ?_
        unfold Node.parts Node.afterParts
        split
        · rfl
        · split_ifs <;> rfl
      · cases e
    | imported ok =>
      simp only [] at e; split at e
      · unfold Node.imported at e
        split at e
        · cases e
        · rename_i r p _
          have hck : ∀ q ∈ nd.checked, q ∈ (if ok = true then p :: nd.checked else nd.checked) := by
            intro q hq; split
            · exact List.mem_cons_of_mem _ hq
            · exact hq
          have hck' : ∀ q ∈ nd.checked, q ∈ p :: nd.checked := fun q hq => List.mem_cons_of_mem _ hq
          simp only [] at e
          split at e
          · cases e; exact hck
          · split at e
            · split at e
              · split at e
                · cases e
                · cases e; exact hck'
              · split at e
                · split at e
                  · cases e; exact hck'
                  · cases e
                · cases e; exact hck'
            · split at e
              · cases e; exact fun _ h => h
              · cases e; exact fun _ h => h
      · cases e
    | proposed p =>
      simp only [] at e; split at e
      · unfold Node.proposed at e
        split at e
        · split at e
          · cases e; exact fun _ h => h
          · cases e; exact fun q hq => List.mem_cons_of_mem _ hq
        · cases e
      · cases e
    | syncBlock r p l =>
      simp only [] at e; split at e
      · cases e
        refine key ?_
        unfold Node.syncBlock
        simp only []
        split
        · split <;> rfl
        · rfl
      · cases e
    | finalize =>
      simp only [] at e; split at e
      · refine key ?_
        unfold Node.finalize at e
        split at e
        · cases e
        · split at e <;> cases e
          rfl
      · cases e

theorem reach_valid (hc : c.Sound) {F : Finset ℕ} (hF : 3 * F.card < c.n) {lossy : Bool}
    {s : ℕ → Node D B P} (h : Reach c (· ∈ F) lossy s) (i : ℕ) (hi : i < c.n) (hiF : i ∉ F) :
    Node.VI c (CheckedBy c F s) (s i) ∧ Node.LW c (Auth c (· ∈ F) s) (s i) := by
  induction h generalizing i with
  | init => exact ⟨Node.init_vi, none, none, Locks.nil⟩
  | @step s j e nd hr hb hd hst hs ih =>
    have ho := reach_own hr j
    have hr' : Reach c (· ∈ F) lossy (Function.update s j nd) := .step j e nd hr hb hd hst hs
    have hsent := Node.nodeStep_sent ho hs
    have hm : ∀ k v, Auth c (· ∈ F) s k v → Auth c (· ∈ F) (Function.update s j nd) k v :=
      auth_mono hsent.1
    have hG : ∀ p, CheckedBy c F s p → CheckedBy c F (Function.update s j nd) p := by
      rintro p ⟨k, k1, k2, k3⟩
      refine ⟨k, k1, k2, ?_⟩
      by_cases hk : k = j
      · subst hk; rw [Function.update_self]; exact nodeStep_checked hs p k3
      · rw [Function.update_of_ne hk]; exact k3
    by_cases hj : i = j
    · subst hj
      rw [Function.update_self]
      have hA : ∀ v ∈ nd.sent, Auth c (· ∈ F) (Function.update s i nd) i v := by
        have := own_auth (c := c) (bad := (· ∈ F)) (s := Function.update s i nd) (i := i)
        rw [Function.update_self] at this
        exact this (Node.nodeStep_own ho hs)
      have hQ : ∀ r p, Quo c (Auth c (· ∈ F) s) .prevote r (some p) → CheckedBy c F (Function.update s i nd) p := by
        rintro r p ⟨S, s1, s2, s3⟩
        obtain ⟨k, kS, _, kF⟩ := quorum_inter hF s1 s1 s2 s2
        obtain ⟨v, v1, v2, v3, v4⟩ := s3 k kS
        exact hG p ((ih k v1.1 kF).1.base.sent v (v1.2.2.2.resolve_left kF) p v4)
      have := Node.nodeStep_vi hc hm (one_decision hF (reach_own hr')) hQ ho (reach_net hc hr i).1
        ((ih i hi hiF).1.mono hG) (ih i hi hiF).2 (by
          intro p hp
          exact ⟨i, hiF, hi, by rw [Function.update_self]; exact hp⟩) hA (own_auth ho) (by
          rintro k v rfl
          exact ⟨hd.1, hd⟩) hs
      obtain ⟨h1, cd, x, h2⟩ := this
      exact ⟨h1, cd, x, h2.mono hm⟩
    · rw [Function.update_of_ne hj]
      obtain ⟨h1, cd, x, h2⟩ := ih i hi hiF
      exact ⟨h1.mono hG, cd, x, h2.mono hm⟩

/-- **C56 (validity).** A block finalized by a correct node passed the checks of a correct validator, even
with crashes and restarts at will. -/
theorem C56_finalized_was_checked (hc : c.Sound) {F : Finset ℕ} (hF : 3 * F.card < c.n) {lossy : Bool}
    {s : ℕ → Node D B P} (h : Reach c (· ∈ F) lossy s) (i : ℕ) (p : P) (hp : (s i).final = some p) :
    ∃ j, j ∉ F ∧ j < c.n ∧ p ∈ (s j).checked := by
  obtain ⟨r, S, s1, s2, s3⟩ := C54_finalized_is_decided hc h i p hp
  obtain ⟨k, kS, _, kF⟩ := quorum_inter hF s1 s1 s2 s2
  obtain ⟨v, v1, v2, v3, v4⟩ := s3 k kS
  exact (reach_valid hc hF h k v1.1 kF).1.base.sent v (v1.2.2.2.resolve_left kF) p v4

/-- **C56.** Every vote of a correct validator for a block is for a block that passed the checks of a correct
validator. -/
theorem C56_voted_was_checked (hc : c.Sound) {F : Finset ℕ} (hF : 3 * F.card < c.n) {lossy : Bool}
    {s : ℕ → Node D B P} (h : Reach c (· ∈ F) lossy s) (i : ℕ) (hi : i ∉ F) (v : Vote D)
    (hv : v ∈ (s i).sent) (p : P) (hp : c.psid v.dec = some p) : ∃ j, j ∉ F ∧ j < c.n ∧ p ∈ (s j).checked :=
  (reach_valid hc hF h i ((reach_own h i).base.form v hv).1 hi).1.base.sent v hv p hp

/-- **The hypotheses of C56 are met**: in the execution of `C54_example` validators 0, 1 and 2 checked the
block, and a faulty validator is present. -/
theorem C56_example : (play Example.cfg Example.bad false Example.ch Example.good Example.start).map
    (fun l => l.map (fun nd => nd.checked)) = some [[7], [7], [7], [], []] := by
  decide +kernel

end Verif.Consensus.Engine
