import Verif.Consensus.Engine
import Mathlib.Tactic.Linarith

/-!
# The own votes of one node

The part of the invariant that concerns a single node: which votes it has signed, what its round WAL
holds, and where it is in the round.
-/

namespace Verif.Consensus.Engine

variable {D B P : Type} [DecidableEq B] [DecidableEq P] {c : Cfg D B P}

/-- Acts that are not about a vote of the node itself. -/
def Plain : Option (Act D P) → Prop
  | none => True
  | some .propose => True
  | some .prevote => True
  | some .prevoteWait => True
  | some .precommit => True
  | some .precommitWait => True
  | some .newRound => True
  | some .commit => True
  | some (.lockVote _) => False
  | some (.vote _ _) => False
  | some (.flush _) => False
  | some (.recv _) => False

/-- What handlers leave alone, and that the position only moves up. -/
structure Passive (nd nd' : Node D B P) : Prop where
  sent : nd'.sent = nd.sent
  rwal : nd'.rwal = nd.rwal
  rsync : nd'.rsync = nd.rsync
  lwal : nd'.lwal = nd.lwal
  lsync : nd'.lsync = nd.lsync
  imp : nd'.imp = nd.imp
  pos : nd.round < nd'.round ∨ (nd.round = nd'.round ∧ nd.step ≤ nd'.step)
  act : Plain nd.act → Plain nd'.act

theorem Passive.refl (nd : Node D B P) : Passive nd nd :=
  ⟨rfl, rfl, rfl, rfl, rfl, rfl, Or.inr ⟨rfl, le_refl _⟩, id⟩

theorem Passive.trans {a b d : Node D B P} (h : Passive a b) (k : Passive b d) : Passive a d where
  sent := k.sent.trans h.sent
  rwal := k.rwal.trans h.rwal
  rsync := k.rsync.trans h.rsync
  lwal := k.lwal.trans h.lwal
  lsync := k.lsync.trans h.lsync
  imp := k.imp.trans h.imp
  pos := by
    rcases h.pos with h | ⟨h, h'⟩ <;> rcases k.pos with k | ⟨k, k'⟩
    · left; omega
    · left; omega
    · left; omega
    · right; omega
  act := fun x => k.act (h.act x)

namespace Node

theorem seePolka_passive (nd : Node D B P) (mr q) : Passive nd (nd.seePolka mr q) := by
  unfold seePolka
  cases q <;> simp only [] <;> split_ifs <;>
    exact ⟨rfl, rfl, rfl, rfl, rfl, rfl, Or.inr ⟨rfl, le_refl _⟩, id⟩

theorem enterCommit_passive (nd : Node D B P) (r p) (h : nd.step < stCommit) :
    Passive nd (nd.enterCommit c r p) :=
  ⟨rfl, rfl, rfl, rfl, rfl, rfl, Or.inr ⟨rfl, le_of_lt h⟩, fun _ => trivial⟩

theorem act_passive (nd : Node D B P) (a : Act D P) (h : Plain (some a)) :
    Passive nd { nd with act := some a } :=
  ⟨rfl, rfl, rfl, rfl, rfl, rfl, Or.inr ⟨rfl, le_refl _⟩, fun _ => h⟩

theorem reset_passive (nd : Node D B P) (r : ℤ) (h : nd.round < r) :
    Passive nd (nd.resetForNewRound r) :=
  ⟨rfl, rfl, rfl, rfl, rfl, rfl, Or.inl h, id⟩

theorem handlePrevote_passive (nd : Node D B P) (mr : ℤ) : Passive nd (nd.handlePrevote c mr) := by
  unfold handlePrevote
  by_cases h0 : stCommit ≤ nd.step
  · rw [if_pos h0]; exact Passive.refl _
  · rw [if_neg h0]
    simp only []
    generalize (nd.votes c mr .prevote).overPSID = o
    have h1 : Passive nd (nd.seePrevotes mr o) := by
      cases o with
      | none => exact Passive.refl _
      | some q => exact seePolka_passive _ _ _
    generalize nd.seePrevotes mr o = nd1 at h1 ⊢
    refine h1.trans ?_
    split
    · exact act_passive _ _ trivial
    split
    · exact act_passive _ _ trivial
    split
    · exact act_passive _ _ trivial
    split
    · split
      · exact act_passive _ _ trivial
      · exact Passive.refl _
    split
    · rename_i h; exact (reset_passive _ _ h.1).trans (act_passive _ _ trivial)
    · exact Passive.refl _

theorem handlePrecommit_passive (nd : Node D B P) (mr : ℤ) :
    Passive nd (nd.handlePrecommit c mr) := by
  unfold handlePrecommit
  simp only []
  split
  · rename_i h
    split
    · exact enterCommit_passive _ _ _ h.2
    · exact Passive.refl _
  split
  · exact act_passive _ _ trivial
  split
  · exact act_passive _ _ trivial
  split
  · rename_i h
    split
    · exact enterCommit_passive _ _ _ (by rw [h.2]; decide)
    · exact act_passive _ _ trivial
    · exact Passive.refl _
  split
  · rename_i h; exact (reset_passive _ _ h.1).trans (act_passive _ _ trivial)
  · exact Passive.refl _

theorem hvs_passive (nd : Node D B P) (h : Hvs D B P) : Passive nd { nd with hvs := h } :=
  ⟨rfl, rfl, rfl, rfl, rfl, rfl, Or.inr ⟨rfl, le_refl _⟩, id⟩

theorem recvVote_passive (nd : Node D B P) (j v) : Passive nd (nd.recvVote c j v) := by
  unfold recvVote
  simp only []
  refine (hvs_passive nd (nd.hvs.add c j v).1).trans ?_
  split
  · exact Passive.refl _
  split
  · exact Passive.refl _
  split
  · exact handlePrevote_passive _ _
  · exact handlePrecommit_passive _ _

theorem runChk_passive (nd : Node D B P) (k) : Passive nd (nd.runChk c k) := by
  cases k <;> unfold runChk <;> simp only [] <;> split
  · exact act_passive _ _ trivial
  · exact Passive.refl _
  · exact act_passive _ _ trivial
  · exact Passive.refl _

theorem timeout_passive {nd nd' : Node D B P} (h : nd.timeout = some nd') : Passive nd nd' := by
  unfold timeout at h
  split at h
  · rename_i e
    cases h
    exact ⟨rfl, rfl, rfl, rfl, rfl, rfl, Or.inr ⟨rfl, by simp [e]⟩, id⟩
  split at h
  · cases h; exact act_passive _ _ trivial
  split at h
  · cases h; exact act_passive _ _ trivial
  split at h
  · cases h; exact act_passive _ _ trivial
  split at h
  · cases h; exact act_passive _ _ trivial
  · cases h

theorem cur_passive (nd : Node D B P) (pol cur) :
    Passive nd { nd with polRound := pol, current := cur } :=
  ⟨rfl, rfl, rfl, rfl, rfl, rfl, Or.inr ⟨rfl, le_refl _⟩, id⟩

theorem afterParts_passive (nd : Node D B P) : Passive nd (nd.afterParts c) := by
  unfold afterParts
  split
  · exact act_passive _ _ trivial
  · exact Passive.refl _

theorem proposal_passive (nd : Node D B P) (mr p pol got) :
    Passive nd (nd.proposal c mr p pol got) := by
  unfold proposal
  split
  · exact Passive.refl _
  split
  · exact Passive.refl _
  · exact (cur_passive nd _ _).trans (afterParts_passive _)

theorem parts_passive (nd : Node D B P) (b) : Passive nd (nd.parts c b) := by
  unfold parts
  split
  · exact Passive.refl _
  · split
    · exact Passive.refl _
    · exact (cur_passive nd nd.polRound _).trans (afterParts_passive _)

theorem syncBlock_passive (nd : Node D B P) (r p l) : Passive nd (nd.syncBlock c r p l) := by
  unfold syncBlock
  simp only []
  refine (hvs_passive nd (nd.hvs.addAll c l)).trans ?_
  split
  · split
    · rename_i h
      exact ⟨rfl, rfl, rfl, rfl, rfl, rfl, Or.inr ⟨rfl, le_of_lt h⟩, fun _ => trivial⟩
    · exact ⟨rfl, rfl, rfl, rfl, rfl, rfl, Or.inr ⟨rfl, le_refl _⟩, id⟩
  · exact Passive.refl _

theorem finalize_passive {nd nd' : Node D B P} (h : nd.finalize = some nd') : Passive nd nd' := by
  unfold finalize at h
  split at h
  · cases h
  · split at h
    · cases h; exact ⟨rfl, rfl, rfl, rfl, rfl, rfl, Or.inr ⟨rfl, le_refl _⟩, id⟩
    · cases h

/-! ### The invariant of the own votes -/

/-- No vote of type `t` in the current round was sent. -/
def Fresh (nd : Node D B P) (t : VoteType) : Prop := ∀ v ∈ nd.sent, ¬ (v.round = nd.round ∧ v.typ = t)

/-- Votes signed, logged and sent; `x` is the vote logged but not yet sent. -/
structure Base (c : Cfg D B P) (i : ℕ) (x : Option (Vote D)) (nd : Node D B P) : Prop where
  rnn : 0 ≤ nd.round
  wal : ∀ v ∈ ownVotes nd.rwal, v ∈ nd.sent ∨ x = some v
  dur : ∀ v ∈ nd.sent, v ∈ ownVotes (nd.rwal.take nd.rsync)
  pos : ∀ v ∈ nd.sent, v.round < nd.round ∨ (v.round = nd.round ∧ stepOf v.typ ≤ nd.step)
  uniq : ∀ v ∈ nd.sent, ∀ w ∈ nd.sent, v.round = w.round → v.typ = w.typ → v = w
  form : ∀ v ∈ nd.sent, i < c.n ∧ v.height = c.height ∧ 0 ≤ v.round ∧ ∃ p, v.dec = c.honest v.typ p
  imp : ∀ r p, nd.imp = some (r, p) →
    r < nd.round ∨ (r = nd.round ∧ stPrevote ≤ nd.step ∧ nd.Fresh .prevote)

/-- The import that may still make the node vote is not of this round. -/
def NoImp (nd : Node D B P) : Prop := ∀ r p, nd.imp = some (r, p) → r < nd.round

/-- What holds of the vote being made. -/
def ActOK (c : Cfg D B P) (i : ℕ) (nd : Node D B P) : Act D P → Prop
  | .lockVote _ => stepOf .precommit ≤ nd.step ∧ nd.Fresh .precommit
  | .vote t _ => stepOf t ≤ nd.step ∧ nd.Fresh t ∧ (t = .prevote → nd.NoImp)
  | .flush v => stepOf v.typ ≤ nd.step ∧ nd.Fresh v.typ ∧ (v.typ = .prevote → nd.NoImp) ∧
      v.round = nd.round ∧ i < c.n ∧ v.height = c.height ∧ v ∈ ownVotes nd.rwal ∧
      ∃ p, v.dec = c.honest v.typ p
  | .recv v => v ∈ nd.sent
  | _ => True

/-- The vote logged but not sent. -/
def pending : Option (Act D P) → Option (Vote D)
  | some (.flush v) => some v
  | _ => none

structure Own (c : Cfg D B P) (i : ℕ) (nd : Node D B P) : Prop where
  base : Base c i (pending nd.act) nd
  act : ∀ a, nd.act = some a → ActOK c i nd a

theorem pending_plain {a : Option (Act D P)} (h : Plain a) : pending a = none := by
  rcases a with _ | a
  · rfl
  · cases a <;> first | rfl | exact h.elim

theorem actOK_plain {a : Option (Act D P)} (h : Plain a) {i} {nd : Node D B P} :
    ∀ x, a = some x → ActOK c i nd x := by
  rintro x rfl
  cases x <;> first | exact trivial | exact h.elim

theorem Base.frame {i x} {nd nd' : Node D B P} (h : Base c i x nd) (p : Passive nd nd') :
    Base c i x nd' where
  rnn := by have := h.rnn; rcases p.pos with k | k <;> omega
  wal := by rw [p.rwal, p.sent]; exact h.wal
  dur := by rw [p.rwal, p.sent, p.rsync]; exact h.dur
  pos := by
    intro v hv
    rw [p.sent] at hv
    rcases h.pos v hv with a | a <;> rcases p.pos with k | k
    · left; omega
    · left; omega
    · left; omega
    · right; omega
  uniq := by rw [p.sent]; exact h.uniq
  form := by rw [p.sent]; exact h.form
  imp := by
    intro r q e
    rw [p.imp] at e
    rcases h.imp r q e with a | a <;> rcases p.pos with k | k
    · left; omega
    · left; omega
    · left; omega
    · right
      refine ⟨by omega, by omega, ?_⟩
      unfold Fresh
      rw [p.sent, ← k.1]
      exact a.2.2

theorem Base.own {i} {nd nd' : Node D B P} (h : Base c i none nd) (hp : Plain nd.act)
    (p : Passive nd nd') : Own c i nd' :=
  ⟨by rw [pending_plain (p.act hp)]; exact h.frame p, actOK_plain (p.act hp)⟩

theorem Base.setAct {i x} {nd : Node D B P} (h : Base c i x nd) (a) : Base c i x { nd with act := a } :=
  ⟨h.rnn, h.wal, h.dur, h.pos, h.uniq, h.form, h.imp⟩

theorem fresh_of_lt {i x} {nd : Node D B P} (h : Base c i x nd) (t : VoteType) (k : nd.step < stepOf t) :
    nd.Fresh t := by
  rintro v hv ⟨e1, e2⟩
  rcases h.pos v hv with a | a
  · omega
  · rw [e2] at a; omega

theorem noImp_of_lt {i x} {nd : Node D B P} (h : Base c i x nd) (k : nd.step < stPrevote) : nd.NoImp := by
  intro r p e
  rcases h.imp r p e with a | a
  · exact a
  · omega

/-- Going up one step. -/
theorem step_passive (nd : Node D B P) (s : ℕ) (h : nd.step < s) : Passive nd { nd with step := s } :=
  ⟨rfl, rfl, rfl, rfl, rfl, rfl, Or.inr ⟨rfl, le_of_lt h⟩, id⟩

theorem ownVotes_append (a b : List (RRec D)) : ownVotes (a ++ b) = ownVotes a ++ ownVotes b := by
  simp [ownVotes]

theorem ownVotes_take_append (a b : List (RRec D)) (k : ℕ) (v) (h : v ∈ ownVotes (a.take k)) :
    v ∈ ownVotes ((a ++ b).take k) := by
  rw [List.take_append, ownVotes_append]
  exact List.mem_append_left _ h

theorem ownVotes_take_le (a : List (RRec D)) {k m : ℕ} (hk : k ≤ m) (v)
    (h : v ∈ ownVotes (a.take k)) : v ∈ ownVotes (a.take m) := by
  have : a.take m = a.take k ++ (a.drop k).take (m - k) := by
    have e : m = k + (m - k) := by omega
    rw [e, List.take_add]; simp
  rw [this, ownVotes_append]
  exact List.mem_append_left _ h

theorem ownVotes_take_sub (a : List (RRec D)) (k : ℕ) (v) (h : v ∈ ownVotes (a.take k)) :
    v ∈ ownVotes a := by
  have : ownVotes a = ownVotes (a.take k) ++ ownVotes (a.drop k) := by
    rw [← ownVotes_append, List.take_append_drop]
  rw [this]; exact List.mem_append_left _ h

/-- A record without own votes is written to the round WAL. -/
theorem Base.log {i x} {nd : Node D B P} (h : Base c i x nd) (r : RRec D) (hr : ownVotes [r] = [])
    (k : ℕ) (hk : nd.rsync ≤ k) :
    Base c i x { nd with rwal := nd.rwal ++ [r], rsync := k } where
  rnn := h.rnn
  wal := by intro v hv; rw [ownVotes_append, hr, List.append_nil] at hv; exact h.wal v hv
  dur := fun v hv => ownVotes_take_append _ _ _ _ (ownVotes_take_le _ hk _ (h.dur v hv))
  pos := h.pos
  uniq := h.uniq
  form := h.form
  imp := h.imp

/-! ### Restart -/

/-- One position at or before another. -/
def PosLe (a b : ℤ × ℕ) : Prop := a.1 < b.1 ∨ (a.1 = b.1 ∧ a.2 ≤ b.2)

theorem PosLe.refl (a : ℤ × ℕ) : PosLe a a := Or.inr ⟨rfl, le_refl _⟩

theorem PosLe.trans {a b d : ℤ × ℕ} (h : PosLe a b) (k : PosLe b d) : PosLe a d := by
  unfold PosLe at *; omega

theorem later_left (a b : ℤ × ℕ) : PosLe a (later a b) := by
  unfold later PosLe; split <;> omega

theorem later_right (a b : ℤ × ℕ) : PosLe b (later a b) := by
  unfold later PosLe; split <;> omega

theorem listPos_le (h : Hvs D B P) (l pos) : PosLe pos (listPos c h l pos) := by
  unfold listPos
  split
  · exact PosLe.refl _
  · split
    · exact later_left _ _
    · exact PosLe.refl _

theorem applyRound_le (i : ℕ) (l : List (RRec D)) (s : Hvs D B P × (ℤ × ℕ)) :
    PosLe s.2 (applyRound c i l s).2 ∧
    ∀ v ∈ ownVotes l, PosLe (v.round, stepOf v.typ) (applyRound c i l s).2 := by
  induction l generalizing s with
  | nil => exact ⟨PosLe.refl _, by simp [ownVotes]⟩
  | cons r l ih =>
    cases r with
    | proposal r =>
      simp only [applyRound]
      obtain ⟨h1, h2⟩ := ih (s.1, later s.2 (r, stPropose))
      exact ⟨(later_left _ _).trans h1, fun v hv => h2 v (by simpa [ownVotes] using hv)⟩
    | vote w =>
      simp only [applyRound]
      obtain ⟨h1, h2⟩ := ih ((s.1.add c i w).1, later s.2 (w.round, stepOf w.typ))
      refine ⟨(later_left _ _).trans h1, fun v hv => ?_⟩
      have : v = w ∨ v ∈ ownVotes l := by simpa [ownVotes] using hv
      rcases this with e | e
      · subst e; exact (later_right _ _).trans h1
      · exact h2 v e
    | list x =>
      simp only [applyRound]
      obtain ⟨h1, h2⟩ := ih (s.1.addAll c x, listPos c (s.1.addAll c x) x s.2)
      exact ⟨(listPos_le _ _ _).trans h1, fun v hv => h2 v (by simpa [ownVotes] using hv)⟩

theorem applyLock_le (l : List (LRec D P)) (s : LockScan D B P) :
    PosLe s.pos (applyLock c l s).pos := by
  induction l generalizing s with
  | nil => exact PosLe.refl _
  | cons r l ih =>
    cases r with
    | list x => simp only [applyLock]; exact (listPos_le _ _ _).trans (ih _)
    | parts p => simp only [applyLock]; exact ih _

theorem applyCommit_le (l : List (List (Signed D))) (s : Hvs D B P × (ℤ × ℕ)) :
    PosLe s.2 (applyCommit c l s).2 := by
  induction l generalizing s with
  | nil => exact PosLe.refl _
  | cons x l ih => simp only [applyCommit]; exact (listPos_le _ _ _).trans (ih _)

theorem scan_pos (i : ℕ) (rw_ : List (RRec D)) (lw : List (LRec D P)) (cw) :
    PosLe (0, stNewHeight) (scan c i rw_ lw cw : LockScan D B P × _).2.2 ∧
    ∀ v ∈ ownVotes rw_, PosLe (v.round, stepOf v.typ) (scan c i rw_ lw cw : LockScan D B P × _).2.2 := by
  unfold scan
  simp only []
  obtain ⟨h1, h2⟩ := applyRound_le (B := B) (P := P) (c := c) i rw_ ([], (0, stNewHeight))
  have h3 := applyLock_le (c := c) lw (⟨(applyRound c i rw_ ([], (0, stNewHeight))).1,
    (applyRound c i rw_ ([], (0, stNewHeight))).2, none, none⟩ : LockScan D B P)
  have h4 := applyCommit_le (c := c) cw ((applyLock c lw (⟨(applyRound c i rw_ ([], (0, stNewHeight))).1,
    (applyRound c i rw_ ([], (0, stNewHeight))).2, none, none⟩ : LockScan D B P)).hvs,
    (applyLock c lw (⟨(applyRound c i rw_ ([], (0, stNewHeight))).1,
    (applyRound c i rw_ ([], (0, stNewHeight))).2, none, none⟩ : LockScan D B P)).pos)
  exact ⟨(h1.trans h3).trans h4, fun v hv => ((h2 v hv).trans h3).trans h4⟩

theorem resume_eqs (nd : Node D B P) :
    nd.resume.sent = nd.sent ∧ nd.resume.rwal = nd.rwal ∧ nd.resume.rsync = nd.rsync ∧
    nd.resume.lwal = nd.lwal ∧ nd.resume.lsync = nd.lsync ∧ nd.resume.cwal = nd.cwal ∧
    nd.resume.imp = nd.imp ∧ nd.resume.round = nd.round ∧ nd.step ≤ nd.resume.step ∧
    nd.resume.hvs = nd.hvs ∧ nd.resume.locked = nd.locked ∧ nd.resume.lockedRound = nd.lockedRound ∧
    nd.resume.current = nd.current ∧ nd.resume.final = nd.final := by
  unfold resume
  split_ifs with h1 h2 h3 h4 h5 <;> simp_all

theorem resume_passive (nd : Node D B P) : Passive nd nd.resume := by
  obtain ⟨e1, e2, e3, e4, e5, e6, e7, e8, e9, e10⟩ := nd.resume_eqs
  refine ⟨e1, e2, e3, e4, e5, e7, Or.inr ⟨e8.symm, e9⟩, ?_⟩
  intro hp
  unfold resume
  split_ifs <;> first | exact hp | exact trivial

theorem restart_own {i} {nd : Node D B P} (h : Own c i nd) (kr kl kc : ℕ) (hk : nd.rsync ≤ kr) :
    Own c i (nd.restart c i kr kl kc) := by
  have hb := h.base
  -- every vote in the kept log is sent or is the pending one
  have hfl : ∀ v, pending nd.act = some v → nd.Fresh v.typ ∧ v.round = nd.round ∧ i < c.n ∧
      v.height = c.height ∧ ∃ p, v.dec = c.honest v.typ p := by
    intro v hv
    rcases ha : nd.act with _ | a
    · rw [ha] at hv; cases hv
    · cases a with
      | flush w =>
        rw [ha] at hv
        simp only [pending, Option.some.injEq] at hv
        subst hv
        have := h.act _ ha
        exact ⟨this.2.1, this.2.2.2.1, this.2.2.2.2.1, this.2.2.2.2.2.1, this.2.2.2.2.2.2.2⟩
      | _ => rw [ha] at hv; cases hv
  have hk1 : ∀ v ∈ ownVotes (nd.rwal.take kr), v ∈ nd.sent ∨ pending nd.act = some v :=
    fun v hv => hb.wal v (ownVotes_take_sub _ _ _ hv)
  have hk2 : ∀ v ∈ nd.sent, v ∈ ownVotes (nd.rwal.take kr) :=
    fun v hv => ownVotes_take_le _ hk _ (hb.dur v hv)
  have hmem : ∀ v, v ∈ ownVotes (nd.rwal.take kr) ++ nd.sent ↔ v ∈ ownVotes (nd.rwal.take kr) := by
    intro v; rw [List.mem_append]; exact ⟨fun x => x.elim id (hk2 v), Or.inl⟩
  obtain ⟨p0, p1⟩ := scan_pos (B := B) (c := c) i (nd.rwal.take kr) (nd.lwal.take kl) (nd.cwal.take kc)
  unfold restart
  refine Base.own ?_ ?_ (resume_passive _)
  rotate_left
  · exact trivial
  unfold loaded
  refine ⟨?_, ?_, ?_, ?_, ?_, ?_, ?_⟩
  · have := p0; unfold PosLe at this; simp only [] at this ⊢; omega
  · intro v hv; exact Or.inl (List.mem_append_left _ hv)
  · intro v hv
    simp only [List.take_length]
    exact (hmem v).1 hv
  · intro v hv; exact p1 v ((hmem v).1 hv)
  · intro v hv w hw e1 e2
    have hv' := hk1 v ((hmem v).1 hv)
    have hw' := hk1 w ((hmem w).1 hw)
    rcases hv' with a | a <;> rcases hw' with b | b
    · exact hb.uniq v a w b e1 e2
    · obtain ⟨f1, f2, _⟩ := hfl w b
      exact absurd ⟨e1.trans f2, e2⟩ (f1 v a)
    · obtain ⟨f1, f2, _⟩ := hfl v a
      exact absurd ⟨e1.symm.trans f2, e2.symm⟩ (f1 w b)
    · rw [a] at b; exact Option.some.inj b
  · intro v hv
    rcases hk1 v ((hmem v).1 hv) with a | a
    · exact hb.form v a
    · obtain ⟨_, f2, f3, f4, f5⟩ := hfl v a
      exact ⟨f3, f4, by rw [f2]; exact hb.rnn, f5⟩
  · intro r p e; simp [init] at e

/-! ### Every event keeps it -/

theorem noImp_frame {nd nd' : Node D B P} (h : nd.NoImp) (p : Passive nd nd') : nd'.NoImp := by
  intro r q e
  rw [p.imp] at e
  have := h r q e
  rcases p.pos with k | k <;> omega

theorem fresh_congr {nd nd' : Node D B P} (h1 : nd'.sent = nd.sent) (h2 : nd'.round = nd.round) (t) :
    nd'.Fresh t ↔ nd.Fresh t := by unfold Fresh; rw [h1, h2]

theorem thenVote_own {i} {nd : Node D B P} (h : Base c i none nd) (t p k)
    (h1 : stepOf t ≤ nd.step) (h2 : nd.Fresh t) (h3 : t = .prevote → nd.NoImp) :
    Own c i (nd.thenVote t p k) := by
  refine ⟨⟨h.rnn, h.wal, h.dur, h.pos, h.uniq, h.form, h.imp⟩, ?_⟩
  intro a ha
  simp only [thenVote, Option.some.injEq] at ha
  subst ha
  exact ⟨h1, h2, h3⟩

theorem begin_eq {nd x : Node D B P} {s : ℕ} (h : nd.begin_ s = some x) :
    nd.step < s ∧ x = { nd with step := s } := by
  unfold begin_ at h
  split at h
  · rename_i k; exact ⟨k, (Option.some.inj h).symm⟩
  · cases h

theorem doPropose_own {i} {nd : Node D B P} (h : Base c i none nd) (ha : nd.act = none) :
    Own c i (nd.doPropose c i) := by
  unfold doPropose
  split
  · split
    · rename_i l _
      have hk : nd.rsync ≤ nd.rwal.length ∨ nd.rwal.length < nd.rsync := by omega
      refine ⟨?_, ?_⟩
      · simp only [ha, pending]
        refine ⟨h.rnn, ?_, ?_, h.pos, h.uniq, h.form, h.imp⟩
        · intro v hv; rw [ownVotes_append] at hv
          simp [ownVotes] at hv
          exact h.wal v (by simpa [ownVotes] using hv)
        · intro v hv
          have := ownVotes_take_sub _ _ _ (h.dur v hv)
          simp only []
          rw [List.take_of_length_le (by simp), ownVotes_append]
          exact List.mem_append_left _ this
      · intro a e; simp only [ha] at e; cases e
    · exact ⟨by rw [ha]; exact h, by intro a e; rw [ha] at e; cases e⟩
  · split
    · exact h.own (by rw [ha]; trivial) (act_passive _ _ trivial)
    · exact ⟨by rw [ha]; exact h, by intro a e; rw [ha] at e; cases e⟩

theorem doPrevote_own {i ch} {nd : Node D B P} (h : Base c i none nd) (ha : nd.act = none)
    (hs : nd.step = stPrevote) (hf : nd.Fresh .prevote) (hi : nd.NoImp) : Own c i (nd.doPrevote c ch) := by
  have key : ∀ p k, Own c i (nd.thenVote .prevote p k) := fun p k =>
    thenVote_own h _ _ _ (by simp [stepOf, hs]) hf (fun _ => hi)
  unfold doPrevote
  split
  · exact key _ _
  · split
    · exact key _ _
    · split
      · exact key _ _
      split
      · exact key _ _
      split
      · exact key _ _
      split
      · refine ⟨⟨h.rnn, h.wal, h.dur, h.pos, h.uniq, h.form, h.imp⟩, ?_⟩
        intro a e
        simp only [Option.some.injEq] at e
        subst e
        exact ⟨by simp [stepOf, hs], hf, fun _ => hi⟩
      · refine ⟨⟨h.rnn, ?_, h.dur, h.pos, h.uniq, h.form, ?_⟩, ?_⟩
        · simp only [ha, pending]; exact h.wal
        · intro r p e
          simp only [Option.some.injEq, Prod.mk.injEq] at e
          right
          exact ⟨e.1.symm, by simp [hs], hf⟩
        · intro a e; simp only [ha] at e; cases e

theorem doPrecommit_own {i} {nd nd' : Node D B P} (h : Base c i none nd)
    (hs : nd.step = stPrecommit) (hf : nd.Fresh .precommit) (e : nd.doPrecommit c = some nd') :
    Own c i nd' := by
  have key : ∀ (lr lk cur p), Own c i
      ({ nd with lockedRound := lr, locked := lk, current := cur }.thenVote .precommit p .precommits) := by
    intro lr lk cur p
    have hb : Base c i none ({ nd with lockedRound := lr, locked := lk, current := cur } : Node D B P) :=
      ⟨h.rnn, h.wal, h.dur, h.pos, h.uniq, h.form, h.imp⟩
    exact thenVote_own hb .precommit p .precommits (by simp [stepOf, hs]) hf (fun x => by cases x)
  unfold doPrecommit at e
  split at e
  · cases e; exact key _ _ _ _
  · cases e; exact key _ _ _ _
  · split at e
    · cases e; exact key _ _ _ _
    · split at e
      · split at e
        · cases e
          refine ⟨⟨h.rnn, h.wal, h.dur, h.pos, h.uniq, h.form, h.imp⟩, ?_⟩
          intro a e
          simp only [Option.some.injEq] at e
          subst e
          exact ⟨by simp [stepOf, hs], hf⟩
        · split at e
          · cases e
          · cases e; exact key _ _ _ _
      · cases e; exact key _ _ _ _

theorem list_own (l : List (Signed D)) : ownVotes [RRec.list l] = [] := rfl

theorem runAct_own {i ch} {nd nd' : Node D B P} {a : Act D P} (h : Own c i { nd with act := some a })
    (e : ({ nd with act := none } : Node D B P).runAct c i ch a = some nd') : Own c i nd' := by
  have hok := h.act a rfl
  have hb := h.base
  have hplain : ∀ (_ : pending (some a) = none), Base c i none ({ nd with act := none } : Node D B P) := by
    intro hp
    simp only [hp] at hb
    exact ⟨hb.rnn, hb.wal, hb.dur, hb.pos, hb.uniq, hb.form, hb.imp⟩
  cases a with
  | propose =>
    simp only [runAct, Option.map_eq_some_iff] at e
    obtain ⟨x, hx, rfl⟩ := e
    obtain ⟨hlt, rfl⟩ := begin_eq hx
    exact doPropose_own ((hplain rfl).frame (step_passive _ _ hlt)) rfl
  | prevote =>
    simp only [runAct, Option.map_eq_some_iff] at e
    obtain ⟨x, hx, rfl⟩ := e
    obtain ⟨hlt, rfl⟩ := begin_eq hx
    have hb0 := hplain rfl
    have hf := fresh_of_lt hb0 .prevote hlt
    have hn := noImp_of_lt hb0 hlt
    exact doPrevote_own (hb0.frame (step_passive _ _ hlt)) rfl rfl hf hn
  | prevoteWait =>
    simp only [runAct, Option.map_eq_some_iff] at e
    obtain ⟨x, hx, rfl⟩ := e
    obtain ⟨hlt, rfl⟩ := begin_eq hx
    have hb0 := ((hplain rfl).frame (step_passive _ _ hlt)).log _ (list_own
      (votesIn (nd.votes c nd.round .prevote))) _ (le_refl _)
    unfold doPrevoteWait
    simp only []
    split
    · exact Base.own hb0 trivial (act_passive _ _ trivial)
    · exact Base.own hb0 trivial (Passive.refl _)
  | precommit =>
    simp only [runAct, Option.bind_eq_some_iff] at e
    obtain ⟨x, hx, e⟩ := e
    obtain ⟨hlt, rfl⟩ := begin_eq hx
    have hb0 := hplain rfl
    have hf := fresh_of_lt hb0 .precommit hlt
    exact doPrecommit_own (hb0.frame (step_passive _ _ hlt)) rfl hf e
  | precommitWait =>
    simp only [runAct, Option.map_eq_some_iff] at e
    obtain ⟨x, hx, rfl⟩ := e
    obtain ⟨hlt, rfl⟩ := begin_eq hx
    have hb0 := ((hplain rfl).frame (step_passive _ _ hlt)).log _ (list_own
      (votesIn (nd.votes c nd.round .precommit))) _ (le_refl _)
    unfold doPrecommitWait
    simp only []
    split
    · exact Base.own hb0 trivial (enterCommit_passive _ _ _ (by simp))
    · exact Base.own hb0 trivial (act_passive _ _ trivial)
    · exact Base.own hb0 trivial (Passive.refl _)
  | newRound =>
    simp only [runAct, Option.some.injEq] at e
    subst e
    have hb0 := hplain rfl
    unfold doNewRound
    simp only []
    have hp : Passive ({ nd with act := none } : Node D B P)
        (({ nd with act := none } : Node D B P).resetForNewRound (nd.round + 1)) :=
      reset_passive _ _ (by simp only []; omega)
    split
    · exact Base.own hb0 trivial hp
    · exact Base.own hb0 trivial (hp.trans (act_passive _ _ trivial))
  | lockVote p =>
    simp only [runAct, Option.some.injEq] at e
    subst e
    have hb0 := hplain rfl
    refine ⟨⟨hb0.rnn, hb0.wal, hb0.dur, hb0.pos, hb0.uniq, hb0.form, hb0.imp⟩, ?_⟩
    intro a e
    simp only [Option.some.injEq] at e
    subst e
    exact ⟨hok.1, hok.2, fun x => by cases x⟩
  | vote t p =>
    simp only [runAct, Option.some.injEq] at e
    subst e
    have hb0 := hplain rfl
    unfold doVote
    split
    · rename_i hin
      refine ⟨⟨hb0.rnn, ?_, ?_, hb0.pos, hb0.uniq, hb0.form, hb0.imp⟩, ?_⟩
      · intro v hv
        simp only [] at hv
        rw [ownVotes_append, List.mem_append] at hv
        rcases hv with hv | hv
        · exact Or.inl ((hb0.wal v hv).resolve_right (by simp))
        · right
          simp [ownVotes] at hv
          simp [pending, hv]
      · intro v hv
        exact ownVotes_take_append _ _ _ _ (hb0.dur v hv)
      · intro a e
        simp only [Option.some.injEq] at e
        subst e
        exact ⟨hok.1, hok.2.1, hok.2.2, rfl, hin.1, rfl, by simp [ownVotes], p, rfl⟩
    · exact Base.own hb0 trivial (Passive.refl _)
  | flush v =>
    simp only [runAct, Option.some.injEq] at e
    subst e
    obtain ⟨k1, k2, k3, k4, k5, k6, k8, k7⟩ := hok
    refine ⟨⟨hb.rnn, ?_, ?_, ?_, ?_, ?_, ?_⟩, ?_⟩
    · intro w hw
      left
      rcases hb.wal w hw with a | a
      · exact List.mem_cons_of_mem _ a
      · simp only [pending, Option.some.injEq] at a
        subst a; exact List.mem_cons_self
    · intro w hw
      simp only [doFlush, List.take_length]
      simp only [doFlush, List.mem_cons] at hw
      rcases hw with rfl | hw
      · exact k8
      · exact ownVotes_take_sub _ _ _ (hb.dur w hw)
    · intro w hw
      simp only [doFlush, List.mem_cons] at hw
      rcases hw with rfl | hw
      · exact Or.inr ⟨k4, k1⟩
      · exact hb.pos w hw
    · intro w hw u hu e1 e2
      simp only [doFlush, List.mem_cons] at hw hu
      rcases hw with rfl | hw <;> rcases hu with rfl | hu
      · rfl
      · exact absurd ⟨e1.symm.trans k4, e2.symm⟩ (k2 u hu)
      · exact absurd ⟨e1.trans k4, e2⟩ (k2 w hw)
      · exact hb.uniq w hw u hu e1 e2
    · intro w hw
      simp only [doFlush, List.mem_cons] at hw
      rcases hw with rfl | hw
      · exact ⟨k5, k6, by rw [k4]; exact hb.rnn, k7⟩
      · exact hb.form w hw
    · intro r p e
      have e' : nd.imp = some (r, p) := e
      rcases hb.imp r p e with a | a
      · exact Or.inl a
      · by_cases ht : v.typ = .prevote
        · exact Or.inl (k3 ht r p e)
        · right
          refine ⟨a.1, a.2.1, ?_⟩
          intro w hw
          simp only [doFlush, List.mem_cons] at hw
          rcases hw with rfl | hw
          · exact fun x => ht x.2
          · exact a.2.2 w hw
    · intro a e
      simp only [doFlush, Option.some.injEq] at e
      subst e
      exact List.mem_cons_self
  | recv v =>
    simp only [runAct, Option.some.injEq] at e
    subst e
    exact Base.own (hplain rfl) trivial (recvVote_passive _ _ _)
  | commit =>
    simp only [runAct, Option.some.injEq] at e
    subst e
    exact Base.own (hplain rfl) trivial ⟨rfl, rfl, rfl, rfl, rfl, rfl, Or.inr ⟨rfl, le_refl _⟩, id⟩

theorem imported_own {i ok} {nd nd' : Node D B P} (h : Base c i none nd) (ha : nd.act = none)
    (e : nd.imported ok = some nd') : Own c i nd' := by
  unfold imported at e
  split at e
  · cases e
  · rename_i r p hi
    have hb : Base c i none ({ nd with imp := none } : Node D B P) :=
      ⟨h.rnn, h.wal, h.dur, h.pos, h.uniq, h.form, by intro r p e; cases e⟩
    have hcur : ∀ cur ck, Own c i ({ nd with imp := none, current := cur, checked := ck } : Node D B P) := fun cur ck =>
      ⟨by simp only [ha, pending]; exact ⟨hb.rnn, hb.wal, hb.dur, hb.pos, hb.uniq, hb.form, hb.imp⟩,
       by intro a e; simp only [ha] at e; cases e⟩
    simp only [] at e
    split at e
    · cases e; exact hcur _ _
    · rename_i hl
      push Not at hl
      have hr : stPrevote ≤ nd.step ∧ nd.Fresh .prevote := by
        rcases h.imp r p hi with a | a
        · omega
        · exact a.2
      have hv : ∀ cur ck q, Own c i ({ nd with
          imp := none, current := cur, checked := ck, act := some (.vote .prevote q) } : Node D B P) := by
        intro cur ck q
        refine ⟨⟨hb.rnn, hb.wal, hb.dur, hb.pos, hb.uniq, hb.form, hb.imp⟩, ?_⟩
        intro a e
        simp only [Option.some.injEq] at e
        subst e
        exact ⟨hr.1, hr.2, fun _ r p e => by cases e⟩
      split at e
      · split at e
        · split at e
          · cases e
          · cases e; exact hcur _ _
        · split at e
          · split at e
            · cases e; exact hv _ _ _
            · cases e
          · cases e; exact hcur _ _
      · split at e
        · cases e; exact hv _ _ _
        · cases e; exact hcur _ _

theorem proposed_own {i p} {nd nd' : Node D B P} (h : Base c i none nd)
    (e : nd.proposed c i p = some nd') : Own c i nd' := by
  unfold proposed at e
  split at e
  · split at e
    · cases e
      exact ⟨⟨h.rnn, h.wal, h.dur, h.pos, h.uniq, h.form, h.imp⟩, by
        intro a e; simp only [Option.some.injEq] at e; subst e; exact trivial⟩
    · cases e
      refine ⟨⟨h.rnn, ?_, ?_, h.pos, h.uniq, h.form, h.imp⟩, by
        intro a e; simp only [Option.some.injEq] at e; subst e; exact trivial⟩
      · intro v hv; simp only [] at hv; rw [ownVotes_append] at hv
        exact h.wal v (by simpa [ownVotes] using hv)
      · intro v hv
        have := ownVotes_take_sub _ _ _ (h.dur v hv)
        simp only []
        rw [List.take_of_length_le (by simp), ownVotes_append]
        exact List.mem_append_left _ this
  · cases e

theorem nodeStep_own {i} {nd nd' : Node D B P} {ev : Ev D P} (h : Own c i nd)
    (e : nodeStep c i nd ev = some nd') : Own c i nd' := by
  have hidle : nd.idle = true → nd.act = none := by
    unfold idle; intro x; simp at x; exact x.1
  have hbase : nd.act = none → Base c i none nd := fun x => by
    have := h.base; rw [x] at this; exact this
  unfold nodeStep at e
  split at e
  · cases e
  · cases ev with
    | restart kr kl kc =>
      simp only [] at e
      split at e
      · rename_i hk; cases e; exact restart_own h _ _ _ hk.1
      · cases e
    | run ch =>
      simp only [] at e
      split at e
      · rename_i a ha
        refine runAct_own (nd := nd) (a := a) ?_ e
        rw [← ha]; exact h
      · rename_i ha
        split at e
        · cases e
          rename_i k ks _
          have hb : Base c i none ({ nd with chks := ks } : Node D B P) := by
            have h := hbase ha
            exact ⟨h.rnn, h.wal, h.dur, h.pos, h.uniq, h.form, h.imp⟩
          exact hb.own (by simp only [ha]; trivial) (runChk_passive _ _)
        · cases e
    | recv j v =>
      simp only [] at e; split at e
      · rename_i k; cases e
        exact (hbase (hidle k)).own (by rw [hidle k]; trivial) (recvVote_passive _ _ _)
      · cases e
    | timeout =>
      simp only [] at e; split at e
      · rename_i k
        exact (hbase (hidle k)).own (by rw [hidle k]; trivial) (timeout_passive e)
      · cases e
    | proposal mr p pol got =>
      simp only [] at e; split at e
      · rename_i k; cases e
        exact (hbase (hidle k)).own (by rw [hidle k]; trivial) (proposal_passive _ _ _ _ _)
      · cases e
    | parts b =>
      simp only [] at e; split at e
      · rename_i k; cases e
        exact (hbase (hidle k)).own (by rw [hidle k]; trivial) (parts_passive _ _)
      · cases e
    | imported ok =>
      simp only [] at e; split at e
      · rename_i k; exact imported_own (hbase (hidle k)) (hidle k) e
      · cases e
    | proposed p =>
      simp only [] at e; split at e
      · rename_i k; exact proposed_own (hbase (hidle k)) e
      · cases e
    | syncBlock r p l =>
      simp only [] at e; split at e
      · rename_i k; cases e
        exact (hbase (hidle k)).own (by rw [hidle k]; trivial) (syncBlock_passive _ _ _ _)
      · cases e
    | finalize =>
      simp only [] at e; split at e
      · rename_i k
        exact (hbase (hidle k)).own (by rw [hidle k]; trivial) (finalize_passive e)
      · cases e

theorem init_own (i : ℕ) : Own c i (init : Node D B P) := by
  refine ⟨⟨le_refl _, ?_, ?_, ?_, ?_, ?_, ?_⟩, ?_⟩
  · intro v hv; simp [init, ownVotes] at hv
  · intro v hv; simp [init] at hv
  · intro v hv; simp [init] at hv
  · intro v hv; simp [init] at hv
  · intro v hv; simp [init] at hv
  · intro r p e; simp [init] at e
  · intro a e; simp [init] at e

end Node
end Verif.Consensus.Engine
