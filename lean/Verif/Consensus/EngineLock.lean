import Verif.Consensus.EngineNet
import Mathlib.Data.List.Induction

/-!
# Locks

The part of the invariant that concerns what a node is locked on and how it binds its votes.
-/

namespace Verif.Consensus.Engine

variable {D B P : Type} [DecidableEq B] [DecidableEq P] {c : Cfg D B P}

/-- More than two thirds prevoted, in a round after `r0`, for something else than `p`. -/
def Bad (c : Cfg D B P) (A : ℕ → Vote D → Prop) (p : P) (r0 : ℤ) : Prop :=
  ∃ r' q, r0 < r' ∧ q ≠ some p ∧ Quo c A .prevote r' q

theorem Bad.mono {A A' : ℕ → Vote D → Prop} (h : ∀ j v, A j v → A' j v) {p : P} {r0}
    (k : Bad c A p r0) : Bad c A' p r0 := by
  obtain ⟨r', q, h1, h2, h3⟩ := k
  exact ⟨r', q, h1, h2, h3.mono h⟩

/-- What the votes in `S` of a node with the given lock promise. -/
structure Words (c : Cfg D B P) (A : ℕ → Vote D → Prop) (S : Vote D → Prop) (lid : Option P) (lr : ℤ) :
    Prop where
  lock : ∀ v, S v → v.typ = .precommit → ∀ p, c.psid v.dec = some p →
    (lid = some p ∧ v.round ≤ lr) ∨ Bad c A p v.round
  keep : ∀ v w, S v → S w → v.typ = .precommit → w.typ = .prevote → v.round < w.round →
    ∀ p, c.psid v.dec = some p → c.psid w.dec = some p ∨ Bad c A p v.round
  pol : ∀ v, S v → v.typ = .precommit → ∀ p, c.psid v.dec = some p → Quo c A .prevote v.round (some p)

theorem Words.mono {A A' : ℕ → Vote D → Prop} (h : ∀ j v, A j v → A' j v) {S : Vote D → Prop}
    {lid : Option P} {lr} (k : Words c A S lid lr) : Words c A' S lid lr :=
  ⟨fun v a b p e => (k.lock v a b p e).imp id (Bad.mono h),
   fun v w a b d e f p g => (k.keep v w a b d e f p g).imp id (Bad.mono h),
   fun v a b p e => (k.pol v a b p e).mono h⟩

theorem Words.sub {A : ℕ → Vote D → Prop} {S S' : Vote D → Prop} (h : ∀ v, S' v → S v)
    {lid : Option P} {lr} (k : Words c A S lid lr) : Words c A S' lid lr :=
  ⟨fun v a => k.lock v (h v a), fun v w a b => k.keep v w (h v a) (h w b), fun v a => k.pol v (h v a)⟩

/-- All precommits for a block have been overtaken. -/
def AllBad (c : Cfg D B P) (A : ℕ → Vote D → Prop) (S : Vote D → Prop) : Prop :=
  ∀ v, S v → v.typ = .precommit → ∀ p, c.psid v.dec = some p → Bad c A p v.round

theorem Words.relock {A : ℕ → Vote D → Prop} {S : Vote D → Prop} {lid : Option P} {lr}
    (k : Words c A S lid lr) (h : AllBad c A S) (lid' : Option P) (lr' : ℤ) : Words c A S lid' lr' :=
  ⟨fun v a b p e => Or.inr (h v a b p e), k.keep, k.pol⟩

theorem Words.unlock {A : ℕ → Vote D → Prop} {S : Vote D → Prop} {lid : Option P} {lr}
    (k : Words c A S lid lr) {mr q} (h1 : lr < mr) (h2 : lid ≠ q) (h3 : Quo c A .prevote mr q) :
    AllBad c A S := by
  intro v a b p e
  rcases k.lock v a b p e with ⟨h4, h5⟩ | h4
  · exact ⟨mr, q, by omega, fun h => h2 (h4.trans h.symm), h3⟩
  · exact h4

theorem Words.free {A : ℕ → Vote D → Prop} {S : Vote D → Prop} {lr}
    (k : Words c A S none lr) : AllBad c A S := by
  intro v a b p e
  rcases k.lock v a b p e with ⟨h4, _⟩ | h4
  · cases h4
  · exact h4

/-! ### The lock log -/

/-- A lock log with well-formed records: what is being read and the last complete lock. -/
inductive Locks (c : Cfg D B P) (A : ℕ → Vote D → Prop) :
    List (LRec D P) → Option (P × ℤ) → Option (P × ℤ) → Prop
  | nil : Locks c A [] none none
  | list {l cd x L r p} : Locks c A l cd x → PolkaList c A L r p →
      Locks c A (l ++ [.list L]) (some (p, r)) x
  | parts {l x p r} : Locks c A l (some (p, r)) x → Locks c A (l ++ [.parts p]) (some (p, r)) (some (p, r))

theorem Locks.mono {A A' : ℕ → Vote D → Prop} (h : ∀ j v, A j v → A' j v) {l cd x}
    (k : Locks c A l cd x) : Locks c A' l cd x := by
  induction k with
  | nil => exact .nil
  | list _ hp ih => exact ih.list (hp.mono h)
  | parts _ ih => exact ih.parts

theorem take_snoc {α : Type} (l : List α) (a : α) (k : ℕ) :
    (l ++ [a]).take k = l ++ [a] ∨ (l ++ [a]).take k = l.take k := by
  by_cases h : k ≤ l.length
  · right; rw [List.take_append_of_le_length h]
  · left; rw [List.take_of_length_le]; simp; omega

theorem Locks.take {A : ℕ → Vote D → Prop} {l cd x} (k : Locks c A l cd x) (n : ℕ) :
    ∃ cd' x', Locks c A (l.take n) cd' x' := by
  induction k with
  | nil => exact ⟨none, none, by simpa using Locks.nil⟩
  | @list l cd x L r p h hp ih =>
    rcases take_snoc l (.list L) n with e | e
    · rw [e]; exact ⟨_, _, h.list hp⟩
    · rw [e]; exact ih
  | @parts l x p r h ih =>
    rcases take_snoc l (.parts p) n with e | e
    · rw [e]; exact ⟨_, _, h.parts⟩
    · rw [e]; exact ih

theorem applyLock_append (l m : List (LRec D P)) (s : Node.LockScan D B P) :
    Node.applyLock c (l ++ m) s = Node.applyLock c m (Node.applyLock c l s) := by
  induction l generalizing s with
  | nil => rfl
  | cons r l ih => cases r <;> simp only [List.cons_append, Node.applyLock, ih]

/-- Reading a lock log gives its last lock. -/
theorem Locks.replay (hc : c.Sound) {A : ℕ → Vote D → Prop} (hu : OneDecision c A) {l cd x}
    (k : Locks c A l cd x) (s : Node.LockScan D B P) (hs : HvsOK c A s.hvs) (h1 : s.bps = none)
    (h2 : s.last = none) :
    HvsOK c A (Node.applyLock c l s).hvs ∧ (Node.applyLock c l s).bps = cd ∧
      (Node.applyLock c l s).last = x := by
  induction k with
  | nil => exact ⟨hs, h1, h2⟩
  | @list l cd x L r p _ hp ih =>
    obtain ⟨e1, e2, e3⟩ := ih
    rw [applyLock_append]
    simp only [Node.applyLock]
    refine ⟨e1.addAll (fun x hx => ⟨(hp.1 x hx).1, (hp.1 x hx).2.1⟩), ?_, e3⟩
    unfold Node.lockCand
    obtain ⟨y, L', rfl⟩ := List.exists_cons_of_ne_nil hp.ne
    have hy := (hp.1 y List.mem_cons_self).2.2.1
    simp only [List.head?_cons]
    rw [hy, addAll_polka hc hu e1 hp]
  | @parts l x p r _ ih =>
    obtain ⟨e1, e2, e3⟩ := ih
    rw [applyLock_append]
    simp only [Node.applyLock]
    refine ⟨e1, e2, ?_⟩
    rw [e2]; simp

namespace Node

variable {A : ℕ → Vote D → Prop}

/-- The votes sent or logged. -/
def Said (nd : Node D B P) (v : Vote D) : Prop := v ∈ nd.sent ∨ pending nd.act = some v

/-- What holds of a vote about to be made. -/
def ActLK (c : Cfg D B P) (A : ℕ → Vote D → Prop) (nd : Node D B P) : Act D P → Prop
  | .vote .prevote x => ∀ l, nd.lockedID = some l → x = some l
  | .vote .precommit (some p) =>
      nd.lockedID = some p ∧ nd.lockedRound = nd.round ∧ Quo c A .prevote nd.round (some p)
  | .lockVote p =>
      nd.lockedID = some p ∧ nd.lockedRound = nd.round ∧ Quo c A .prevote nd.round (some p) ∧
        AllBad c A nd.Said
  | _ => True

/-- The invariant of the lock. -/
structure LK (c : Cfg D B P) (A : ℕ → Vote D → Prop) (nd : Node D B P) : Prop where
  words : Words c A nd.Said nd.lockedID nd.lockedRound
  act : ∀ a, nd.act = some a → ActLK c A nd a
  imp : ∀ r p, nd.imp = some (r, p) → r = nd.round → nd.step ≤ stPrevoteWait → nd.lockedID = none
  wal : ∃ cd x, Locks c A nd.lwal cd x ∧ (∀ p, nd.lockedID = some p → ∃ r, x = some (p, r))
  sync : nd.lsync = nd.lwal.length ∨ ∃ p, nd.act = some (.lockVote p)

theorem ActLK.mono {A' : ℕ → Vote D → Prop} (h : ∀ j v, A j v → A' j v) {nd : Node D B P} {a}
    (k : ActLK c A nd a) : ActLK c A' nd a := by
  unfold ActLK at k ⊢
  split at k
  · exact k
  · exact ⟨k.1, k.2.1, k.2.2.mono h⟩
  · exact ⟨k.1, k.2.1, k.2.2.1.mono h, fun v a b p e => (k.2.2.2 v a b p e).mono h⟩
  · exact trivial

theorem LK.mono {A' : ℕ → Vote D → Prop} (h : ∀ j v, A j v → A' j v) {nd : Node D B P}
    (k : LK c A nd) : LK c A' nd :=
  ⟨k.words.mono h, fun a e => (k.act a e).mono h, k.imp,
   by obtain ⟨cd, x, a, b⟩ := k.wal; exact ⟨cd, x, a.mono h, b⟩, k.sync⟩

theorem actLK_plain {a : Option (Act D P)} (h : Plain a) {nd : Node D B P} :
    ∀ x, a = some x → ActLK c A nd x := by
  rintro x rfl
  cases x <;> first | exact trivial | exact h.elim

/-- The lock stays, or it is given up because of a decision for something else in a later round. -/
def LockF (c : Cfg D B P) (A : ℕ → Vote D → Prop) (nd nd' : Node D B P) : Prop :=
  (nd'.lockedID = nd.lockedID ∧ nd'.lockedRound = nd.lockedRound) ∨
    (nd'.lockedID = none ∧ ∃ mr q, nd.lockedRound < mr ∧ nd.lockedID ≠ q ∧ Quo c A .prevote mr q)

theorem LockF.refl (nd : Node D B P) : LockF c A nd nd := Or.inl ⟨rfl, rfl⟩

theorem LockF.trans {a b d : Node D B P} (h : LockF c A a b) (k : LockF c A b d) : LockF c A a d := by
  rcases h with ⟨h1, h2⟩ | ⟨h1, h2⟩
  · unfold LockF at k ⊢
    rw [h1, h2] at k
    exact k
  · rcases k with ⟨k1, _⟩ | ⟨k1, _⟩
    · exact Or.inr ⟨k1.trans h1, h2⟩
    · exact Or.inr ⟨k1, h2⟩

theorem lockF_words {S : Vote D → Prop} {nd nd' : Node D B P}
    (k : Words c A S nd.lockedID nd.lockedRound) (h : LockF c A nd nd') :
    Words c A S nd'.lockedID nd'.lockedRound := by
  rcases h with ⟨h1, h2⟩ | ⟨_, mr, q, h2, h3, h4⟩
  · rw [h1, h2]; exact k
  · exact k.relock (k.unlock h2 h3 h4) _ _

theorem lockF_sub {nd nd' : Node D B P} (h : LockF c A nd nd') :
    nd'.lockedID = none ∨ nd'.lockedID = nd.lockedID := by
  rcases h with ⟨h1, _⟩ | ⟨h1, _⟩
  · exact Or.inr h1
  · exact Or.inl h1

/-- A node between two functions. -/
structure LKB (c : Cfg D B P) (A : ℕ → Vote D → Prop) (nd : Node D B P) : Prop where
  words : Words c A (· ∈ nd.sent) nd.lockedID nd.lockedRound
  imp : ∀ r p, nd.imp = some (r, p) → r = nd.round → nd.step ≤ stPrevoteWait → nd.lockedID = none
  wal : ∃ cd x, Locks c A nd.lwal cd x ∧ (∀ p, nd.lockedID = some p → ∃ r, x = some (p, r))
  sync : nd.lsync = nd.lwal.length

theorem said_plain {nd : Node D B P} (h : pending nd.act = none) (v) : nd.Said v ↔ v ∈ nd.sent := by
  unfold Said; rw [h]; simp

theorem LKB.lk {nd : Node D B P} (k : LKB c A nd) (h : pending nd.act = none)
    (ha : ∀ a, nd.act = some a → ActLK c A nd a) : LK c A nd :=
  ⟨k.words.sub (fun v hv => (said_plain h v).1 hv), ha, k.imp, k.wal, Or.inl k.sync⟩

/-- Passive changes keep it. -/
theorem LKB.frame {i x} {nd nd' : Node D B P} (k : LKB c A nd) (hb : Base c i x nd)
    (p : Passive nd nd') (h : LockF c A nd nd') : LKB c A nd' := by
  refine ⟨?_, ?_, ?_, by rw [p.lwal, p.lsync]; exact k.sync⟩
  · rw [p.sent]; exact lockF_words k.words h
  · intro r q e1 e2 e3
    rw [p.imp] at e1
    rcases lockF_sub h with e | e
    · exact e
    · rw [e]
      rcases p.pos with a | a
      · rcases hb.imp r q e1 with b | b <;> omega
      · exact k.imp r q e1 (by omega) (by omega)
  · rw [p.lwal]
    obtain ⟨cd, y, h1, h2⟩ := k.wal
    refine ⟨cd, y, h1, ?_⟩
    intro q e
    rcases lockF_sub h with e' | e'
    · rw [e'] at e; cases e
    · exact h2 q (e' ▸ e)

theorem LKB.passive {i} {nd nd' : Node D B P} (k : LKB c A nd) (hb : Base c i none nd)
    (hp : Plain nd.act) (p : Passive nd nd') (h : LockF c A nd nd') : LK c A nd' :=
  (k.frame hb p h).lk (pending_plain (p.act hp)) (actLK_plain (p.act hp))

/-! ### The lock in each handler -/

theorem seePrevotes_lockF (hc : c.Sound) {nd : Node D B P} (k : HvsOK c A nd.hvs) (mr) :
    LockF c A nd (nd.seePrevotes mr (nd.votes c mr .prevote).overPSID) := by
  rcases ho : (nd.votes c mr .prevote).overPSID with _ | q
  · exact LockF.refl _
  · have hq := k.quo hc ho
    unfold seePrevotes seePolka
    simp only []
    by_cases h : nd.lockedRound < mr ∧ nd.locked.isSome ∧ nd.lockedID ≠ q
    · rw [if_pos h]
      cases q with
      | none => exact Or.inr ⟨rfl, mr, _, h.1, h.2.2, hq⟩
      | some p => simp only []; split_ifs <;> exact Or.inr ⟨rfl, mr, _, h.1, h.2.2, hq⟩
    · rw [if_neg h]
      cases q with
      | none => exact Or.inl ⟨rfl, rfl⟩
      | some p => simp only []; split_ifs <;> exact Or.inl ⟨rfl, rfl⟩

theorem handlePrevote_lockF (hc : c.Sound) {nd : Node D B P} (k : HvsOK c A nd.hvs) (mr) :
    LockF c A nd (nd.handlePrevote c mr) := by
  unfold handlePrevote
  split
  · exact LockF.refl _
  · simp only []
    refine (seePrevotes_lockF hc k mr).trans ?_
    generalize nd.seePrevotes mr _ = nd1
    split_ifs <;> exact Or.inl ⟨rfl, rfl⟩

theorem handlePrecommit_lockF {nd : Node D B P} (mr) : LockF c A nd (nd.handlePrecommit c mr) := by
  unfold handlePrecommit
  simp only []
  split
  · split <;> exact Or.inl ⟨rfl, rfl⟩
  split
  · exact Or.inl ⟨rfl, rfl⟩
  split
  · exact Or.inl ⟨rfl, rfl⟩
  split
  · split <;> exact Or.inl ⟨rfl, rfl⟩
  split <;> exact Or.inl ⟨rfl, rfl⟩

theorem recvVote_lockF (hc : c.Sound) {nd : Node D B P} (k : HvsOK c A nd.hvs) {j v} (hj : j < c.n)
    (ha : A j v) : LockF c A nd (nd.recvVote c j v) := by
  unfold recvVote
  simp only []
  have k1 : HvsOK c A ({ nd with hvs := (nd.hvs.add c j v).1 } : Node D B P).hvs := k.add hj ha
  have h0 : LockF c A nd ({ nd with hvs := (nd.hvs.add c j v).1 } : Node D B P) := Or.inl ⟨rfl, rfl⟩
  split
  · exact h0
  split
  · exact h0
  split
  · exact h0.trans (handlePrevote_lockF hc k1 _)
  · exact h0.trans (handlePrecommit_lockF _)

theorem runChk_lockF (nd : Node D B P) (k) : LockF c A nd (nd.runChk c k) := by
  cases k <;> unfold runChk <;> simp only [] <;> split <;> exact Or.inl ⟨rfl, rfl⟩

theorem timeout_lockF {nd nd' : Node D B P} (e : nd.timeout = some nd') : LockF c A nd nd' := by
  unfold timeout at e
  split_ifs at e <;> cases e <;> exact Or.inl ⟨rfl, rfl⟩

theorem afterParts_lockF (nd : Node D B P) : LockF c A nd (nd.afterParts c) := by
  unfold afterParts
  split <;> exact Or.inl ⟨rfl, rfl⟩

theorem proposal_lockF (nd : Node D B P) (mr p pol got) : LockF c A nd (nd.proposal c mr p pol got) := by
  unfold proposal
  split
  · exact LockF.refl _
  split
  · exact LockF.refl _
  · refine LockF.trans ?_ (afterParts_lockF _)
    exact Or.inl ⟨rfl, rfl⟩

theorem parts_lockF (nd : Node D B P) (b) : LockF c A nd (nd.parts c b) := by
  unfold parts
  split
  · exact LockF.refl _
  split
  · exact LockF.refl _
  · refine LockF.trans ?_ (afterParts_lockF _)
    exact Or.inl ⟨rfl, rfl⟩

theorem syncBlock_lockF (nd : Node D B P) (r p l) : LockF c A nd (nd.syncBlock c r p l) := by
  unfold syncBlock
  simp only []
  split
  · split <;> exact Or.inl ⟨rfl, rfl⟩
  · exact Or.inl ⟨rfl, rfl⟩

theorem finalize_lockF {nd nd' : Node D B P} (e : nd.finalize = some nd') : LockF c A nd nd' := by
  unfold finalize at e
  split at e
  · cases e
  · split at e <;> cases e
    exact Or.inl ⟨rfl, rfl⟩

/-- Fields that the lock invariant does not read. -/
theorem LKB.same {nd nd' : Node D B P} (k : LKB c A nd) (h1 : nd'.sent = nd.sent)
    (h2 : nd'.lockedID = nd.lockedID) (h3 : nd'.lockedRound = nd.lockedRound) (h4 : nd'.lwal = nd.lwal)
    (h5 : nd'.lsync = nd.lsync) (h6 : nd'.imp = nd.imp) (h7 : nd'.round = nd.round)
    (h8 : nd'.step = nd.step) : LKB c A nd' :=
  ⟨by rw [h1, h2, h3]; exact k.words, by rw [h6, h7, h8, h2]; exact k.imp,
   by rw [h4, h2]; exact k.wal, by rw [h5, h4]; exact k.sync⟩

theorem doPropose_lk {i} {nd : Node D B P} (k : LKB c A nd) (ha : nd.act = none) :
    LK c A (nd.doPropose c i) := by
  unfold doPropose
  split
  · split
    · exact LKB.lk (k.same rfl rfl rfl rfl rfl rfl rfl rfl) (by simp only [ha]; rfl)
        (by simp only [ha]; intro a e; cases e)
    · exact k.lk (by rw [ha]; rfl) (by rw [ha]; intro a e; cases e)
  · split
    · exact LKB.lk (k.same rfl rfl rfl rfl rfl rfl rfl rfl) rfl
        (by intro a e; cases e; trivial)
    · exact k.lk (by rw [ha]; rfl) (by rw [ha]; intro a e; cases e)

theorem thenVote_lk {nd : Node D B P} (k : LKB c A nd) (t p kk)
    (h : ActLK c A (nd.thenVote t p kk) (.vote t p)) : LK c A (nd.thenVote t p kk) :=
  LKB.lk (k.same rfl rfl rfl rfl rfl rfl rfl rfl) rfl (by
    intro a e
    simp only [thenVote, Option.some.injEq] at e
    subst e
    exact h)

theorem doPrevote_lk {ch} {nd : Node D B P} (k : LKB c A nd) (ha : nd.act = none) :
    LK c A (nd.doPrevote c ch) := by
  unfold doPrevote
  split
  · rename_i l hl
    refine thenVote_lk k _ _ _ ?_
    intro q hq
    have : nd.lockedID = some q := hq
    unfold lockedID at this
    rw [hl] at this
    simp only [Option.map_some, Option.some.injEq] at this
    rw [this]
  · rename_i hl
    have hn : nd.lockedID = none := by unfold lockedID; rw [hl]; rfl
    have key : ∀ p kk, LK c A (nd.thenVote .prevote p kk) := by
      intro p kk
      refine thenVote_lk k _ _ _ ?_
      intro q hq
      have : nd.lockedID = some q := hq
      rw [hn] at this; cases this
    split
    · exact key _ _
    · rename_i x _
      split
      · exact key _ _
      split
      · exact key _ _
      split
      · exact key _ _
      split
      · refine LKB.lk (k.same rfl rfl rfl rfl rfl rfl rfl rfl) rfl ?_
        intro a e
        simp only [Option.some.injEq] at e
        subst e
        intro q hq
        have : nd.lockedID = some q := hq
        rw [hn] at this; cases this
      · have : LKB c A ({ nd with imp := some (nd.round, x.id), chks := .prevotes :: nd.chks } : Node D B P) :=
          ⟨k.words, fun _ _ _ _ _ => hn, k.wal, k.sync⟩
        exact this.lk (by simp only [ha]; rfl) (by simp only [ha]; intro a e; cases e)

/-- The votes sent before a precommit are of earlier rounds or prevotes. -/
theorem precommit_lt {i x} {nd : Node D B P} (hb : Base c i x nd) (hf : nd.Fresh .precommit) {v}
    (hv : v ∈ nd.sent) (ht : v.typ = .precommit) : v.round < nd.round := by
  rcases hb.pos v hv with a | a
  · exact a
  · exact absurd ⟨a.1, ht⟩ (hf v hv)

theorem doPrecommit_lk (hc : c.Sound) {i x} {nd nd' : Node D B P} (k : LKB c A nd) (hb : Base c i x nd)
    (hk : HvsOK c A nd.hvs) (hf : nd.Fresh .precommit) (hs : nd.step = stPrecommit)
    (e : nd.doPrecommit c = some nd') : LK c A nd' := by
  have hlt : ∀ v ∈ nd.sent, v.typ = .precommit → v.round < nd.round := fun v hv ht =>
    precommit_lt hb hf hv ht
  -- giving up the lock when all precommits are overtaken
  have hun : AllBad c A (· ∈ nd.sent) → ∀ cur, LK c A
      (({ nd with current := cur, lockedRound := -1, locked := none } : Node D B P).thenVote
        .precommit none .precommits) := by
    intro hab cur
    refine thenVote_lk (nd := ({ nd with current := cur, lockedRound := -1, locked := none } : Node D B P))
      ⟨k.words.relock hab _ _, fun _ _ _ _ _ => rfl, ?_, k.sync⟩ _ _ _ trivial
    obtain ⟨cd, y, h1, _⟩ := k.wal
    exact ⟨cd, y, h1, fun p e => by cases e⟩
  unfold doPrecommit at e
  split at e
  · cases e
    exact thenVote_lk k _ _ _ trivial
  · rename_i ho
    cases e
    have hq := hk.quo hc ho
    refine hun ?_ nd.current
    intro v hv ht p hp
    exact ⟨nd.round, none, hlt v hv ht, by simp, hq⟩
  · rename_i p ho
    have hq := hk.quo hc ho
    have hother : nd.lockedID ≠ some p → AllBad c A (· ∈ nd.sent) := by
      intro hne v hv ht q hq'
      by_cases hqp : q = p
      · subst hqp
        rcases k.words.lock v hv ht q hq' with ⟨a, _⟩ | a
        · exact absurd a hne
        · exact a
      · exact ⟨nd.round, some p, hlt v hv ht, by simpa using fun h => hqp h.symm, hq⟩
    split at e
    · rename_i hl
      cases e
      refine thenVote_lk (nd := ({ nd with lockedRound := nd.round } : Node D B P))
        ⟨⟨?_, k.words.keep, k.words.pol⟩, k.imp, k.wal, k.sync⟩ _ _ _ ⟨hl, rfl, hq⟩
      intro v hv ht q hq'
      rcases k.words.lock v hv ht q hq' with a | a
      · exact Or.inl ⟨a.1, le_of_lt (hlt v hv ht)⟩
      · exact Or.inr a
    · rename_i hne
      split at e
      · rename_i y _
        split at e
        · rename_i hy
          cases e
          have hab := hother hne
          have hsaid : ∀ v, Said ({ nd with
              lockedRound := nd.round
              locked := some y
              lwal := nd.lwal ++ [.list (votesIn (nd.votes c nd.round .prevote)), .parts p]
              act := some (.lockVote p)
              chks := .precommits :: nd.chks } : Node D B P) v → v ∈ nd.sent :=
            fun v hv => hv.elim id (fun h => by simp [pending] at h)
          refine ⟨(k.words.relock hab _ _).sub hsaid, ?_, ?_, ?_, Or.inr ⟨p, rfl⟩⟩
          · intro a ea
            simp only [Option.some.injEq] at ea
            subst ea
            refine ⟨?_, rfl, hq, fun v hv => hab v (hsaid v hv)⟩
            unfold lockedID
            simp [hy.1]
          · intro r q _ _ h
            have h' : nd.step ≤ stPrevoteWait := h
            rw [hs] at h'
            exact absurd h' (by decide)
          · obtain ⟨cd, z, h1, _⟩ := k.wal
            refine ⟨some (p, nd.round), some (p, nd.round), ?_, ?_⟩
            · have := (h1.list (votesIn_polka hc hk ho)).parts
              rw [List.append_assoc] at this
              exact this
            · intro q hq'
              unfold lockedID at hq'
              simp only [Option.map_some, hy.1, Option.some.injEq] at hq'
              exact ⟨nd.round, by rw [hq']⟩
        · split at e
          · cases e
          · cases e
            exact hun (hother hne) _
      · cases e
        exact hun (hother hne) _

/-- A vote is logged. -/
theorem words_add {S : Vote D → Prop} {lid : Option P} {lr} (k : Words c A S lid lr) {w : Vote D}
    (hpos : ∀ v, S v → v.round ≤ w.round)
    (h1 : w.typ = .prevote → ∀ l, lid = some l → c.psid w.dec = some l)
    (h2 : w.typ = .precommit → ∀ p, c.psid w.dec = some p →
      lid = some p ∧ w.round ≤ lr ∧ Quo c A .prevote w.round (some p)) :
    Words c A (fun v => S v ∨ w = v) lid lr := by
  refine ⟨?_, ?_, ?_⟩
  · rintro v (hv | rfl) ht p hp
    · exact k.lock v hv ht p hp
    · obtain ⟨a, b, _⟩ := h2 ht p hp
      exact Or.inl ⟨a, b⟩
  · rintro v u (hv | rfl) (hu | rfl) t1 t2 hr p hp
    · exact k.keep v u hv hu t1 t2 hr p hp
    · rcases k.lock v hv t1 p hp with ⟨a, _⟩ | a
      · exact Or.inl (h1 t2 p a)
      · exact Or.inr a
    · have := hpos u hu; omega
    · omega
  · rintro v (hv | rfl) ht p hp
    · exact k.pol v hv ht p hp
    · exact (h2 ht p hp).2.2

theorem doVote_lk (hc : c.Sound) {i x ch t p} {nd : Node D B P} (k : LKB c A nd) (hb : Base c i x nd)
    (ha : nd.act = none) (h : ActLK c A nd (.vote t p)) : LK c A (nd.doVote c i ch t p) := by
  unfold doVote
  split
  · have hw := words_add k.words (w := ⟨c.height, nd.round, t, c.honest t p, ch.ts⟩)
      (by intro v hv; simp only []; rcases hb.pos v hv with a | a <;> omega)
      (by
        intro ht l hl
        simp only [] at ht ⊢
        subst ht
        rw [hc.honest]
        exact h l hl)
      (by
        intro ht q hq
        simp only [] at ht hq ⊢
        subst ht
        rw [hc.honest] at hq
        subst hq
        exact ⟨h.1, le_of_eq h.2.1.symm, h.2.2⟩)
    refine ⟨hw.sub ?_, ?_, k.imp, k.wal, Or.inl k.sync⟩
    · rintro v (hv | hv)
      · exact Or.inl hv
      · simp only [pending, Option.some.injEq] at hv
        exact Or.inr hv
    · intro a e
      simp only [Option.some.injEq] at e
      subst e
      trivial
  · exact k.lk (by rw [ha]; rfl) (by rw [ha]; intro a e; cases e)

theorem runAct_lk (hc : c.Sound) {i ch} {nd nd' : Node D B P} {a : Act D P}
    (h : Own c i { nd with act := some a }) (kn : HvsOK c A nd.hvs)
    (k : LK c A { nd with act := some a }) (hv : ∀ v, a = .recv v → i < c.n ∧ A i v)
    (e : ({ nd with act := none } : Node D B P).runAct c i ch a = some nd') : LK c A nd' := by
  have hok := h.act a rfl
  have hact := k.act a rfl
  have hb := h.base
  have hplain : ∀ (_ : pending (some a) = none), Base c i none ({ nd with act := none } : Node D B P) := by
    intro hp
    simp only [hp] at hb
    exact ⟨hb.rnn, hb.wal, hb.dur, hb.pos, hb.uniq, hb.form, hb.imp⟩
  have kplain : (∀ p, a ≠ .lockVote p) → LKB c A ({ nd with act := none } : Node D B P) := by
    intro hl
    refine ⟨k.words.sub (fun v hv => Or.inl hv), k.imp, k.wal, ?_⟩
    rcases k.sync with h | ⟨p, h⟩
    · exact h
    · simp only [Option.some.injEq] at h
      exact absurd h (hl p)
  cases a with
  | propose =>
    simp only [runAct, Option.map_eq_some_iff] at e
    obtain ⟨x, hx, rfl⟩ := e
    obtain ⟨hlt, rfl⟩ := begin_eq hx
    exact doPropose_lk ((kplain (by simp)).frame (hplain rfl) (step_passive _ _ hlt) (Or.inl ⟨rfl, rfl⟩)) rfl
  | prevote =>
    simp only [runAct, Option.map_eq_some_iff] at e
    obtain ⟨x, hx, rfl⟩ := e
    obtain ⟨hlt, rfl⟩ := begin_eq hx
    exact doPrevote_lk ((kplain (by simp)).frame (hplain rfl) (step_passive _ _ hlt) (Or.inl ⟨rfl, rfl⟩)) rfl
  | prevoteWait =>
    simp only [runAct, Option.map_eq_some_iff] at e
    obtain ⟨x, hx, rfl⟩ := e
    obtain ⟨hlt, rfl⟩ := begin_eq hx
    have k0 := (kplain (by simp)).frame (hplain rfl) (step_passive _ _ hlt) (Or.inl ⟨rfl, rfl⟩)
    unfold doPrevoteWait
    simp only []
    split
    · exact LKB.lk (k0.same rfl rfl rfl rfl rfl rfl rfl rfl) rfl (by intro a e; cases e; trivial)
    · exact LKB.lk (k0.same rfl rfl rfl rfl rfl rfl rfl rfl) rfl (by intro a e; cases e)
  | precommit =>
    simp only [runAct, Option.bind_eq_some_iff] at e
    obtain ⟨x, hx, e⟩ := e
    obtain ⟨hlt, rfl⟩ := begin_eq hx
    have hb0 := hplain rfl
    have hf := fresh_of_lt hb0 .precommit hlt
    exact doPrecommit_lk hc ((kplain (by simp)).frame hb0 (step_passive _ _ hlt) (Or.inl ⟨rfl, rfl⟩))
      (hb0.frame (step_passive _ _ hlt)) kn hf rfl e
  | precommitWait =>
    simp only [runAct, Option.map_eq_some_iff] at e
    obtain ⟨x, hx, rfl⟩ := e
    obtain ⟨hlt, rfl⟩ := begin_eq hx
    have k0 := (kplain (by simp)).frame (hplain rfl) (step_passive _ _ hlt) (Or.inl ⟨rfl, rfl⟩)
    unfold doPrecommitWait
    simp only []
    split
    · refine LKB.lk (LKB.frame (k0.same (nd' := ({ nd with
          step := stPrecommitWait, act := none
          rwal := nd.rwal ++ [.list (votesIn (nd.votes c nd.round .precommit))] } : Node D B P))
          rfl rfl rfl rfl rfl rfl rfl rfl) (i := i) (x := none) (((hplain rfl).frame (step_passive _ _ hlt)).log _
        (list_own (votesIn (nd.votes c nd.round .precommit))) _ (le_refl _))
        (enterCommit_passive _ _ _ (by simp)) (Or.inl ⟨rfl, rfl⟩)) rfl (by intro a e; cases e; trivial)
    · exact LKB.lk (k0.same rfl rfl rfl rfl rfl rfl rfl rfl) rfl (by intro a e; cases e; trivial)
    · exact LKB.lk (k0.same rfl rfl rfl rfl rfl rfl rfl rfl) rfl (by intro a e; cases e)
  | newRound =>
    simp only [runAct, Option.some.injEq] at e
    subst e
    have hb0 := hplain rfl
    unfold doNewRound
    simp only []
    have hp : Passive ({ nd with act := none } : Node D B P)
        (({ nd with act := none } : Node D B P).resetForNewRound (nd.round + 1)) :=
      reset_passive _ _ (by simp only []; omega)
    split
    · exact (kplain (by simp)).passive hb0 trivial hp (Or.inl ⟨rfl, rfl⟩)
    · exact (kplain (by simp)).passive hb0 trivial (hp.trans (act_passive _ _ trivial)) (Or.inl ⟨rfl, rfl⟩)
  | lockVote p =>
    simp only [runAct, Option.some.injEq] at e
    subst e
    refine ⟨k.words.sub ?_, ?_, k.imp, k.wal, Or.inl rfl⟩
    · rintro v (hv | hv)
      · exact Or.inl hv
      · cases hv
    · intro a e
      simp only [Option.some.injEq] at e
      subst e
      exact ⟨hact.1, hact.2.1, hact.2.2.1⟩
  | vote t p =>
    simp only [runAct, Option.some.injEq] at e
    subst e
    refine doVote_lk hc (kplain (by simp)) (hplain rfl) rfl ?_
    cases t with
    | prevote => exact hact
    | precommit =>
      cases p with
      | none => trivial
      | some p => exact hact
  | flush v =>
    simp only [runAct, Option.some.injEq] at e
    subst e
    refine ⟨k.words.sub ?_, ?_, k.imp, k.wal, ?_⟩
    · rintro w (hw | hw)
      · simp only [doFlush, List.mem_cons] at hw
        rcases hw with rfl | hw
        · exact Or.inr rfl
        · exact Or.inl hw
      · cases hw
    · intro a e
      simp only [doFlush, Option.some.injEq] at e
      subst e
      trivial
    · exact Or.inl (kplain (by simp)).sync
  | recv v =>
    simp only [runAct, Option.some.injEq] at e
    subst e
    have := hv v rfl
    exact (kplain (by simp)).passive (hplain rfl) trivial (recvVote_passive _ _ _)
      (recvVote_lockF hc (nd := ({ nd with act := none } : Node D B P)) kn this.1 this.2)
  | commit =>
    simp only [runAct, Option.some.injEq] at e
    subst e
    exact (kplain (by simp)).passive (hplain rfl) trivial
      ⟨rfl, rfl, rfl, rfl, rfl, rfl, Or.inr ⟨rfl, le_refl _⟩, id⟩ (Or.inl ⟨rfl, rfl⟩)

theorem imported_lk {i x ok} {nd nd' : Node D B P} (k : LKB c A nd) (hb : Base c i x nd)
    (ha : nd.act = none) (e : nd.imported ok = some nd') : LK c A nd' := by
  unfold imported at e
  split at e
  · cases e
  · rename_i r p hi
    have k1 : ∀ cur ck, LKB c A ({ nd with imp := none, current := cur, checked := ck } : Node D B P) :=
      fun cur ck =>
      ⟨k.words, (fun _ _ h => by cases h), k.wal, k.sync⟩
    have hplain : ∀ cur ck, LK c A ({ nd with imp := none, current := cur, checked := ck } : Node D B P) :=
      fun cur ck => (k1 cur ck).lk (by simp only [ha]; rfl) (by simp only [ha]; intro a e; cases e)
    have hvote : r = nd.round → nd.step ≤ stPrevoteWait → ∀ cur ck q, LK c A
        ({ nd with imp := none, current := cur, checked := ck, act := some (.vote .prevote q) } :
          Node D B P) := by
      intro e1 e2 cur ck q
      refine LKB.lk (nd := ({ nd with
        imp := none, current := cur, checked := ck, act := some (.vote .prevote q) } : Node D B P)) ⟨k.words, (fun _ _ h => by cases h), k.wal, k.sync⟩ rfl ?_
      intro a ea
      simp only [Option.some.injEq] at ea
      subst ea
      intro l hl
      have : nd.lockedID = some l := hl
      rw [k.imp r p hi e1 e2] at this
      cases this
    simp only [] at e
    split at e
    · cases e; exact hplain _ _
    · rename_i hr
      have hr' : r = nd.round := by
        by_contra h; exact hr (Or.inl h)
      split at e
      · split at e
        · split at e
          · cases e
          · cases e; exact hplain _ _
        · split at e
          · rename_i hs
            split at e
            · cases e; exact hvote hr' hs _ _ _
            · cases e
          · cases e; exact hplain _ _
      · split at e
        · rename_i hs
          cases e; exact hvote hr' hs _ _ _
        · cases e; exact hplain _ _

theorem proposed_lk {i p} {nd nd' : Node D B P} (k : LKB c A nd)
    (e : nd.proposed c i p = some nd') : LK c A nd' := by
  unfold proposed at e
  split at e
  · split at e
    · cases e
      exact LKB.lk (k.same rfl rfl rfl rfl rfl rfl rfl rfl) rfl (by intro a e; cases e; trivial)
    · cases e
      exact LKB.lk (k.same rfl rfl rfl rfl rfl rfl rfl rfl) rfl (by intro a e; cases e; trivial)
  · cases e

/-- The lock read at a restart. -/
theorem scan_last (hc : c.Sound) (hu : OneDecision c A) {i} {nd : Node D B P} (kn : Net c A nd) {kr kl}
    (h2 : ∀ v ∈ ownVotes (nd.rwal.take kr), i < c.n ∧ A i v) {cd x}
    (k : Locks c A (nd.lwal.take kl) cd x) (cw) :
    (scan c i (nd.rwal.take kr) (nd.lwal.take kl) cw : LockScan D B P × _).1.last = x := by
  unfold scan
  simp only []
  refine (k.replay hc hu _ ?_ rfl rfl).2.2
  exact applyRound_hvs _ _ HvsOK.nil (fun x hx => kn.rlist x (List.mem_of_mem_take hx)) h2

theorem restart_lk (hc : c.Sound) (hu : OneDecision c A) {i} {nd : Node D B P} (ho : Own c i nd)
    (kn : Net c A nd) (k : LK c A nd) {kr kl kc} (h2 : ∀ v ∈ ownVotes (nd.rwal.take kr), i < c.n ∧ A i v)
    (hk : nd.lsync ≤ kl) (hst : ¬ LockStale c nd) : LK c A (nd.restart c i kr kl kc) := by
  have hown : ∀ v ∈ ownVotes nd.rwal, nd.Said v := fun v hv => ho.base.wal v hv
  have hsub : ∀ v ∈ ownVotes (nd.rwal.take kr) ++ nd.sent, nd.Said v := by
    intro v hv
    rcases List.mem_append.1 hv with a | a
    · exact hown v (ownVotes_take_sub _ _ _ a)
    · exact Or.inl a
  obtain ⟨cd, x, hl, hx⟩ := k.wal
  obtain ⟨cd', x', hl'⟩ := hl.take kl
  have hlast : ∀ cw, (scan c i (nd.rwal.take kr) (nd.lwal.take kl) cw : LockScan D B P × _).1.last = x' :=
    fun cw => scan_last hc hu kn h2 hl' cw
  have hid : (nd.loaded c i kr kl kc).lockedID = x'.map Prod.fst := by
    unfold lockedID loaded
    simp only []
    rw [hlast]
    cases x' <;> rfl
  have hlr : (nd.loaded c i kr kl kc).lockedRound = lastRound x' := by
    unfold loaded
    simp only []
    rw [hlast]
  -- the words under the new lock
  have hw : Words c A nd.Said (x'.map Prod.fst) (lastRound x') := by
    rcases k.sync with hs | ⟨p, hs⟩
    · rcases hlk : nd.lockedID with _ | p
      · have := k.words
        rw [hlk] at this
        exact k.words.relock this.free _ _
      · have e : nd.lwal.take kl = nd.lwal := List.take_of_length_le (by omega)
        obtain ⟨r1, rfl⟩ := hx p hlk
        have hx' : x' = some (p, r1) := by
          rw [e] at hl'
          have a := (hl'.replay hc hu ⟨[], (0, 0), none, none⟩ HvsOK.nil rfl rfl).2.2
          have b := (hl.replay hc hu ⟨[], (0, 0), none, none⟩ HvsOK.nil rfl rfl).2.2
          exact a.symm.trans b
        have hround : r1 = nd.lockedRound := by
          by_contra hne
          apply hst
          refine ⟨?_, ?_⟩
          · unfold lockedID at hlk
            rcases hh : nd.locked with _ | y
            · rw [hh] at hlk; cases hlk
            · rfl
          · rw [(hl.replay hc hu ⟨[], (0, stNewHeight), none, none⟩ HvsOK.nil rfl rfl).2.2]
            exact hne
        rw [hx']
        simp only [lastRound, hround, Option.map_some]
        have := k.words
        rw [hlk] at this
        exact this
    · have := (k.act _ hs).2.2.2
      exact k.words.relock this _ _
  unfold restart
  obtain ⟨e1, e2, e3, e4, e5, e6, e7, e8, e9, e10, e11, e12, e13, e14⟩ := resume_eqs (nd.loaded c i kr kl kc)
  have hpl : Plain (nd.loaded c i kr kl kc).resume.act := (resume_passive _).act trivial
  refine LKB.lk ⟨?_, ?_, ?_, ?_⟩ (pending_plain hpl) (actLK_plain hpl)
  · rw [e1, e12]
    have : (nd.loaded c i kr kl kc).resume.lockedID = (nd.loaded c i kr kl kc).lockedID := by
      unfold lockedID; rw [e11]
    rw [this, hid, hlr]
    exact hw.sub hsub
  · rw [e7]; intro r p h; cases h
  · rw [e4]
    refine ⟨cd', x', hl', ?_⟩
    intro p hp
    have : (nd.loaded c i kr kl kc).resume.lockedID = (nd.loaded c i kr kl kc).lockedID := by
      unfold lockedID; rw [e11]
    rw [this, hid] at hp
    rcases x' with _ | y
    · cases hp
    · simp only [Option.map_some, Option.some.injEq] at hp
      exact ⟨y.2, by rw [← hp]⟩
  · rw [e4, e5]; rfl

theorem nodeStep_lk (hc : c.Sound) (hu : OneDecision c A) {i ev} {nd nd' : Node D B P} (ho : Own c i nd)
    (kn : Net c A nd) (k : LK c A nd) (hA : ∀ v ∈ nd'.sent, A i v) (hAs : ∀ v ∈ nd.sent, A i v)
    (hd : ∀ j v, ev = .recv j v → j < c.n ∧ A j v)
    (hst : ∀ kr kl kc, ev = .restart kr kl kc → ¬ LockStale c nd)
    (e : nodeStep c i nd ev = some nd') : LK c A nd' := by
  have hidle : nd.idle = true → nd.act = none := by
    unfold idle; intro x; simp at x; exact x.1
  have hbase : nd.act = none → Base c i none nd := fun x => by
    have := ho.base; rw [x] at this; exact this
  have hplain : nd.act = none → Plain nd.act := fun x => by rw [x]; trivial
  have hkb : nd.act = none → LKB c A nd := fun x =>
    ⟨k.words.sub (fun v hv => Or.inl hv), k.imp, k.wal, by
      rcases k.sync with h | ⟨p, h⟩
      · exact h
      · rw [x] at h; cases h⟩
  unfold nodeStep at e
  split at e
  · cases e
  · cases ev with
    | restart kr kl kc =>
      simp only [] at e
      split at e
      · rename_i hk
        cases e
        refine restart_lk hc hu ho kn k (fun v hv => ?_) hk.2.1 (hst kr kl kc rfl)
        have hm : v ∈ (nd.restart c i kr kl kc).sent := by
          unfold restart
          rw [(resume_eqs _).1]
          exact List.mem_append_left _ hv
        exact ⟨((restart_own ho kr kl kc hk.1).base.form v hm).1, hA v hm⟩
      · cases e
    | run ch =>
      simp only [] at e
      split at e
      · rename_i a ha
        have hnd : ({ nd with act := some a } : Node D B P) = nd := by rw [← ha]
        refine runAct_lk hc (nd := nd) (by rw [hnd]; exact ho) kn.hvs (by rw [hnd]; exact k) ?_ e
        rintro v rfl
        have hm : v ∈ nd.sent := ho.act _ ha
        exact ⟨(ho.base.form v hm).1, hAs v hm⟩
      · rename_i ha
        split at e
        · cases e
          rename_i kk ks _
          have hb := hbase ha
          have k0 : LKB c A ({ nd with chks := ks } : Node D B P) :=
            (hkb ha).same rfl rfl rfl rfl rfl rfl rfl rfl
          exact k0.passive (nd := ({ nd with chks := ks } : Node D B P)) (i := i)
            ⟨hb.rnn, hb.wal, hb.dur, hb.pos, hb.uniq, hb.form, hb.imp⟩ (hplain ha) (runChk_passive _ _)
            (runChk_lockF _ _)
        · cases e
    | recv j v =>
      simp only [] at e; split at e
      · rename_i hi; cases e; have := hd j v rfl
        exact (hkb (hidle hi)).passive (hbase (hidle hi)) (hplain (hidle hi)) (recvVote_passive _ _ _)
          (recvVote_lockF hc kn.hvs this.1 this.2)
      · cases e
    | timeout =>
      simp only [] at e; split at e
      · rename_i hi
        exact (hkb (hidle hi)).passive (hbase (hidle hi)) (hplain (hidle hi)) (timeout_passive e)
          (timeout_lockF e)
      · cases e
    | proposal mr p pol got =>
      simp only [] at e; split at e
      · rename_i hi; cases e
        exact (hkb (hidle hi)).passive (hbase (hidle hi)) (hplain (hidle hi)) (proposal_passive _ _ _ _ _)
          (proposal_lockF _ _ _ _ _)
      · cases e
    | parts b =>
      simp only [] at e; split at e
      · rename_i hi; cases e
        exact (hkb (hidle hi)).passive (hbase (hidle hi)) (hplain (hidle hi)) (parts_passive _ _)
          (parts_lockF _ _)
      · cases e
    | imported ok =>
      simp only [] at e; split at e
      · rename_i hi
        exact imported_lk (hkb (hidle hi)) (hbase (hidle hi)) (hidle hi) e
      · cases e
    | proposed p =>
      simp only [] at e; split at e
      · rename_i hi
        exact proposed_lk (hkb (hidle hi)) e
      · cases e
    | syncBlock r p l =>
      simp only [] at e; split at e
      · rename_i hi; cases e
        exact (hkb (hidle hi)).passive (hbase (hidle hi)) (hplain (hidle hi)) (syncBlock_passive _ _ _ _)
          (syncBlock_lockF _ _ _ _)
      · cases e
    | finalize =>
      simp only [] at e; split at e
      · rename_i hi
        exact (hkb (hidle hi)).passive (hbase (hidle hi)) (hplain (hidle hi)) (finalize_passive e)
          (finalize_lockF e)
      · cases e

theorem init_lk : LK c A (init : Node D B P) := by
  refine ⟨⟨?_, ?_, ?_⟩, ?_, ?_, ⟨none, none, Locks.nil, ?_⟩, Or.inl rfl⟩
  · rintro v (hv | hv) <;> cases hv
  · rintro v w (hv | hv) <;> cases hv
  · rintro v (hv | hv) <;> cases hv
  · intro a e; cases e
  · intro r p e; cases e
  · intro p e; cases e

end Node
end Verif.Consensus.Engine
