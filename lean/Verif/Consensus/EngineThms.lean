import Verif.Consensus.EngineProps

/-!
# Properties of the consensus engine

`Reach c bad lossy s`: the nodes not in `bad` run the engine, those in `bad` may sign and send any votes
(different ones to different nodes), messages are delayed, lost, repeated and reordered at will, timers
fire at any time, and any correct node may crash at any point between two writes, losing any part of what
was not synced, and restart from its logs.  With `lossy = false` a node is not restarted while the round of
its lock differs from the one in its lock log.
-/

namespace Verif.Consensus.Engine

variable {D B P : Type} [DecidableEq B] [DecidableEq P] {c : Cfg D B P}

/-- **C53.** A correct node never sends two different votes of the same type for one round, whatever the
others do and however often it crashes and restarts. -/
theorem C53_no_equivocation {bad : ℕ → Prop} {lossy : Bool} {s : ℕ → Node D B P}
    (h : Reach c bad lossy s) (i : ℕ) (v w : Vote D) (hv : v ∈ (s i).sent) (hw : w ∈ (s i).sent)
    (hr : v.round = w.round) (ht : v.typ = w.typ) : v = w :=
  (reach_own h i).base.uniq v hv w hw hr ht

/-- **C53.** A vote that left the node is on disk: it is among the synced records of the round log. -/
theorem C53_sent_votes_are_on_disk {bad : ℕ → Prop} {lossy : Bool} {s : ℕ → Node D B P}
    (h : Reach c bad lossy s) (i : ℕ) (v : Vote D) (hv : v ∈ (s i).sent) :
    RRec.vote v ∈ (s i).rwal.take (s i).rsync := by
  have := (reach_own h i).base.dur v hv
  unfold Node.ownVotes at this
  rw [List.mem_filterMap] at this
  obtain ⟨r, h1, h2⟩ := this
  cases r with
  | vote w => simp only [Option.some.injEq] at h2; subst h2; exact h1
  | _ => cases h2

/-- A correct node never goes back: after any event, restarts included, every vote it has sent is at or
before its position. -/
theorem C53_position_covers_votes {bad : ℕ → Prop} {lossy : Bool} {s : ℕ → Node D B P}
    (h : Reach c bad lossy s) (i : ℕ) (v : Vote D) (hv : v ∈ (s i).sent) :
    v.round < (s i).round ∨ (v.round = (s i).round ∧ stepOf v.typ ≤ (s i).step) :=
  (reach_own h i).base.pos v hv

/-- **C54.** Two precommit certificates for blocks are for the same block, in whatever rounds: fewer than
one third of the validators are faulty. -/
theorem C54_certificates_agree (hc : c.Sound) {F : Finset ℕ} (hF : 3 * F.card < c.n)
    {s : ℕ → Node D B P} (h : Reach c (· ∈ F) false s) {r r' : ℤ} {p q : P}
    (hp : Quo c (Auth c (· ∈ F) s) .precommit r (some p))
    (hq : Quo c (Auth c (· ∈ F) s) .precommit r' (some q)) : p = q := by
  have key : ∀ {r r' : ℤ} {p q : P}, r < r' → Quo c (Auth c (· ∈ F) s) .precommit r (some p) →
      Quo c (Auth c (· ∈ F) s) .precommit r' (some q) → p = q := by
    intro r r' p q hlt hp hq
    obtain ⟨lk, safe⟩ := reach_lock hc hF h
    by_contra hne
    obtain ⟨S, s1, s2, s3⟩ := hp
    obtain ⟨T, t1, t2, t3⟩ := hq
    refine safe p r ⟨S, s1, s2, fun j hj => ?_⟩ ?_
    · obtain ⟨v, v1, v2, v3, v4⟩ := s3 j hj
      rcases v1.2.2.2 with a | a
      · exact Or.inl a
      · exact Or.inr (Or.inl ⟨v, a, v2, v3, v4⟩)
    · obtain ⟨j, jT, _, jF⟩ := quorum_inter hF t1 t1 t2 t2
      obtain ⟨w, w1, w2, w3, w4⟩ := t3 j jT
      have hw := w1.2.2.2.resolve_left jF
      have := (lk j).words.pol w (Or.inl hw) w2 q w4
      exact ⟨r', some q, hlt, by simpa using fun x => hne x.symm, w3 ▸ this⟩
  rcases lt_trichotomy r r' with a | a | a
  · exact key a hp hq
  · subst a
    exact Option.some.inj (one_decision hF (reach_own h) _ _ _ _ hp hq)
  · exact (key a hq hp).symm

/-- **C54.** A finalized block is decided: more than two thirds of the validators precommitted it in one
round. -/
theorem C54_finalized_is_decided (hc : c.Sound) {bad : ℕ → Prop} {lossy : Bool} {s : ℕ → Node D B P}
    (h : Reach c bad lossy s) (i : ℕ) (p : P) (hp : (s i).final = some p) :
    ∃ r, ∃ S : Finset ℕ, S ⊆ Finset.range c.n ∧ 2 * c.n < 3 * S.card ∧
      ∀ j ∈ S, ∃ v, Auth c bad s j v ∧ v.typ = .precommit ∧ v.round = r ∧ c.psid v.dec = some p :=
  (reach_net hc h i).2.fin p hp

/-- **C54.** A node finalizes only a block whose parts it has all received. -/
theorem C54_finalized_is_complete (hc : c.Sound) {bad : ℕ → Prop} {lossy : Bool} {s : ℕ → Node D B P}
    (h : Reach c bad lossy s) (i : ℕ) (p : P) (hp : (s i).final = some p) :
    ∃ x, (s i).current = some x ∧ x.id = p ∧ x.complete = true :=
  (reach_net hc h i).2.full p hp

/-- **C54 (agreement).** No two correct nodes, validators or not, finalize different blocks at one height. -/
theorem C54_agreement (hc : c.Sound) {F : Finset ℕ} (hF : 3 * F.card < c.n)
    {s : ℕ → Node D B P} (h : Reach c (· ∈ F) false s) (i j : ℕ) (p q : P)
    (hi : (s i).final = some p) (hj : (s j).final = some q) : p = q := by
  obtain ⟨r, a⟩ := C54_finalized_is_decided hc h i p hi
  obtain ⟨r', b⟩ := C54_finalized_is_decided hc h j q hj
  exact C54_certificates_agree hc hF h a b

/-- **C54 (lock rule).** A correct validator that precommitted a block in a round prevotes in a later round
for that block only, unless more than two thirds prevoted something else in some round after the first. -/
theorem C54_lock_rule (hc : c.Sound) {F : Finset ℕ} (hF : 3 * F.card < c.n)
    {s : ℕ → Node D B P} (h : Reach c (· ∈ F) false s) (i : ℕ) (v w : Vote D)
    (hv : v ∈ (s i).sent) (hw : w ∈ (s i).sent) (tv : v.typ = .precommit) (tw : w.typ = .prevote)
    (hr : v.round < w.round) (p : P) (hp : c.psid v.dec = some p) :
    c.psid w.dec = some p ∨
      ∃ r' q, v.round < r' ∧ q ≠ some p ∧ Quo c (Auth c (· ∈ F) s) .prevote r' q :=
  ((reach_lock hc hF h).1 i).words.keep v w (Or.inl hv) (Or.inl hw) tv tw hr p hp

/-- **C54.** A correct validator precommits a block only if more than two thirds prevoted it in that
round. -/
theorem C54_precommit_needs_polka (hc : c.Sound) {F : Finset ℕ} (hF : 3 * F.card < c.n)
    {s : ℕ → Node D B P} (h : Reach c (· ∈ F) false s) (i : ℕ) (v : Vote D) (hv : v ∈ (s i).sent)
    (tv : v.typ = .precommit) (p : P) (hp : c.psid v.dec = some p) :
    Quo c (Auth c (· ∈ F) s) .prevote v.round (some p) :=
  ((reach_lock hc hF h).1 i).words.pol v (Or.inl hv) tv p hp

/-! ### Concrete executions -/

section Play

variable [DecidableEq D]

/-- The nodes in a list; the others have not started. -/
def nodes (l : List (Node D B P)) (i : ℕ) : Node D B P := l.getD i Node.init

/-- Whether an event can happen; fast sync is not used here. -/
def allowed (c : Cfg D B P) (F : Finset ℕ) (lossy : Bool) (l : List (Node D B P)) (i : ℕ) : Ev D P → Bool
  | .recv j v => decide (j < c.n) && decide (v.height = c.height) && decide (0 ≤ v.round) &&
      (decide (j ∈ F) || decide (v ∈ (nodes l j).sent))
  | .syncBlock _ _ _ => false
  | .restart _ _ _ => lossy || !((nodes l i).locked.isSome && decide
      (Node.lastRound (Node.applyLock c (nodes l i).lwal ⟨[], (0, stNewHeight), none, none⟩).last ≠
        (nodes l i).lockedRound))
  | _ => true

/-- One event. -/
def play1 (c : Cfg D B P) (F : Finset ℕ) (lossy : Bool) (l : List (Node D B P)) (i : ℕ) (e : Ev D P) :
    Option (List (Node D B P)) :=
  if i < l.length ∧ i ∉ F ∧ allowed c F lossy l i e = true then
    (nodeStep c i (nodes l i) e).map (fun nd => l.set i nd)
  else none

/-- The functions that are due run to the end. -/
def settle (c : Cfg D B P) (F : Finset ℕ) (lossy : Bool) (ch : Node.Choice) (i : ℕ) :
    ℕ → List (Node D B P) → List (Node D B P)
  | 0, l => l
  | k + 1, l =>
    match play1 c F lossy l i (.run ch) with
    | some l' => settle c F lossy ch i k l'
    | none => l

/-- A list of events, with the due functions run after each. -/
def play (c : Cfg D B P) (F : Finset ℕ) (lossy : Bool) (ch : Node.Choice) :
    List (ℕ × Ev D P) → List (Node D B P) → Option (List (Node D B P))
  | [], l => some l
  | (i, e) :: es, l => (play1 c F lossy l i e).bind (fun l' => play c F lossy ch es (settle c F lossy ch i 30 l'))

theorem nodes_set (l : List (Node D B P)) (i : ℕ) (nd : Node D B P) (h : i < l.length) :
    Function.update (nodes l) i nd = nodes (l.set i nd) := by
  funext j
  unfold nodes
  by_cases hj : j = i
  · subst hj
    simp [List.getD_eq_getElem?_getD, h]
  · rw [Function.update_of_ne hj]
    simp [List.getD_eq_getElem?_getD, List.getElem?_set_ne (Ne.symm hj)]

theorem play1_reach {F : Finset ℕ} {lossy : Bool} {l l' : List (Node D B P)} {i e}
    (h : play1 c F lossy l i e = some l') (k : Reach c (· ∈ F) lossy (nodes l)) :
    Reach c (· ∈ F) lossy (nodes l') := by
  unfold play1 at h
  split at h
  · rename_i hh
    rw [Option.map_eq_some_iff] at h
    obtain ⟨nd, h1, rfl⟩ := h
    rw [← nodes_set l i nd hh.1]
    refine Reach.step i e nd k hh.2.1 ?_ ?_ h1
    · have := hh.2.2
      cases e <;> simp only [allowed, Deliverable, Bool.and_eq_true, Bool.or_eq_true, decide_eq_true_eq,
        Bool.false_eq_true] at this ⊢
      exact ⟨this.1.1.1, this.1.1.2, this.1.2, this.2⟩
    · rintro kr kl kc rfl
      have := hh.2.2
      simp only [allowed, Bool.or_eq_true, Bool.not_eq_true', Bool.and_eq_false_iff,
        decide_eq_false_iff_not] at this
      rcases this with a | a
      · exact Or.inl a
      · right
        rintro ⟨b1, b2⟩
        rcases a with a | a
        · rw [a] at b1; cases b1
        · exact a b2
  · cases h

theorem settle_reach {F : Finset ℕ} {lossy : Bool} {ch i} (k : ℕ) (l : List (Node D B P))
    (h : Reach c (· ∈ F) lossy (nodes l)) : Reach c (· ∈ F) lossy (nodes (settle c F lossy ch i k l)) := by
  induction k generalizing l with
  | zero => exact h
  | succ k ih =>
    unfold settle
    split
    · rename_i l' hl
      exact ih l' (play1_reach hl h)
    · exact h

theorem play_reach {F : Finset ℕ} {lossy : Bool} {ch} (es : List (ℕ × Ev D P)) (l l' : List (Node D B P))
    (h : play c F lossy ch es l = some l') (k : Reach c (· ∈ F) lossy (nodes l)) :
    Reach c (· ∈ F) lossy (nodes l') := by
  induction es generalizing l with
  | nil => cases h; exact k
  | cons x es ih =>
    obtain ⟨i, e⟩ := x
    simp only [play, Option.bind_eq_some_iff] at h
    obtain ⟨m, h1, h2⟩ := h
    exact ih _ h2 (settle_reach _ _ (play1_reach h1 k))

theorem start_reach (F : Finset ℕ) (lossy : Bool) (m : ℕ) :
    Reach c (· ∈ F) lossy (nodes (List.replicate m (Node.init : Node D B P))) := by
  have : nodes (List.replicate m (Node.init : Node D B P)) = fun _ => Node.init := by
    funext i
    unfold nodes
    rw [List.getD_eq_getElem?_getD, List.getElem?_replicate]
    split <;> rfl
  rw [this]
  exact .init

end Play

namespace Example

/-- Four validators at height 1; a decision is just the part set id. -/
def cfg : Cfg (Option ℕ) (Option ℕ) ℕ := ⟨4, 1, id, id, fun _ p => p⟩

theorem cfg_sound : cfg.Sound := ⟨fun _ _ => rfl, fun _ _ h => h⟩

/-- Everything a step leaves open goes well. -/
def ch : Node.Choice := ⟨0, true, true, true, false⟩

/-- Validator 3 is faulty. -/
def bad : Finset ℕ := {3}

def prevote (i j : ℕ) (r : ℤ) (p : Option ℕ) : ℕ × Ev (Option ℕ) ℕ := (i, .recv j ⟨1, r, .prevote, p, 0⟩)
def precommit (i j : ℕ) (r : ℤ) (p : Option ℕ) : ℕ × Ev (Option ℕ) ℕ := (i, .recv j ⟨1, r, .precommit, p, 0⟩)

/-- Validators 0, 1, 2 and, outside the validators, node 4. -/
def start : List (Node (Option ℕ) (Option ℕ) ℕ) := List.replicate 5 Node.init

/-- Round 0: 1 proposes block 7, all see it and commit it; 0 crashes after its precommit, with its last
records intact, and comes back. -/
def good : List (ℕ × Ev (Option ℕ) ℕ) :=
  [(0, .timeout), (0, .timeout), (1, .timeout), (1, .timeout), (2, .timeout), (2, .timeout),
   (1, .proposed (some 7)), (0, .proposal 0 7 (-1) (some true)), (0, .imported true),
   (2, .proposal 0 7 (-1) none), (2, .parts true), (2, .imported true),
   prevote 0 1 0 (some 7), prevote 0 2 0 (some 7), prevote 1 0 0 (some 7), prevote 1 2 0 (some 7),
   prevote 2 0 0 (some 7), prevote 2 1 0 (some 7),
   (0, .restart 9 9 9),
   precommit 0 1 0 (some 7), precommit 0 2 0 (some 7), precommit 2 0 0 (some 7), precommit 2 1 0 (some 7),
   (0, .finalize), (2, .finalize)]

/-- The part of a state shown in the examples. -/
def finals (l : List (Node (Option ℕ) (Option ℕ) ℕ)) : List (Option ℕ) := l.map (fun nd => nd.final)

theorem good_finals : (play cfg bad false ch good start).map finals =
    some [some 7, none, some 7, none, none] := by
  decide +kernel

/-- **The hypotheses of C54 are met** by an execution with one faulty validator in which two correct ones
finalize a block, one of them after a restart. -/
theorem C54_example : ∃ s, Reach cfg (· ∈ bad) false s ∧ 3 * bad.card < cfg.n ∧ (s 0).final = some 7 ∧
    (s 2).final = some 7 := by
  have h := good_finals
  rw [Option.map_eq_some_iff] at h
  obtain ⟨l, h1, h2⟩ := h
  refine ⟨nodes l, play_reach good _ _ h1 (start_reach _ _ _), by decide, ?_, ?_⟩
  all_goals
    unfold finals at h2
    rcases l with _ | ⟨a, _ | ⟨b, _ | ⟨d, l⟩⟩⟩ <;> simp at h2
    simp [nodes, h2]

/-- An execution of the same engine in which a node is restarted after the round of its lock was raised
without a record in the lock log. -/
def split : List (ℕ × Ev (Option ℕ) ℕ) :=
  [(0, .timeout), (0, .timeout), (1, .timeout), (1, .timeout), (2, .timeout), (2, .timeout),
   -- round 0: 0 locks block 7
   (1, .proposed (some 7)), (0, .proposal 0 7 (-1) (some true)), (0, .imported true), (2, .timeout),
   prevote 0 1 0 (some 7), prevote 0 3 0 (some 7), prevote 1 0 0 (some 7), prevote 1 2 0 none, (1, .timeout),
   prevote 2 0 0 (some 7), prevote 2 1 0 (some 7), (2, .timeout),
   precommit 0 1 0 none, precommit 0 2 0 none, (0, .timeout),
   precommit 1 0 0 (some 7), precommit 1 2 0 none, (1, .timeout),
   precommit 2 0 0 (some 7), precommit 2 1 0 none, (2, .timeout),
   -- round 1: 1 and 2 prevote block 8, nobody sees two thirds
   (2, .proposed (some 8)), (1, .proposal 1 8 (-1) (some true)), (1, .imported true), (0, .timeout),
   prevote 0 1 1 (some 8), prevote 0 2 1 (some 8), (0, .timeout),
   prevote 1 0 1 (some 7), prevote 1 2 1 (some 8), (1, .timeout),
   prevote 2 0 1 (some 7), prevote 2 1 1 (some 8), (2, .timeout),
   precommit 0 1 1 none, precommit 0 2 1 none, precommit 1 0 1 none, precommit 1 2 1 none,
   precommit 2 0 1 none, precommit 2 1 1 none,
   -- round 2: 0 and 1 prevote and precommit block 7; 0 raises its lock to round 2; 4 finalizes 7
   (1, .proposal 2 7 0 (some true)), prevote 1 0 0 (some 7), prevote 1 1 0 (some 7), prevote 1 3 0 (some 7),
   (1, .imported true), (0, .timeout), (2, .timeout),
   prevote 0 1 2 (some 7), prevote 0 3 2 (some 7), prevote 1 0 2 (some 7), prevote 1 3 2 (some 7),
   prevote 2 0 2 (some 7), prevote 2 1 2 (some 7), (2, .timeout),
   precommit 4 0 2 (some 7), precommit 4 1 2 (some 7), precommit 4 3 2 (some 7), (4, .parts true),
   (4, .finalize),
   -- 0 restarts with all its records; its lock is back in round 0, and the prevotes of round 1 release it
   (0, .restart 1000 1000 1000),
   prevote 0 1 1 (some 8), prevote 0 2 1 (some 8), prevote 0 3 1 (some 8),
   precommit 0 1 2 (some 7), precommit 0 2 2 none, (0, .timeout),
   precommit 2 0 2 (some 7), precommit 2 1 2 (some 7), (2, .timeout),
   -- round 3: 0 proposes block 9; 2 finalizes it
   (0, .proposed (some 9)), (2, .proposal 3 9 (-1) (some true)), (2, .imported true),
   prevote 0 2 3 (some 9), prevote 0 3 3 (some 9), prevote 2 0 3 (some 9), prevote 2 3 3 (some 9),
   precommit 2 0 3 (some 9), precommit 2 3 3 (some 9), (2, .finalize)]

theorem split_finals : (play cfg bad true ch split start).map finals =
    some [none, none, some 9, none, some 7] := by
  decide +kernel

end Example

/-- **C55.** The restriction on restarts in C54 cannot be dropped: with four validators, one of them faulty,
and one restart of one correct node from its complete logs, two correct nodes finalize different blocks at
the same height. -/
theorem C55_restart_can_break_agreement : ∃ s, Reach Example.cfg (· ∈ Example.bad) true s ∧
    3 * Example.bad.card < Example.cfg.n ∧ Example.cfg.Sound ∧ 2 ∉ Example.bad ∧ 4 ∉ Example.bad ∧
    (s 4).final = some 7 ∧ (s 2).final = some 9 := by
  have h := Example.split_finals
  rw [Option.map_eq_some_iff] at h
  obtain ⟨l, h1, h2⟩ := h
  refine ⟨nodes l, play_reach Example.split _ _ h1 (start_reach _ _ _), by decide, Example.cfg_sound,
    by decide, by decide, ?_, ?_⟩
  all_goals
    unfold Example.finals at h2
    rcases l with _ | ⟨a, _ | ⟨b, _ | ⟨d, _ | ⟨e, _ | ⟨f, l⟩⟩⟩⟩⟩ <;> simp at h2
    simp [nodes, h2]

end Verif.Consensus.Engine
