import Verif.Service.LocatorStep

/-!
# Replay protection

**C57.** No transaction is in two blocks of the chain or twice in a block, over all histories of checks,
commits, background writes, crashes and restarts, as long as time stamps and both ends of the range of
accepted transaction times never go back.  **C58** shows what goes wrong when the threshold is lowered or
when a background write fails, and at the upper end of the range for blocks not yet committed.
-/

namespace Verif.Locator

section
variable {I : Type} [DecidableEq I] {tsOf : I → ℤ} {s : State I}

/-- **C57.** No transaction occurs twice in the chain. -/
theorem C57_no_replay (h : Reach tsOf Regular false s) :
    (s.chain.flatMap (fun b => b.txs)).Nodup := by
  obtain ⟨_, _, _, _, _, _, _, h⟩ := reach_inv h
  have := h.nodup
  unfold State.blocks at this
  rw [List.flatMap_append, List.nodup_append] at this
  exact this.1

/-- **C57.** A block that passes the check has no transaction of the chain, none twice, and none outside of
its time range. -/
theorem C57_check_sound (h : Reach tsOf Regular false s) (hd : s.dead = false) (hp : s.pending = none)
    (b : Blk I) (hr : Regular s.chain b) (hc : s.check tsOf b = true) :
    b.txs.Nodup ∧ (∀ id ∈ b.txs, b.ts - b.th < tsOf id ∧ tsOf id ≤ b.ts + b.th) ∧
      ∀ id ∈ b.txs, ∀ a ∈ s.chain, id ∉ a.txs := by
  obtain ⟨_, _, _, _, _, _, _, h⟩ := reach_inv h
  have := h.check_fits hd hp hr hc
  exact ⟨this.nodup, this.range, this.fresh⟩

/-- **C57.** A block is not refused without reason: it passes the check if its transactions are different
and in the time range, and none is in a block whose commit was ever begun. -/
theorem C57_check_complete (h : Reach tsOf Regular false s) (b : Blk I) (hn : b.txs.Nodup)
    (hr : ∀ id ∈ b.txs, b.ts - b.th < tsOf id ∧ tsOf id ≤ b.ts + b.th)
    (hf : ∀ id ∈ b.txs, ∀ a ∈ s.tried, id ∉ a.txs) : s.check tsOf b = true := by
  obtain ⟨_, _, _, _, _, _, _, h⟩ := reach_inv h
  unfold State.check
  rw [Bool.and_eq_true, decide_eq_true_eq, List.all_eq_true]
  refine ⟨hn, fun id hi => ?_⟩
  rw [Bool.and_eq_true]
  constructor
  · cases hh : s.has id (tsOf id) with
    | false => rfl
    | true =>
      obtain ⟨a, ha, hia⟩ := h.mem_of_has hh
      exact absurd hia (hf id hi a ha)
  · simpa [State.inRange] using hr id hi

/-- **C57.** Every transaction of the chain is found at its block and index. -/
theorem C57_lookup (h : Reach tsOf Regular false s) (hd : s.dead = false) (b : Blk I) (hb : b ∈ s.chain)
    (k : ℕ) (id : I) (hk : b.txs[k]? = some id) : s.getLocator id = some ⟨b.height, k⟩ := by
  obtain ⟨_, _, _, _, _, _, _, h⟩ := reach_inv h
  exact h.locator hd (List.mem_append_left _ hb) ⟨hk, rfl⟩

/-- **C57.** After a restart the blocks before the last one are in the database. -/
theorem C57_durable (h : Reach tsOf Regular false s) (b : Blk I) (hb : b ∈ s.chain.dropLast) (k : ℕ) (id : I)
    (hk : b.txs[k]? = some id) : s.db id = some ⟨b.height, k⟩ := by
  obtain ⟨_, _, _, _, _, _, _, h⟩ := reach_inv h
  exact h.safe b hb id _ ⟨hk, rfl⟩

/-- Time stamps do not go back and the threshold is fixed. -/
def Fixed (T : ℤ) (chain : List (Blk I)) (b : Blk I) : Prop :=
  0 ≤ b.ts ∧ b.th = T ∧ ∀ a ∈ chain, a.ts ≤ b.ts

theorem fixed_regular {T : ℤ} (h : Reach tsOf (Fixed T) false s) :
    Reach tsOf Regular false s ∧ ∀ b ∈ s.chain ++ s.pending.toList, b.th = T := by
  have base : ∀ {s s' : State I} {th}, (∀ b ∈ s.chain ++ s.pending.toList, b.th = T) → s.restart th = some s' →
      ∀ b ∈ s'.chain ++ s'.pending.toList, b.th = T := by
    intro s s' th hs e b hb
    unfold State.restart State.commitList at e
    simp only [State.fresh, Bool.false_eq_true, if_false, Option.bind_some] at e
    split at e
    · cases e
      exact hs b (by simpa using Or.inl (by simpa using hb))
    · cases e
      exact hs b (by simpa using Or.inl (by simpa using hb))
  induction h with
  | init th s e =>
    exact ⟨.init th s e, base (s := State.empty) (by simp [State.empty]) e⟩
  | @step s s' ev _ hs ih =>
    obtain ⟨i1, i2⟩ := ih
    have conv : ∀ b, Fixed T s.chain b → Regular s.chain b := by
      intro b hb
      refine ⟨hb.1, fun a ha => ?_⟩
      have h1 := hb.2.2 a ha
      have h2 := i2 a (List.mem_append_left _ ha)
      rw [h2, hb.2.1]
      exact ⟨h1, by linarith, by linarith⟩
    cases ev with
    | check b =>
      refine ⟨.step (.check b) i1 ⟨hs.1, conv b hs.2.1, hs.2.2⟩, ?_⟩
      obtain ⟨_, _, _, rfl⟩ := hs
      exact i2
    | commit b =>
      refine ⟨.step (.commit b) i1 ⟨conv b hs.1, hs.2⟩, ?_⟩
      obtain ⟨h1, _, h3⟩ := hs
      unfold State.commit at h3
      split_ifs at h3
      rw [Option.map_eq_some_iff] at h3
      obtain ⟨s1, q1, rfl⟩ := h3
      unfold State.commitList at q1
      split_ifs at q1
      cases q1
      intro a ha
      rcases List.mem_append.mp ha with ha | ha
      · exact i2 a (List.mem_append_left _ ha)
      · simp only [Option.toList_some, List.mem_singleton] at ha
        subst ha; exact h1.2.1
    | finish =>
      refine ⟨.step .finish i1 hs, ?_⟩
      have hs' : s.finish = some s' := hs
      unfold State.finish at hs'
      split at hs'
      · cases hs'
      · rename_i b hp
        split_ifs at hs'
        cases hs'
        intro a ha
        exact i2 a (by simpa [hp] using ha)
    | fetch =>
      refine ⟨.step .fetch i1 hs, ?_⟩
      have hs' : s.fetch = some s' := hs
      unfold State.fetch at hs'
      split at hs'
      · cases hs'; exact i2
      · cases hs'
    | write =>
      refine ⟨.step .write i1 hs, ?_⟩
      have hs' : s.write = some s' := hs
      unfold State.write at hs'
      split at hs'
      · cases hs'
      · split at hs'
        · cases hs'
        · cases hs'; exact i2
        · cases hs'; exact i2
    | flushed =>
      refine ⟨.step .flushed i1 hs, ?_⟩
      have hs' : s.flushed = some s' := hs
      unfold State.flushed at hs'
      split at hs'
      · cases hs'
      · split_ifs at hs'
        cases hs'
        unfold State.addList
        split_ifs <;> exact i2
    | stop =>
      refine ⟨.step .stop i1 hs, ?_⟩
      cases hs; exact i2
    | fail =>
      refine ⟨.step .fail i1 hs, ?_⟩
      have hs' : s.fail = some s' := hs.2
      unfold State.fail at hs'
      split at hs'
      · cases hs'
      · cases hs'; exact i2
    | restart th => exact ⟨.step (.restart th) i1 hs, base i2 hs⟩

/-- **C57.** With a fixed threshold and time stamps that do not go back no transaction occurs twice. -/
theorem C57_no_replay_fixed {T : ℤ} (h : Reach tsOf (Fixed T) false s) :
    (s.chain.flatMap (fun b => b.txs)).Nodup :=
  C57_no_replay (fixed_regular h).1

/-- **C58.** The check on top of blocks that are not committed yet finds their transactions and those of the
chain, provided that none has a time stamp at the very end of the range of its block. -/
theorem C58_open_blocks (h : Reach tsOf Regular false s) (hd : s.dead = false) (hp : s.pending = none)
    (path : List (Blk I)) (hpw : (s.chain ++ path.reverse).Pairwise Before) (a : Blk I)
    (ha : a ∈ s.chain ++ path.reverse) (id : I) (hi : id ∈ a.txs) (hts : tsOf id < a.ts + a.th)
    (hmin : ∀ l ∈ s.chain, l.ts - l.th < tsOf id) : s.trackHas path id (tsOf id) = true := by
  obtain ⟨_, _, _, _, _, _, _, h⟩ := reach_inv h
  have hb : s.blocks = s.chain := by simp [State.blocks, hp]
  induction path with
  | nil =>
    rw [List.reverse_nil, List.append_nil] at ha
    exact h.has_of_mem hd (hb ▸ ha) hi rfl (hb ▸ hmin)
  | cons t path ih =>
    rw [List.reverse_cons, ← List.append_assoc] at ha hpw
    rw [List.pairwise_append] at hpw
    unfold State.trackHas
    have hlt : tsOf id < t.ts + t.th := by
      rcases List.mem_append.mp ha with e | e
      · exact lt_of_lt_of_le hts (hpw.2.2 a e t (by simp)).2.2
      · rw [List.mem_singleton] at e; subst e; exact hts
    rw [if_neg (by omega)]
    by_cases hin : id ∈ t.txs
    · rw [if_pos hin]
    · rw [if_neg hin]
      refine ih hpw.1 ?_
      rcases List.mem_append.mp ha with e | e
      · exact e
      · rw [List.mem_singleton] at e; subst e; exact absurd hi hin

/-! ### Concrete executions -/

/-- Run one event if it can happen, with an executable rule. -/
def runEv (tsOf : I → ℤ) (rule : List (Blk I) → Blk I → Bool) (lossy : Bool) (s : State I) : Ev I → Option (State I)
  | .check b =>
    if s.pending.isNone && rule s.chain b && s.check tsOf b then some { s with accepted := b :: s.accepted } else none
  | .commit b => if rule s.chain b && decide (b ∈ s.accepted) then s.commit b else none
  | .finish => s.finish
  | .fetch => s.fetch
  | .write => s.write
  | .flushed => s.flushed
  | .stop => some { s with dead := true }
  | .fail => if lossy || s.queue.isEmpty then s.fail else none
  | .restart th => s.restart th

/-- Run a list of events. -/
def runAll (tsOf : I → ℤ) (rule : List (Blk I) → Blk I → Bool) (lossy : Bool) :
    List (Ev I) → State I → Option (State I)
  | [], s => some s
  | e :: es, s => (runEv tsOf rule lossy s e).bind (runAll tsOf rule lossy es)

theorem runEv_step {rule : List (Blk I) → Blk I → Bool} {R : List (Blk I) → Blk I → Prop}
    (hR : ∀ c b, rule c b = true → R c b) {lossy : Bool} {s s' : State I} {e}
    (h : runEv tsOf rule lossy s e = some s') : Step tsOf R lossy s e s' := by
  cases e with
  | check b =>
    simp only [runEv] at h
    by_cases hc : (s.pending.isNone && rule s.chain b && s.check tsOf b) = true
    swap
    · rw [if_neg hc] at h; cases h
    rw [if_pos hc] at h
    simp only [Bool.and_eq_true, Option.isNone_iff_eq_none] at hc
    cases h
    exact ⟨hc.1.1, hR _ _ hc.1.2, hc.2, rfl⟩
  | commit b =>
    simp only [runEv] at h
    by_cases hc : (rule s.chain b && decide (b ∈ s.accepted)) = true
    swap
    · rw [if_neg hc] at h; cases h
    rw [if_pos hc] at h
    simp only [Bool.and_eq_true, decide_eq_true_eq] at hc
    exact ⟨hR _ _ hc.1, Or.inl hc.2, h⟩
  | fail =>
    simp only [runEv] at h
    by_cases hc : (lossy || s.queue.isEmpty) = true
    swap
    · rw [if_neg hc] at h; cases h
    rw [if_pos hc] at h
    simp only [Bool.or_eq_true, List.isEmpty_iff] at hc
    exact ⟨hc, h⟩
  | stop => cases h; rfl
  | _ => exact h

theorem runAll_reach {rule : List (Blk I) → Blk I → Bool} {R : List (Blk I) → Blk I → Prop}
    (hR : ∀ c b, rule c b = true → R c b) {lossy : Bool} (es : List (Ev I)) {s s' : State I}
    (h : Reach tsOf R lossy s) (he : runAll tsOf rule lossy es s = some s') : Reach tsOf R lossy s' := by
  induction es generalizing s with
  | nil => cases he; exact h
  | cons e es ih =>
    unfold runAll at he
    rw [Option.bind_eq_some_iff] at he
    obtain ⟨t, ht, he⟩ := he
    exact ih (.step e h (runEv_step hR ht)) he

/-- The time ranges as `Regular`, executable. -/
def regularB (chain : List (Blk I)) (b : Blk I) : Bool :=
  decide (0 ≤ b.ts) && chain.all (fun a => decide (a.ts ≤ b.ts) && decide (a.ts - a.th ≤ b.ts - b.th) &&
    decide (a.ts + a.th ≤ b.ts + b.th))

theorem regularB_imp (c : List (Blk I)) (b : Blk I) (h : regularB c b = true) : Regular c b := by
  simp only [regularB, Bool.and_eq_true, decide_eq_true_eq, List.all_eq_true] at h
  exact ⟨h.1, fun a ha => ⟨(h.2 a ha).1.1, (h.2 a ha).1.2, (h.2 a ha).2⟩⟩

/-- The rule of `VerifyTimestamp` alone: time stamps increase. -/
def Increasing (chain : List (Blk I)) (b : Blk I) : Prop := 0 < b.ts ∧ ∀ a ∈ chain, a.ts < b.ts

def increasingB (chain : List (Blk I)) (b : Blk I) : Bool :=
  decide (0 < b.ts) && chain.all (fun a => decide (a.ts < b.ts))

theorem increasingB_imp (c : List (Blk I)) (b : Blk I) (h : increasingB c b = true) : Increasing c b := by
  simp only [increasingB, Bool.and_eq_true, decide_eq_true_eq, List.all_eq_true] at h
  exact h

end

namespace Example

/-- Transaction `n` has time stamp `n`. -/
def tsOf : ℕ → ℤ := fun n => n

/-- A block is checked, committed, taken by the worker and finalized. -/
def add (b : Blk ℕ) : List (Ev ℕ) := [.check b, .commit b, .fetch, .finish]

/-- The worker finishes a list of `n` locators. -/
def write (n : ℕ) : List (Ev ℕ) := List.replicate n Ev.write ++ [.flushed]

/-- The initial state after the worker has dealt with the initial list. -/
def start : Option (State ℕ) := (State.empty.restart 10)

/-- What is shown of a state. -/
def show_ (s : State ℕ) : List (List ℕ) × ℤ × List ℕ := (s.chain.map (fun b => b.txs), s.maxTS, s.cache.map (fun l => l.items.length))

/-- Blocks with transactions; a replay of 105 is refused; a crash loses an unwritten list. -/
def good : List (Ev ℕ) :=
  [.fetch, .flushed] ++ add ⟨1, 100, 10, [105, 99]⟩ ++ write 2 ++ add ⟨2, 106, 10, [110]⟩ ++ [.restart 10] ++
  [.fetch, .flushed, .fetch] ++ write 1 ++ add ⟨3, 130, 10, [125, 135]⟩ ++ write 2

theorem good_run : (start.bind (runAll tsOf regularB false good)).map show_ =
    some ([[105, 99], [110], [125, 135]], 116, [2]) := by decide +kernel

/-- The replay of 105 in a block in whose range it is. -/
theorem good_refused : (start.bind (runAll tsOf regularB false (good.take 8))).map
    (fun s => (s.check tsOf ⟨2, 106, 10, [105]⟩, s.check tsOf ⟨2, 106, 10, [104]⟩)) = some (false, true) := by
  decide +kernel

/-- The threshold is lowered from 10 to 1 after the first block, and the node restarts. -/
def lowered : List (Ev ℕ) :=
  [.fetch, .flushed] ++ add ⟨1, 100, 10, [110]⟩ ++ write 1 ++ add ⟨2, 101, 1, []⟩ ++ write 0 ++ [.restart 10] ++
  [.fetch, .flushed, .fetch] ++ write 0 ++ add ⟨3, 104, 1, []⟩ ++ write 0 ++ add ⟨4, 109, 1, [110]⟩

theorem lowered_run : (start.bind (runAll tsOf increasingB false lowered)).map (fun s => s.chain) =
    some [⟨1, 100, 10, [110]⟩, ⟨2, 101, 1, []⟩, ⟨3, 104, 1, []⟩, ⟨4, 109, 1, [110]⟩] := by decide +kernel

/-- A write fails while a commit waits. -/
def failing : List (Ev ℕ) :=
  [.fetch, .flushed] ++ add ⟨1, 100, 10, [105]⟩ ++ [.check ⟨2, 101, 10, []⟩, .commit ⟨2, 101, 10, []⟩, .fail, .finish,
    .restart 10, .fetch, .flushed, .fetch] ++ write 0 ++ add ⟨3, 102, 10, [105]⟩

theorem failing_run : (start.bind (runAll tsOf regularB true failing)).map (fun s => s.chain) =
    some [⟨1, 100, 10, [105]⟩, ⟨2, 101, 10, []⟩, ⟨3, 102, 10, [105]⟩] := by decide +kernel

/-- What a run from the start reaches. -/
theorem reach_of_run {rule : List (Blk ℕ) → Blk ℕ → Bool} {R : List (Blk ℕ) → Blk ℕ → Prop}
    (hR : ∀ c b, rule c b = true → R c b) {lossy : Bool} {es : List (Ev ℕ)} {α : Type} {f : State ℕ → α} {x : α}
    (h : (start.bind (runAll tsOf rule lossy es)).map f = some x) : ∃ s, Reach tsOf R lossy s ∧ f s = x := by
  rw [Option.map_eq_some_iff] at h
  obtain ⟨s, h1, h2⟩ := h
  rw [Option.bind_eq_some_iff] at h1
  obtain ⟨s0, h3, h4⟩ := h1
  exact ⟨s, runAll_reach hR es (.init 10 s0 h3) h4, h2⟩

end Example

/-- **The hypotheses of C57 are met**: a history with five transactions, a crash and a cleared cache. -/
theorem C57_example : ∃ s, Reach Example.tsOf Regular false s ∧
    s.chain.map (fun b => b.txs) = [[105, 99], [110], [125, 135]] ∧ s.maxTS = 116 := by
  obtain ⟨s, h1, h2⟩ := Example.reach_of_run regularB_imp Example.good_run
  simp only [Example.show_, Prod.mk.injEq] at h2
  exact ⟨s, h1, h2.1, h2.2.1⟩

/-- **C58 (finding).** When the threshold is lowered, a transaction can be put on the chain twice: the cache
forgets at a restart how late the transactions in the database may be. All blocks pass the check. -/
theorem C58_lowered_threshold_replays : ∃ s, Reach Example.tsOf Increasing false s ∧
    s.chain = [⟨1, 100, 10, [110]⟩, ⟨2, 101, 1, []⟩, ⟨3, 104, 1, []⟩, ⟨4, 109, 1, [110]⟩] :=
  Example.reach_of_run increasingB_imp Example.lowered_run

/-- **C58 (finding).** When the worker fails to write while a commit waits for it, that commit reports success,
and after the restart the transactions of the block before are not known any more. -/
theorem C58_failed_write_replays : ∃ s, Reach Example.tsOf Regular true s ∧
    s.chain = [⟨1, 100, 10, [105]⟩, ⟨2, 101, 10, []⟩, ⟨3, 102, 10, [105]⟩] :=
  Example.reach_of_run regularB_imp Example.failing_run

/-- **C58 (finding).** A transaction at the end of the range of a block is accepted there, but it is not found
by a block on top of it as long as the first is not committed. -/
theorem C58_edge_not_found : ∃ s, Reach Example.tsOf Regular false s ∧
    s.check Example.tsOf ⟨1, 100, 10, [110]⟩ = true ∧ s.trackHas [⟨1, 100, 10, [110]⟩] 110 110 = false ∧
    State.inRange (⟨2, 101, 10, [110]⟩ : Blk ℕ) 110 = true := by
  obtain ⟨s, h1, h2⟩ := Example.reach_of_run (f := fun s => s.check Example.tsOf ⟨1, 100, 10, [110]⟩)
    (x := true) (es := [.fetch]) (lossy := false) regularB_imp (by decide +kernel)
  exact ⟨s, h1, h2, rfl, by decide⟩

end Verif.Locator
