import Verif.BTree.Steps

/-!
# The theorems on the block manager (C77)

For every sequence of events: imports, proposals, cancels, reports of the executor in any order and with any result,
`Dup` and `Dispose` of candidates, `Finalize`, `Term`. The user calls `Dup` and `Dispose` on candidates that it
has not disposed (`Allowed`), and block IDs have no cycle (`NoLoop`).
-/

namespace Verif.BTree

variable {ch : Chain} {g : Id}

theorem Tree.wanted {s : St} {cands : Id → Nat} {f : Nat} (h : Tree ch s cands f) : ∀ (n x : Nat), s.next ≤ x + n →
    s.In x → x ≠ f → ∃ y, s.In y ∧ 0 < cands (s.heap y).block ∧ Under s.heap x y
  | 0, x, hn, hx, _ => by
    have := (h.lt x (.inl hx)).1
    omega
  | n + 1, x, hn, hx, hf => by
    have h1 := h.pos x hx (by simp) hf (by simp)
    rw [h.nRef x hx (by simp), if_neg hf] at h1
    by_cases hc : 0 < cands (s.heap x).block
    · exact ⟨x, hx, hc, .refl x⟩
    · have hne : (s.heap x).children ≠ [] := by
        intro e
        rw [e] at h1
        simp at h1
        omega
      obtain ⟨c, hcm⟩ := List.exists_mem_of_ne_nil _ hne
      obtain ⟨k1, k2, k3, _⟩ := h.down hx hcm
      have hcf : c ≠ f := by
        rintro rfl
        rw [h.finPar] at k2; cases k2
      obtain ⟨y, a1, a2, a3⟩ := Tree.wanted h n c (by omega) k1 hcf
      exact ⟨y, a1, a2, .child hcm a3⟩

theorem Tree.path {s : St} {cands : Id → Nat} {f : Nat} (hl : NoLoop ch) (h : Tree ch s cands f) {b d : Id}
    (hbd : Below ch b d) (hfb : Below ch (s.heap f).block b) : ∀ y, s.In y → (s.heap y).block = d →
    s.nmap b ≠ none := by
  induction hbd with
  | refl =>
    intro y hy e
    unfold St.In at hy
    rw [← e, hy]; simp
  | @up c d e hbc ih =>
    intro y hy hyd
    by_cases hyf : y = f
    · exfalso
      subst hyf
      rw [← hyd] at e
      exact hl _ _ e (hfb.trans hbc)
    · obtain ⟨q, _, k2, k3, _, _⟩ := h.up hy hyf
      rw [hyd, e] at k3
      exact ih q k2 (Option.some.inj k3).symm

/-- The manager knows exactly the blocks it has to know. -/
theorem known_iff (hl : NoLoop ch) {w : World} (h : Reach ch g w) (hr : w.s.running = true) (b : Id) :
    (∃ p, w.s.nmap b = some p) ↔ Needed ch w b := by
  obtain ⟨hB, _⟩ := inv_reach hl h
  obtain ⟨f, t, st, hlast⟩ := hB.run hr
  unfold Needed
  constructor
  · rintro ⟨p, hp⟩
    obtain ⟨hin, rfl⟩ := t.in_of hp
    refine ⟨_, hlast, ?_⟩
    by_cases e : p = f
    · exact .inl (by rw [e])
    · obtain ⟨y, a1, a2, a3⟩ := t.wanted w.s.next p (by omega) hin e
      exact .inr ⟨t.below hin, _, a2, (t.under hin a3).2.2⟩
  · rintro ⟨f', e, hb⟩
    rw [hlast] at e
    obtain rfl := Option.some.inj e
    rcases hb with rfl | ⟨h1, d, h2, h3⟩
    · exact ⟨f, t.finIn⟩
    · have hd : w.s.nmap d ≠ none := fun hn => st d h2 hn (h1.trans h3)
      obtain ⟨y, hy⟩ := Option.ne_none_iff_exists'.1 hd
      obtain ⟨hin, hyd⟩ := t.in_of hy
      exact Option.ne_none_iff_exists'.1 (t.path hl h3 h1 y hin hyd)

theorem bind_none_iff (hl : NoLoop ch) {w : World} (h : Reach ch g w) (hr : w.s.running = true) (o : Option Id) :
    o.bind w.s.nmap = none ↔ ¬ ∃ p, o = some p ∧ Needed ch w p := by
  cases o with
  | none => simp
  | some p =>
    have := known_iff hl h hr p
    simp only [Option.bind_some, Option.some.injEq, exists_eq_left', ← this]
    rcases w.s.nmap p with _ | q <;> simp

/-- C77. An import is refused for its previous ID exactly if that is none of the blocks the manager has to know: the last
finalized block, and the blocks above it up to a block for which there is a candidate. -/
theorem import_parent (hl : NoLoop ch) {w : World} (h : Reach ch g w) (hr : w.s.running = true) (b : Id)
    (force ok : Bool) :
    (doImport ch w.s b force ok).2 = .badParent ↔ ¬ ∃ p, ch.prev b = some p ∧ Needed ch w p := by
  rw [← bind_none_iff hl h hr]
  unfold doImport
  rw [if_neg (by simpa using hr)]
  rcases (ch.prev b).bind w.s.nmap with _ | q
  · simp
  · dsimp only
    cases ok <;> simp

/-- C77. The same for a proposal. -/
theorem propose_parent (hl : NoLoop ch) {w : World} (h : Reach ch g w) (hr : w.s.running = true) (p : Id) (ok : Bool) :
    (doPropose w.s p ok).2 = .badParent ↔ ¬ Needed ch w p := by
  rw [← known_iff hl h hr]
  unfold doPropose
  rw [if_neg (by simpa using hr)]
  rcases w.s.nmap p with _ | q
  · simp
  · dsimp only
    cases ok <;> simp

/-- C77. `Finalize` accepts exactly the blocks on top of the last finalized one that the manager has to know. -/
theorem finalize_iff (hl : NoLoop ch) {w : World} (h : Reach ch g w) (b : Id) :
    (doFinalize w.s b).2 = .done ↔
      w.s.running = true ∧ Needed ch w b ∧ ∃ f, w.last = some f ∧ ch.prev b = some f := by
  obtain ⟨hB, _⟩ := inv_reach hl h
  rcases doFinalize_spec hB b with ⟨e, hr⟩ | ⟨e, hr⟩ | ⟨f, p, hr, g1, g2, g3, hb, hp, e⟩
  · rw [e]; simp [hr]
  · rw [e]
    constructor
    · intro hh; cases hh
    · rintro ⟨_, hn, f', hf', hprev⟩
      exfalso
      obtain ⟨p, hp⟩ := (known_iff hl h hr b).2 hn
      obtain ⟨f, t, st, hlast⟩ := hB.run hr
      obtain ⟨hin, rfl⟩ := t.in_of hp
      rw [hlast] at hf'
      obtain rfl := Option.some.inj hf'
      have hpf : p ≠ f := by
        rintro rfl
        exact hl _ _ hprev .refl
      obtain ⟨q, k1, k2, k3, _, _⟩ := t.up hin hpf
      rw [hprev] at k3
      have hqf : f = q := In.inj t.finIn k2 (Option.some.inj k3)
      unfold doFinalize at e
      rw [if_neg (by simpa using hr), hp] at e
      dsimp only at e
      rw [if_neg (by rw [k1, t.fin, hqf]; simp)] at e
      exact absurd (congrArg Prod.snd e) (by simp)
  · rw [e]
    refine ⟨fun _ => ⟨hr, (known_iff hl h hr b).1 ⟨p, hb⟩, _, g3, ?_⟩, fun _ => rfl⟩
    obtain ⟨hin, rfl⟩ := g1.in_of hb
    have hpf : p ≠ f := by
      rintro rfl
      rw [g1.finPar] at hp; cases hp
    obtain ⟨q, k1, k2, k3, _, _⟩ := g1.up hin hpf
    rw [hp] at k1
    obtain rfl := Option.some.inj k1
    exact k3

/-- C77. The finalized blocks form a chain: each is on top of the one before. -/
theorem finalized_linked (hl : NoLoop ch) {w : World} (h : Reach ch g w) : Linked ch w.fins :=
  (inv_reach hl h).1.fins

theorem task_open (hl : NoLoop ch) {w : World} (h : Reach ch g w) {t : Nat} {k : Task} (hk : w.s.tasks[t]? = some k) :
    k.pend ↔ w.open t := by
  have hT := (inv_reach hl h).2.task t k hk
  constructor
  · intro hp
    exact ⟨(List.getElem?_eq_some_iff.1 hk).1, hT.1 hp⟩
  · rintro ⟨_, h1, h2⟩
    by_contra hn
    have := (hT.2.1 hn).1
    omega

/-- C77. For each task: its callback is called at most once, and not at all if `Cancel` has returned true. -/
theorem callback_once (hl : NoLoop ch) {w : World} (h : Reach ch g w) (t : Nat) : w.calls t + w.cancelled t ≤ 1 := by
  obtain ⟨_, hT⟩ := inv_reach hl h
  rcases hk : w.s.tasks[t]? with _ | k
  · have := hT.new t (List.getElem?_eq_none_iff.1 hk)
    omega
  · have := hT.task t k hk
    by_cases hp : k.pend
    · have := this.1 hp; omega
    · have := (this.2.1 hp).1; omega

/-- C77. `Cancel` returns true exactly for a task that has not called back and was not cancelled. -/
theorem cancel_iff (hl : NoLoop ch) {w : World} (h : Reach ch g w) (t : Nat) :
    (doCancel w.s t).2 = .canceled ↔ w.open t := by
  obtain ⟨_, hT⟩ := inv_reach hl h
  rcases doCancel_spec w.s t (fun k hk => (hT.task t k hk).2.2) with ⟨k, hk, hp, e⟩ | ⟨hn, e⟩
  · rw [e]
    exact ⟨fun _ => (task_open hl h hk).1 hp, fun _ => rfl⟩
  · rw [e]
    constructor
    · intro hh; cases hh
    · intro ho
      exfalso
      obtain ⟨k, hk⟩ : ∃ k, w.s.tasks[t]? = some k := ⟨_, List.getElem?_eq_getElem ho.1⟩
      exact hn k hk ((task_open hl h hk).2 ho)

/-- C77. The candidate an import brings is for the imported block; the one a proposal brings is for a block on top of the
given one. -/
theorem candidate_fits (hl : NoLoop ch) {w : World} (h : Reach ch g w) {t : Nat} {b : Id} (hb : (t, some b) ∈ w.log) :
    ∃ k, w.s.tasks[t]? = some k ∧ k.kind.fits ch b :=
  (inv_reach hl h).2.fits t b hb

/-- C77. The execution results that are held for blocks are those of the blocks the manager has to know, once for each;
after `Term` none is held. -/
theorem results_held (hl : NoLoop ch) {w : World} (h : Reach ch g w) :
    (∀ b, (∃ x, (w.s.heap x).held = true ∧ (w.s.heap x).block = b) ↔ w.s.running = true ∧ Needed ch w b) ∧
    (∀ x y, (w.s.heap x).held = true → (w.s.heap y).held = true → (w.s.heap x).block = (w.s.heap y).block → x = y) := by
  obtain ⟨hB, _⟩ := inv_reach hl h
  by_cases hr : w.s.running = true
  · obtain ⟨f, t, st, hlast⟩ := hB.run hr
    have key : ∀ x, (w.s.heap x).held = true → w.s.In x := by
      intro x hx
      by_contra hn
      rw [t.free x (.inl hn)] at hx; cases hx
    refine ⟨fun b => ?_, fun x y hx hy e => In.inj (key x hx) (key y hy) e⟩
    constructor
    · rintro ⟨x, hx, rfl⟩
      exact ⟨hr, (known_iff hl h hr _).1 ⟨x, key x hx⟩⟩
    · rintro ⟨_, hn⟩
      obtain ⟨p, hp⟩ := (known_iff hl h hr b).2 hn
      obtain ⟨hin, e⟩ := t.in_of hp
      exact ⟨p, t.held p hin (by simp), e⟩
  · have := (hB.off (by simpa using hr)).2
    constructor
    · intro b
      simp [this, hr]
    · intro x y hx
      rw [this] at hx; cases hx

/-- C77. When no candidate is left, only the results of the last finalized block are held. -/
theorem no_leak (hl : NoLoop ch) {w : World} (h : Reach ch g w) (hc : ∀ i, w.cands i = 0) {x : Nat}
    (hx : (w.s.heap x).held = true) : w.last = some (w.s.heap x).block := by
  obtain ⟨_, f, e, hb⟩ := ((results_held hl h).1 _).1 ⟨x, hx, rfl⟩
  rcases hb with hb | ⟨_, d, hd, _⟩
  · rw [hb]; exact e
  · rw [hc d] at hd; omega

/-- C77. A task that has called back or was cancelled holds no execution. -/
theorem task_released (hl : NoLoop ch) {w : World} (h : Reach ch g w) {t : Nat} {k : Task}
    (hk : w.s.tasks[t]? = some k) (ho : ¬ w.open t) : k.inH = none ∧ k.outH = none := by
  have := (inv_reach hl h).2.task t k hk
  exact (this.2.1 fun hp => ho ((task_open hl h hk).1 hp)).2

/-- C77. The process crashes only on a report to an open task whose parent block the manager does not have to know
any more. -/
theorem crash_cause (hl : NoLoop ch) {w : World} (h : Reach ch g w) (hc : w.s.crashed = false) {e : Ev}
    (ha : Allowed w e) (he : (step ch w e).s.crashed = true) :
    ∃ t k, ((∃ side err, e = .validated t side err) ∨ ∃ side err a, e = .executed t side err a) ∧
      w.open t ∧ w.s.tasks[t]? = some k ∧ ¬ ∃ p, k.kind.parent ch = some p ∧ Needed ch w p := by
  obtain ⟨hB, hT⟩ := inv_reach hl h
  have hbook : ∀ t r, (w.book t r).s = r.1 := by
    rintro t ⟨s', cb⟩
    cases cb <;> rfl
  cases e with
  | importBlock b force ok =>
    simp only [step, doImport] at he
    exfalso
    split at he
    · rw [hc] at he; cases he
    · split at he
      · rw [hc] at he; cases he
      · split at he <;> (rw [hc] at he; cases he)
  | propose p ok =>
    simp only [step, doPropose] at he
    exfalso
    split at he
    · rw [hc] at he; cases he
    · split at he
      · rw [hc] at he; cases he
      · split at he <;> (rw [hc] at he; cases he)
  | cancel t =>
    simp only [step] at he
    rcases doCancel_spec w.s t (fun k hk => (hT.task t k hk).2.2) with ⟨k, hk, hp, e⟩ | ⟨hn, e⟩
    · rw [e] at he; simp only [St.setTask] at he; rw [hc] at he; cases he
    · rw [e] at he; dsimp only at he; rw [hc] at he; cases he
  | validated t side err =>
    simp only [step, hbook] at he
    rcases onValidate_spec hT t side err with ⟨g1, _, _⟩ | ⟨hr, ⟨k, hk, hp, hn⟩, e⟩
    · rw [g1, hc] at he; cases he
    · exact ⟨t, k, .inl ⟨side, err, rfl⟩, (task_open hl h hk).1 hp, hk, (bind_none_iff hl h hr _).1 hn⟩
  | executed t side err a =>
    simp only [step, hbook] at he
    rcases onExecute_spec hT t side err a with ⟨g1, _, _⟩ | ⟨hr, ⟨k, hk, hp, hn⟩, e⟩
    · rw [g1, hc] at he; cases he
    · exact ⟨t, k, .inr ⟨side, err, a, rfl⟩, (task_open hl h hk).1 hp, hk, (bind_none_iff hl h hr _).1 hn⟩
  | dup b =>
    simp only [step, doDup] at he
    split at he
    · simp only [St.ref, mod_crashed] at he; rw [hc] at he; cases he
    · rw [hc] at he; cases he
  | dispose b =>
    simp only [step, doDispose] at he
    split at he
    · rename_i p hp
      by_cases hr : w.s.running = true
      · obtain ⟨f, t, st, hlast⟩ := hB.run hr
        have := (dispose_tree t st ha).2.2.1.crashed
        simp only [doDispose, hp] at this
        rw [this, hc] at he; cases he
      · have := (hB.off (by simpa using hr)).1 b
        rw [hp] at this; cases this
    · rw [hc] at he; cases he
  | finalize b =>
    simp only [step] at he
    rcases doFinalize_spec hB b with ⟨e, hr⟩ | ⟨e, hr⟩ | ⟨f, p, hr, g1, g2, g3, hb, hp, e⟩
    · rw [e] at he; dsimp only at he; rw [hc] at he; cases he
    · rw [e] at he; dsimp only at he; rw [hc] at he; cases he
    · rw [e] at he
      obtain ⟨hpin, hpb⟩ := g1.in_of hb
      have := (finalize_tree hl g1 g2 hpin hp).2.2.2.2.2.2.1
      dsimp only at he
      rw [this, hc] at he; cases he
  | term =>
    simp only [step, doTerm] at he
    by_cases hr : w.s.running = true
    · rw [if_neg (by simpa using hr)] at he
      obtain ⟨f, g1, g2, g3⟩ := hB.run hr
      rw [g1.fin] at he
      dsimp only at he
      rw [(term_tree g1).1.crashed, hc] at he; cases he
    · rw [if_pos (by simpa using hr), hc] at he; cases he

/-- C77. While the parent of each open task is a block that the manager has to know, nothing crashes. -/
theorem no_crash (hl : NoLoop ch) {w : World} (h : Reach ch g w) (hc : w.s.crashed = false)
    (hk : ∀ t k, w.open t → w.s.tasks[t]? = some k → ∃ p, k.kind.parent ch = some p ∧ Needed ch w p) (e : Ev)
    (ha : Allowed w e) : (step ch w e).s.crashed = false := by
  by_contra hn
  obtain ⟨t, k, _, h1, h2, h3⟩ := crash_cause hl h hc ha (by simpa using hn)
  exact h3 (hk t k h1 h2)

/-- C77. An accepted import brings a candidate when the executor reports that the parts before it are executed with the
result it has, and that its transactions are valid: from then on the block is there for further blocks. -/
theorem import_done (hl : NoLoop ch) {w : World} (h : Reach ch g w) (hc : w.s.crashed = false) {b : Id} {force : Bool} {t : Nat}
    (ht : (doImport ch w.s b force true).2 = .task t) (a : Answers) (hv : a.verify = true) (hg : a.goOn = true) :
    ∃ w', w' = step ch (step ch (step ch w (.importBlock b force true)) (.executed t .inn false a)) (.validated t .out false) ∧
      Reach ch g w' ∧ w'.log = (t, some b) :: w.log ∧ w'.cands b = w.cands b + 1 ∧ Needed ch w' b ∧
      w'.s.crashed = false := by
  have hr : w.s.running = true := by
    by_contra hr
    unfold doImport at ht
    rw [if_pos (by simpa using hr)] at ht
    cases ht
  obtain ⟨q, hq⟩ : ∃ q, (ch.prev b).bind w.s.nmap = some q := by
    rcases hq : (ch.prev b).bind w.s.nmap with _ | q
    · unfold doImport at ht
      rw [if_neg (by simpa using hr), hq] at ht
      cases ht
    · exact ⟨q, rfl⟩
  have e1 : doImport ch w.s b force true =
      ({ w.s with tasks := w.s.tasks ++ [⟨.imp b force, .executingIn, some true, none⟩] }, .task w.s.tasks.length) := by
    unfold doImport
    rw [if_neg (by simpa using hr), hq]
    simp
  rw [e1] at ht
  obtain rfl : w.s.tasks.length = t := by simpa using ht
  have r1 : Reach ch g (step ch w (.importBlock b force true)) := .step _ h hc trivial
  have s1 : step ch w (.importBlock b force true) =
      { w with s := { w.s with tasks := w.s.tasks ++ [⟨.imp b force, .executingIn, some true, none⟩] } } := by
    simp only [step, e1]
  revert r1 s1
  generalize step ch w (.importBlock b force true) = w1
  intro r1 s1
  have t1 : w1.s.tasks[w.s.tasks.length]? = some ⟨.imp b force, .executingIn, some true, none⟩ := by
    rw [s1]; simp
  have hr1 : w1.s.running = true := by rw [s1]; exact hr
  have hc1 : w1.s.crashed = false := by rw [s1]; exact hc
  have hn1 : w1.s.nmap = w.s.nmap := by rw [s1]
  have hl1 : w1.log = w.log ∧ w1.cands = w.cands := by rw [s1]; exact ⟨rfl, rfl⟩
  clear s1
  have e2 : onExecute ch w1.s w.s.tasks.length .inn false a =
      (w1.s.setTask w.s.tasks.length ⟨.imp b force, .validatingOut, some false, some true⟩, .quiet) := by
    unfold onExecute
    rw [t1]
    simp [hr1, Task.hd, Task.mute, hv, hg]
  have r2 : Reach ch g (step ch w1 (.executed w.s.tasks.length .inn false a)) := .step _ r1 hc1 trivial
  have s2 : step ch w1 (.executed w.s.tasks.length .inn false a) =
      { w1 with s := w1.s.setTask w.s.tasks.length ⟨.imp b force, .validatingOut, some false, some true⟩ } := by
    simp only [step, e2, World.book]
  revert r2 s2
  generalize step ch w1 (.executed w.s.tasks.length .inn false a) = w2
  intro r2 s2
  have hlen : w.s.tasks.length < w1.s.tasks.length := (List.getElem?_eq_some_iff.1 t1).1
  have t2 : w2.s.tasks[w.s.tasks.length]? = some ⟨.imp b force, .validatingOut, some false, some true⟩ := by
    rw [s2]; simp [St.setTask, List.getElem?_set, hlen]
  have hr2 : w2.s.running = true := by rw [s2]; exact hr1
  have hc2 : w2.s.crashed = false := by rw [s2]; exact hc1
  have hn2 : w2.s.nmap = w.s.nmap := by rw [s2]; exact hn1
  have hl2 : w2.log = w.log ∧ w2.cands = w.cands := by rw [s2]; exact hl1
  clear s2
  have e3 : onValidate ch w2.s w.s.tasks.length .out false =
      deliver ch w2.s w.s.tasks.length ⟨.imp b force, .validatingOut, some false, some true⟩ b := by
    unfold onValidate
    rw [t2]
    simp [hr2, Task.hd]
  have r3 : Reach ch g (step ch w2 (.validated w.s.tasks.length .out false)) := .step _ r2 hc2 trivial
  have e4 : ∃ s3, deliver ch w2.s w.s.tasks.length ⟨.imp b force, .validatingOut, some false, some true⟩ b = (s3, .cand b) ∧
      s3.running = true ∧ s3.crashed = false ∧ ∃ p, s3.nmap b = some p := by
    unfold deliver
    rcases hb : w2.s.nmap b with _ | p
    · rw [hn2, hq]
      simp only [addNode]
      exact ⟨_, rfl, hr2, hc2, w2.s.next, by simp [St.ref, St.setTask]⟩
    · exact ⟨_, rfl, hr2, hc2, p, hb⟩
  obtain ⟨s3, e4, hr3, hc3, hp3⟩ := e4
  have s3' : step ch w2 (.validated w.s.tasks.length .out false) =
      { w2 with s := s3, log := (w.s.tasks.length, some b) :: w2.log,
                cands := fun i => if i = b then w2.cands i + 1 else w2.cands i } := by
    simp only [step, e3, e4, World.book]
  rw [s3'] at r3
  refine ⟨_, s3'.symm, r3, ?_, ?_, ?_, hc3⟩
  · dsimp only; rw [hl2.1]
  · dsimp only; rw [if_pos rfl, hl2.2]
  · exact (known_iff hl r3 hr3 b).1 hp3

end Verif.BTree
