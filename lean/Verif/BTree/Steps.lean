import Verif.BTree.Ops

/-! # The invariant of the whole, in every reachable world -/

namespace Verif.BTree

/-- A task that waits for reports. -/
def Task.pend (k : Task) : Prop := k.state = .executingIn ∨ k.state = .validatingOut

/-- The books on the tasks are right. -/
structure TInv (ch : Chain) (w : World) : Prop where
  task : ∀ (t : Nat) k, w.s.tasks[t]? = some k →
    (k.pend → w.calls t = 0 ∧ w.cancelled t = 0) ∧
    (¬ k.pend → w.calls t + w.cancelled t = 1 ∧ k.inH = none ∧ k.outH = none) ∧
    (∀ p, k.kind = .prop p → k.state ≠ .validatingOut)
  new : ∀ t : Nat, w.s.tasks.length ≤ t → w.calls t = 0 ∧ w.cancelled t = 0
  fits : ∀ (t : Nat) b, (t, some b) ∈ w.log → ∃ k, w.s.tasks[t]? = some k ∧ k.kind.fits ch b

/-- The tree is right. -/
structure BInv (ch : Chain) (w : World) : Prop where
  stuck : w.s.stuck = false
  run : w.s.running = true → ∃ f, Tree ch w.s w.cands f ∧ Stale ch w.s w.cands f ∧
    w.last = some (w.s.heap f).block
  off : w.s.running = false → (∀ i, w.s.nmap i = none) ∧ ∀ x, (w.s.heap x).held = false
  fins : Linked ch w.fins

/-! ## Tasks -/

variable {ch : Chain}

theorem calls_cons (w : World) (t t' : Nat) (o : Option Id) :
    (((t, o) :: w.log).countP fun e => e.1 = t') = w.calls t' + if t = t' then 1 else 0 := by
  rw [List.countP_cons]
  simp [World.calls]

/-- How the tasks change in an operation, and what becomes of the callback. -/
inductive TStep (ch : Chain) (s : St) (t : Nat) : List Task → Cb → Prop
  | same : TStep ch s t s.tasks .quiet
  | wait {k k' : Task} : s.tasks[t]? = some k → k.pend → k'.pend → k'.kind = k.kind →
      (∀ p, k.kind = .prop p → k'.state ≠ .validatingOut) → TStep ch s t (s.tasks.set t k') .quiet
  | fail {k k' : Task} : s.tasks[t]? = some k → k.pend → k'.kind = k.kind → k'.state = .stopped → k'.inH = none →
      k'.outH = none → TStep ch s t (s.tasks.set t k') .fail
  | cand {k k' : Task} {b : Id} : s.tasks[t]? = some k → k.pend → k'.kind = k.kind → k'.state = .validatedOut →
      k'.inH = none → k'.outH = none → k.kind.fits ch b → TStep ch s t (s.tasks.set t k') (.cand b)

theorem TInv.book {w : World} (h : TInv ch w) {t : Nat} {r : St × Cb} (hr : TStep ch w.s t r.1.tasks r.2) :
    TInv ch (w.book t r) := by
  obtain ⟨s', cb⟩ := r
  dsimp only at hr
  generalize hT : s'.tasks = T at hr
  cases hr with
  | same =>
    simp only [World.book]
    exact ⟨by dsimp only; rw [hT]; exact h.task, by dsimp only; rw [hT]; exact h.new, by dsimp only; rw [hT]; exact h.fits⟩
  | @wait k k' hk hp hp' hkind hst =>
    simp only [World.book]
    have hlt : t < w.s.tasks.length := (List.getElem?_eq_some_iff.1 hk).1
    constructor
    · intro t' j hj
      dsimp only at hj
      rw [hT, List.getElem?_set] at hj
      by_cases e : t = t'
      · subst e
        rw [if_pos rfl, if_pos hlt] at hj
        obtain rfl := Option.some.inj hj
        have := (h.task t k hk).1 hp
        exact ⟨fun _ => this, fun hn => absurd hp' hn, fun p hp => hst p (hkind ▸ hp)⟩
      · rw [if_neg e] at hj
        exact h.task t' j hj
    · intro t' ht'
      dsimp only at ht'
      rw [hT, List.length_set] at ht'
      exact h.new t' ht'
    · intro t' b hb
      obtain ⟨j, hj, hf⟩ := h.fits t' b hb
      dsimp only
      rw [hT, List.getElem?_set]
      by_cases e : t = t'
      · subst e
        rw [if_pos rfl, if_pos hlt]
        rw [hk] at hj
        obtain rfl := Option.some.inj hj
        exact ⟨k', rfl, by rw [hkind]; exact hf⟩
      · rw [if_neg e]; exact ⟨j, hj, hf⟩
  | @fail k k' hk hp hkind hst hi ho =>
    simp only [World.book]
    have hlt : t < w.s.tasks.length := (List.getElem?_eq_some_iff.1 hk).1
    have h0 := (h.task t k hk).1 hp
    constructor
    · intro t' j hj
      dsimp only at hj
      rw [hT, List.getElem?_set] at hj
      simp only [World.calls]
      rw [calls_cons]
      by_cases e : t = t'
      · subst e
        rw [if_pos rfl, if_pos hlt] at hj
        obtain rfl := Option.some.inj hj
        rw [if_pos rfl]
        refine ⟨fun hpd => ?_, fun _ => ⟨?_, hi, ho⟩, fun p _ => by rw [hst]; simp⟩
        · rcases hpd with e | e <;> rw [hst] at e <;> cases e
        · rw [h0.1]; simp only [World.cancelled] at h0 ⊢; omega
      · rw [if_neg e] at hj ⊢
        exact h.task t' j hj
    · intro t' ht'
      dsimp only at ht'
      rw [hT, List.length_set] at ht'
      simp only [World.calls]
      rw [calls_cons, if_neg (by omega)]
      exact h.new t' ht'
    · intro t' b hb
      dsimp only at hb
      have hb : (t', some b) ∈ w.log := by simpa using hb
      obtain ⟨j, hj, hf⟩ := h.fits t' b hb
      dsimp only
      rw [hT, List.getElem?_set]
      by_cases e : t = t'
      · subst e
        rw [if_pos rfl, if_pos hlt]
        rw [hk] at hj
        obtain rfl := Option.some.inj hj
        exact ⟨k', rfl, by rw [hkind]; exact hf⟩
      · rw [if_neg e]; exact ⟨j, hj, hf⟩
  | @cand k k' b0 hk hp hkind hst hi ho hfit =>
    simp only [World.book]
    have hlt : t < w.s.tasks.length := (List.getElem?_eq_some_iff.1 hk).1
    have h0 := (h.task t k hk).1 hp
    constructor
    · intro t' j hj
      dsimp only at hj
      rw [hT, List.getElem?_set] at hj
      simp only [World.calls]
      rw [calls_cons]
      by_cases e : t = t'
      · subst e
        rw [if_pos rfl, if_pos hlt] at hj
        obtain rfl := Option.some.inj hj
        rw [if_pos rfl]
        refine ⟨fun hpd => ?_, fun _ => ⟨?_, hi, ho⟩, fun p _ => by rw [hst]; simp⟩
        · rcases hpd with e | e <;> rw [hst] at e <;> cases e
        · rw [h0.1]; simp only [World.cancelled] at h0 ⊢; omega
      · rw [if_neg e] at hj ⊢
        exact h.task t' j hj
    · intro t' ht'
      dsimp only at ht'
      rw [hT, List.length_set] at ht'
      simp only [World.calls]
      rw [calls_cons, if_neg (by omega)]
      exact h.new t' ht'
    · intro t' b hb
      dsimp only at hb ⊢
      rw [hT, List.getElem?_set]
      by_cases e : t = t'
      · subst e
        rw [if_pos rfl, if_pos hlt]
        refine ⟨k', rfl, ?_⟩
        rw [hkind]
        rcases List.mem_cons.1 hb with e | hb
        · cases e; exact hfit
        · obtain ⟨j, hj, hf⟩ := h.fits t b hb
          rw [hk] at hj
          obtain rfl := Option.some.inj hj
          exact hf
      · rw [if_neg e]
        refine h.fits t' b ?_
        rcases List.mem_cons.1 hb with e' | hb
        · cases e'; exact absurd rfl e
        · exact hb

/-! ## What the operations do to the tree and the tasks -/

/-- The state is the same but for tasks and the crash flag. -/
def Quiet (s s' : St) : Prop := s'.heap = s.heap ∧ s'.nmap = s.nmap ∧ s'.next = s.next ∧ s'.finalized = s.finalized ∧
  s'.running = s.running ∧ s'.stuck = s.stuck

theorem Quiet.refl (s : St) : Quiet s s := ⟨rfl, rfl, rfl, rfl, rfl, rfl⟩

/-- How the tree changes when a task gets a report. -/
inductive BStep (ch : Chain) (s s' : St) : Cb → Prop
  | quiet : Quiet s s' → BStep ch s s' .quiet
  | fail : Quiet s s' → BStep ch s s' .fail
  | cand {b : Id} : s'.running = s.running → s'.stuck = s.stuck →
      (∀ cands f, Tree ch s cands f → Stale ch s cands f → Tree ch s' (more cands b) f ∧
        Stale ch s' (more cands b) f ∧ (s'.heap f).block = (s.heap f).block) → BStep ch s s' (.cand b)

theorem ref_setTask (s : St) (t : Nat) (k : Task) (p : Nat) (n : Int) :
    (s.setTask t k).ref p n = (s.ref p n).setTask t k := rfl

theorem deliver_spec (s : St) (t : Nat) (k k0 : Task) (b : Id)
    (hk : s.tasks[t]? = some k0) (hp : k0.pend) (hkind : k.kind = k0.kind) (hfit : k0.kind.fits ch b) :
    ((deliver ch s t k b).1.crashed = s.crashed ∧ BStep ch s (deliver ch s t k b).1 (deliver ch s t k b).2 ∧
      TStep ch s t (deliver ch s t k b).1.tasks (deliver ch s t k b).2) ∨
    ((s.nmap b = none ∧ (ch.prev b).bind s.nmap = none) ∧ deliver ch s t k b = ({ s with crashed := true }, .quiet)) := by
  unfold deliver
  rcases hb : s.nmap b with _ | p
  · dsimp only
    rcases hq : (ch.prev b).bind s.nmap with _ | q
    · exact .inr ⟨⟨rfl, rfl⟩, rfl⟩
    · left
      obtain ⟨pb, hprev, hpb⟩ := Option.bind_eq_some_iff.1 hq
      have hadd : ∃ s', addNode s (some q) b = some (s', s.next) ∧
          (s'.stuck = s.stuck ∧ s'.running = s.running ∧ s'.tasks = s.tasks ∧ s'.crashed = s.crashed) := by
        simp only [addNode]
        exact ⟨_, rfl, rfl, rfl, rfl, rfl⟩
      obtain ⟨s', e, e1, e2, e3, e4⟩ := hadd
      rw [e]
      dsimp only
      refine ⟨e4, .cand e2 e1 ?_, ?_⟩
      · intro cands f h st
        obtain ⟨s'', g1, g2, g3, _, g4⟩ := add_tree h st hb hprev hpb
        rw [e] at g1
        obtain rfl : s' = s'' := by simpa using g1
        rw [ref_setTask]
        exact ⟨g2.other rfl rfl rfl rfl, g3, g4⟩
      · have : ((s'.setTask t { k.stop with state := .validatedOut }).ref s.next 1).tasks =
            s.tasks.set t { k.stop with state := .validatedOut } := by
          rw [← e3]; rfl
        rw [this]
        exact .cand hk hp hkind rfl rfl rfl hfit
  · dsimp only
    left
    refine ⟨rfl, .cand rfl rfl ?_, .cand hk hp hkind rfl rfl rfl hfit⟩
    intro cands f h st
    obtain ⟨g1, g2⟩ := ref_tree h st hb
    rw [ref_setTask]
    exact ⟨g1.other rfl rfl rfl rfl, g2, (ref_fields s p 1).2.2.1 f⟩

/-- A report that crashes the process. -/
def Crash (ch : Chain) (s : St) (t : Nat) (r : St × Cb) : Prop :=
  (∃ k, s.tasks[t]? = some k ∧ k.pend ∧ ((k.kind.parent ch).bind s.nmap) = none) ∧ r = ({ s with crashed := true }, .quiet)

theorem mute_kind (k : Task) (side : Side) : (k.mute side).kind = k.kind ∧ (k.mute side).state = k.state := by
  cases side <;> exact ⟨rfl, rfl⟩

theorem onValidate_spec {w : World} (h : TInv ch w) (t : Nat) (side : Side) (err : Bool) :
    ((onValidate ch w.s t side err).1.crashed = w.s.crashed ∧
      BStep ch w.s (onValidate ch w.s t side err).1 (onValidate ch w.s t side err).2 ∧
      TStep ch w.s t (onValidate ch w.s t side err).1.tasks (onValidate ch w.s t side err).2) ∨
    (w.s.running = true ∧ Crash ch w.s t (onValidate ch w.s t side err)) := by
  have quiet : (w.s.crashed = w.s.crashed ∧ BStep ch w.s w.s .quiet ∧ TStep ch w.s t w.s.tasks .quiet) :=
    ⟨rfl, .quiet (.refl _), .same⟩
  unfold onValidate
  rcases hk : w.s.tasks[t]? with _ | k
  · exact .inl quiet
  dsimp only
  by_cases hrun : w.s.running = true
  case neg =>
    rw [if_pos (by simpa using hrun)]
    exact .inl quiet
  rw [if_neg (by simpa using hrun)]
  by_cases hh : k.hd side ≠ some true
  · rw [if_pos hh]; exact .inl quiet
  rw [if_neg hh]
  push Not at hh
  have hp : k.pend := by
    by_contra hn
    have := (h.task t k hk).2.1 hn
    cases side <;> simp [Task.hd, this] at hh
  generalize hk' : (if err then k.mute side else k) = k'
  have hkind : k'.kind = k.kind ∧ k'.state = k.state := by
    rw [← hk']
    split_ifs
    · exact mute_kind k side
    · exact ⟨rfl, rfl⟩
  have hfail : (failTask w.s t k').1.crashed = w.s.crashed ∧
      BStep ch w.s (failTask w.s t k').1 (failTask w.s t k').2 ∧
      TStep ch w.s t (failTask w.s t k').1.tasks (failTask w.s t k').2 :=
    ⟨rfl, .fail ⟨rfl, rfl, rfl, rfl, rfl, rfl⟩, .fail hk hp hkind.1 rfl rfl rfl⟩
  rcases hkk : k'.kind with ⟨b, fo⟩ | p
  · dsimp only
    have hkk0 : k.kind = .imp b fo := by rw [← hkind.1]; exact hkk
    by_cases h1 : k'.state = .executingIn
    · rw [if_pos h1]
      by_cases he : err = true
      · rw [if_pos he]; exact .inl hfail
      · rw [if_neg he]; exact .inl quiet
    · rw [if_neg h1]
      by_cases h2 : k'.state = .validatingOut
      · rw [if_pos h2]
        by_cases he : err = true
        · rw [if_pos he]; exact .inl hfail
        · rw [if_neg he]
          rcases deliver_spec w.s t k' k b hk hp hkind.1 (by rw [hkk0]; exact rfl) with g | ⟨g1, g2⟩
          · exact .inl g
          · exact .inr ⟨hrun, ⟨k, hk, hp, by rw [hkk0]; exact g1.2⟩, g2⟩
      · rw [if_neg h2]
        exfalso
        rw [hkind.2] at h1 h2
        exact hp.elim h1 h2
  · dsimp only
    by_cases he : err = true
    · rw [if_pos he]; exact .inl hfail
    · rw [if_neg he]; exact .inl quiet

theorem onExecute_spec {w : World} (h : TInv ch w) (t : Nat) (side : Side) (err : Bool) (a : Answers) :
    ((onExecute ch w.s t side err a).1.crashed = w.s.crashed ∧
      BStep ch w.s (onExecute ch w.s t side err a).1 (onExecute ch w.s t side err a).2 ∧
      TStep ch w.s t (onExecute ch w.s t side err a).1.tasks (onExecute ch w.s t side err a).2) ∨
    (w.s.running = true ∧ Crash ch w.s t (onExecute ch w.s t side err a)) := by
  have quiet : (w.s.crashed = w.s.crashed ∧ BStep ch w.s w.s .quiet ∧ TStep ch w.s t w.s.tasks .quiet) :=
    ⟨rfl, .quiet (.refl _), .same⟩
  unfold onExecute
  rcases hk : w.s.tasks[t]? with _ | k
  · exact .inl quiet
  dsimp only
  by_cases hrun : w.s.running = true
  case neg =>
    rw [if_pos (by simpa using hrun)]
    exact .inl quiet
  rw [if_neg (by simpa using hrun)]
  by_cases hh : k.hd side ≠ some true
  · rw [if_pos hh]; exact .inl quiet
  rw [if_neg hh]
  push Not at hh
  have hp : k.pend := by
    by_contra hn
    have := (h.task t k hk).2.1 hn
    cases side <;> simp [Task.hd, this] at hh
  have hkind := mute_kind k side
  generalize k.mute side = k' at hkind
  have hfail : (failTask w.s t k').1.crashed = w.s.crashed ∧
      BStep ch w.s (failTask w.s t k').1 (failTask w.s t k').2 ∧
      TStep ch w.s t (failTask w.s t k').1.tasks (failTask w.s t k').2 :=
    ⟨rfl, .fail ⟨rfl, rfl, rfl, rfl, rfl, rfl⟩, .fail hk hp hkind.1 rfl rfl rfl⟩
  have hwait : ∀ k'' : Task, k''.kind = k.kind → k''.pend → (∀ p, k.kind = .prop p → k''.state ≠ .validatingOut) →
      ((w.s.setTask t k'').crashed = w.s.crashed ∧ BStep ch w.s (w.s.setTask t k'') .quiet ∧
      TStep ch w.s t (w.s.setTask t k'').tasks .quiet) := fun k'' e1 e2 e3 =>
    ⟨rfl, .quiet ⟨rfl, rfl, rfl, rfl, rfl, rfl⟩, .wait hk hp e2 e1 e3⟩
  rcases hkk : k'.kind with ⟨b, fo⟩ | p
  · dsimp only
    have hkk0 : k.kind = .imp b fo := by rw [← hkind.1]; exact hkk
    have hnp : ∀ (x : TState) p, k.kind = .prop p → x ≠ .validatingOut := fun x p e => by
      rw [hkk0] at e; cases e
    by_cases h1 : k'.state = .executingIn
    · rw [if_pos h1]
      by_cases he : (err || !a.verify) = true
      · rw [if_pos he]
        unfold handleExecutionError
        by_cases hfo : fo = true
        · rw [if_pos hfo]
          by_cases hpn : ((ch.prev b).bind w.s.nmap).isNone = true
          · rw [if_pos hpn]
            exact .inr ⟨hrun, ⟨k, hk, hp, by rw [hkk0]; simpa [Kind.parent] using hpn⟩, rfl⟩
          · rw [if_neg hpn]
            by_cases hs : a.sync = true
            · rw [if_pos hs]
              exact .inl (hwait { k' with inH := some true } hkind.1 (.inl h1) (hnp _))
            · rw [if_neg hs]; exact .inl hfail
        · rw [if_neg hfo]; exact .inl hfail
      · rw [if_neg he]
        by_cases hg : a.goOn = true
        · rw [if_pos hg]
          exact .inl (hwait ⟨.imp b fo, .validatingOut, k'.inH, some true⟩ hkk0.symm (.inr rfl) (hnp _))
        · rw [if_neg hg]; exact .inl hfail
    · rw [if_neg h1]
      exact .inl (hwait k' hkind.1 (by unfold Task.pend at hp ⊢; rw [hkind.2]; exact hp) (hnp _))
  · dsimp only
    have hkk0 : k.kind = .prop p := by rw [← hkind.1]; exact hkk
    by_cases he : err = true
    · rw [if_pos he]; exact .inl hfail
    · rw [if_neg he]
      by_cases hg : (!a.goOn) = true
      · rw [if_pos hg]; exact .inl hfail
      · rw [if_neg hg]
        by_cases hm : ch.prev a.made ≠ some p
        · rw [if_pos hm]; exact .inl quiet
        · rw [if_neg hm]
          push Not at hm
          rcases deliver_spec w.s t k' k a.made hk hp hkind.1 (by rw [hkk0]; exact hm) with g | ⟨g1, g2⟩
          · exact .inl g
          · exact .inr ⟨hrun, ⟨k, hk, hp, by rw [hkk0]; rw [hm] at g1; exact g1.2⟩, g2⟩

theorem BInv.quiet {w : World} {s' : St} {log : List (Nat × Option Id)} {c : List Nat} (h : BInv ch w)
    (q : Quiet w.s s') : BInv ch ⟨s', w.cands, log, c, w.fins⟩ := by
  obtain ⟨q1, q2, q3, q4, q5, q6⟩ := q
  refine ⟨q6.trans h.stuck, ?_, ?_, h.fins⟩
  · intro hr
    dsimp only at hr ⊢
    rw [q5] at hr
    obtain ⟨f, g1, g2, g3⟩ := h.run hr
    refine ⟨f, g1.other q1 q2 q3 q4, ?_, ?_⟩
    · unfold Stale; rw [q1, q2]; exact g2
    · rw [q1]; exact g3
  · intro hr
    dsimp only at hr ⊢
    rw [q5] at hr
    rw [q1, q2]
    exact h.off hr

theorem BInv.book {w : World} (h : BInv ch w) {t : Nat} {r : St × Cb} (hb : BStep ch w.s r.1 r.2)
    (hrun : r.2 ≠ .quiet → w.s.running = true) : BInv ch (w.book t r) := by
  obtain ⟨s', cb⟩ := r
  cases hb with
  | quiet q => exact h.quiet q
  | fail q => exact h.quiet q
  | @cand b e1 e2 e3 =>
    have hr : w.s.running = true := hrun (by simp)
    simp only [World.book]
    refine ⟨e2.trans h.stuck, ?_, ?_, h.fins⟩
    · intro _
      obtain ⟨f, g1, g2, g3⟩ := h.run hr
      obtain ⟨k1, k2, k3⟩ := e3 w.cands f g1 g2
      exact ⟨f, k1, k2, by dsimp only; rw [k3]; exact g3⟩
    · intro hn
      dsimp only at hn
      rw [e1, hr] at hn; cases hn

theorem TInv.other {w : World} (h : TInv ch w) {s' : St} {c : Id → Nat} {fi : List Id} (e : s'.tasks = w.s.tasks) :
    TInv ch ⟨s', c, w.log, w.cancels, fi⟩ :=
  ⟨by dsimp only; rw [e]; exact h.task, by dsimp only; rw [e]; exact h.new, by dsimp only; rw [e]; exact h.fits⟩

theorem TInv.push {w : World} (h : TInv ch w) {s' : St} {k : Task} (e : s'.tasks = w.s.tasks ++ [k])
    (hk : k.state = .executingIn) : TInv ch { w with s := s' } := by
  have hlen : s'.tasks.length = w.s.tasks.length + 1 := by rw [e]; simp
  constructor
  · intro t j hj
    dsimp only at hj
    rw [e] at hj
    by_cases hlt : t < w.s.tasks.length
    · rw [List.getElem?_append_left hlt] at hj
      exact h.task t j hj
    · have hn := h.new t (by omega)
      have : t = w.s.tasks.length := by
        have := (List.getElem?_eq_some_iff.1 hj).1
        simp at this; omega
      subst this
      simp at hj
      subst hj
      exact ⟨fun _ => hn, fun hp => absurd (.inl hk) hp, fun p _ => by rw [hk]; simp⟩
  · intro t ht
    dsimp only at ht
    exact h.new t (by omega)
  · intro t b hb
    obtain ⟨j, hj, hf⟩ := h.fits t b hb
    refine ⟨j, ?_, hf⟩
    dsimp only
    rw [e, List.getElem?_append_left (List.getElem?_eq_some_iff.1 hj).1]
    exact hj

/-- What a successful `Cancel` is. -/
theorem doCancel_spec (s : St) (t : Nat) (h : ∀ k, s.tasks[t]? = some k → ∀ p, k.kind = .prop p → k.state ≠ .validatingOut) :
    (∃ k, s.tasks[t]? = some k ∧ k.pend ∧ doCancel s t = (s.setTask t k.stop, .canceled)) ∨
    ((∀ k, s.tasks[t]? = some k → ¬ k.pend) ∧ doCancel s t = (s, .ignored)) := by
  unfold doCancel
  rcases hk : s.tasks[t]? with _ | k
  · exact .inr ⟨by simp, rfl⟩
  · dsimp only
    rcases hst : k.state
    · left; exact ⟨k, rfl, .inl hst, by rcases k.kind <;> rfl⟩
    · rcases hkk : k.kind with ⟨b, fo⟩ | p
      · left; exact ⟨k, rfl, .inr hst, rfl⟩
      · exact absurd hst (h k hk p hkk)
    · right
      refine ⟨?_, by rcases k.kind <;> rfl⟩
      rintro k' e hp
      obtain rfl := Option.some.inj e
      rcases hp with e | e <;> rw [hst] at e <;> cases e
    · right
      refine ⟨?_, by rcases k.kind <;> rfl⟩
      rintro k' e hp
      obtain rfl := Option.some.inj e
      rcases hp with e | e <;> rw [hst] at e <;> cases e

theorem TInv.cancel {w : World} (h : TInv ch w) (t : Nat) : TInv ch (step ch w (.cancel t)) := by
  simp only [step]
  rcases doCancel_spec w.s t (fun k hk => (h.task t k hk).2.2) with ⟨k, hk, hp, e⟩ | ⟨_, e⟩
  · rw [e]
    dsimp only
    rw [if_pos rfl]
    have hlt : t < w.s.tasks.length := (List.getElem?_eq_some_iff.1 hk).1
    have h0 := (h.task t k hk).1 hp
    have hcnt : ∀ t', ((t :: w.cancels).countP fun e => e = t') = w.cancelled t' + if t = t' then 1 else 0 := by
      intro t'; rw [List.countP_cons]; simp [World.cancelled]
    constructor
    · intro t' j hj
      dsimp only [St.setTask] at hj
      rw [List.getElem?_set] at hj
      simp only [World.cancelled]
      rw [hcnt]
      by_cases e : t = t'
      · subst e
        rw [if_pos rfl, if_pos hlt] at hj
        obtain rfl := Option.some.inj hj
        rw [if_pos rfl]
        refine ⟨fun hpd => ?_, fun _ => ⟨?_, rfl, rfl⟩, fun p _ => by simp [Task.stop]⟩
        · rcases hpd with e | e <;> cases e
        · simp only [World.calls] at h0 ⊢; omega
      · rw [if_neg e] at hj ⊢
        exact h.task t' j hj
    · intro t' ht'
      dsimp only [St.setTask] at ht'
      rw [List.length_set] at ht'
      simp only [World.cancelled]
      rw [hcnt, if_neg (by omega)]
      exact h.new t' ht'
    · intro t' b hb
      obtain ⟨j, hj, hf⟩ := h.fits t' b hb
      dsimp only [St.setTask]
      rw [List.getElem?_set]
      by_cases e : t = t'
      · subst e
        rw [if_pos rfl, if_pos hlt]
        rw [hk] at hj
        obtain rfl := Option.some.inj hj
        exact ⟨_, rfl, hf⟩
      · rw [if_neg e]; exact ⟨j, hj, hf⟩
  · rw [e]
    dsimp only
    rw [if_neg (by simp)]
    exact h

theorem BInv.cancel {w : World} (h : BInv ch w) (t : Nat) : BInv ch (step ch w (.cancel t)) := by
  simp only [step]
  refine h.quiet ?_
  unfold doCancel
  split
  · exact .refl _
  · split
    · exact ⟨rfl, rfl, rfl, rfl, rfl, rfl⟩
    · exact ⟨rfl, rfl, rfl, rfl, rfl, rfl⟩
    · exact .refl _

/-- A report is ignored when the manager does not run. -/
theorem reports_off (s : St) (hr : s.running = false) (t : Nat) (side : Side) (err : Bool) (a : Answers) :
    onValidate ch s t side err = (s, .quiet) ∧ onExecute ch s t side err a = (s, .quiet) := by
  constructor
  · unfold onValidate
    split
    · rfl
    · rw [if_pos (by simp [hr])]
  · unfold onExecute
    split
    · rfl
    · rw [if_pos (by simp [hr])]

/-! ## Every reachable world -/

theorem inv_start (g : Id) : BInv ch (start g) ∧ TInv ch (start g) := by
  constructor
  · refine ⟨rfl, ?_, ?_, trivial⟩
    · intro _
      refine ⟨0, ?_, ?_, ?_⟩
      · have h0 : (init g).heap 0 = ⟨none, [], g, true, 1⟩ := rfl
        have hx : ∀ x, x ≠ 0 → (init g).heap x = ⟨none, [], g, false, 0⟩ := by
          intro x e; simp [init, e]
        have hin : ∀ x, (init g).In x ↔ x = 0 := by
          intro x
          have hb : ((init g).heap x).block = g := by
            by_cases e : x = 0
            · rw [e, h0]
            · rw [hx x e]
          unfold St.In
          rw [hb]
          simp [init]
          exact ⟨fun h => h.symm, fun h => h.symm⟩
        simp only [start]
        constructor
        · rfl
        · exact (hin 0).2 rfl
        · simp
        · rw [h0]
        · intro i p hp
          simp only [init, mod_nmap] at hp
          split_ifs at hp with e
          obtain rfl := Option.some.inj hp
          rw [h0, e]
        · intro x hx' _ hf; exact absurd ((hin x).1 hx') hf
        · intro x hx' _ c hc
          rw [(hin x).1 hx', h0] at hc; simp at hc
        · intro x hx'
          rw [(hin x).1 (hx'.resolve_right (by simp)), h0]
          exact ⟨Nat.zero_lt_one, by simp⟩
        · intro x hx' _; rw [(hin x).1 hx', h0]; simp
        · intro x hx' _; rw [(hin x).1 hx', h0]; simp
        · intro x hx' _ hf; exact absurd ((hin x).1 hx') hf
        · intro x hx' _; rw [(hin x).1 hx', h0]
        · intro x hx'
          have : x ≠ 0 := fun e => (hx'.resolve_right (by simp)) ((hin x).2 e)
          rw [hx x this]
        · intro x hx'; simp at hx'
        · intro x hx'; simp at hx'
      · intro i hi; simp [start] at hi
      · rfl
    · intro hr; cases hr
  · exact ⟨by simp [start, init], by intro t _; exact ⟨rfl, rfl⟩, by simp [start]⟩

theorem doFinalize_spec {w : World} (h : BInv ch w) (b : Id) :
    (doFinalize w.s b = (w.s, .notRunning) ∧ w.s.running = false) ∨
    (doFinalize w.s b = (w.s, .invalid) ∧ w.s.running = true) ∨
    ∃ f p, w.s.running = true ∧ Tree ch w.s w.cands f ∧ Stale ch w.s w.cands f ∧ w.last = some (w.s.heap f).block ∧
      w.s.nmap b = some p ∧ (w.s.heap p).parent = some f ∧
      doFinalize w.s b = (({ removeNodeExcept w.s f p with finalized := some p } : St).ref p 1, .done) := by
  unfold doFinalize
  by_cases hr : w.s.running = true
  case neg => rw [if_pos (by simpa using hr)]; exact .inl ⟨rfl, by simpa using hr⟩
  rw [if_neg (by simpa using hr)]
  right
  obtain ⟨f, g1, g2, g3⟩ := h.run hr
  rcases hb : w.s.nmap b with _ | p
  · exact .inl ⟨rfl, hr⟩
  · dsimp only
    by_cases hp : (w.s.heap p).parent ≠ w.s.finalized
    · rw [if_pos hp]; exact .inl ⟨rfl, hr⟩
    · rw [if_neg hp]
      push Not at hp
      right
      rw [g1.fin] at hp ⊢
      exact ⟨f, p, hr, g1, g2, g3, rfl, hp, rfl⟩

theorem inv_step (hl : NoLoop ch) {w : World} (hB : BInv ch w) (hT : TInv ch w) (e : Ev) (ha : Allowed w e) :
    BInv ch (step ch w e) ∧ TInv ch (step ch w e) := by
  cases e with
  | importBlock b force ok =>
    simp only [step, doImport]
    split
    · exact ⟨hB, hT⟩
    · split
      · exact ⟨hB, hT⟩
      · split
        · exact ⟨hB, hT⟩
        · exact ⟨hB.quiet ⟨rfl, rfl, rfl, rfl, rfl, rfl⟩, hT.push rfl rfl⟩
  | propose p ok =>
    simp only [step, doPropose]
    split
    · exact ⟨hB, hT⟩
    · split
      · exact ⟨hB, hT⟩
      · split
        · exact ⟨hB, hT⟩
        · exact ⟨hB.quiet ⟨rfl, rfl, rfl, rfl, rfl, rfl⟩, hT.push rfl rfl⟩
  | cancel t => exact ⟨hB.cancel t, hT.cancel t⟩
  | validated t side err =>
    simp only [step]
    rcases onValidate_spec hT t side err with ⟨_, g2, g3⟩ | ⟨_, _, e⟩
    · refine ⟨hB.book g2 fun hq => ?_, hT.book g3⟩
      by_contra hr
      exact hq (by rw [(reports_off w.s (by simpa using hr) t side err ⟨true, true, true, 0⟩).1])
    · rw [e]
      exact ⟨hB.quiet ⟨rfl, rfl, rfl, rfl, rfl, rfl⟩, hT.other rfl⟩
  | executed t side err a =>
    simp only [step]
    rcases onExecute_spec hT t side err a with ⟨_, g2, g3⟩ | ⟨_, _, e⟩
    · refine ⟨hB.book g2 fun hq => ?_, hT.book g3⟩
      by_contra hr
      exact hq (by rw [(reports_off w.s (by simpa using hr) t side err a).2])
    · rw [e]
      exact ⟨hB.quiet ⟨rfl, rfl, rfl, rfl, rfl, rfl⟩, hT.other rfl⟩
  | dup b =>
    have ha : 0 < w.cands b := ha
    simp only [step, doDup]
    rcases hb : w.s.nmap b with _ | p
    · refine ⟨⟨hB.stuck, ?_, hB.off, hB.fins⟩, hT.other rfl⟩
      intro hr
      obtain ⟨f, g1, g2, g3⟩ := hB.run hr
      refine ⟨f, ?_, ?_, g3⟩
      · refine g1.reref (.refl _) rfl (fun _ => rfl) (fun _ => rfl) (fun _ => rfl) (fun _ => rfl) ?_ (fun x => g1.pos x)
        intro x hx hxD
        rw [g1.nRef x hx hxD]
        have : (w.s.heap x).block ≠ b := by
          intro e
          unfold St.In at hx
          rw [e, hb] at hx; cases hx
        simp [this]
      · intro i hi hni
        refine g2 i ?_ hni
        dsimp only at hi
        split_ifs at hi with e
        · rw [e]; exact ha
        · exact hi
    · refine ⟨⟨hB.stuck, ?_, ?_, hB.fins⟩, hT.other rfl⟩
      · intro hr
        obtain ⟨f, g1, g2, g3⟩ := hB.run hr
        obtain ⟨k1, k2⟩ := ref_tree g1 g2 hb
        exact ⟨f, k1, k2, by dsimp only; rw [(ref_fields w.s p 1).2.2.1 f]; exact g3⟩
      · intro hr
        have := (hB.off hr).1 b
        rw [hb] at this; cases this
  | dispose b =>
    have ha : 0 < w.cands b := ha
    simp only [step]
    by_cases hr : w.s.running = true
    · obtain ⟨f, g1, g2, g3⟩ := hB.run hr
      obtain ⟨k1, k2, k3, k4⟩ := dispose_tree g1 g2 ha
      refine ⟨⟨k3.stuck.trans hB.stuck, fun _ => ⟨f, k1, k2, by dsimp only; rw [k4]; exact g3⟩, ?_, hB.fins⟩,
        hT.other k3.tasks⟩
      intro hn
      dsimp only at hn
      rw [k3.running, hr] at hn; cases hn
    · have hr' : w.s.running = false := by simpa using hr
      have : doDispose w.s b = w.s := by
        unfold doDispose
        rw [(hB.off hr').1 b]
      rw [this]
      exact ⟨⟨hB.stuck, fun h => absurd h hr, hB.off, hB.fins⟩, hT.other rfl⟩
  | finalize b =>
    simp only [step]
    rcases doFinalize_spec hB b with ⟨e, _⟩ | ⟨e, _⟩ | ⟨f, p, hr, g1, g2, g3, hb, hp, e⟩
    · rw [e]; dsimp only; rw [if_neg (by simp)]; exact ⟨hB, hT⟩
    · rw [e]; dsimp only; rw [if_neg (by simp)]; exact ⟨hB, hT⟩
    · rw [e]
      dsimp only
      rw [if_pos rfl]
      obtain ⟨hpin, hpb⟩ := g1.in_of hb
      obtain ⟨k1, k2, k3, k4, k5, k6, k7, k8⟩ := finalize_tree hl g1 g2 hpin hp
      refine ⟨⟨k4.trans hB.stuck, fun _ => ⟨p, k1, k2, ?_⟩, ?_, ?_⟩, hT.other k6⟩
      · dsimp only
        rw [k8, hpb]; rfl
      · intro hn
        dsimp only at hn
        rw [k5, hr] at hn; cases hn
      · have hlast := g3
        unfold World.last at hlast
        dsimp only
        rcases hf : w.fins with _ | ⟨x, l⟩
        · rw [hf] at hlast; simp at hlast
        · rw [hf] at hlast
          simp at hlast
          refine ⟨?_, hf ▸ hB.fins⟩
          rw [hlast, ← hpb]; exact k3
  | term =>
    simp only [step, doTerm]
    by_cases hr : w.s.running = true
    · rw [if_neg (by simpa using hr)]
      obtain ⟨f, g1, g2, g3⟩ := hB.run hr
      rw [g1.fin]
      obtain ⟨k1, k2, k3⟩ := term_tree g1
      exact ⟨⟨k1.stuck.trans hB.stuck, fun hn => (by cases hn), fun _ => ⟨k2, k3⟩, hB.fins⟩, hT.other k1.tasks⟩
    · rw [if_pos (by simpa using hr)]
      exact ⟨hB, hT⟩

theorem inv_reach (hl : NoLoop ch) {g : Id} {w : World} (h : Reach ch g w) : BInv ch w ∧ TInv ch w := by
  induction h with
  | start => exact inv_start g
  | step e _ _ ha ih => exact inv_step hl ih.1 ih.2 e ha

end Verif.BTree
