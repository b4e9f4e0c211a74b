import Verif.Deploy.Proof

/-!
# Deployment of contracts (C71)
-/

namespace Verif.Deploy

open Verif Verif.WorldState

/-! ## Histories -/

theorem shows_of {s : Slot} {a : Acct Unit} (r : RelA s a) (hb : ¬ ∃ n, a.next = some n ∧ n.status = .active) : s.Shows a := by
  refine ⟨r.ex, r.owner, r.active, fun c hc => ?_, ?_, fun p n hp hn => ?_⟩
  · by_contra hs
    exact hb (r.status c hc hs)
  · have := r.pending
    cases hp : s.pending <;> cases hn : a.next <;> rw [hp, hn] at this
    · rfl
    · exact this.elim
    · exact this.elim
    · rw [Option.map_some, Option.map_some, this.1]
  · have := r.pending
    rw [hp, hn] at this
    obtain ⟨_, h1, h2⟩ := this
    cases hr : p.rejected with
    | true => rw [if_pos rfl]; exact h1.mp hr
    | false =>
      rw [if_neg (by simp)]
      cases hs : n.status with
      | pending => rfl
      | inactive => exact absurd hs h2
      | active => exact absurd ⟨n, hn, hs⟩ hb
      | rejected => rw [hr] at h1; exact absurd (h1.mpr hs) (by simp)

theorem idle_start (a : Bytes) : ¬ Busy start a := by
  rintro ⟨n, hn, _⟩; cases hn

/-- **C71.** Whatever is deployed, accepted, rejected, given away and called, nested in any way and with any failures: nothing panics, and what is found in the accounts afterwards is what the
events led to, each of which was legal (`Legal`, `Slot.Step`): only the owner deploys or gives a contract away, what is accepted is what was deployed last and was not rejected, without audit only
if that is allowed, an engine is replaced only as allowed.  What is active runs; nothing is left half installed. -/
theorem C71_history (cs : List Call) :
    (execs none start cs).2 ≠ .panic ∧ ∃ f, Legal (execs none start cs).1.log f ∧ ∀ a, (f a).Shows ((execs none start cs).1.acct a) := by
  obtain ⟨h1, h2, h3⟩ := execs_spec none start cs start_inv (fun a ha => by cases ha)
  obtain ⟨⟨f, hl, hr⟩, _, _⟩ := h2
  exact ⟨h1, f, hl, fun a => shows_of (hr a) (fun hb => idle_start a (h3.new a hb))⟩

/-! ## During an installation -/

/-- The states that calls see, and the contract that is being installed by the caller. -/
inductive Inside : Option Bytes → World → Prop
  | start : Inside none start
  | call (i : Option Bytes) (w : World) (c : Call) (h : Inside i w) : Inside i (exec i w c).1
  | frame (i : Option Bytes) (w : World) (h : Inside i w) : Inside none w
  | accept (i : Option Bytes) (w : World) (id : Bytes) (ins : Install) (a : Bytes) (w' : World) (o : Out) (h : Inside i w) (h1 : prepare w id ins = (some (a, w'), o)) : Inside (some a) w'
  | deploy (i : Option Bytes) (w : World) (d : Deploy) (ins : Install) (w1 w2 : World) (a : Bytes) (w' : World) (o : Out) (h : Inside i w) (h0 : d.allowed = true) (h1 : d.init w = some w1)
      (h2 : d.register w1 = some w2) (h3 : prepare w2 d.id ins = (some (a, w'), o)) : Inside (some a) w'

theorem inside_inv {i : Option Bytes} {w : World} (h : Inside i w) : Inv w ∧ ∀ a, i = some a → Busy w a := by
  induction h with
  | start => exact ⟨start_inv, fun a ha => by cases ha⟩
  | call i w c _ ih =>
    have := exec_spec i w c ih.1 ih.2
    exact ⟨this.2.1, fun a ha => this.2.2.busy (ih.2 a ha)⟩
  | frame i w _ ih => exact ⟨ih.1, fun a ha => by cases ha⟩
  | accept i w id ins a w' o _ h1 ih =>
    have r := (prepare_spec ih.1 id ins).2 (a, w') (by rw [h1])
    exact ⟨ready_inv ih.1 r, fun b hb => by cases hb; exact ready_busy r⟩
  | deploy i w d ins w1 w2 a w' o _ h0 h1 h2 h3 ih =>
    obtain ⟨i1, i2, i3, i4, i5⟩ := init_spec ih.1 h1
    have hne : d.id ≠ [] := by
      apply id_ne
      simp only [Deploy.allowed, Bool.and_eq_true, decide_eq_true_eq] at h0
      exact h0.1.1.1.1.1.1
    obtain ⟨j1, _⟩ := register_spec i1 i3 i4 i5 hne h2
    have r := (prepare_spec j1 d.id ins).2 (a, w') (by rw [h3])
    exact ⟨ready_inv j1 r, fun b hb => by cases hb; exact ready_busy r⟩

/-- **C71.** While a contract is being installed, nothing that is called, by it or by others, replaces, accepts or rejects what is installed, or changes the contract it replaces; and only the
engine that installs it may set its code. -/
theorem C71_installing {i : Option Bytes} {w : World} (h : Inside i w) {a : Bytes} {n : Contract} (hn : (w.acct a).next = some n) (hs : n.status = .active) (c : Call) :
    (exec i w c).2 ≠ .panic ∧ ∃ code, (i ≠ some a → code = n.code) ∧ ((exec i w c).1.acct a).next = some { n with code := code } ∧ ((exec i w c).1.acct a).cur = (w.acct a).cur := by
  obtain ⟨h1, h2⟩ := inside_inv h
  obtain ⟨k1, k2, k3⟩ := exec_spec i w c h1 h2
  obtain ⟨code, q1, q2, q3, _⟩ := k3.old a n hn hs
  exact ⟨k1, code, q1, q2, q3⟩

/-- **C71.** While it is being installed, the contract it replaces is not active: it cannot be called. -/
theorem C71_not_callable {i : Option Bytes} {w : World} (h : Inside i w) {id : Bytes} {ins : Install} {a : Bytes} {w' : World} {o : Out} (h1 : prepare w id ins = (some (a, w'), o)) (c : Contract)
    (hc : (w'.acct a).cur = some c) : c.status = .inactive := by
  have r := (prepare_spec (inside_inv h).1 id ins).2 (a, w') (by rw [h1])
  have := r.cur
  dsimp only at this
  rw [this] at hc
  cases hw : (w.acct a).cur with
  | none => rw [hw] at hc; cases hc
  | some c0 => rw [hw] at hc; cases hc; rfl

/-! ## Who did it -/

/-- Who signed or called. -/
def Ev.sender : Ev → Option Bytes
  | .transfer _ s _ => some s
  | .deploy _ s _ _ _ _ _ _ => some s
  | _ => none

mutual

/-- Everybody who deploys or gives away contracts in these calls. -/
def senders : Call → List Bytes
  | .deploy d _ inner => d.sender :: sendersAll inner
  | .accept _ _ _ inner => sendersAll inner
  | .setOwner s _ _ => [s]
  | .frame _ inner => sendersAll inner
  | _ => []

/-- The same for many. -/
def sendersAll : List Call → List Bytes
  | [] => []
  | c :: cs => senders c ++ sendersAll cs

end

/-- New events are by these. -/
def Grows (S : List Bytes) (w w' : World) : Prop := ∃ ext, w'.log = w.log ++ ext ∧ ∀ e ∈ ext, ∀ s, e.sender = some s → s ∈ S

theorem Grows.refl (S : List Bytes) (w : World) : Grows S w w := ⟨[], by simp, by simp⟩

theorem Grows.of_eq {S : List Bytes} {w w' : World} (h : w'.log = w.log) : Grows S w w' := ⟨[], by simp [h], by simp⟩

theorem Grows.one {S : List Bytes} {w w' : World} (e : Ev) (h : w'.log = w.log ++ [e]) (hs : ∀ s, e.sender = some s → s ∈ S) : Grows S w w' :=
  ⟨[e], h, fun e' he s hs' => by rw [List.mem_singleton] at he; subst he; exact hs s hs'⟩

theorem Grows.trans {S : List Bytes} {w1 w2 w3 : World} (h : Grows S w1 w2) (h' : Grows S w2 w3) : Grows S w1 w3 := by
  obtain ⟨e1, l1, k1⟩ := h
  obtain ⟨e2, l2, k2⟩ := h'
  refine ⟨e1 ++ e2, by rw [l2, l1, List.append_assoc], fun e he s hs => ?_⟩
  rcases List.mem_append.mp he with he | he
  · exact k1 e he s hs
  · exact k2 e he s hs

theorem Grows.mono {S T : List Bytes} {w w' : World} (h : Grows S w w') (hst : ∀ x ∈ S, x ∈ T) : Grows T w w' := by
  obtain ⟨e, l, k⟩ := h
  exact ⟨e, l, fun x hx s hs => hst s (k x hx s hs)⟩

theorem prepare_log {w : World} {id : Bytes} {i : Install} {aw : Bytes × World} (h : (prepare w id i).1 = some aw) : aw.2.log = w.log := by
  unfold prepare at h
  split at h
  · cases h
  · next a ha =>
    split at h
    · cases h
    · next n _ =>
      by_cases c1 : n.status = .pending
      · rw [if_pos c1] at h
        by_cases c2 : hasMethod (w.acct a).cur n.eeType = true
        · rw [if_pos c2] at h
          split at h
          · cases h
          · dsimp only at h
            by_cases c3 : i.paramsOk = true
            · rw [if_pos c3] at h
              split at h
              · cases h; rfl
              · cases h
            · rw [if_neg c3] at h; cases h
        · rw [if_neg c2] at h; cases h
      · rw [if_neg c1] at h; cases h

theorem accept_grows {S : List Bytes} {inner : Bytes → World → World × Out} (hin : ∀ a w, Grows S w (inner a w).1) (w : World) (id audit : Bytes) (auto : Bool) (i : Install) :
    Grows S w (acceptWith inner w id audit auto i).1 := by
  have hlog := @prepare_log w id i
  unfold acceptWith
  revert hlog
  generalize prepare w id i = P
  obtain ⟨p, o⟩ := P
  intro hlog
  cases p with
  | none => exact Grows.refl S w
  | some aw =>
    have h1 : Grows S w aw.2 := Grows.of_eq (hlog rfl)
    have h2 := h1.trans (hin aw.1 aw.2)
    dsimp only
    revert h2
    generalize inner aw.1 aw.2 = Q
    obtain ⟨w2, o2⟩ := Q
    intro h2
    have h3 : Grows S w (finish aw.1 id audit auto i.ok w2).1 := by
      refine h2.trans ?_
      unfold finish
      split
      · split
        · exact Grows.one (.accept aw.1 id audit auto) rfl (fun s hs => by cases hs)
        · exact Grows.refl S w2
      · exact Grows.refl S w2
    cases o2 with
    | panic => exact h2
    | ok =>
      dsimp only
      revert h3
      generalize finish aw.1 id audit auto i.ok w2 = R
      obtain ⟨w3, o3⟩ := R
      intro h3
      cases o3 <;> first | exact h3 | exact Grows.refl S w
    | fail =>
      dsimp only
      revert h3
      generalize finish aw.1 id audit auto i.ok w2 = R
      obtain ⟨w3, o3⟩ := R
      intro h3
      cases o3 <;> first | exact h3 | exact Grows.refl S w

theorem deploy_grows {S : List Bytes} {inner : Bytes → World → World × Out} (hin : ∀ a w, Grows S w (inner a w).1) (w : World) (d : Deploy) (i : Install) (hd : d.sender ∈ S) :
    Grows S w (deployWith inner w d i).1 := by
  unfold deployWith
  split
  · cases hi : d.init w with
    | none => exact Grows.refl S w
    | some w1 =>
      have h1 : Grows S w w1 := by
        unfold Deploy.init at hi
        split at hi
        · split at hi
          · cases hi; exact Grows.one (.create d.addr (some d.sender)) rfl (fun s hs => by cases hs)
          · cases hi
        · split at hi
          · cases hi; exact Grows.refl S w
          · cases hi
      dsimp only
      cases hr : d.register w1 with
      | none => exact Grows.refl S w
      | some w2 =>
        have h2 : Grows S w1 w2 := by
          obtain ⟨_, old, _, he⟩ := register_eq hr
          exact Grows.one (.deploy d.addr d.sender d.id d.ee d.ct d.params d.code d.auto) (by rw [he]) (fun s hs => by cases hs; exact hd)
        dsimp only
        split
        · have h3 := accept_grows hin w2 d.id d.tx true i
          revert h3
          generalize acceptWith inner w2 d.id d.tx true i = P
          obtain ⟨w3, o⟩ := P
          intro h3
          cases o
          · exact (h1.trans h2).trans h3
          · exact Grows.refl S w
          · exact (h1.trans h2).trans h3
        · exact h1.trans h2
  · exact Grows.refl S w

mutual

theorem exec_grows (i : Option Bytes) (w : World) (c : Call) : Grows (senders c) w (exec i w c).1 := by
  cases c with
  | deploy d ins inner =>
    rw [exec, senders]
    exact deploy_grows (fun a w => (execs_grows (some a) w inner).mono (fun x hx => List.mem_cons_of_mem _ hx)) w d ins (by simp)
  | accept id audit ins inner =>
    rw [exec, senders]
    exact accept_grows (fun a w => execs_grows (some a) w inner) w id audit false ins
  | reject id audit =>
    rw [exec]
    unfold reject
    split
    · exact Grows.refl _ w
    · next a _ =>
      dsimp only
      split
      · exact Grows.one (.reject a id audit) rfl (fun s hs => by cases hs)
      · exact Grows.refl _ w
  | setOwner s a new =>
    rw [exec, senders]
    unfold setOwner
    split
    · exact Grows.one (.transfer a s new) rfl (fun s hs => by cases hs; simp)
    · exact Grows.refl _ w
  | native a owner code tid ok version api =>
    rw [exec]
    unfold native
    split
    · dsimp only
      split
      · split
        · exact Grows.one (.native a owner tid code) rfl (fun s hs => by cases hs)
        · exact Grows.refl _ w
      · exact Grows.refl _ w
    · exact Grows.refl _ w
  | touch a o =>
    rw [exec]
    split
    · exact Grows.of_eq rfl
    · exact Grows.refl _ w
  | setCode code =>
    cases i with
    | none => rw [exec]; exact Grows.refl _ w
    | some a =>
      rw [exec]
      unfold setCode
      split
      · exact Grows.one (.setCode a code) rfl (fun s hs => by cases hs)
      · exact Grows.refl _ w
  | frame ok inner =>
    rw [exec, senders]
    have := execs_grows none w inner
    revert this
    generalize execs none w inner = P
    obtain ⟨w1, o⟩ := P
    intro this
    cases o <;> cases ok <;> first | exact this | exact Grows.refl _ w

theorem execs_grows (i : Option Bytes) (w : World) (cs : List Call) : Grows (sendersAll cs) w (execs i w cs).1 := by
  cases cs with
  | nil => rw [execs]; exact Grows.refl _ w
  | cons c cs =>
    rw [execs, sendersAll]
    have h1 := (exec_grows i w c).mono (T := senders c ++ sendersAll cs) (fun x hx => List.mem_append_left _ hx)
    revert h1
    generalize exec i w c = P
    obtain ⟨w1, o⟩ := P
    intro h1
    have h2 := h1.trans ((execs_grows i w1 cs).mono (T := senders c ++ sendersAll cs) (fun x hx => List.mem_append_right _ hx))
    cases o with
    | ok => exact h2
    | fail => exact h2
    | panic => exact h1

end

/-- What others can do with a contract. -/
structure Left (s s' : Slot) : Prop where
  ex : s'.exists_ = true
  owner : s'.owner = s.owner
  active : (s'.active = s.active ∧ (s'.pending.map (fun p => (p.c.id, p.c.ee, p.c.params)) = s.pending.map (fun p => (p.c.id, p.c.ee, p.c.params)))) ∨
    (∃ p c, s.pending = some p ∧ p.rejected = false ∧ s'.active = some c ∧ c.id = p.c.id ∧ c.ee = p.c.ee ∧ c.params = p.c.params ∧ s'.pending = none)
  rej : ∀ p p', s.pending = some p → s'.pending = some p' → p.rejected = true → p'.rejected = true

theorem legal_others {l : List Ev} {a o : Bytes} : ∀ (ext : List Ev) (f' : Bytes → Slot), Legal (l ++ ext) f' → (∀ e ∈ ext, ∀ s, e.sender = some s → s ≠ o) →
    ∃ f, Legal l f ∧ ((f a).exists_ = true → (f a).owner = some o → Left (f a) (f' a)) := by
  intro ext
  induction ext using List.reverseRecOn with
  | nil =>
    intro f' h _
    rw [List.append_nil] at h
    exact ⟨f', h, fun h1 h2 => ⟨h1, rfl, .inl ⟨rfl, rfl⟩, fun p p' hp hp' hr => by rw [hp] at hp'; cases hp'; exact hr⟩⟩
  | append_singleton ext e ih =>
    intro f' h hsend
    rw [← List.append_assoc] at h
    generalize hL : l ++ ext ++ [e] = L at h
    cases h with
    | nil => simp at hL
    | snoc l' g e' s hl hs =>
      obtain ⟨h1, h2⟩ := List.append_inj' hL rfl
      cases h2
      rw [← h1] at hl
      obtain ⟨f, hf, hk⟩ := ih g hl (fun e' he' => hsend e' (List.mem_append_left _ he'))
      refine ⟨f, hf, fun hx ho => ?_⟩
      have L := hk hx ho
      have hse := hsend e (List.mem_append_right _ (List.mem_singleton.mpr rfl))
      by_cases hea : a = e.addr
      · subst hea
        rw [put_self]
        obtain ⟨L1, L2, L3, L4⟩ := L
        generalize g e.addr = ga at hs L1 L2 L3 L4
        generalize f e.addr = fa at ho hx L2 L3 L4
        cases hs with
        | create b ow hh => rw [L1] at hh; cases hh
        | transfer b sn nw hh hh1 => rw [L2, ho] at hh1; cases hh1; exact absurd rfl (hse _ rfl)
        | deploy b sn id ee ct params code auto hh hh1 hh2 => rw [L2, ho] at hh1; cases hh1; exact absurd rfl (hse _ rfl)
        | setCode b code p hp hr =>
          refine ⟨L1, L2, ?_, ?_⟩
          · rcases L3 with ⟨q1, q2⟩ | ⟨q, c, _, _, _, _, _, _, q7⟩
            · refine .inl ⟨q1, ?_⟩
              rw [← q2, hp]; rfl
            · rw [hp] at q7; cases q7
          · intro q q' hq hq' hqr
            cases hq'
            exact L4 q p hq hp hqr
        | accept b id audit auto p hp hr hid hau hty =>
          refine ⟨L1, L2, .inr ?_, fun q q' _ hq' => by cases hq'⟩
          rcases L3 with ⟨q1, q2⟩ | ⟨q, c, _, _, _, _, _, _, q7⟩
          · rw [hp] at q2
            cases hfp : fa.pending with
            | none => rw [hfp] at q2; cases q2
            | some q =>
              rw [hfp] at q2
              simp only [Option.map_some, Option.some.injEq, Prod.mk.injEq] at q2
              refine ⟨q, p.c, rfl, ?_, rfl, q2.1, q2.2.1, q2.2.2, rfl⟩
              cases hqr : q.rejected
              · rfl
              · exact absurd (L4 q p hfp hp hqr) (by rw [hr]; simp)
          · rw [hp] at q7; cases q7
        | reject b id audit p hp hr hid =>
          refine ⟨L1, L2, ?_, ?_⟩
          · rcases L3 with ⟨q1, q2⟩ | ⟨q, c, _, _, _, _, _, _, q7⟩
            · refine .inl ⟨q1, ?_⟩
              rw [← q2, hp]; rfl
            · rw [hp] at q7; cases q7
          · intro q q' hq hq' hqr
            cases hq'
            rfl
        | native b ow id code hh => rw [L1] at hh; cases hh
      · rw [put_other _ _ hea]; exact L

theorem step_unique {s s1 s2 : Slot} {e : Ev} (h1 : s.Step e s1) (h2 : s.Step e s2) : s1 = s2 := by
  cases h1 with
  | create _ _ _ => cases h2; rfl
  | transfer _ _ _ _ _ => cases h2; rfl
  | deploy _ _ _ _ _ _ _ _ _ _ _ => cases h2; rfl
  | setCode _ _ p hp _ => cases h2 with | setCode _ _ q hq _ => rw [hp] at hq; cases hq; rfl
  | accept _ _ _ _ p hp _ _ _ _ => cases h2 with | accept _ _ _ _ q hq _ _ _ _ => rw [hp] at hq; cases hq; rfl
  | reject _ _ _ p hp _ _ => cases h2 with | reject _ _ _ q hq _ _ => rw [hp] at hq; cases hq; rfl
  | native _ _ _ _ _ => cases h2; rfl

theorem legal_unique {l : List Ev} {f : Bytes → Slot} (h : Legal l f) : ∀ {g}, Legal l g → f = g := by
  induction h with
  | nil =>
    intro g hg
    generalize hL : ([] : List Ev) = L at hg
    cases hg with
    | nil => rfl
    | snoc => simp at hL
  | snoc l f e s _ h1 ih =>
    intro g hg
    generalize hL : l ++ [e] = L at hg
    cases hg with
    | nil => simp at hL
    | snoc l' g e' s' hl hs =>
      obtain ⟨q1, q2⟩ := List.append_inj' hL rfl
      cases q2
      rw [← q1] at hl
      have := ih hl
      subst this
      rw [step_unique h1 hs]

/-- The states between transactions. -/
def Reachable (w : World) : Prop := ∃ cs, w = (execs none start cs).1

theorem reach_spec {w : World} (h : Reachable w) : Inv w ∧ (∀ a, ¬ Busy w a) ∧ ∃ f, Legal w.log f ∧ ∀ a, (f a).Shows (w.acct a) := by
  obtain ⟨cs, rfl⟩ := h
  obtain ⟨_, h2, h3⟩ := execs_spec none start cs start_inv (fun a ha => by cases ha)
  exact ⟨h2, fun a hb => idle_start a (h3.new a hb), (C71_history cs).2⟩

theorem after_spec {w : World} (h : Reachable w) (cs : List Call) : ∃ f', Legal (execs none w cs).1.log f' ∧ ∀ a, (f' a).Shows ((execs none w cs).1.acct a) := by
  obtain ⟨hi, hb, _⟩ := reach_spec h
  obtain ⟨_, h2, h3⟩ := execs_spec none w cs hi (fun a ha => by cases ha)
  obtain ⟨⟨f, hl, hr⟩, _, _⟩ := h2
  exact ⟨f, hl, fun a => shows_of (hr a) (fun hbb => hb a (h3.new a hbb))⟩

/-- **C71.** Without its owner, a contract stays as it is, whatever others deploy, call or give away; except that what the owner deployed before, and nobody rejected, may be accepted. -/
theorem C71_owner {w : World} (h : Reachable w) {a o : Bytes} (hc : (w.acct a).isContract = true) (ho : (w.acct a).owner = some o) (cs : List Call) (hcs : o ∉ sendersAll cs) :
    let w' := (execs none w cs).1
    (w'.acct a).isContract = true ∧ (w'.acct a).owner = some o ∧
      ((w'.acct a).cur.map content = (w.acct a).cur.map content ∨
       ∃ n c, (w.acct a).next = some n ∧ n.status = .pending ∧ (w'.acct a).cur = some c ∧ c.deployTx = n.deployTx ∧ c.eeType = n.eeType ∧ c.params = n.params) := by
  intro w'
  obtain ⟨_, _, f0, hf0, hs0⟩ := reach_spec h
  obtain ⟨f', hf', hs'⟩ := after_spec h cs
  obtain ⟨ext, hx, hy⟩ := execs_grows none w cs
  rw [hx] at hf'
  obtain ⟨f, hf, hk⟩ := legal_others (a := a) (o := o) ext f' hf' (fun e he s hs hso => hcs (hso ▸ hy e he s hs))
  obtain rfl := legal_unique hf0 hf
  have L := hk ((hs0 a).ex.trans hc) ((hs0 a).owner.trans ho)
  refine ⟨(hs' a).ex.symm.trans L.ex, by rw [← (hs' a).owner, L.owner, (hs0 a).owner]; exact ho, ?_⟩
  rcases L.active with ⟨q, _⟩ | ⟨p, c, q1, q2, q3, q4, q5, q6, _⟩
  · left
    rw [← (hs' a).active, ← (hs0 a).active]; exact q
  · right
    have hw := (hs0 a).waiting
    rw [q1] at hw
    cases hn : (w.acct a).next with
    | none => rw [hn] at hw; cases hw
    | some n =>
      rw [hn] at hw
      simp only [Option.map_some, Option.some.injEq] at hw
      have hst := (hs0 a).status p n q1 hn
      rw [q2] at hst
      have hac := (hs' a).active
      rw [q3] at hac
      cases hcur : (w'.acct a).cur with
      | none => change (_ : Option Code) = Option.map content (w'.acct a).cur at hac; rw [hcur] at hac; cases hac
      | some c' =>
        change (_ : Option Code) = Option.map content (w'.acct a).cur at hac
        rw [hcur] at hac
        simp only [Option.map_some, Option.some.injEq] at hac
        subst hac
        rw [hw] at q4 q5 q6
        exact ⟨n, c', rfl, hst, rfl, q4, q5, q6⟩

theorem legal_types {l : List Ev} : ∀ (ext : List Ev) (f' : Bytes → Slot), Legal (l ++ ext) f' →
    ∃ f, Legal l f ∧ ∀ a, ((f a).exists_ = true → (f' a).exists_ = true) ∧
      ((f a).exists_ = true → ∀ c, (f a).active = some c → ∃ c', (f' a).active = some c' ∧ (c'.ee = c.ee ∨ (c.ee = python ∧ c'.ee = java))) := by
  intro ext
  induction ext using List.reverseRecOn with
  | nil => intro f' h; rw [List.append_nil] at h; exact ⟨f', h, fun a => ⟨fun h => h, fun _ c hc => ⟨c, hc, .inl rfl⟩⟩⟩
  | append_singleton ext e ih =>
    intro f' h
    rw [← List.append_assoc] at h
    generalize hL : l ++ ext ++ [e] = L at h
    cases h with
    | nil => simp at hL
    | snoc l' g e' s hl hs =>
      obtain ⟨h1, h2⟩ := List.append_inj' hL rfl
      cases h2
      rw [← h1] at hl
      obtain ⟨f, hf, hk⟩ := ih g hl
      refine ⟨f, hf, fun a => ?_⟩
      have L := hk a
      by_cases hea : a = e.addr
      · subst hea
        rw [put_self]
        generalize g e.addr = ga at hs L
        cases hs with
        | create _ _ hh => exact ⟨fun _ => rfl, L.2⟩
        | transfer _ _ _ _ _ => exact L
        | deploy _ _ _ _ _ _ _ _ _ _ _ => exact L
        | setCode _ _ p hp _ => exact L
        | accept _ _ _ _ p hp _ _ _ hty =>
          refine ⟨L.1, fun hx c hc => ⟨p.c, rfl, ?_⟩⟩
          obtain ⟨c', hc', hor⟩ := L.2 hx c hc
          rcases hty c' hc' with ⟨r1, r2 | r2⟩ | ⟨r1, r2⟩
          · rcases hor with hor | ⟨o1, o2⟩
            · exact .inl (by rw [r1, ← hor, r2])
            · exact .inr ⟨o1, r1⟩
          · rcases hor with hor | ⟨o1, o2⟩
            · exact .inr ⟨by rw [← hor, r2], r1⟩
            · exact absurd (o2.symm.trans r2) (by decide)
          · rcases hor with hor | ⟨o1, o2⟩
            · exact .inl (by rw [r1, ← hor, r2])
            · exact absurd (o2.symm.trans r2) (by decide)
        | reject _ _ _ p hp _ _ => exact L
        | native _ _ _ _ hh =>
          refine ⟨fun _ => rfl, fun hx => ?_⟩
          have := L.1 hx
          rw [hh] at this; cases this
      · rw [put_other _ _ hea]; exact L

/-- **C71.** A contract stays a contract, and once something is active, something is, of the same engine, or of Java after Python. -/
theorem C71_types {w : World} (h : Reachable w) {a : Bytes} (hc : (w.acct a).isContract = true) (cs : List Call) :
    let w' := (execs none w cs).1
    (w'.acct a).isContract = true ∧ ∀ c, (w.acct a).cur = some c → ∃ c', (w'.acct a).cur = some c' ∧ c'.status = .active ∧ (c'.eeType = c.eeType ∨ (c.eeType = python ∧ c'.eeType = java)) := by
  intro w'
  obtain ⟨_, _, f0, hf0, hs0⟩ := reach_spec h
  obtain ⟨f', hf', hs'⟩ := after_spec h cs
  obtain ⟨ext, hx, _⟩ := execs_grows none w cs
  rw [hx] at hf'
  obtain ⟨f, hf, hk⟩ := legal_types ext f' hf'
  obtain rfl := legal_unique hf0 hf
  have he := (hs0 a).ex.trans hc
  refine ⟨(hs' a).ex.symm.trans ((hk a).1 he), fun c hcc => ?_⟩
  obtain ⟨c', q1, q2⟩ := (hk a).2 he (content c) (by rw [(hs0 a).active, hcc]; rfl)
  have hac := (hs' a).active
  rw [q1] at hac
  change (_ : Option Code) = Option.map content (w'.acct a).cur at hac
  cases hcur : (w'.acct a).cur with
  | none => rw [hcur] at hac; cases hac
  | some c'' =>
    rw [hcur] at hac
    simp only [Option.map_some, Option.some.injEq] at hac
    subst hac
    exact ⟨c'', rfl, (hs' a).runs c'' hcur, q2⟩

end Verif.Deploy
