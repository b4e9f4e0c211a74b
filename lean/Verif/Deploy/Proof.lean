import Verif.Deploy.Model
import Mathlib.Data.List.Induction

/-!
# Deployment of contracts (C71): the invariant
-/

namespace Verif.Deploy

open Verif Verif.WorldState

theorem put_self {β : Type} (f : Bytes → β) (k : Bytes) (v : β) : put f k v k = v := if_pos rfl

theorem put_other {β : Type} (f : Bytes → β) {k x : Bytes} (v : β) (h : x ≠ k) : put f k v x = f x := if_neg h

/-- What waits, in both. -/
def PendRel : Option Pend → Option Contract → Prop
  | none, none => True
  | some p, some n => p.c = content n ∧
      (p.rejected = true ↔ n.status = .rejected) ∧ n.status ≠ .inactive
  | _, _ => False

/-- Slots and accounts. -/
structure RelA (s : Slot) (a : Acct Unit) : Prop where
  ex : s.exists_ = a.isContract
  owner : s.owner = a.owner
  active : s.active = a.cur.map content
  pending : PendRel s.pending a.next
  blank : a.isContract = false → a.cur = none ∧ a.next = none
  status : ∀ c, a.cur = some c → c.status ≠ .active → ∃ n, a.next = some n ∧ n.status = .active

/-- The invariant. -/
structure Inv (w : World) : Prop where
  rel : ∃ f, Legal w.log f ∧ ∀ a, RelA (f a) (w.acct a)
  index : ∀ id a, w.h2a id = some a → ∃ n, (w.acct a).next = some n ∧ n.deployTx = id ∧ n.status = .pending
  ids : ∀ id a, w.h2a id = some a → id ≠ []

/-- A contract that is being installed. -/
def Busy (w : World) (a : Bytes) : Prop := ∃ n, (w.acct a).next = some n ∧ n.status = .active

/-- Contracts that are being installed are kept, but for their code, and there are no others. -/
structure Keeps (i : Option Bytes) (w w' : World) : Prop where
  old : ∀ a n, (w.acct a).next = some n → n.status = .active → ∃ code, (i ≠ some a → code = n.code) ∧ (w'.acct a).next = some { n with code := code } ∧ (w'.acct a).cur = (w.acct a).cur ∧ (w'.acct a).isContract = (w.acct a).isContract
  new : ∀ a, Busy w' a → Busy w a
  log : ∃ ext, w'.log = w.log ++ ext ∧ ∀ a, Busy w a → ∀ e ∈ ext, e.addr = a → (∃ s n, e = .transfer a s n) ∨ (∃ c, e = .setCode a c)

theorem Keeps.refl (i : Option Bytes) (w : World) : Keeps i w w := ⟨fun _ n h _ => ⟨n.code, fun _ => rfl, h, rfl, rfl⟩, fun _ h => h, [], by simp, by simp⟩

theorem Keeps.weaken {w w' : World} (h : Keeps none w w') (i : Option Bytes) : Keeps i w w' := by
  refine ⟨fun a n h1 h2 => ?_, h.new, h.log⟩
  obtain ⟨c, q, r⟩ := h.old a n h1 h2
  exact ⟨c, fun _ => q (by simp), r⟩

theorem Keeps.busy {i : Option Bytes} {w w' : World} (h : Keeps i w w') {a : Bytes} (hb : Busy w a) : Busy w' a := by
  obtain ⟨n, h1, h2⟩ := hb
  obtain ⟨c, _, h3, _⟩ := h.old a n h1 h2
  exact ⟨_, h3, h2⟩

theorem Keeps.trans {i : Option Bytes} {w1 w2 w3 : World} (h : Keeps i w1 w2) (h' : Keeps i w2 w3) : Keeps i w1 w3 := by
  refine ⟨fun a n hn hs => ?_, fun a hb => h.new a (h'.new a hb), ?_⟩
  · obtain ⟨c, h0, h1, h2, h3⟩ := h.old a n hn hs
    obtain ⟨c', h0', h1', h2', h3'⟩ := h'.old a _ h1 hs
    exact ⟨c', fun hi => (h0' hi).trans (h0 hi), h1', h2'.trans h2, h3'.trans h3⟩
  · obtain ⟨e1, l1, k1⟩ := h.log
    obtain ⟨e2, l2, k2⟩ := h'.log
    refine ⟨e1 ++ e2, by rw [l2, l1, List.append_assoc], fun a hb e he ha => ?_⟩
    rcases List.mem_append.mp he with he | he
    · exact k1 a hb e he ha
    · exact k2 a (h.busy hb) e he ha

/-- Events of others, transfers and new code do not matter. -/
theorem legal_append {l : List Ev} : ∀ (ext : List Ev) (f' : Bytes → Slot), Legal (l ++ ext) f' →
    ∃ f, Legal l f ∧ ∀ a, (∀ e ∈ ext, e.addr = a → (∃ s n, e = .transfer a s n) ∨ (∃ c, e = .setCode a c)) → (f' a).pending.map Pend.auto = (f a).pending.map Pend.auto := by
  intro ext
  induction ext using List.reverseRecOn with
  | nil => intro f' h; rw [List.append_nil] at h; exact ⟨f', h, fun _ _ => rfl⟩
  | append_singleton ext e ih =>
    intro f' h
    rw [← List.append_assoc] at h
    generalize hL : l ++ ext ++ [e] = L at h
    cases h with
    | nil => simp at hL
    | snoc l' g e' s hl hs =>
      obtain ⟨h1, h2⟩ := List.append_inj' hL rfl
      cases h2
      rw [← h1] at hl
      obtain ⟨f, hf, hk⟩ := ih g hl
      refine ⟨f, hf, fun a ha => ?_⟩
      have := hk a (fun e' he' => ha e' (List.mem_append_left _ he'))
      by_cases hea : a = e.addr
      · have hxy := ha e (List.mem_append_right _ (List.mem_singleton.mpr rfl)) hea.symm
        subst hea
        rw [put_self]
        revert hs this
        generalize e.addr = b at hxy
        rcases hxy with ⟨x, y, hxy⟩ | ⟨c, hxy⟩
        · subst hxy
          intro hs this
          change (g b).Step _ s at hs
          cases hs with
          | transfer _ _ _ _ _ => exact this
        · subst hxy
          intro hs this
          change (g b).Step _ s at hs
          cases hs with
          | setCode _ _ p hp _ => rw [← this, hp]; rfl
      · rw [put_other _ _ hea]; exact this

/-- What the invariant is about. -/
structure Same (a b : Acct Unit) : Prop where
  c : b.isContract = a.isContract
  o : b.owner = a.owner
  cur : b.cur = a.cur
  next : b.next = a.next

theorem Same.rel {a b : Acct Unit} (h : Same a b) {s : Slot} (r : RelA s a) : RelA s b := by
  obtain ⟨h1, h2, h3, h4⟩ := h
  obtain ⟨r1, r2, r3, r4, r5, r6⟩ := r
  exact ⟨by rw [h1]; exact r1, by rw [h2]; exact r2, by rw [h3]; exact r3, by rw [h4]; exact r4, by rw [h1, h3, h4]; exact r5, by rw [h3, h4]; exact r6⟩

theorem plain_same (a : Acct Unit) (o : Op Unit) (h : plain o = true) : Same a (a.op o).1 := by
  cases o <;> simp only [plain, Bool.false_eq_true] at h
  case setValue k v =>
    simp only [Acct.op]; split <;> exact ⟨rfl, rfl, rfl, rfl⟩
  case setDisable b =>
    simp only [Acct.op]; split <;> exact ⟨rfl, rfl, rfl, rfl⟩
  case setUseSystemDeposit b =>
    simp only [Acct.op]; split <;> exact ⟨rfl, rfl, rfl, rfl⟩
  case deposits f =>
    simp only [Acct.op]; split <;> exact ⟨rfl, rfl, rfl, rfl⟩
  all_goals exact ⟨rfl, rfl, rfl, rfl⟩

theorem op_acct (w : World) (a : Bytes) (o : Op Unit) (b : Bytes) : (w.op a o).acct b = if b = a then ((w.acct a).op o).1 else w.acct b := rfl

theorem op_self (w : World) (a : Bytes) (o : Op Unit) : (w.op a o).acct a = ((w.acct a).op o).1 := by rw [op_acct, if_pos rfl]

theorem op_other (w : World) {a b : Bytes} (o : Op Unit) (h : b ≠ a) : (w.op a o).acct b = w.acct b := by rw [op_acct, if_neg h]

/-- An operation that changes nothing the invariant is about. -/
theorem same_inv {w : World} {a : Bytes} {o : Op Unit} (hs : Same (w.acct a) ((w.acct a).op o).1) (h : Inv w) : Inv (w.op a o) := by
  obtain ⟨⟨f, hl, hr⟩, hi, hj⟩ := h
  have hb : ∀ b, Same (w.acct b) ((w.op a o).acct b) := by
    intro b
    by_cases e : b = a
    · subst e; rw [op_self]; exact hs
    · rw [op_other w o e]; exact ⟨rfl, rfl, rfl, rfl⟩
  refine ⟨⟨f, hl, fun b => (hb b).rel (hr b)⟩, fun id b hb' => ?_, hj⟩
  rw [(hb b).next]
  exact hi id b hb'

theorem same_keeps {w : World} {a : Bytes} {o : Op Unit} (hs : Same (w.acct a) ((w.acct a).op o).1) : Keeps none w (w.op a o) := by
  have hb : ∀ b, Same (w.acct b) ((w.op a o).acct b) := by
    intro b
    by_cases e : b = a
    · subst e; rw [op_self]; exact hs
    · rw [op_other w o e]; exact ⟨rfl, rfl, rfl, rfl⟩
  refine ⟨fun b n hn _ => ⟨n.code, fun _ => rfl, ?_, (hb b).cur, (hb b).c⟩, fun b ⟨n, h1, h2⟩ => ⟨n, ?_, h2⟩, [], by simp [World.op], by simp⟩
  · rw [(hb b).next]; exact hn
  · rw [← (hb b).next]; exact h1

/-! ## Changes with an event -/

/-- One account changes with one event. -/
theorem event_inv {w w' : World} {ev : Ev} (h : Inv w) (hlog : w'.log = w.log ++ [ev]) (hoth : ∀ b, b ≠ ev.addr → w'.acct b = w.acct b)
    (hstep : ∀ f, Legal w.log f → RelA (f ev.addr) (w.acct ev.addr) → ∃ s', (f ev.addr).Step ev s' ∧ RelA s' (w'.acct ev.addr))
    (hidx : ∀ id a, w'.h2a id = some a → ∃ n, (w'.acct a).next = some n ∧ n.deployTx = id ∧ n.status = .pending) (hids : ∀ id a, w'.h2a id = some a → id ≠ []) : Inv w' := by
  obtain ⟨⟨f, hl, hr⟩, _⟩ := h
  obtain ⟨s', h1, h2⟩ := hstep f hl (hr ev.addr)
  refine ⟨⟨put f ev.addr s', by rw [hlog]; exact .snoc _ _ _ _ hl h1, fun b => ?_⟩, hidx, hids⟩
  by_cases e : b = ev.addr
  · subst e; rw [put_self]; exact h2
  · rw [put_other _ _ e, hoth b e]; exact hr b

theorem replaces_of {new old : Bytes} (h : ableToUpdate new old = true) : Replaces new old := by
  unfold ableToUpdate at h
  by_cases h1 : old = python
  · rw [if_pos h1] at h
    simp only [Bool.or_eq_true, decide_eq_true_eq] at h
    rcases h with h | h
    · exact .inr ⟨h, h1⟩
    · exact .inl ⟨h, .inr h1⟩
  · rw [if_neg h1] at h
    by_cases h2 : old = java
    · rw [if_pos h2] at h
      exact .inl ⟨of_decide_eq_true h, .inl h2⟩
    · rw [if_neg h2] at h; exact absurd h (by decide)

/-! ## Acceptance -/

/-- Between the activation and the end, at address `a`, from a state `w`: what is installed is what was waiting. -/
structure Ready (w : World) (id : Bytes) (a : Bytes) (w1 : World) : Prop where
  log : w1.log = w.log
  oth : ∀ b, b ≠ a → w1.acct b = w.acct b
  isC : (w.acct a).isContract = true
  isC1 : (w1.acct a).isContract = true
  own : (w1.acct a).owner = (w.acct a).owner
  next : ∃ n, (w.acct a).next = some n ∧ n.deployTx = id ∧ n.status = .pending ∧ hasMethod (w.acct a).cur n.eeType = true ∧ (w1.acct a).next = some { n with status := .active }
  cur : (w1.acct a).cur = (w.acct a).cur.map (fun c => { c with status := .inactive })
  h2a : w1.h2a = put w.h2a id none

theorem prepare_spec {w : World} (h : Inv w) (id : Bytes) (i : Install) :
    (prepare w id i).2 ≠ .panic ∧ ∀ aw, (prepare w id i).1 = some aw → Ready w id aw.1 aw.2 := by
  unfold prepare
  cases ha : w.h2a id with
  | none => exact ⟨by simp, by simp⟩
  | some a =>
    obtain ⟨n, hn, hid, hst⟩ := h.index id a ha
    simp only [hn]
    rw [if_pos hst]
    by_cases hm : hasMethod (w.acct a).cur n.eeType = true
    · rw [if_pos hm]
      cases i.api with
      | none => exact ⟨by simp, by simp⟩
      | some api =>
        simp only []
        by_cases hp : i.paramsOk = true
        · rw [if_pos hp]
          have hC : (w.acct a).isContract = true := by
            obtain ⟨⟨f, _, hr⟩, _⟩ := h
            by_contra hc
            have := ((hr a).blank (by simpa using hc)).2
            rw [hn] at this; cases this
          set w0 : World := { w with h2a := put w.h2a id none } with hw0
          have e1 : ((w0.op a (.migrate i.version)).op a (.setApi (some api))).acct a = { w.acct a with version := max (w.acct a).version i.version, api := some api } := by
            rw [op_self, op_self]; rfl
          have e2 : ((w.acct a).op .activate) = ({ w.acct a with cur := (w.acct a).cur.map (fun c => { c with status := .inactive }), next := some { n with status := .active } }, Res.ok) := by
            simp only [Acct.op, hn]; rw [if_pos hst]
          have e3 : (({ w.acct a with version := max (w.acct a).version i.version, api := some api } : Acct Unit).op .activate) =
              ({ w.acct a with version := max (w.acct a).version i.version, api := some api, cur := (w.acct a).cur.map (fun c => { c with status := .inactive }), next := some { n with status := .active } }, Res.ok) := by
            simp only [Acct.op, hn]; rw [if_pos hst]
          have e4 : ((w0.op a (.migrate i.version)).op a (.setApi (some api))).res a .activate = .ok := by
            unfold World.res; rw [e1, e3]
          rw [if_pos e4]
          refine ⟨by simp, fun aw haw => ?_⟩
          simp only [Option.some.injEq] at haw
          subst haw
          have e5 : (((w0.op a (.migrate i.version)).op a (.setApi (some api))).op a .activate).acct a =
              { w.acct a with version := max (w.acct a).version i.version, api := some api, cur := (w.acct a).cur.map (fun c => { c with status := .inactive }), next := some { n with status := .active } } := by
            rw [op_self, e1, e3]
          refine ⟨rfl, fun b hb => ?_, hC, ?_, ?_, ⟨n, hn, hid, hst, hm, ?_⟩, ?_, rfl⟩
          · dsimp only at hb ⊢
            rw [op_other _ _ hb, op_other _ _ hb, op_other _ _ hb]
          · dsimp only; rw [e5]; exact hC
          · dsimp only; rw [e5]
          · dsimp only; rw [e5]
          · dsimp only; rw [e5]
        · rw [if_neg hp]; exact ⟨by simp, by simp⟩
    · rw [if_neg hm]; exact ⟨by simp, by simp⟩

/-- While it is being installed, the invariant holds. -/
theorem ready_inv {w w1 : World} {id a : Bytes} (h : Inv w) (r : Ready w id a w1) : Inv w1 := by
  obtain ⟨⟨f, hl, hr⟩, hi, hj⟩ := h
  obtain ⟨r1, r2, r3, r4, r5, ⟨n, hn, hid, hst, hm, hn1⟩, r6, r7⟩ := r
  refine ⟨⟨f, by rw [r1]; exact hl, fun b => ?_⟩, fun id' b hb => ?_, fun id' b hb => ?_⟩
  · by_cases e : b = a
    · subst e
      have q := hr b
      refine ⟨by rw [r4, q.ex, r3], by rw [r5, q.owner], ?_, ?_, ?_, ?_⟩
      · rw [r6, q.active, Option.map_map]; rfl
      · have := q.pending
        rw [hn] at this
        rw [hn1]
        cases hp : (f b).pending with
        | none => rw [hp] at this; exact this
        | some p =>
          rw [hp] at this
          obtain ⟨t1, t6, t7⟩ := this
          refine ⟨t1, ?_, by simp⟩
          rw [t6, hst]; simp
      · rw [r4]; simp
      · intro c _ _; exact ⟨_, hn1, rfl⟩
    · rw [r2 b e]; exact hr b
  · rw [r7] at hb
    by_cases e : id' = id
    · subst e; rw [put_self] at hb; cases hb
    · rw [put_other _ _ e] at hb
      obtain ⟨m, k1, k2, k3⟩ := hi id' b hb
      by_cases e' : b = a
      · subst e'
        rw [hn] at k1
        cases k1
        exact absurd (k2.symm.trans hid) e
      · rw [r2 b e']; exact ⟨m, k1, k2, k3⟩
  · rw [r7] at hb
    by_cases e : id' = id
    · subst e; rw [put_self] at hb; cases hb
    · rw [put_other _ _ e] at hb
      exact hj id' b hb

/-- The end of an acceptance. -/
theorem finish_spec {w w1 w2 : World} {id a audit : Bytes} {auto ok : Bool} (r : Ready w id a w1) (hk : Keeps (some a) w1 w2) (h2 : Inv w2)
    (hauto : auto = true → ∀ f, Legal w.log f → ∀ p, (f a).pending = some p → p.auto = true) :
    (finish a id audit auto ok w2).2 ≠ .panic ∧ ((finish a id audit auto ok w2).2 = .ok → ok = true ∧ Inv (finish a id audit auto ok w2).1 ∧ Keeps none w (finish a id audit auto ok w2).1) := by
  obtain ⟨n, hn, hid, hst, hm, hn1⟩ := r.next
  obtain ⟨code, _, k1, k2, k3⟩ := hk.old a _ hn1 rfl
  have hC2 : (w2.acct a).isContract = true := k3.trans r.isC1
  have e1 : (w2.acct a).op (.accept id audit) =
      ({ w2.acct a with cur := some { n with status := .active, auditTx := audit, code := code }, next := none }, Res.ok) := by
    simp only [Acct.op, hC2, k1]
    rw [if_neg (by simp [hid]), if_neg (by simp)]
  unfold finish
  cases ok with
  | false => exact ⟨by simp, by simp⟩
  | true =>
    rw [if_pos rfl]
    have e2 : w2.res a (.accept id audit) = .ok := by unfold World.res; rw [e1]
    rw [if_pos e2]
    refine ⟨by simp, fun _ => ⟨rfl, ?_, ?_⟩⟩
    · refine event_inv (ev := .accept a id audit auto) h2 rfl (fun b hb => op_other w2 _ hb) ?_ ?_ h2.ids
      · intro f hf hs
        change RelA (f a) (w2.acct a) at hs
        change ∃ s', (f a).Step _ s' ∧ _
        generalize hfa : f a = s at hs
        have hp := hs.pending
        rw [k1] at hp
        cases hpd : s.pending with
        | none => rw [hpd] at hp; exact hp.elim
        | some p =>
          rw [hpd] at hp
          obtain ⟨t1, t6, t7⟩ := hp
          dsimp only at t1 t6 t7
          refine ⟨_, .accept a id audit auto p hpd (by cases hrj : p.rejected; rfl; exact absurd (t6.mp hrj) (by simp)) (by rw [t1]; exact hid) ?_ ?_, ?_⟩
          · intro ha
            obtain ⟨ext, hx, hy⟩ := hk.log
            rw [hx, r.log] at hf
            obtain ⟨g, hg, hk'⟩ := legal_append ext f hf
            have hq := hk' a (hy a ⟨_, hn1, rfl⟩)
            rw [hfa, hpd] at hq
            cases hgp : (g a).pending with
            | none => rw [hgp] at hq; cases hq
            | some p' =>
              rw [hgp] at hq
              have := hauto ha g hg p' hgp
              simp only [Option.map_some, Option.some.injEq] at hq
              rw [hq]; exact this
          · intro c hc
            rw [hs.active, k2, r.cur] at hc
            rw [t1]
            cases hcw : (w.acct a).cur with
            | none => rw [hcw] at hc; cases hc
            | some c0 =>
              rw [hcw] at hc hm
              cases hc
              exact replaces_of hm
          · change RelA _ ((w2.op a (.accept id audit)).acct a)
            rw [op_self, e1]
            refine ⟨hs.ex, hs.owner, ?_, trivial, ?_, ?_⟩
            · change some _ = some (content _)
              rw [t1]; rfl
            · intro hh; rw [hC2] at hh; cases hh
            · intro c hc hcs
              cases hc
              exact absurd rfl hcs
      · intro id' b hb
        change w2.h2a id' = some b at hb
        obtain ⟨m, q1, q2, q3⟩ := h2.index id' b hb
        by_cases e : b = a
        · subst e; rw [k1] at q1; cases q1; cases q3
        · exact ⟨m, by change ((w2.op a (.accept id audit)).acct b).next = _; rw [op_other w2 _ e]; exact q1, q2, q3⟩
    · have hnb : ∀ b, Busy w b → b ≠ a := by
        rintro b ⟨m, h1, h2⟩ rfl
        rw [hn] at h1; cases h1; rw [hst] at h2; cases h2
      refine ⟨fun b m hm' hms => ?_, fun b hb => ?_, ?_⟩
      · have hne : b ≠ a := by rintro rfl; rw [hn] at hm'; cases hm'; rw [hst] at hms; cases hms
        rw [← r.oth b hne] at hm' ⊢
        obtain ⟨c', q0, q1, q2, q3⟩ := hk.old b m hm' hms
        refine ⟨c', fun _ => q0 (by simpa using hne.symm), ?_⟩
        change ((w2.op a (.accept id audit)).acct b).next = _ ∧ ((w2.op a (.accept id audit)).acct b).cur = _ ∧ ((w2.op a (.accept id audit)).acct b).isContract = _
        rw [op_other w2 _ hne]
        exact ⟨q1, q2, q3⟩
      · obtain ⟨m, q1, q2⟩ := hb
        change ((w2.op a (.accept id audit)).acct b).next = _ at q1
        by_cases e : b = a
        · subst e; rw [op_self, e1] at q1; cases q1
        · rw [op_other w2 _ e] at q1
          obtain ⟨m', q1', q2'⟩ := hk.new b ⟨m, q1, q2⟩
          rw [r.oth b e] at q1'
          exact ⟨m', q1', q2'⟩
      · obtain ⟨ext, hx, hy⟩ := hk.log
        refine ⟨ext ++ [.accept a id audit auto], ?_, fun b hb e he hea => ?_⟩
        · change w2.log ++ [Ev.accept a id audit auto] = _
          rw [hx, r.log, List.append_assoc]
        · rcases List.mem_append.mp he with he | he
          · refine hy b ?_ e he hea
            obtain ⟨m, h1, h2⟩ := hb
            exact ⟨m, by rw [r.oth b (hnb b ⟨m, h1, h2⟩)]; exact h1, h2⟩
          · rw [List.mem_singleton] at he
            subst he
            exact absurd hea.symm (hnb b hb)

/-- What a list of calls may do, when the contract at `a` is being installed. -/
def Fine (inner : Bytes → World → World × Out) : Prop :=
  ∀ a w, Inv w → Busy w a → (inner a w).2 ≠ .panic ∧ Inv (inner a w).1 ∧ Keeps (some a) w (inner a w).1

theorem ready_busy {w w1 : World} {id a : Bytes} (r : Ready w id a w1) : Busy w1 a := by
  obtain ⟨n, _, _, _, _, hn1⟩ := r.next
  exact ⟨_, hn1, rfl⟩

theorem accept_spec {inner : Bytes → World → World × Out} (hin : Fine inner) {w : World} (h : Inv w) (id audit : Bytes) (auto : Bool) (i : Install)
    (hauto : auto = true → ∀ a f, w.h2a id = some a → Legal w.log f → ∀ p, (f a).pending = some p → p.auto = true) :
    (acceptWith inner w id audit auto i).2 ≠ .panic ∧ Inv (acceptWith inner w id audit auto i).1 ∧ Keeps none w (acceptWith inner w id audit auto i).1 := by
  obtain ⟨hp, hr⟩ := prepare_spec h id i
  have hh : ∀ aw, (prepare w id i).1 = some aw → w.h2a id = some aw.1 := by
    intro aw haw
    unfold prepare at haw
    split at haw
    · cases haw
    · next a ha =>
      split at haw
      · cases haw
      · next n _ =>
        by_cases c1 : n.status = .pending
        · rw [if_pos c1] at haw
          by_cases c2 : hasMethod (w.acct a).cur n.eeType = true
          · rw [if_pos c2] at haw
            split at haw
            · cases haw
            · dsimp only at haw
              by_cases c3 : i.paramsOk = true
              · rw [if_pos c3] at haw
                split at haw
                · cases haw; exact ha
                · cases haw
              · rw [if_neg c3] at haw; cases haw
          · rw [if_neg c2] at haw; cases haw
        · rw [if_neg c1] at haw; cases haw
  unfold acceptWith
  revert hp hr hh
  generalize prepare w id i = P
  obtain ⟨o, out⟩ := P
  intro hp hr hh
  cases o with
  | none => exact ⟨hp, h, Keeps.refl _ w⟩
  | some aw =>
    have r := hr aw rfl
    have h1 := ready_inv h r
    obtain ⟨i1, i2, i3⟩ := hin aw.1 aw.2 h1 (ready_busy r)
    have hf := finish_spec (ok := i.ok) (audit := audit) (auto := auto) r i3 i2 (fun ha f hl p hpp => hauto ha aw.1 f (hh aw rfl) hl p hpp)
    dsimp only
    revert i1 hf
    generalize inner aw.1 aw.2 = Q
    obtain ⟨w2, o2⟩ := Q
    intro i1 hf
    dsimp only at hf
    cases o2 with
    | panic => exact absurd rfl i1
    | ok =>
      dsimp only
      revert hf
      generalize finish aw.1 id audit auto i.ok w2 = R
      obtain ⟨w3, o3⟩ := R
      intro hf
      cases o3 with
      | ok => exact ⟨by simp, (hf.2 rfl).2⟩
      | fail => exact ⟨by simp, h, Keeps.refl _ w⟩
      | panic => exact absurd rfl hf.1
    | fail =>
      dsimp only
      revert hf
      generalize finish aw.1 id audit auto i.ok w2 = R
      obtain ⟨w3, o3⟩ := R
      intro hf
      cases o3 with
      | ok => exact ⟨by simp, (hf.2 rfl).2⟩
      | fail => exact ⟨by simp, h, Keeps.refl _ w⟩
      | panic => exact absurd rfl hf.1

/-! ## Deployment -/

theorem init_op {a : Acct Unit} {o : Option Bytes} (h : (a.op (.init o)).2 = .flag true) : a.isContract = false ∧ (a.op (.init o)).1 = { a with isContract := true, owner := o } := by
  simp only [Acct.op] at h ⊢
  by_cases hc : a.isContract = true
  · rw [if_pos hc] at h; cases h
  · rw [if_neg hc]; exact ⟨by simpa using hc, rfl⟩

/-- A new contract account. -/
theorem create_inv {w : World} {a : Bytes} {o : Option Bytes} (h : Inv w) (hr : w.res a (.init o) = .flag true) :
    Inv { w.op a (.init o) with log := w.log ++ [.create a o] } ∧ Keeps none w { w.op a (.init o) with log := w.log ++ [.create a o] } := by
  obtain ⟨hc, he⟩ := init_op (a := w.acct a) (o := o) hr
  have hb : (w.acct a).cur = none ∧ (w.acct a).next = none := by
    obtain ⟨⟨f, _, hr⟩, _⟩ := h
    exact (hr a).blank hc
  constructor
  · refine event_inv (ev := .create a o) h rfl (fun b hb => op_other w _ hb) ?_ ?_ h.ids
    · intro f _ hs
      change RelA (f a) (w.acct a) at hs
      refine ⟨_, .create a o (hs.ex.trans hc), ?_⟩
      change RelA _ ((w.op a (.init o)).acct a)
      rw [op_self, he]
      refine ⟨rfl, rfl, hs.active, hs.pending, by simp, hs.status⟩
    · intro id b hb'
      obtain ⟨n, h1, h2⟩ := h.index id b hb'
      refine ⟨n, ?_, h2⟩
      change ((w.op a (.init o)).acct b).next = _
      by_cases e : b = a
      · subst e; rw [op_self, he]; exact h1
      · rw [op_other w _ e]; exact h1
  · refine ⟨fun b n hn hs => ?_, fun b ⟨n, hn, hs⟩ => ?_, [.create a o], rfl, fun b ⟨n, hn, hs⟩ e he' hea => ?_⟩
    · have e : b ≠ a := by rintro rfl; rw [hb.2] at hn; cases hn
      refine ⟨n.code, fun _ => rfl, ?_⟩
      change ((w.op a (.init o)).acct b).next = _ ∧ ((w.op a (.init o)).acct b).cur = _ ∧ ((w.op a (.init o)).acct b).isContract = _
      rw [op_other w _ e]; exact ⟨hn, rfl, rfl⟩
    · change ((w.op a (.init o)).acct b).next = _ at hn
      by_cases e : b = a
      · subst e; rw [op_self, he] at hn; rw [show (_ : Acct Unit).next = (w.acct b).next from rfl, hb.2] at hn; cases hn
      · rw [op_other w _ e] at hn; exact ⟨n, hn, hs⟩
    · rw [List.mem_singleton] at he'
      subst he'
      change a = b at hea
      subst hea
      rw [hb.2] at hn; cases hn

theorem init_spec {w w1 : World} {d : Deploy} (h : Inv w) (hi : d.init w = some w1) :
    Inv w1 ∧ Keeps none w w1 ∧ (w1.acct d.addr).isContract = true ∧ (w1.acct d.addr).owner = some d.sender ∧ (∀ c, (w1.acct d.addr).cur = some c → Replaces d.ee c.eeType) := by
  unfold Deploy.init at hi
  by_cases hu : d.update (w.acct d.addr) = false
  · rw [if_pos hu] at hi
    by_cases hr : w.res d.addr (.init (some d.sender)) = .flag true
    · rw [if_pos hr] at hi
      cases hi
      obtain ⟨h1, h2⟩ := create_inv h hr
      obtain ⟨hc, he⟩ := init_op (a := w.acct d.addr) (o := some d.sender) hr
      have e : ({ w.op d.addr (.init (some d.sender)) with log := w.log ++ [.create d.addr (some d.sender)] } : World).acct d.addr =
          { w.acct d.addr with isContract := true, owner := some d.sender } := by
        change (w.op d.addr (.init (some d.sender))).acct d.addr = _
        rw [op_self, he]
      refine ⟨h1, h2, by rw [e], by rw [e], fun c hc' => ?_⟩
      rw [e] at hc'
      obtain ⟨⟨f, _, hr⟩, _⟩ := h
      change (w.acct d.addr).cur = some c at hc'
      rw [((hr d.addr).blank hc).1] at hc'
      cases hc'
    · rw [if_neg hr] at hi; cases hi
  · rw [if_neg hu] at hi
    by_cases hm : d.mayUpdate (w.acct d.addr) = true
    · rw [if_pos hm] at hi
      cases hi
      simp only [Deploy.mayUpdate, Bool.and_eq_true, decide_eq_true_eq] at hm
      refine ⟨h, Keeps.refl _ w, hm.1.1, hm.1.2, fun c hc => ?_⟩
      have := hm.2
      rw [hc] at this
      exact replaces_of this
    · rw [if_neg hm] at hi; cases hi

theorem deploy_op {a : Acct Unit} {code ee ct params id : Bytes} {old : Option Bytes} (hc : a.isContract = true) (h : (a.op (.deploy code ee ct params id)).2 = .value old) :
    (∀ n, a.next = some n → n.status ≠ .active) ∧ old = a.next.map Contract.deployTx ∧ (a.op (.deploy code ee ct params id)).1 = { a with next := some ⟨.pending, ct, ee, id, [], code, params⟩ } := by
  simp only [Acct.op] at h ⊢
  rw [if_neg (by simp [hc])] at h ⊢
  by_cases hs : a.next.map Contract.status = some .active
  · rw [if_pos hs] at h; cases h
  · rw [if_neg hs] at h ⊢
    cases h
    exact ⟨fun n hn hh => hs (by rw [hn, Option.map_some, hh]), rfl, rfl⟩

/-- The table after a deployment. -/
def table (t : Bytes → Option Bytes) (id a : Bytes) : Option Bytes → Bytes → Option Bytes
  | none => put t id (some a)
  | some o => if o.length > 0 then put (put t id (some a)) o none else put t id (some a)

theorem register_eq {w w2 : World} {d : Deploy} (hr : d.register w = some w2) : w.h2a d.id = none ∧ ∃ old, w.res d.addr (.deploy d.code d.ee d.ct d.params d.id) = .value old ∧
    w2 = { w.op d.addr (.deploy d.code d.ee d.ct d.params d.id) with h2a := table w.h2a d.id d.addr old, log := w.log ++ [.deploy d.addr d.sender d.id d.ee d.ct d.params d.code d.auto] } := by
  unfold Deploy.register at hr
  by_cases hn : w.h2a d.id = none
  · rw [if_pos hn] at hr
    split at hr
    · next old ho =>
      cases hr
      exact ⟨hn, old, ho, by cases old <;> rfl⟩
    · cases hr
  · rw [if_neg hn] at hr; cases hr

theorem register_spec {w w2 : World} {d : Deploy} (h : Inv w) (hc : (w.acct d.addr).isContract = true) (ho : (w.acct d.addr).owner = some d.sender)
    (ht : ∀ c, (w.acct d.addr).cur = some c → Replaces d.ee c.eeType) (hne : d.id ≠ []) (hr : d.register w = some w2) :
    Inv w2 ∧ Keeps none w w2 ∧ (∀ f, Legal w2.log f → ∀ p, (f d.addr).pending = some p → p.auto = d.auto) ∧ ∀ a, w2.h2a d.id = some a → a = d.addr := by
  obtain ⟨hid, old, hv, he⟩ := register_eq hr
  obtain ⟨ha, hold, hop⟩ := deploy_op hc hv
  have eself : w2.acct d.addr = { w.acct d.addr with next := some ⟨.pending, d.ct, d.ee, d.id, [], d.code, d.params⟩ } := by
    rw [he]; change (w.op d.addr _).acct d.addr = _; rw [op_self, hop]
  have eoth : ∀ b, b ≠ d.addr → w2.acct b = w.acct b := by
    intro b hb; rw [he]; exact op_other w _ hb
  have elog : w2.log = w.log ++ [.deploy d.addr d.sender d.id d.ee d.ct d.params d.code d.auto] := by rw [he]
  have etab : ∀ id b, w2.h2a id = some b → (id = d.id ∧ b = d.addr) ∨ (w.h2a id = some b ∧ (∀ n, (w.acct d.addr).next = some n → n.deployTx.length > 0 → n.deployTx ≠ id)) := by
    intro id b hb
    have : w2.h2a = table w.h2a d.id d.addr old := by rw [he]
    rw [this, hold] at hb
    cases hn : (w.acct d.addr).next with
    | none =>
      rw [hn] at hb
      change put w.h2a d.id (some d.addr) id = some b at hb
      by_cases e : id = d.id
      · subst e; rw [put_self] at hb; cases hb; exact .inl ⟨rfl, rfl⟩
      · rw [put_other _ _ e] at hb; exact .inr ⟨hb, by simp⟩
    | some n =>
      rw [hn] at hb
      change (if n.deployTx.length > 0 then put (put w.h2a d.id (some d.addr)) n.deployTx none else put w.h2a d.id (some d.addr)) id = some b at hb
      by_cases hl : n.deployTx.length > 0
      · rw [if_pos hl] at hb
        by_cases e' : id = n.deployTx
        · subst e'; rw [put_self] at hb; cases hb
        · rw [put_other _ _ e'] at hb
          by_cases e : id = d.id
          · subst e; rw [put_self] at hb; cases hb; exact .inl ⟨rfl, rfl⟩
          · rw [put_other _ _ e] at hb; exact .inr ⟨hb, by intro m hm _ hh; cases hm; exact e' hh.symm⟩
      · rw [if_neg hl] at hb
        by_cases e : id = d.id
        · subst e; rw [put_self] at hb; cases hb; exact .inl ⟨rfl, rfl⟩
        · rw [put_other _ _ e] at hb; exact .inr ⟨hb, by intro m hm h1; cases hm; exact absurd h1 hl⟩
  have hids : ∀ id b, w2.h2a id = some b → id ≠ [] := by
    intro id b hb
    rcases etab id b hb with ⟨rfl, _⟩ | ⟨h1, _⟩
    · exact hne
    · exact h.ids id b h1
  refine ⟨event_inv (ev := .deploy d.addr d.sender d.id d.ee d.ct d.params d.code d.auto) h elog eoth ?_ ?_ hids, ⟨fun b n hn hs => ?_, fun b ⟨n, hn, hs⟩ => ?_, _, elog, fun b ⟨n, hn, hs⟩ e he' hea => ?_⟩, ?_, ?_⟩
  · intro f _ hs
    change RelA (f d.addr) (w.acct d.addr) at hs
    refine ⟨_, .deploy _ _ _ _ _ _ _ _ (hs.ex.trans hc) (hs.owner.trans ho) ?_, ?_⟩
    · intro c hcc
      change (f d.addr).active = some c at hcc
      rw [hs.active] at hcc
      cases hcur : (w.acct d.addr).cur with
      | none => rw [hcur] at hcc; cases hcc
      | some c0 => rw [hcur] at hcc; cases hcc; exact ht c0 hcur
    · change RelA _ (w2.acct d.addr)
      rw [eself]
      refine ⟨hs.ex, hs.owner, hs.active, ⟨rfl, by simp, by simp⟩, fun hh => ?_, fun c hcc hst => ?_⟩
      · change (w.acct d.addr).isContract = false at hh
        rw [hc] at hh; cases hh
      · obtain ⟨n, hn, hns⟩ := hs.status c hcc hst
        exact absurd hns (ha n hn)
  · intro id b hb
    rcases etab id b hb with ⟨rfl, rfl⟩ | ⟨h1, h2⟩
    · rw [eself]; exact ⟨_, rfl, rfl, rfl⟩
    · obtain ⟨m, q1, q2, q3⟩ := h.index id b h1
      by_cases e : b = d.addr
      · subst e
        have hl : m.deployTx.length > 0 := by
          rw [q2]; exact List.length_pos_of_ne_nil (h.ids id _ h1)
        exact absurd q2 (h2 m q1 hl)
      · rw [eoth b e]; exact ⟨m, q1, q2, q3⟩
  · by_cases e : b = d.addr
    · subst e; exact absurd hs (ha n hn)
    · rw [eoth b e]; exact ⟨n.code, fun _ => rfl, hn, rfl, rfl⟩
  · by_cases e : b = d.addr
    · subst e; rw [eself] at hn; cases hn; cases hs
    · rw [eoth b e] at hn; exact ⟨n, hn, hs⟩
  · rw [List.mem_singleton] at he'
    subst he'
    change d.addr = b at hea
    subst hea
    exact absurd hs (ha n hn)
  · intro f hf p hp
    rw [elog] at hf
    generalize hL : w.log ++ [Ev.deploy d.addr d.sender d.id d.ee d.ct d.params d.code d.auto] = L at hf
    cases hf with
    | nil => simp at hL
    | snoc l' g e' s hl hs =>
      obtain ⟨h1, h2⟩ := List.append_inj' hL rfl
      cases h2
      change (put g d.addr s d.addr).pending = some p at hp
      rw [put_self] at hp
      cases hs
      cases hp
      rfl
  · intro a haa
    rcases etab _ _ haa with ⟨_, h2⟩ | ⟨h1, _⟩
    · exact h2
    · rw [hid] at h1; cases h1

theorem beBytes_length (n v : ℕ) : (beBytes n v).length = n := by
  induction n generalizing v with
  | zero => rfl
  | succ n ih => simp [beBytes, ih]

theorem id_ne {d : Deploy} (h : d.tx ≠ []) : d.id ≠ [] := by
  unfold Deploy.id idWithSalt
  cases d.salt with
  | none => exact h
  | some s =>
    intro hh
    have := congrArg List.length hh
    rw [beBytes_length] at this
    exact h (List.length_eq_zero_iff.mp this)

theorem deploy_spec {inner : Bytes → World → World × Out} (hin : Fine inner) {w : World} (h : Inv w) (d : Deploy) (i : Install) :
    (deployWith inner w d i).2 ≠ .panic ∧ Inv (deployWith inner w d i).1 ∧ Keeps none w (deployWith inner w d i).1 := by
  unfold deployWith
  by_cases ha : d.allowed = true
  · rw [if_pos ha]
    have hne : d.id ≠ [] := by
      apply id_ne
      simp only [Deploy.allowed, Bool.and_eq_true, decide_eq_true_eq] at ha
      exact ha.1.1.1.1.1.1
    cases hi : d.init w with
    | none => exact ⟨by simp, h, Keeps.refl _ w⟩
    | some w1 =>
      obtain ⟨i1, i2, i3, i4, i5⟩ := init_spec h hi
      dsimp only
      cases hr : d.register w1 with
      | none => exact ⟨by simp, h, Keeps.refl _ w⟩
      | some w2 =>
        obtain ⟨j1, j2, j3, j4⟩ := register_spec i1 i3 i4 i5 hne hr
        dsimp only
        by_cases hau : d.auto = true
        · rw [if_pos hau]
          obtain ⟨a1, a2, a3⟩ := accept_spec hin j1 d.id d.tx true i (fun _ a f hf hl p hp => by
            rw [j4 a hf] at hp; rw [j3 f hl p hp]; exact hau)
          revert a1 a2 a3
          generalize acceptWith inner w2 d.id d.tx true i = P
          obtain ⟨w3, o⟩ := P
          intro a1 a2 a3
          cases o with
          | ok => exact ⟨by simp, a2, (i2.trans j2).trans a3⟩
          | fail => exact ⟨by simp, h, Keeps.refl _ w⟩
          | panic => exact absurd rfl a1
        · rw [if_neg hau]; exact ⟨by simp, j1, i2.trans j2⟩
  · rw [if_neg ha]; exact ⟨by simp, h, Keeps.refl _ w⟩

theorem reject_spec {w : World} (h : Inv w) (id audit : Bytes) : (reject w id audit).2 ≠ .panic ∧ Inv (reject w id audit).1 ∧ Keeps none w (reject w id audit).1 := by
  unfold reject
  cases ha : w.h2a id with
  | none => exact ⟨by simp, h, Keeps.refl _ w⟩
  | some a =>
    dsimp only
    obtain ⟨n, hn, hid, hst⟩ := h.index id a ha
    have hC : (w.acct a).isContract = true := by
      obtain ⟨⟨f, _, hr⟩, _⟩ := h
      by_contra hc
      have := ((hr a).blank (by simpa using hc)).2
      rw [hn] at this; cases this
    have e : (w.acct a).op (.reject id audit) = ({ w.acct a with next := some { n with status := .rejected, auditTx := audit } }, Res.ok) := by
      simp only [Acct.op, hC, hn]
      rw [if_neg (by simp [hid]), if_pos hst]
    set w1 : World := { w with h2a := put w.h2a id none } with hw1
    have e1 : w1.res a (.reject id audit) = .ok := by unfold World.res; rw [hw1]; dsimp only; rw [e]
    rw [if_pos e1]
    set w2 : World := { w1.op a (.reject id audit) with log := w.log ++ [.reject a id audit] } with hw2
    have es : w2.acct a = { w.acct a with next := some { n with status := .rejected, auditTx := audit } } := by
      change (w1.op a (.reject id audit)).acct a = _
      rw [op_self]; change ((w.acct a).op _).1 = _; rw [e]
    have eo : ∀ b, b ≠ a → w2.acct b = w.acct b := fun b hb => op_other w1 _ hb
    have et : ∀ id' b, w2.h2a id' = some b → id' ≠ id ∧ w.h2a id' = some b := by
      intro id' b hb
      change put w.h2a id none id' = some b at hb
      by_cases hx : id' = id
      · subst hx; rw [put_self] at hb; cases hb
      · rw [put_other _ _ hx] at hb; exact ⟨hx, hb⟩
    refine ⟨by simp, event_inv (ev := .reject a id audit) h rfl eo ?_ ?_ ?_, ⟨fun b m hm hs => ?_, fun b ⟨m, hm, hs⟩ => ?_, [.reject a id audit], rfl, fun b ⟨m, hm, hs⟩ ev hev hea => ?_⟩⟩
    · intro f _ hs
      change RelA (f a) (w.acct a) at hs
      have hp := hs.pending
      rw [hn] at hp
      cases hpd : (f a).pending with
      | none => rw [hpd] at hp; exact hp.elim
      | some p =>
        rw [hpd] at hp
        obtain ⟨t1, t6, t7⟩ := hp
        refine ⟨_, .reject a id audit p hpd (by cases hrj : p.rejected; rfl; exact absurd (t6.mp hrj) (by rw [hst]; simp)) (by rw [t1]; exact hid), ?_⟩
        change RelA _ (w2.acct a)
        rw [es]
        refine ⟨hs.ex, hs.owner, hs.active, ⟨t1, by simp, by simp⟩, fun hh => ?_, fun c hc hcs => ?_⟩
        · change (w.acct a).isContract = false at hh; rw [hC] at hh; cases hh
        · obtain ⟨m, hm, hms⟩ := hs.status c hc hcs
          rw [hn] at hm; cases hm; rw [hst] at hms; cases hms
    · intro id' b hb
      obtain ⟨h1, h2⟩ := et id' b hb
      obtain ⟨m, q1, q2, q3⟩ := h.index id' b h2
      by_cases hx : b = a
      · subst hx; rw [hn] at q1; cases q1; exact absurd (q2.symm.trans hid) h1
      · rw [eo b hx]; exact ⟨m, q1, q2, q3⟩
    · intro id' b hb
      exact h.ids id' b (et id' b hb).2
    · have hx : b ≠ a := by rintro rfl; rw [hn] at hm; cases hm; rw [hst] at hs; cases hs
      rw [eo b hx]; exact ⟨m.code, fun _ => rfl, hm, rfl, rfl⟩
    · by_cases hx : b = a
      · subst hx; rw [es] at hm; cases hm; cases hs
      · rw [eo b hx] at hm; exact ⟨m, hm, hs⟩
    · rw [List.mem_singleton] at hev
      subst hev
      change a = b at hea
      subst hea
      rw [hn] at hm; cases hm; rw [hst] at hs; cases hs

theorem setOwner_spec {w : World} (h : Inv w) (sender a new : Bytes) : (setOwner w sender a new).2 ≠ .panic ∧ Inv (setOwner w sender a new).1 ∧ Keeps none w (setOwner w sender a new).1 := by
  unfold setOwner
  split
  · next hc =>
    simp only [Bool.and_eq_true, decide_eq_true_eq] at hc
    obtain ⟨⟨⟨hC, ho⟩, _⟩, _⟩ := hc
    have e : ((w.acct a).op (.setOwner (some new))).1 = { w.acct a with owner := some new } := by
      simp only [Acct.op]; rw [if_pos hC]
    have es : ({ w.op a (.setOwner (some new)) with log := w.log ++ [.transfer a sender new] } : World).acct a = { w.acct a with owner := some new } := by
      change (w.op a _).acct a = _; rw [op_self, e]
    have en : ∀ b, (({ w.op a (.setOwner (some new)) with log := w.log ++ [.transfer a sender new] } : World).acct b).next = (w.acct b).next ∧
        (({ w.op a (.setOwner (some new)) with log := w.log ++ [.transfer a sender new] } : World).acct b).cur = (w.acct b).cur ∧
        (({ w.op a (.setOwner (some new)) with log := w.log ++ [.transfer a sender new] } : World).acct b).isContract = (w.acct b).isContract := by
      intro b
      by_cases hx : b = a
      · subst hx; rw [es]; exact ⟨rfl, rfl, rfl⟩
      · rw [show ({ w.op a (.setOwner (some new)) with log := w.log ++ [.transfer a sender new] } : World).acct b = w.acct b from op_other w _ hx]; exact ⟨rfl, rfl, rfl⟩
    refine ⟨by simp, event_inv (ev := .transfer a sender new) h rfl (fun b hb => op_other w _ hb) ?_ ?_ h.ids, ⟨fun b n hn hs => ⟨n.code, fun _ => rfl, ?_, (en b).2.1, (en b).2.2⟩, fun b ⟨n, hn, hs⟩ => ⟨n, ?_, hs⟩, [.transfer a sender new], rfl,
      fun b _ ev hev hea => ?_⟩⟩
    · intro f _ hs
      change RelA (f a) (w.acct a) at hs
      refine ⟨_, .transfer a sender new (hs.ex.trans hC) (hs.owner.trans ho), ?_⟩
      change RelA _ (({ w.op a (.setOwner (some new)) with log := w.log ++ [.transfer a sender new] } : World).acct a)
      rw [es]
      exact ⟨hs.ex, rfl, hs.active, hs.pending, hs.blank, hs.status⟩
    · intro id b hb
      rw [(en b).1]; exact h.index id b hb
    · rw [(en b).1]; exact hn
    · rw [← (en b).1]; exact hn
    · rw [List.mem_singleton] at hev
      subst hev
      change a = b at hea
      subst hea
      exact .inl ⟨_, _, rfl⟩
  · exact ⟨by simp, h, Keeps.refl _ w⟩

theorem native_spec {w : World} (h : Inv w) (a : Bytes) (owner : Option Bytes) (code tid : Bytes) (ok : Bool) (version : ℕ) (api : Option Bytes) :
    (native w a owner code tid ok version api).2 ≠ .panic ∧ Inv (native w a owner code tid ok version api).1 ∧ Keeps none w (native w a owner code tid ok version api).1 := by
  unfold native
  by_cases hr : w.res a (.init owner) = .flag true
  · rw [if_pos hr]
    obtain ⟨hc, he⟩ := init_op (a := w.acct a) (o := owner) hr
    have hb : (w.acct a).cur = none ∧ (w.acct a).next = none := by
      obtain ⟨⟨f, _, hr⟩, _⟩ := h
      exact (hr a).blank hc
    dsimp only
    have e1 : (w.op a (.init owner)).acct a = { w.acct a with isContract := true, owner := owner } := by rw [op_self, he]
    have e2 : (({ w.acct a with isContract := true, owner := owner } : Acct Unit).op (.deploy code system [] [] tid)) =
        ({ w.acct a with isContract := true, owner := owner, next := some ⟨.pending, [], system, tid, [], code, []⟩ }, Res.value none) := by
      simp only [Acct.op, hb.2]
      rw [if_neg (by simp), if_neg (by simp)]
      rfl
    have e3 : (w.op a (.init owner)).res a (.deploy code system [] [] tid) = .value none := by
      unfold World.res; rw [e1, e2]
    rw [e3]
    dsimp only
    split
    · have e4 : ((w.op a (.init owner)).op a (.deploy code system [] [] tid)).acct a =
          { w.acct a with isContract := true, owner := owner, next := some ⟨.pending, [], system, tid, [], code, []⟩ } := by rw [op_self, e1, e2]
      have e5 : (({ w.acct a with isContract := true, owner := owner, next := some ⟨.pending, [], system, tid, [], code, []⟩ } : Acct Unit).op (.accept tid tid)) =
          ({ w.acct a with isContract := true, owner := owner, cur := some ⟨.active, [], system, tid, tid, code, []⟩, next := none }, Res.ok) := by
        simp only [Acct.op]
        rw [if_neg (by simp), if_neg (by simp)]
      set w' : World := { ((((w.op a (.init owner)).op a (.deploy code system [] [] tid)).op a (.accept tid tid)).op a (.migrate version)).op a (.setApi api) with
        log := w.log ++ [.native a owner tid code] } with hw'
      have es : w'.acct a = { w.acct a with isContract := true, owner := owner, cur := some ⟨.active, [], system, tid, tid, code, []⟩, next := none, version := max (w.acct a).version version, api := api } := by
        change (((((w.op a (.init owner)).op a (.deploy code system [] [] tid)).op a (.accept tid tid)).op a (.migrate version)).op a (.setApi api)).acct a = _
        rw [op_self, op_self, op_self, e4, e5]; rfl
      have eo : ∀ b, b ≠ a → w'.acct b = w.acct b := by
        intro b hx
        change (((((w.op a (.init owner)).op a (.deploy code system [] [] tid)).op a (.accept tid tid)).op a (.migrate version)).op a (.setApi api)).acct b = _
        rw [op_other _ _ hx, op_other _ _ hx, op_other _ _ hx, op_other _ _ hx, op_other _ _ hx]
      refine ⟨by simp, event_inv (ev := .native a owner tid code) h rfl eo ?_ ?_ h.ids, ⟨fun b n hn hs => ?_, fun b ⟨n, hn, hs⟩ => ?_,
        [.native a owner tid code], rfl, fun b ⟨n, hn, hs⟩ ev hev hea => ?_⟩⟩
      · intro f _ hs
        change RelA (f a) (w.acct a) at hs
        have hp := hs.pending
        rw [hb.2] at hp
        cases hpd : (f a).pending with
        | some p => rw [hpd] at hp; exact hp.elim
        | none =>
          refine ⟨_, .native a owner tid code (hs.ex.trans hc), ?_⟩
          change RelA _ (w'.acct a)
          rw [es]
          refine ⟨rfl, rfl, rfl, ?_, by simp, fun c hc hcs => ?_⟩
          · change PendRel (f a).pending none; rw [hpd]; trivial
          · cases hc; exact absurd rfl hcs
      · intro id b hbb
        obtain ⟨n, q1, q2⟩ := h.index id b hbb
        by_cases hx : b = a
        · subst hx; rw [hb.2] at q1; cases q1
        · rw [eo b hx]; exact ⟨n, q1, q2⟩
      · have hx : b ≠ a := by rintro rfl; rw [hb.2] at hn; cases hn
        rw [eo b hx]; exact ⟨n.code, fun _ => rfl, hn, rfl, rfl⟩
      · by_cases hx : b = a
        · subst hx; rw [es] at hn; cases hn
        · rw [eo b hx] at hn; exact ⟨n, hn, hs⟩
      · have hx : b ≠ a := by rintro rfl; rw [hb.2] at hn; cases hn
        rw [List.mem_singleton] at hev; subst hev; exact absurd hea.symm hx
    · exact ⟨by simp, h, Keeps.refl _ w⟩
  · rw [if_neg hr]; exact ⟨by simp, h, Keeps.refl _ w⟩

/-- The engine sets the code of what it installs. -/
theorem setCode_spec {w : World} (h : Inv w) {a : Bytes} (hb : Busy w a) (code : Bytes) :
    (setCode w a code).2 ≠ .panic ∧ Inv (setCode w a code).1 ∧ Keeps (some a) w (setCode w a code).1 := by
  obtain ⟨n, hn, hs⟩ := hb
  have e : ((w.acct a).op (.setCode true code)).1 = { w.acct a with next := some { n with code := code } } := by simp only [Acct.op, hn]
  have hsc : setCode w a code = ({ w.op a (.setCode true code) with log := w.log ++ [.setCode a code] }, .ok) := by unfold setCode; simp only [hn]
  rw [hsc]
  set w' : World := { w.op a (.setCode true code) with log := w.log ++ [.setCode a code] } with hw'
  have es : w'.acct a = { w.acct a with next := some { n with code := code } } := by change (w.op a _).acct a = _; rw [op_self, e]
  have eo : ∀ b, b ≠ a → w'.acct b = w.acct b := fun b hx => op_other w _ hx
  refine ⟨by simp, event_inv (ev := .setCode a code) h rfl eo ?_ ?_ h.ids, ⟨fun b m hm hms => ?_, fun b ⟨m, hm, hms⟩ => ?_, [.setCode a code], rfl, fun b _ ev hev hea => ?_⟩⟩
  · intro f _ q
    change RelA (f a) (w.acct a) at q
    have := q.pending
    rw [hn] at this
    cases hp : (f a).pending with
    | none => rw [hp] at this; exact this.elim
    | some p =>
      rw [hp] at this
      obtain ⟨t1, t6, t7⟩ := this
      refine ⟨_, .setCode a code p hp (by cases hrj : p.rejected; rfl; exact absurd (t6.mp hrj) (by rw [hs]; simp)), ?_⟩
      change RelA _ (w'.acct a)
      rw [es]
      refine ⟨q.ex, q.owner, q.active, ⟨?_, t6, t7⟩, fun hh => ?_, fun _ _ _ => ⟨_, rfl, hs⟩⟩
      · dsimp only; rw [t1]; rfl
      · have := (q.blank hh).2; rw [hn] at this; cases this
  · intro id b hbb
    obtain ⟨m, q1, q2, q3⟩ := h.index id b hbb
    by_cases hx : b = a
    · subst hx; rw [hn] at q1; cases q1; rw [hs] at q3; cases q3
    · rw [eo b hx]; exact ⟨m, q1, q2, q3⟩
  · by_cases hx : b = a
    · subst hx; rw [hn] at hm; cases hm; rw [es]; exact ⟨code, fun hh => absurd rfl hh, rfl, rfl, rfl⟩
    · rw [eo b hx]; exact ⟨m.code, fun _ => rfl, hm, rfl, rfl⟩
  · by_cases hx : b = a
    · subst hx; exact ⟨n, hn, hs⟩
    · rw [eo b hx] at hm; exact ⟨m, hm, hms⟩
  · rw [List.mem_singleton] at hev
    subst hev
    change a = b at hea
    subst hea
    exact .inr ⟨_, rfl⟩

theorem up {P Q : Prop} {w w' : World} (i : Option Bytes) (h : P ∧ Q ∧ Keeps none w w') : P ∧ Q ∧ Keeps i w w' := ⟨h.1, h.2.1, h.2.2.weaken i⟩

mutual

/-- Every call keeps the invariant and does not panic. -/
theorem exec_spec (inst : Option Bytes) (w : World) (c : Call) (h : Inv w) (hb : ∀ a, inst = some a → Busy w a) :
    (exec inst w c).2 ≠ .panic ∧ Inv (exec inst w c).1 ∧ Keeps inst w (exec inst w c).1 := by
  cases c with
  | deploy d i inner =>
    rw [exec]
    exact up _ (deploy_spec (fun a w h hb => execs_spec (some a) w inner h (fun a' ha => by cases ha; exact hb)) h d i)
  | accept id audit i inner =>
    rw [exec]
    exact up _ (accept_spec (fun a w h hb => execs_spec (some a) w inner h (fun a' ha => by cases ha; exact hb)) h id audit false i (fun hh => by cases hh))
  | reject id audit => rw [exec]; exact up _ (reject_spec h id audit)
  | setOwner sender a new => rw [exec]; exact up _ (setOwner_spec h sender a new)
  | native a owner code tid ok version api => rw [exec]; exact up _ (native_spec h a owner code tid ok version api)
  | touch a o =>
    rw [exec]
    by_cases hp : plain o = true
    · rw [if_pos hp]; exact ⟨by simp, same_inv (plain_same _ _ hp) h, (same_keeps (plain_same _ _ hp)).weaken _⟩
    · rw [if_neg hp]; exact ⟨by simp, h, Keeps.refl _ w⟩
  | setCode code =>
    cases inst with
    | none => rw [exec]; exact ⟨by simp, h, Keeps.refl _ w⟩
    | some a => rw [exec]; exact setCode_spec h (hb a rfl) code
  | frame ok inner =>
    rw [exec]
    have := execs_spec none w inner h (fun a ha => by cases ha)
    revert this
    generalize execs none w inner = P
    obtain ⟨w1, o⟩ := P
    intro this
    cases o with
    | panic => exact absurd rfl this.1
    | ok => cases ok with
      | true => exact ⟨by simp, this.2.1, this.2.2.weaken _⟩
      | false => exact ⟨by simp, h, Keeps.refl _ w⟩
    | fail => cases ok with
      | true => exact ⟨by simp, this.2.1, this.2.2.weaken _⟩
      | false => exact ⟨by simp, h, Keeps.refl _ w⟩

/-- So do many. -/
theorem execs_spec (inst : Option Bytes) (w : World) (cs : List Call) (h : Inv w) (hb : ∀ a, inst = some a → Busy w a) :
    (execs inst w cs).2 ≠ .panic ∧ Inv (execs inst w cs).1 ∧ Keeps inst w (execs inst w cs).1 := by
  cases cs with
  | nil => rw [execs]; exact ⟨by simp, h, Keeps.refl _ w⟩
  | cons c cs =>
    rw [execs]
    have h1 := exec_spec inst w c h hb
    revert h1
    generalize exec inst w c = P
    obtain ⟨w1, o⟩ := P
    intro h1
    have h2 := execs_spec inst w1 cs h1.2.1 (fun a ha => h1.2.2.busy (hb a ha))
    cases o with
    | panic => exact absurd rfl h1.1
    | ok => exact ⟨h2.1, h2.2.1, h1.2.2.trans h2.2.2⟩
    | fail => exact ⟨h2.1, h2.2.1, h1.2.2.trans h2.2.2⟩

end

theorem start_inv : Inv start := ⟨⟨_, .nil, fun _ => ⟨rfl, rfl, rfl, trivial, fun _ => ⟨rfl, rfl⟩, fun c hc => by cases hc⟩⟩, fun _ _ h => (by cases h), fun _ _ h => (by cases h)⟩

end Verif.Deploy
