import Verif.PyExec.Refine

/-! # What read-only frames can do (for all price tables, schedules and contracts) -/
namespace Verif.PyExec

/-- Nothing was sent that changes state, and the rights are the same. -/
structure Calm (E : Env) (x x' : X) : Prop where
  out : x'.out = x.out
  store : (x'.net.final E).1 = (x.net.final E).1
  pro : x'.pro = x.pro
  acct : x'.fr.acct = x.fr.acct
  query : x'.fr.query = x.fr.query
  ro : x'.fr.ro = x.fr.ro
  limit : x'.fr.limit = x.fr.limit

variable {E : Env}

theorem Calm.refl (x : X) : Calm E x x := ⟨rfl, rfl, rfl, rfl, rfl, rfl, rfl⟩

theorem Calm.trans {x y z : X} (h : Calm E x y) (g : Calm E y z) : Calm E x z :=
  ⟨g.out.trans h.out, g.store.trans h.store, g.pro.trans h.pro, g.acct.trans h.acct,
    g.query.trans h.query, g.ro.trans h.ro, g.limit.trans h.limit⟩

/-- A computation that is always calm. -/
def IsCalm (E : Env) {α : Type} (m : EM α) : Prop := ∀ x, Calm E x (m x).2

theorem IsCalm.andThen {α β : Type} {m : EM α} {f : α → EM β} (h : IsCalm E m)
    (hf : ∀ a, IsCalm E (f a)) : IsCalm E (andThen m f) := by
  intro x
  unfold PyExec.andThen
  have := h x
  rcases hm : m x with ⟨r, x'⟩
  rw [hm] at this
  cases r with
  | ok a => exact this.trans (hf a x')
  | error e => exact this

theorem IsCalm.pure {α : Type} (r : X → Except Exc α) : IsCalm E (fun x => (r x, x)) :=
  fun x => Calm.refl x

theorem await_store : ∀ (l : List Req) (st : Store) (a : Reply) (net : Net),
    await E l st = some (a, net) → (net.final E).1 = (final E l st).1
  | [], st, a, net, h => by simp [await] at h
  | r :: rs, st, a, net, h => by
    rw [await] at h
    split at h
    · exact await_store rs _ a net h
    · injection h with h
      injection h with _ h
      subst h
      rfl

theorem receive_calm : IsCalm E (receive E) := by
  intro x
  unfold receive
  have hs := final_serve E (E.sched x.tick) x.net
  simp only
  generalize serve E (E.sched x.tick) x.net = net at hs ⊢
  cases hr : net.resp with
  | cons a as =>
    simp only
    exact ⟨rfl, by rw [← hs]; rfl, rfl, rfl, rfl, rfl, rfl⟩
  | nil =>
    simp only
    cases ha : await E net.reqs net.store with
    | none => exact Calm.refl x
    | some p =>
      obtain ⟨a, net'⟩ := p
      have := await_store _ _ _ _ ha
      exact ⟨rfl, by rw [← hs]; simp only; rw [this]; rfl, rfl, rfl, rfl, rfl, rfl⟩

theorem addStep_calm (n : ℤ) (x : X) : Calm E x (addStep n x) := ⟨rfl, rfl, rfl, rfl, rfl, rfl, rfl⟩

theorem handler_calm {c : ℤ → EM Unit} (hc : ∀ s, IsCalm E (c s)) (h : HKind) (n : ℕ)
    (r : Reply) : IsCalm E (handler E c h n r) := by
  intro x
  unfold handler
  cases r with
  | old has size =>
    by_cases h1 : x.fr.query = true
    · simp only [h1, if_true]; exact Calm.refl x
    · simp only [h1]
      by_cases h2 : (!has) = true
      · simp only [h2, if_true]; exact Calm.refl x
      · simp only [h2]
        cases h with
        | refund => exact addStep_calm _ x
        | delete =>
          simp only
          by_cases h3 : applied E.costs .delete size = 0
          · simp only [h3, if_true]; exact Calm.refl x
          · simp only [h3, if_false]; exact hc _ x
  | value v => exact Calm.refl x
  | ans a => exact Calm.refl x

theorem drainWith_calm {c : ℤ → EM Unit} (hc : ∀ s, IsCalm E (c s)) : ∀ n,
    IsCalm E (drainWith E c n)
  | 0 => IsCalm.pure _
  | n + 1 => by
    intro x
    unfold drainWith
    cases hq : x.q with
    | nil => exact Calm.refl x
    | cons p q =>
      obtain ⟨h, size⟩ := p
      have := (receive_calm (E := E)).andThen (fun r => (handler_calm hc h size r).andThen
        (fun _ => drainWith_calm hc n)) { x with q := q }
      have hx : Calm E x { x with q := q } := ⟨rfl, rfl, rfl, rfl, rfl, rfl, rfl⟩
      exact hx.trans this

theorem consume_calm : ∀ (fuel : ℕ) (step : ℤ), IsCalm E (consume E fuel step)
  | 0, _ => fun x => Calm.refl x
  | fuel + 1, step => by
    intro x
    rw [consume_succ]
    split_ifs
    · exact addStep_calm _ x
    · exact (drainWith_calm (consume_calm fuel) _).andThen (fun _ => consume_calm fuel step) x
    · exact ⟨rfl, rfl, rfl, rfl, rfl, rfl, rfl⟩

theorem consumeStep_calm (step : ℤ) : IsCalm E (consumeStep E step) := fun x => consume_calm _ _ x

theorem applyStep_calm (t : StepType) (n : ℤ) : IsCalm E (applyStep E t n) := by
  intro x
  unfold applyStep
  simp only
  split_ifs
  · exact Calm.refl x
  · exact consumeStep_calm _ x

theorem drain_calm : IsCalm E (drain E) := fun x => drainWith_calm (consume_calm _) _ x

theorem stepRemained_calm : IsCalm E (stepRemained E) :=
  drain_calm.andThen fun _ => IsCalm.pure _

theorem send_calm (r : Req) (x : X) (hr : ∀ st, (serve1 E st r).1 = st) :
    Calm E x (send E r x) := by
  refine ⟨rfl, ?_, rfl, rfl, rfl, rfl, rfl⟩
  rw [final_send, hr]

theorem getValue_calm (k : Bytes) : IsCalm E (getValue E k) := by
  intro x
  refine (send_calm (.get (x.fr.acct, k)) x (fun _ => rfl)).trans ?_
  refine (drain_calm.andThen fun _ => receive_calm.andThen fun r => ?_) _
  intro x
  cases r <;> exact Calm.refl x

theorem ask_calm (id : ℕ) (l : ℤ) : IsCalm E (ask E id l) := by
  intro x
  refine (send_calm (.ask id l) x (fun _ => rfl)).trans ?_
  refine (drain_calm.andThen fun _ => receive_calm.andThen fun r => ?_) _
  intro x
  cases r <;> exact Calm.refl x

theorem dbGet_calm (k : Bytes) : IsCalm E (dbGet E k) :=
  (getValue_calm k).andThen fun _ => (applyStep_calm _ _).andThen fun _ => IsCalm.pure _

theorem dbContains_calm (id : ℕ) : IsCalm E (dbContains E id) := by
  refine stepRemained_calm.andThen fun _ => (ask_calm _ _).andThen fun a =>
    IsCalm.andThen ?_ fun _ => (applyStep_calm _ _).andThen fun _ => IsCalm.pure _
  intro x
  simp only
  split_ifs
  · exact consumeStep_calm _ x
  · exact Calm.refl x

/-! ### Messages -/

/-- The message comes from a frame that may send it: not in query mode, and for values and
events not in a read-only method either. -/
def Out.allowed : Out → Prop
  | .setValue query ro _ _ => query = false ∧ ro = false
  | .event query ro _ _ => query = false ∧ ro = false
  | .fee query _ _ _ => query = false

/-- The same rights, and only allowed messages sent in between. -/
structure Legal (x x' : X) : Prop where
  out : ∃ l, x'.out = x.out ++ l ∧ ∀ o ∈ l, o.allowed
  pro : x'.pro = x.pro
  acct : x'.fr.acct = x.fr.acct
  query : x'.fr.query = x.fr.query
  ro : x'.fr.ro = x.fr.ro
  limit : x'.fr.limit = x.fr.limit

theorem Calm.legal {x x' : X} (h : Calm E x x') : Legal x x' :=
  ⟨⟨[], by rw [h.out, List.append_nil], by simp⟩, h.pro, h.acct, h.query, h.ro, h.limit⟩

theorem Legal.trans {x y z : X} (h : Legal x y) (g : Legal y z) : Legal x z := by
  obtain ⟨l, hl, hl'⟩ := h.out
  obtain ⟨m, hm, hm'⟩ := g.out
  exact ⟨⟨l ++ m, by rw [hm, hl, List.append_assoc], by
    intro o ho
    rcases List.mem_append.mp ho with ho | ho
    · exact hl' o ho
    · exact hm' o ho⟩, g.pro.trans h.pro, g.acct.trans h.acct,
    g.query.trans h.query, g.ro.trans h.ro, g.limit.trans h.limit⟩

theorem Legal.refl (x : X) : Legal x x := (Calm.refl (E := ⟨fun _ => 0, 0, fun _ => 0,
  fun _ _ _ => (false, 0, 0)⟩) x).legal

theorem setValue_legal (k : Bytes) (v : Option Bytes) (cb : Option HKind) (x : X)
    (hq : x.fr.query = false) (hr : x.fr.ro = false) : Legal x (setValue E k v cb x).2 := by
  have h1 : ∀ r, Legal x (send E r
      { x with out := x.out ++ [.setValue x.fr.query x.fr.ro (x.fr.acct, k) v] }) := fun r =>
    ⟨⟨_, rfl, by simp [Out.allowed, hq, hr]⟩, rfl, rfl, rfl, rfl, rfl⟩
  unfold setValue
  split_ifs
  · exact Legal.refl x
  · cases cb with
    | none => exact h1 _
    | some h =>
      simp only
      have h2 := h1 (.set (x.fr.acct, k) v (some h).isSome)
      generalize send E (.set (x.fr.acct, k) v (some h).isSome)
        { x with out := x.out ++ [.setValue x.fr.query x.fr.ro (x.fr.acct, k) v] } = z at h2 ⊢
      have h3 : Legal z { z with q := z.q ++ [(h, (v.getD []).length)] } :=
        ⟨⟨[], by simp, by simp⟩, rfl, rfl, rfl, rfl, rfl⟩
      split_ifs
      · exact h2.trans (h3.trans (drainWith_calm (consume_calm (E := E) _) _ _).legal)
      · exact h2.trans h3

/-- Sequencing in a frame that may write. -/
theorem legal_andThen {α β : Type} {m : EM α} {f : α → EM β} {x : X} (h : Legal x (m x).2)
    (hf : ∀ a, Legal (m x).2 (f a (m x).2).2) : Legal x (andThen m f x).2 := by
  unfold andThen
  rcases hm : m x with ⟨r, x'⟩
  rw [hm] at h hf
  cases r with
  | ok a => exact h.trans (hf a)
  | error e => exact h

theorem putFallback_legal (k v : Bytes) (used : ℤ) (x : X) (hq : x.fr.query = false)
    (hr : x.fr.ro = false) : Legal x (putFallback E k v used x).2 := by
  unfold putFallback
  have h0 : Legal x (addStep (used - x.fr.limit) x) := (addStep_calm (E := E) _ x).legal
  refine h0.trans ?_
  have hg := (getValue_calm (E := E) k (addStep (used - x.fr.limit) x)).legal
  refine legal_andThen hg fun o => ?_
  generalize (getValue E k (addStep (used - x.fr.limit) x)).2 = x1 at hg
  have hq1 : x1.fr.query = false := by rw [hg.query]; exact hq
  have hr1 : x1.fr.ro = false := by rw [hg.ro]; exact hr
  by_cases hs : E.costs .schema = 0
  · rw [if_pos hs]
    have hp : ∀ m : EM Unit, IsCalm E m →
        Legal x1 (andThen m (fun _ => setValue E k (some v) none) x1).2 := by
      intro m hm
      have hc := (hm x1).legal
      exact legal_andThen hc fun _ => setValue_legal k _ _ _ (by rw [hc.query, hq1])
        (by rw [hc.ro, hr1])
    apply hp
    split_ifs
    · exact applyStep_calm _ _
    · exact applyStep_calm _ _
  · rw [if_neg hs]
    have hm : IsCalm E (fun x =>
          let x1 :=
            if (o.getD []).length > 0 ∧ x.fr.query = false then
              addStep (refund E.costs (if E.costs .schema = 0 then 0 else (o.getD []).length)) x
            else x
          applyStep E .set v.length x1) := by
      intro x
      simp only
      split_ifs
      all_goals first
        | exact (addStep_calm _ x).trans (applyStep_calm _ _ _)
        | exact applyStep_calm _ _ _
    have hc := (hm x1).legal
    exact legal_andThen hc fun _ => setValue_legal k _ _ _ (by rw [hc.query, hq1])
      (by rw [hc.ro, hr1])

theorem dbPut_legal (k v : Bytes) (x : X) : Legal x (dbPut E k v x).2 := by
  unfold dbPut Frame.readonly
  by_cases hro : (x.fr.query || x.fr.ro) = true
  · rw [if_pos hro]; exact Legal.refl x
  · rw [if_neg hro]
    have hq : x.fr.query = false := by
      cases h : x.fr.query <;> simp_all
    have hr : x.fr.ro = false := by
      cases h : x.fr.ro <;> simp_all
    split
    · have hm : IsCalm E (fun x : X => if x.fr.query then ((.ok (), x) : Except Exc Unit × X)
          else applyStep E .set v.length x) := by
        intro x
        simp only
        split_ifs
        · exact Calm.refl x
        · exact applyStep_calm _ _ _
      have hc := (hm x).legal
      have hp := legal_andThen (x := x) (m := fun x : X => if x.fr.query then
            ((.ok (), x) : Except Exc Unit × X) else applyStep E .set v.length x)
          (f := fun _ => setValue E k (some v) (some .refund)) hc
        fun _ => setValue_legal (E := E) k (some v) (some .refund) _ (by rw [hc.query, hq])
          (by rw [hc.ro, hr])
      generalize andThen (fun x : X => if x.fr.query then ((.ok (), x) : Except Exc Unit × X)
          else applyStep E .set v.length x)
          (fun _ => setValue E k (some v) (some .refund)) x = r at hp ⊢
      obtain ⟨r, x'⟩ := r
      rcases r with e | u
      · cases e with
        | outOfStep used =>
          exact hp.trans (putFallback_legal k v used x' (by rw [hp.query, hq])
            (by rw [hp.ro, hr]))
        | _ => exact hp
      · exact hp
    · exact setValue_legal k _ _ x hq hr

theorem dbDelete_legal (k : Bytes) (x : X) : Legal x (dbDelete E k x).2 := by
  unfold dbDelete Frame.readonly
  by_cases hro : (x.fr.query || x.fr.ro) = true
  · rw [if_pos hro]; exact Legal.refl x
  · rw [if_neg hro]
    have hq : x.fr.query = false := by
      cases h : x.fr.query <;> simp_all
    have hr : x.fr.ro = false := by
      cases h : x.fr.ro <;> simp_all
    exact setValue_legal k _ _ x hq hr

theorem emitEvent_legal (id n : ℕ) (x : X) : Legal x (emitEvent E id n x).2 := by
  unfold emitEvent Frame.readonly
  by_cases hro : (x.fr.query || x.fr.ro) = true
  · rw [if_pos hro]; exact Legal.refl x
  · rw [if_neg hro]
    have hq : x.fr.query = false := by
      cases h : x.fr.query <;> simp_all
    have hr : x.fr.ro = false := by
      cases h : x.fr.ro <;> simp_all
    have hc := (applyStep_calm (E := E) (if E.costs .schema = 0 then .eventLog else .log)
      (n : ℤ) x).legal
    refine legal_andThen hc fun _ => ?_
    generalize (applyStep E (if E.costs .schema = 0 then .eventLog else .log) (n : ℤ) x).2 = x1
      at hc
    split_ifs
    · exact Legal.refl _
    · exact ⟨⟨_, rfl, by simp [Out.allowed, hc.query, hc.ro, hq, hr]⟩, rfl, rfl, rfl, rfl, rfl⟩

theorem setFee_legal (p : ℤ) (x : X) : Legal x (setFee p x).2 := by
  unfold setFee
  split_ifs
  · exact Legal.refl x
  · exact Legal.refl x
  · exact ⟨⟨[], by simp, by simp⟩, rfl, rfl, rfl, rfl, rfl⟩

/-- Only allowed messages were sent; and unless the executor died, the rights are the same. -/
def LegalRun (x : X) (r : Except Exc Unit × X) : Prop :=
  (∃ l, r.2.out = x.out ++ l ∧ ∀ o ∈ l, o.allowed) ∧ (r.1 ≠ .error .crash → Legal x r.2)

theorem LegalRun.after {x x1 : X} {r : Except Exc Unit × X} (h : Legal x x1)
    (g : LegalRun x1 r) : LegalRun x r := by
  obtain ⟨l, hl, hl'⟩ := h.out
  obtain ⟨m, hm, hm'⟩ := g.1
  refine ⟨⟨l ++ m, by rw [hm, hl, List.append_assoc], ?_⟩, fun hh => h.trans (g.2 hh)⟩
  intro o ho
  rcases List.mem_append.mp ho with ho | ho
  · exact hl' o ho
  · exact hm' o ho

theorem next_legal {α : Type} {x : X} {r : Except Exc α × X} {f : Except Exc α → EM Unit}
    (h : Legal x r.2) (hf : ∀ a, LegalRun r.2 (f a r.2)) : LegalRun x (next r f) := by
  obtain ⟨r, x1⟩ := r
  unfold next
  rcases r with e | a
  · cases e with
    | crash => exact ⟨h.out, fun hh => absurd rfl hh⟩
    | _ => exact LegalRun.after h (hf _)
  · exact LegalRun.after h (hf _)

theorem finish_legal {x : X} {r : Except Exc Unit × X} (h : LegalRun x r)
    (hp : x.pro = x.fr.query) :
    (∃ l, (finish E r).2.out = x.out ++ l ∧ ∀ o ∈ l, o.allowed) ∧
      ((∃ s, (finish E r).1 = .ok s) → Legal x (finish E r).2) := by
  have hkey : ∀ (res : Except Exc Unit) (x0 : X), Legal x x0 →
      ∀ f, f = (match drain E x0 with
        | (.error _, x') => ((.error .crash, x') : Except Exc ℤ × X)
        | (.ok _, x') =>
          if x'.fr.fee > 0 then
            if x'.pro then (.error .crash, x')
            else (.ok (statusOf res),
              { x' with out := x'.out ++ [Out.fee x'.fr.query x'.fr.ro x'.fr.acct x'.fr.fee] })
          else (.ok (statusOf res), x')) → Legal x f.2 := by
    intro res x0 hx0 f hf
    have hd := hx0.trans (drain_calm (E := E) x0).legal
    rcases hdd : drain E x0 with ⟨rd, xd⟩
    rw [hdd] at hd hf
    cases rd with
    | error e => rw [hf]; exact hd
    | ok u =>
      simp only at hf
      split_ifs at hf with h1 h2
      · rw [hf]; exact hd
      · rw [hf]
        refine hd.trans ⟨⟨_, rfl, ?_⟩, rfl, rfl, rfl, rfl, rfl⟩
        intro o ho
        rw [List.mem_singleton] at ho
        subst ho
        show xd.fr.query = false
        have hq : xd.fr.query = xd.pro := by rw [hd.query, hd.pro, hp]
        rw [hq]
        simpa using h2
      · rw [hf]; exact hd
  obtain ⟨r, x0⟩ := r
  rcases r with e | a
  · cases e with
    | crash => exact ⟨h.1, fun ⟨s, hs⟩ => by simp [finish] at hs⟩
    | outOfStep u =>
      have : Legal x (finish E (.error (.outOfStep u), x0)).2 := hkey _ x0 (h.2 (by simp)) _ rfl
      exact ⟨this.out, fun _ => this⟩
    | base c =>
      have : Legal x (finish E (.error (.base c), x0)).2 := hkey _ x0 (h.2 (by simp)) _ rfl
      exact ⟨this.out, fun _ => this⟩
    | python =>
      have : Legal x (finish E (.error .python, x0)).2 := hkey _ x0 (h.2 (by simp)) _ rfl
      exact ⟨this.out, fun _ => this⟩
  · have : Legal x (finish E (.ok a, x0)).2 := hkey _ x0 (h.2 (by simp)) _ rfl
    exact ⟨this.out, fun _ => this⟩

theorem finish_error {r : Except Exc Unit × X} {e : Exc} {x : X}
    (h : finish E r = (.error e, x)) : e = .crash := by
  have hkey : ∀ (res : Except Exc Unit) (x0 : X), (match drain E x0 with
        | (.error _, x') => ((.error .crash, x') : Except Exc ℤ × X)
        | (.ok _, x') =>
          if x'.fr.fee > 0 then
            if x'.pro then (.error .crash, x')
            else (.ok (statusOf res),
              { x' with out := x'.out ++ [Out.fee x'.fr.query x'.fr.ro x'.fr.acct x'.fr.fee] })
          else (.ok (statusOf res), x')) = (.error e, x) → e = .crash := by
    intro res x0 h
    rcases hdd : drain E x0 with ⟨rd, xd⟩
    rw [hdd] at h
    cases rd with
    | error e' => simp only at h; injection h with h1; injection h1 with h1; exact h1.symm
    | ok u =>
      simp only at h
      split_ifs at h
      · injection h with h1; injection h1 with h1; exact h1.symm
      · injection h with h1; cases h1
      · injection h with h1; cases h1
  obtain ⟨r, x0⟩ := r
  rcases r with e' | a
  · cases e' with
    | crash => unfold finish at h; injection h with h1; injection h1 with h1; exact h1.symm
    | outOfStep u => exact hkey (.error (.outOfStep u)) x0 h
    | base c => exact hkey (.error (.base c)) x0 h
    | python => exact hkey (.error .python) x0 h
  · exact hkey (.ok a) x0 h

theorem callResult_legal (a b c : ℤ) (x : X) : Legal x (callResult a b c x).2 := by
  unfold callResult
  split_ifs <;> exact (addStep_calm (E := ⟨fun _ => 0, 0, fun _ => 0,
    fun _ _ _ => (false, 0, 0)⟩) _ x).legal

theorem run_legal (p : Prog) : ∀ x : X, x.pro = x.fr.query → LegalRun x (run E p x) := by
  induction p with
  | ret => exact fun x _ => ⟨(Legal.refl x).out, fun _ => Legal.refl x⟩
  | raise e => exact fun x _ => ⟨(Legal.refl x).out, fun _ => Legal.refl x⟩
  | get k κ ih =>
    intro x hp
    have h := (dbGet_calm (E := E) k x).legal
    exact next_legal h fun _ => ih _ _ (by rw [h.pro, h.query, hp])
  | put k v κ ih =>
    intro x hp
    have h := dbPut_legal (E := E) k v x
    exact next_legal h fun _ => ih _ _ (by rw [h.pro, h.query, hp])
  | del k κ ih =>
    intro x hp
    have h := dbDelete_legal (E := E) k x
    exact next_legal h fun _ => ih _ _ (by rw [h.pro, h.query, hp])
  | contains id κ ih =>
    intro x hp
    have h := (dbContains_calm (E := E) id x).legal
    exact next_legal h fun _ => ih _ _ (by rw [h.pro, h.query, hp])
  | balance id κ ih =>
    intro x hp
    have h := (ask_calm (E := E) id 0 x).legal
    exact next_legal h fun _ => ih _ _ (by rw [h.pro, h.query, hp])
  | event id n κ ih =>
    intro x hp
    have h := emitEvent_legal (E := E) id n x
    exact next_legal h fun _ => ih _ _ (by rw [h.pro, h.query, hp])
  | api n κ ih =>
    intro x hp
    have h := (consumeStep_calm (E := E) n x).legal
    exact next_legal h fun _ => ih _ _ (by rw [h.pro, h.query, hp])
  | setFee p κ ih =>
    intro x hp
    have h := setFee_legal p x
    exact next_legal h fun _ => ih _ _ (by rw [h.pro, h.query, hp])
  | call acct query ro over child κ ihc ih =>
    intro x hp
    have h := (stepRemained_calm (E := E) x).legal
    simp only [run]
    refine next_legal h fun a => ?_
    generalize (stepRemained E x).2 = x1 at h
    have hp1 : x1.pro = x1.fr.query := by rw [h.pro, h.query, hp]
    cases a with
    | error e => exact ih _ _ hp1
    | ok newLimit =>
      simp only
      by_cases ho : newLimit < over
      · rw [if_pos ho]
        have h1 : Legal x1 (callResult newLimit codeOutOfStep newLimit
            { x1 with net := flush E x1.net }).2 := by
          have h0 : Legal x1 { x1 with net := flush E x1.net } :=
            ⟨⟨[], by simp, by simp⟩, rfl, rfl, rfl, rfl, rfl⟩
          exact h0.trans (callResult_legal _ _ _ _)
        exact LegalRun.after h1 (ih _ _ (by rw [h1.pro, h1.query, hp1]))
      · rw [if_neg ho]
        have hc := finish_legal (E := E) (ihc { x1 with
          net := flush E x1.net
          pro := x1.fr.query || query
          fr := ⟨acct, x1.fr.query || query, ro, newLimit - over, 0, 0⟩ } rfl) rfl
        have herr := fun e x => finish_error (E := E) (e := e) (x := x) (r := run E child { x1 with
          net := flush E x1.net
          pro := x1.fr.query || query
          fr := ⟨acct, x1.fr.query || query, ro, newLimit - over, 0, 0⟩ })
        generalize finish E _ = fr at hc herr ⊢
        obtain ⟨fr, x2⟩ := fr
        cases fr with
        | error e =>
          refine ⟨hc.1, fun hh => ?_⟩
          have := herr e x2 rfl
          subst this
          exact absurd rfl hh
        | ok status =>
          simp only at hc ⊢
          generalize hz : ({ x2 with
              fr := x1.fr
              pro := x1.pro
              net := if status = 0 then flush E x2.net
                else { flush E x2.net with store := (flush E x1.net).store } } : X) = z
          have h1 : Legal x1 z := by
            subst hz
            exact ⟨hc.1, rfl, rfl, rfl, rfl, rfl⟩
          have h2 := h1.trans (callResult_legal newLimit status (over + x2.fr.used) z)
          exact LegalRun.after h2 (ih _ _ (by rw [h2.pro, h2.query, hp1]))
  | remote f κ ih =>
    intro x hp
    have h := (stepRemained_calm (E := E) x).legal
    simp only [run]
    refine next_legal h fun a => ?_
    generalize (stepRemained E x).2 = x1 at h
    have hp1 : x1.pro = x1.fr.query := by rw [h.pro, h.query, hp]
    cases a with
    | error e => exact ih _ _ hp1
    | ok newLimit =>
      simp only
      generalize hz : ({ x1 with net := if x1.fr.query then flush E x1.net else
        { flush E x1.net with store := clean (f newLimit (flush E x1.net).store).1 } } : X) = z
      have h1 : Legal x1 z := by
        subst hz
        exact ⟨⟨[], by simp, by simp⟩, rfl, rfl, rfl, rfl, rfl⟩
      have h2 := h1.trans (callResult_legal newLimit (f newLimit (flush E x1.net).store).2.1
        (f newLimit (flush E x1.net).store).2.2 z)
      exact LegalRun.after h2 (ih _ _ (by rw [h2.pro, h2.query, hp1]))


/-! ### Query mode -/

/-- Nothing changes state, and unless the executor died the rights are the same. -/
def QuietRun (E : Env) (x : X) (r : Except Exc Unit × X) : Prop :=
  r.2.out = x.out ∧ (r.2.net.final E).1 = (x.net.final E).1 ∧ (r.1 ≠ .error .crash → Calm E x r.2)

theorem QuietRun.after {x x1 : X} {r : Except Exc Unit × X} (h : Calm E x x1)
    (g : QuietRun E x1 r) : QuietRun E x r :=
  ⟨g.1.trans h.out, g.2.1.trans h.store, fun hh => h.trans (g.2.2 hh)⟩

theorem QuietRun.refl (x : X) (r : Except Exc Unit) : QuietRun E x (r, x) :=
  ⟨rfl, rfl, fun _ => Calm.refl x⟩

theorem next_quiet {α : Type} {x : X} {r : Except Exc α × X} {f : Except Exc α → EM Unit}
    (h : Calm E x r.2) (hf : ∀ a, QuietRun E r.2 (f a r.2)) : QuietRun E x (next r f) := by
  obtain ⟨r, x1⟩ := r
  unfold next
  rcases r with e | a
  · cases e with
    | crash => exact ⟨h.out, h.store, fun hh => absurd rfl hh⟩
    | _ => exact QuietRun.after h (hf _)
  · exact QuietRun.after h (hf _)

theorem finish_quiet {x : X} {r : Except Exc Unit × X} (h : QuietRun E x r) (hp : x.pro = true) :
    (finish E r).2.out = x.out ∧ ((finish E r).2.net.final E).1 = (x.net.final E).1 := by
  have hkey : ∀ (res : Except Exc Unit) (x0 : X), Calm E x x0 →
      ∀ f, f = (match drain E x0 with
        | (.error _, x') => ((.error .crash, x') : Except Exc ℤ × X)
        | (.ok _, x') =>
          if x'.fr.fee > 0 then
            if x'.pro then (.error .crash, x')
            else (.ok (statusOf res),
              { x' with out := x'.out ++ [Out.fee x'.fr.query x'.fr.ro x'.fr.acct x'.fr.fee] })
          else (.ok (statusOf res), x')) → Calm E x f.2 := by
    intro res x0 hx0 f hf
    have hd := hx0.trans (drain_calm (E := E) x0)
    rcases hdd : drain E x0 with ⟨rd, xd⟩
    rw [hdd] at hd hf
    cases rd with
    | error e => rw [hf]; exact hd
    | ok u =>
      simp only at hf
      rw [if_pos (c := xd.pro = true) (by rw [hd.pro, hp])] at hf
      split_ifs at hf
      · rw [hf]; exact hd
      · rw [hf]; exact hd
  obtain ⟨r, x0⟩ := r
  rcases r with e | a
  · cases e with
    | crash => exact ⟨h.1, h.2.1⟩
    | outOfStep u =>
      have : Calm E x (finish E (.error (.outOfStep u), x0)).2 :=
        hkey _ x0 (h.2.2 (by simp)) _ rfl
      exact ⟨this.out, this.store⟩
    | base c =>
      have : Calm E x (finish E (.error (.base c), x0)).2 := hkey _ x0 (h.2.2 (by simp)) _ rfl
      exact ⟨this.out, this.store⟩
    | python =>
      have : Calm E x (finish E (.error .python, x0)).2 := hkey _ x0 (h.2.2 (by simp)) _ rfl
      exact ⟨this.out, this.store⟩
  · have : Calm E x (finish E (.ok a, x0)).2 := hkey _ x0 (h.2.2 (by simp)) _ rfl
    exact ⟨this.out, this.store⟩

theorem callResult_calm (a b c : ℤ) : IsCalm E (callResult a b c) := by
  intro x
  unfold callResult
  split_ifs <;> exact addStep_calm _ x

theorem flush_final (net : Net) : ((flush E net).final E).1 = (net.final E).1 := by
  rw [flush_eq]; simp [Net.final, final]

theorem run_quiet (p : Prog) : ∀ x : X, x.pro = true → x.fr.query = true →
    QuietRun E x (run E p x) := by
  induction p with
  | ret => exact fun x _ _ => QuietRun.refl x _
  | raise e => exact fun x _ _ => QuietRun.refl x _
  | get k κ ih =>
    intro x hp hq
    have h := dbGet_calm (E := E) k x
    exact next_quiet h fun _ => ih _ _ (by rw [h.pro, hp]) (by rw [h.query, hq])
  | put k v κ ih =>
    intro x hp hq
    have h : Calm E x (dbPut E k v x).2 := by
      unfold dbPut Frame.readonly; rw [hq]; exact Calm.refl x
    exact next_quiet h fun _ => ih _ _ (by rw [h.pro, hp]) (by rw [h.query, hq])
  | del k κ ih =>
    intro x hp hq
    have h : Calm E x (dbDelete E k x).2 := by
      unfold dbDelete Frame.readonly; rw [hq]; exact Calm.refl x
    exact next_quiet h fun _ => ih _ _ (by rw [h.pro, hp]) (by rw [h.query, hq])
  | contains id κ ih =>
    intro x hp hq
    have h := dbContains_calm (E := E) id x
    exact next_quiet h fun _ => ih _ _ (by rw [h.pro, hp]) (by rw [h.query, hq])
  | balance id κ ih =>
    intro x hp hq
    have h := ask_calm (E := E) id 0 x
    exact next_quiet h fun _ => ih _ _ (by rw [h.pro, hp]) (by rw [h.query, hq])
  | event id n κ ih =>
    intro x hp hq
    have h : Calm E x (emitEvent E id n x).2 := by
      unfold emitEvent Frame.readonly; rw [hq]; exact Calm.refl x
    exact next_quiet h fun _ => ih _ _ (by rw [h.pro, hp]) (by rw [h.query, hq])
  | api n κ ih =>
    intro x hp hq
    have h := consumeStep_calm (E := E) n x
    exact next_quiet h fun _ => ih _ _ (by rw [h.pro, hp]) (by rw [h.query, hq])
  | setFee p κ ih =>
    intro x hp hq
    have h : Calm E x (setFee p x).2 := by
      unfold setFee; rw [hq]; exact Calm.refl x
    exact next_quiet h fun _ => ih _ _ (by rw [h.pro, hp]) (by rw [h.query, hq])
  | call acct query ro over child κ ihc ih =>
    intro x hp hq
    have h := stepRemained_calm (E := E) x
    simp only [run]
    refine next_quiet h fun a => ?_
    generalize (stepRemained E x).2 = x1 at h
    have hp1 : x1.pro = true := by rw [h.pro, hp]
    have hq1 : x1.fr.query = true := by rw [h.query, hq]
    cases a with
    | error e => exact ih _ _ hp1 hq1
    | ok newLimit =>
      simp only
      by_cases ho : newLimit < over
      · rw [if_pos ho]
        have h0 : Calm E x1 { x1 with net := flush E x1.net } :=
          ⟨rfl, flush_final _, rfl, rfl, rfl, rfl, rfl⟩
        have h1 := h0.trans (callResult_calm newLimit codeOutOfStep newLimit _)
        exact QuietRun.after h1 (ih _ _ (by rw [h1.pro, hp1]) (by rw [h1.query, hq1]))
      · rw [if_neg ho]
        have hc := finish_quiet (E := E) (ihc { x1 with
          net := flush E x1.net
          pro := x1.fr.query || query
          fr := ⟨acct, x1.fr.query || query, ro, newLimit - over, 0, 0⟩ } (by simp [hq1])
          (by simp [hq1])) (by simp [hq1])
        have herr := fun e x => finish_error (E := E) (e := e) (x := x) (r := run E child { x1 with
          net := flush E x1.net
          pro := x1.fr.query || query
          fr := ⟨acct, x1.fr.query || query, ro, newLimit - over, 0, 0⟩ })
        generalize finish E _ = fr at hc herr ⊢
        obtain ⟨fr, x2⟩ := fr
        simp only at hc
        rw [flush_final] at hc
        cases fr with
        | error e =>
          refine ⟨hc.1, hc.2, fun hh => ?_⟩
          have := herr e x2 rfl
          subst this
          exact absurd rfl hh
        | ok status =>
          simp only at hc ⊢
          generalize hz : ({ x2 with
              fr := x1.fr
              pro := x1.pro
              net := if status = 0 then flush E x2.net
                else { flush E x2.net with store := (flush E x1.net).store } } : X) = z
          have h1 : Calm E x1 z := by
            subst hz
            refine ⟨hc.1, ?_, rfl, rfl, rfl, rfl, rfl⟩
            simp only
            split
            · rw [flush_final]; exact hc.2
            · rw [flush_eq, flush_eq]; simp [Net.final, final]
          have h2 := h1.trans (callResult_calm newLimit status (over + x2.fr.used) z)
          exact QuietRun.after h2 (ih _ _ (by rw [h2.pro, hp1]) (by rw [h2.query, hq1]))
  | remote f κ ih =>
    intro x hp hq
    have h := stepRemained_calm (E := E) x
    simp only [run]
    refine next_quiet h fun a => ?_
    generalize (stepRemained E x).2 = x1 at h
    have hp1 : x1.pro = true := by rw [h.pro, hp]
    have hq1 : x1.fr.query = true := by rw [h.query, hq]
    cases a with
    | error e => exact ih _ _ hp1 hq1
    | ok newLimit =>
      simp only
      rw [if_pos hq1]
      have h0 : Calm E x1 { x1 with net := flush E x1.net } :=
        ⟨rfl, flush_final _, rfl, rfl, rfl, rfl, rfl⟩
      have h2 := h0.trans (callResult_calm newLimit (f newLimit (flush E x1.net).store).2.1
        (f newLimit (flush E x1.net).store).2.2 _)
      exact QuietRun.after h2 (ih _ _ (by rw [h2.pro, hp1]) (by rw [h2.query, hq1]))

end Verif.PyExec
