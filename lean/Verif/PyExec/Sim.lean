import Mathlib.Tactic.Linarith
import Verif.PyExec.Spec

/-! # The pipelined executor simulates the direct one -/
namespace Verif.PyExec

/-! ### The channel -/

/-- Store and replies once the service has handled everything. -/
def final (E : Env) : List Req → Store → Store × List Reply
  | [], st => (st, [])
  | r :: rs, st =>
    let s := serve1 E st r
    let f := final E rs s.1
    (f.1, s.2 ++ f.2)

def Net.final (E : Env) (n : Net) : Store × List Reply :=
  ((PyExec.final E n.reqs n.store).1, n.resp ++ (PyExec.final E n.reqs n.store).2)

theorem final_serve (E : Env) (n : ℕ) : ∀ net : Net, (serve E n net).final E = net.final E := by
  induction n with
  | zero => intro net; rfl
  | succ n ih =>
    intro net
    obtain ⟨st, reqs, resp⟩ := net
    cases reqs with
    | nil => rfl
    | cons r rs =>
      rw [serve]
      simp only
      rw [ih]
      simp only [Net.final, final, List.append_assoc]

theorem final_append (E : Env) (r : Req) : ∀ (l : List Req) (st : Store),
    final E (l ++ [r]) st =
      ((serve1 E (final E l st).1 r).1, (final E l st).2 ++ (serve1 E (final E l st).1 r).2)
  | [], st => by simp [final]
  | a :: l, st => by
    simp only [List.cons_append, final]
    rw [final_append E r l]
    simp [List.append_assoc]

theorem serve_all (E : Env) (n : ℕ) : ∀ net : Net, net.reqs.length = n →
    serve E n net = ⟨(net.final E).1, [], (net.final E).2⟩ := by
  induction n with
  | zero =>
    intro net h
    obtain ⟨st, reqs, resp⟩ := net
    have : reqs = [] := List.length_eq_zero_iff.mp h
    subst this
    simp [serve, Net.final, final]
  | succ n ih =>
    intro net h
    obtain ⟨st, reqs, resp⟩ := net
    cases reqs with
    | nil => simp at h
    | cons r rs =>
      rw [serve]
      simp only
      rw [ih _ (by simpa using h)]
      simp only [Net.final, final, List.append_assoc]

theorem flush_eq (E : Env) (net : Net) :
    flush E net = ⟨(net.final E).1, [], (net.final E).2⟩ := serve_all E _ net rfl

theorem await_eq (E : Env) : ∀ (l : List Req) (st : Store) (a : Reply) (as : List Reply),
    (final E l st).2 = a :: as →
    ∃ net, await E l st = some (a, net) ∧ net.final E = ((final E l st).1, as)
  | [], st, a, as, h => by simp [final] at h
  | r :: rs, st, a, as, h => by
    rw [await]
    rw [final] at h
    simp only at h
    cases hs : (serve1 E st r).2 with
    | nil =>
      simp only
      rw [hs, List.nil_append] at h
      obtain ⟨net, h1, h2⟩ := await_eq E rs _ a as h
      exact ⟨net, h1, by rw [h2, final]⟩
    | cons b bs =>
      rw [hs, List.cons_append] at h
      injection h with hb hbs
      subst hb
      exact ⟨_, rfl, by simp only [Net.final, final, hbs]⟩

theorem final_send (E : Env) (r : Req) (x : X) :
    (send E r x).net.final E =
      ((serve1 E (x.net.final E).1 r).1, (x.net.final E).2 ++ (serve1 E (x.net.final E).1 r).2) := by
  simp only [send, final_serve]
  simp only [Net.final, final_append, List.append_assoc]

/-- Under any schedule `receive` returns the next reply. -/
theorem receive_eq (E : Env) (x : X) (a : Reply) (as : List Reply)
    (h : (x.net.final E).2 = a :: as) :
    ∃ net t, receive E x = (.ok a, { x with net := net, tick := t }) ∧
      net.final E = ((x.net.final E).1, as) := by
  have hs := final_serve E (E.sched x.tick) x.net
  rw [← hs] at h ⊢
  unfold receive
  simp only
  generalize serve E (E.sched x.tick) x.net = net at h hs ⊢
  obtain ⟨st, reqs, resp⟩ := net
  cases resp with
  | cons b bs =>
    simp only [Net.final, List.cons_append] at h
    injection h with hb hbs
    subst hb
    exact ⟨_, _, rfl, by simp only [Net.final, hbs]⟩
  | nil =>
    simp only [Net.final, List.nil_append] at h
    obtain ⟨net', h1, h2⟩ := await_eq E reqs st a as h
    simp only [h1]
    exact ⟨net', _, rfl, by rw [h2]; rfl⟩

/-! ### Price tables -/

/-- Tables in which overwriting and deleting a value never cost anything. -/
def Sane (c : Costs) : Prop :=
  ∀ n : ℕ, 1 ≤ n → applied c .delete n ≤ 0 ∧ refund c n ≤ 0

/-- What a reply will change. -/
def effect (c : Costs) (query : Bool) (h : HKind) (newSize : ℕ) (has : Bool) (size : ℕ) : ℤ :=
  if query then 0 else if !has then 0
  else match h with
    | .refund => refund c (if c .schema = 0 then newSize else size)
    | .delete => applied c .delete size

/-- The replies to come are those the queue waits for, and change the steps by `s` in all. -/
inductive Owed (c : Costs) (query : Bool) : List (HKind × ℕ) → List Reply → ℤ → Prop
  | nil : Owed c query [] [] 0
  | cons {h n has size q rs s} : effect c query h n has size ≤ 0 → Owed c query q rs s →
      Owed c query ((h, n) :: q) (.old has size :: rs) (effect c query h n has size + s)

theorem Owed.nonpos {c query q rs s} (h : Owed c query q rs s) : s ≤ 0 := by
  induction h with
  | nil => exact le_refl _
  | cons h1 _ ih => omega

theorem Owed.snoc {c query q rs s} (h : Owed c query q rs s) {k n has size}
    (he : effect c query k n has size ≤ 0) :
    Owed c query (q ++ [(k, n)]) (rs ++ [.old has size]) (s + effect c query k n has size) := by
  induction h with
  | nil => simpa using Owed.cons he Owed.nil
  | cons h1 _ ih =>
    rw [add_assoc]
    exact Owed.cons h1 ih

/-- The states correspond, and `tail` are the replies after those of the queue. -/
structure Rel (E : Env) (tail : List Reply) (x : X) (y : Sync.Y) : Prop where
  fr : x.fr = { y.fr with used := x.fr.used }
  store : (x.net.final E).1 = y.store
  owed : ∃ rs s, Owed E.costs y.fr.query x.q rs s ∧ (x.net.final E).2 = rs ++ tail ∧
    x.fr.used + s = y.fr.used
  bound : x.fr.used ≤ y.fr.limit
  pro : x.pro = y.fr.query
  out : x.out = y.out
  fee : y.fr.query = true → y.fr.fee ≤ 0
  full : ∀ k, y.store k ≠ some []

variable {E : Env}

theorem Rel.query {tail x y} (h : Rel E tail x y) : x.fr.query = y.fr.query := by rw [h.fr]
theorem Rel.ro {tail x y} (h : Rel E tail x y) : x.fr.ro = y.fr.ro := by rw [h.fr]
theorem Rel.acct {tail x y} (h : Rel E tail x y) : x.fr.acct = y.fr.acct := by rw [h.fr]
theorem Rel.limit {tail x y} (h : Rel E tail x y) : x.fr.limit = y.fr.limit := by rw [h.fr]
theorem Rel.used_le {tail x y} (h : Rel E tail x y) : y.fr.used ≤ x.fr.used := by
  obtain ⟨rs, s, ho, _, hs⟩ := h.owed
  have := ho.nonpos
  omega
theorem Rel.used_bound {tail x y} (h : Rel E tail x y) : y.fr.used ≤ y.fr.limit :=
  le_trans h.used_le h.bound

/-- With an empty queue the frames agree. -/
theorem Rel.frame_eq {tail x y} (h : Rel E tail x y) (hq : x.q = []) : x.fr = y.fr := by
  obtain ⟨rs, s, ho, _, hs⟩ := h.owed
  rw [hq] at ho
  cases ho
  have : x.fr.used = y.fr.used := by omega
  rw [h.fr, this]

theorem Rel.resp_eq {tail x y} (h : Rel E tail x y) (hq : x.q = []) :
    (x.net.final E).2 = tail := by
  obtain ⟨rs, s, ho, hr, hs⟩ := h.owed
  rw [hq] at ho
  cases ho
  simpa using hr

/-! ### The queue -/

theorem consume_succ (fuel : ℕ) (step : ℤ) (x : X) :
    consume E (fuel + 1) step x =
      if x.fr.used + step ≤ x.fr.limit then (.ok (), addStep step x)
      else if x.q.length > 0 then
        PyExec.andThen (drainWith E (consume E fuel) x.q.length) (fun _ => consume E fuel step) x
      else
        (.error (.outOfStep x.fr.used), { x with fr := { x.fr with used := x.fr.limit } }) := rfl

theorem consume_fits (fuel : ℕ) (step : ℤ) (x : X) (h : x.fr.used + step ≤ x.fr.limit) :
    consume E (fuel + 1) step x = (.ok (), addStep step x) := by
  rw [consume_succ, if_pos h]

theorem addStep_zero (x : X) : addStep 0 x = x := by
  simp [addStep]

theorem handler_eq {fuel : ℕ} {h : HKind} {n : ℕ} {has : Bool} {size : ℕ} {x : X}
    (he : effect E.costs x.fr.query h n has size ≤ 0) (hb : x.fr.used ≤ x.fr.limit) :
    handler E (consume E (fuel + 1)) h n (.old has size) x =
      (.ok (), addStep (effect E.costs x.fr.query h n has size) x) := by
  unfold effect at he ⊢
  show (if x.fr.query = true then _ else _) = _
  by_cases h1 : x.fr.query = true
  · rw [if_pos h1, if_pos h1, addStep_zero]
  · rw [if_neg h1] at he
    rw [if_neg h1, if_neg h1]
    by_cases h2 : (!has) = true
    · rw [if_pos h2, if_pos h2, addStep_zero]
    · rw [if_neg h2] at he
      rw [if_neg h2, if_neg h2]
      cases h with
      | refund => rfl
      | delete =>
        simp only at he ⊢
        by_cases h0 : applied E.costs .delete size = 0
        · rw [if_pos h0, h0, addStep_zero]
        · rw [if_neg h0, consume_fits _ _ _ (by omega)]

/-- Draining part of the queue does not change what the state stands for. -/
theorem drain_part (fuel : ℕ) : ∀ (n : ℕ) (x : X) (y : Sync.Y) (tail : List Reply),
    Rel E tail x y → n ≤ x.q.length →
    ∃ x', drainWith E (consume E (fuel + 1)) n x = (.ok (), x') ∧ Rel E tail x' y ∧
      x'.q = x.q.drop n
  | 0, x, y, tail, h, _ => ⟨x, rfl, h, rfl⟩
  | n + 1, x, y, tail, h, hn => by
    obtain ⟨rs, s, ho, hr, hs⟩ := h.owed
    obtain ⟨fr, q, net, pro, out, tick⟩ := x
    cases ho with
    | nil => simp at hn
    | @cons k m has size q rs s he ho =>
      simp only at hs hr hn he
      have hq : fr.query = y.fr.query := h.query
      have hl : fr.limit = y.fr.limit := h.limit
      have hb : fr.used ≤ y.fr.limit := h.bound
      obtain ⟨net', t, h1, h2⟩ := receive_eq E
        { fr := fr, q := q, net := net, pro := pro, out := out, tick := tick }
        (.old has size) (rs ++ tail) (by simpa using hr)
      simp only at h2
      have hR : Rel E tail (addStep (effect E.costs fr.query k m has size)
          { fr := fr, q := q, net := net', pro := pro, out := out, tick := t }) y := by
        refine ⟨?_, ?_, ⟨rs, s, ho, ?_, ?_⟩, ?_, h.pro, h.out, h.fee, h.full⟩
        · have hfr : fr = { y.fr with used := fr.used } := h.fr
          simp only [addStep]
          generalize fr.used + _ = u
          rw [hfr]
        · show (net'.final E).1 = _; rw [h2]; exact h.store
        · show (net'.final E).2 = _; rw [h2]
        · show fr.used + _ + s = _; rw [hq]; omega
        · show fr.used + _ ≤ _; rw [hq]; omega
      obtain ⟨x', hx, hx2, hx3⟩ := drain_part fuel n _ y tail hR (Nat.le_of_succ_le_succ hn)
      refine ⟨x', ?_, hx2, hx3⟩
      rw [← hx]
      simp only [drainWith, andThen, h1]
      rw [handler_eq (by simp only; rw [hq]; exact he) (by simp only; omega)]

theorem drain_all {x : X} {y : Sync.Y} {tail : List Reply} (h : Rel E tail x y) :
    ∃ x', drain E x = (.ok (), x') ∧ Rel E tail x' y ∧ x'.q = [] := by
  unfold drain
  cases hq : x.q with
  | nil => exact ⟨x, rfl, h, hq⟩
  | cons a l =>
    obtain ⟨x', h1, h2, h3⟩ := drain_part l.length (l.length + 1) x y tail h (by rw [hq]; rfl)
    exact ⟨x', by simpa using h1, h2, by rw [h3, hq]; simp⟩

theorem Rel.bump {x : X} {y : Sync.Y} (h : Rel E [] x y) (n : ℤ)
    (hb : x.fr.used + n ≤ y.fr.limit) :
    Rel E [] (addStep n x) { y with fr := { y.fr with used := y.fr.used + n } } := by
  obtain ⟨rs, s, ho, hr, hs⟩ := h.owed
  refine ⟨?_, h.store, ⟨rs, s, ho, hr, ?_⟩, ?_, h.pro, h.out, h.fee, h.full⟩
  · show { x.fr with used := x.fr.used + n } = _
    rw [h.fr]; rfl
  · simp only [addStep]; omega
  · exact hb

/-- A computation does what its specification does. -/
def Sim (E : Env) {α : Type} (m : EM α) (s : Sync.SM α) : Prop :=
  ∀ x y, Rel E [] x y → (m x).1 = (s y).1 ∧ Rel E [] (m x).2 (s y).2

theorem Sim.andThen {α β : Type} {m : EM α} {s : Sync.SM α} {f : α → EM β} {g : α → Sync.SM β}
    (h : Sim E m s) (hf : ∀ a, Sim E (f a) (g a)) : Sim E (andThen m f) (Sync.seq s g) := by
  intro x y hxy
  obtain ⟨h1, h2⟩ := h x y hxy
  unfold PyExec.andThen Sync.seq
  rcases hm : m x with ⟨r, x'⟩
  rcases hs : s y with ⟨r', y'⟩
  rw [hm, hs] at h1 h2
  simp only at h1 h2
  subst h1
  cases r with
  | ok a => exact hf a x' y' h2
  | error e => exact ⟨rfl, h2⟩

theorem Sim.pure {α : Type} (a : Except Exc α) : Sim E (fun x => (a, x)) (fun y => (a, y)) :=
  fun _ _ h => ⟨rfl, h⟩

theorem outOfStep_rel {x : X} {y : Sync.Y} (h : Rel E [] x y) (hq : x.q = []) :
    Rel E [] { x with fr := { x.fr with used := x.fr.limit } }
      { y with fr := { y.fr with used := y.fr.limit } } := by
  obtain ⟨rs, s, ho, hr, hs⟩ := h.owed
  rw [hq] at ho
  cases ho
  refine ⟨?_, h.store, ⟨[], 0, by simpa [hq] using Owed.nil, hr, ?_⟩, ?_, h.pro, h.out, h.fee,
    h.full⟩
  · rw [h.fr]
  · simp only; rw [h.limit, add_zero]
  · simp only; rw [h.limit]

/-- `consume_step`: charging with replies outstanding is charging. -/
theorem consume_rel (step : ℤ) : ∀ (fuel : ℕ) (x : X) (y : Sync.Y), x.q.length < fuel →
    Rel E [] x y → (consume E fuel step x).1 = (Sync.charge step y).1 ∧
      Rel E [] (consume E fuel step x).2 (Sync.charge step y).2
  | 0, _, _, hf, _ => by omega
  | fuel + 1, x, y, hf, h => by
    by_cases hfit : x.fr.used + step ≤ x.fr.limit
    · rw [consume_fits _ _ _ hfit]
      have hu := h.used_le
      have hl := h.limit
      rw [Sync.charge, if_pos (by omega)]
      exact ⟨rfl, h.bump step (by omega)⟩
    · rw [consume_succ, if_neg hfit]
      by_cases hq : x.q.length > 0
      · rw [if_pos hq]
        obtain ⟨f, rfl⟩ : ∃ f, fuel = f + 1 := ⟨fuel - 1, by omega⟩
        obtain ⟨x', h1, h2, h3⟩ := drain_part f x.q.length x y [] h (le_refl _)
        rw [List.drop_length] at h3
        simp only [PyExec.andThen, h1]
        exact consume_rel step (f + 1) x' y (by rw [h3]; simp) h2
      · have hq0 : x.q = [] := List.length_eq_zero_iff.mp (by omega)
        rw [if_neg hq]
        have hfr := h.frame_eq hq0
        rw [Sync.charge, if_neg (by rw [← hfr]; exact hfit)]
        exact ⟨by rw [hfr], outOfStep_rel h hq0⟩

theorem consumeStep_sim (step : ℤ) : Sim E (consumeStep E step) (Sync.charge step) :=
  fun x y h => consume_rel step _ x y (Nat.lt_succ_self _) h

theorem charge_zero (y : Sync.Y) (h : y.fr.used ≤ y.fr.limit) :
    Sync.charge 0 y = (.ok (), y) := by
  rw [Sync.charge, if_pos (by omega)]
  simp

theorem applyStep_sim (t : StepType) (n : ℤ) :
    Sim E (applyStep E t n) (Sync.charge (applied E.costs t n)) := by
  intro x y h
  unfold applyStep
  simp only
  by_cases h0 : applied E.costs t n = 0
  · rw [if_pos h0, h0, charge_zero y h.used_bound]
    exact ⟨rfl, h⟩
  · rw [if_neg h0]
    exact consumeStep_sim _ x y h

theorem addStep_sim {n : ℤ} (hn : n ≤ 0) :
    Sim E (fun x => (.ok (), addStep n x)) (Sync.bill n) := fun x y h =>
  ⟨rfl, h.bump n (by have := h.bound; omega)⟩

/-! ### Requests -/

/-- Sending a request that changes nothing and has one answer. -/
theorem Rel.send_one {x : X} {y : Sync.Y} (h : Rel E [] x y) {r : Req} {a : Reply}
    (hr : serve1 E y.store r = (y.store, [a])) : Rel E [a] (send E r x) y := by
  obtain ⟨rs, s, ho, hr', hs⟩ := h.owed
  have hf := final_send E r x
  rw [h.store, hr] at hf
  refine ⟨h.fr, by rw [hf], ⟨rs, s, ho, ?_, hs⟩, h.bound, h.pro, h.out, h.fee, h.full⟩
  rw [hf, hr']
  simp

theorem Rel.receive {x : X} {y : Sync.Y} {a : Reply} (h : Rel E [a] x y) (hq : x.q = []) :
    ∃ x', PyExec.receive E x = (.ok a, x') ∧ Rel E [] x' y ∧ x'.q = [] := by
  obtain ⟨net, t, h1, h2⟩ := receive_eq E x a [] (h.resp_eq hq)
  have hs := h.frame_eq hq
  refine ⟨_, h1, ⟨h.fr, ?_, ⟨[], 0, ?_, ?_, ?_⟩, h.bound, h.pro, h.out, h.fee, h.full⟩, hq⟩
  · simp only; rw [h2]; exact h.store
  · simp only; rw [hq]; exact Owed.nil
  · simp only; rw [h2]; rfl
  · simp only; rw [add_zero, hs]

/-- `get_value` (after which nothing is outstanding). -/
theorem getValue_rel (k : Bytes) {x : X} {y : Sync.Y} (h : Rel E [] x y) :
    ∃ x', getValue E k x = (.ok (y.store (y.fr.acct, k)), x') ∧ Rel E [] x' y ∧ x'.q = [] := by
  have h1 := h.send_one (r := .get (x.fr.acct, k)) (a := .value (y.store (y.fr.acct, k)))
    (by rw [h.acct]; rfl)
  obtain ⟨x1, hd, h2, hq⟩ := drain_all h1
  obtain ⟨x2, hr, h3, hq2⟩ := h2.receive hq
  refine ⟨x2, ?_, h3, hq2⟩
  simp only [getValue, PyExec.andThen, hd, hr]

theorem ask_rel (id : ℕ) (limit : ℤ) {x : X} {y : Sync.Y} (h : Rel E [] x y) :
    ∃ x', ask E id limit x = (.ok (E.answer y.store id limit), x') ∧ Rel E [] x' y ∧
      x'.q = [] := by
  have h1 := h.send_one (r := .ask id limit) (a := .ans (E.answer y.store id limit)) rfl
  obtain ⟨x1, hd, h2, hq⟩ := drain_all h1
  obtain ⟨x2, hr, h3, hq2⟩ := h2.receive hq
  refine ⟨x2, ?_, h3, hq2⟩
  simp only [ask, PyExec.andThen, hd, hr]

theorem stepRemained_rel {x : X} {y : Sync.Y} (h : Rel E [] x y) :
    ∃ x', stepRemained E x = (.ok (y.fr.limit - y.fr.used), x') ∧ Rel E [] x' y ∧ x'.q = [] := by
  obtain ⟨x1, hd, h2, hq⟩ := drain_all h
  refine ⟨x1, ?_, h2, hq⟩
  simp only [stepRemained, PyExec.andThen, hd, h2.frame_eq hq]

/-! ### Database -/

theorem dbGet_sim (k : Bytes) : Sim E (dbGet E k) (Sync.get E.costs k) := by
  intro x y h
  obtain ⟨x1, h1, h2, _⟩ := getValue_rel k h
  have := (applyStep_sim (E := E) .get (((y.store (y.fr.acct, k)).getD []).length : ℤ)).andThen
    (fun _ => Sim.pure (.ok (y.store (y.fr.acct, k)))) x1 y h2
  unfold dbGet
  simp only [PyExec.andThen, h1] at this ⊢
  exact this

/-- Writing with a handler: the reply is owed. -/
theorem setValue_rel {x : X} {y : Sync.Y} (h : Rel E [] x y) (k : Bytes) (v : Option Bytes)
    (kind : HKind) (hq : y.fr.query = false)
    (he : effect E.costs false kind (v.getD []).length (y.store (y.fr.acct, k)).isSome
      ((y.store (y.fr.acct, k)).getD []).length ≤ 0) :
    ∃ x', setValue E k v (some kind) x = (.ok (), x') ∧
      Rel E [] x' (Sync.seq (Sync.write k v) (fun _ => Sync.bill
        (effect E.costs false kind (v.getD []).length (y.store (y.fr.acct, k)).isSome
          ((y.store (y.fr.acct, k)).getD []).length)) y).2 := by
  obtain ⟨rs, s, ho, hr, hs⟩ := h.owed
  unfold setValue
  rw [if_neg (by rw [h.pro, hq]; simp)]
  simp only [Option.isSome_some]
  -- the state after the request is queued
  set x0 : X := { x with out := x.out ++ [.setValue x.fr.query x.fr.ro (x.fr.acct, k) v] } with hx0
  have hf := final_send E (.set (x.fr.acct, k) v true) x0
  have hx0n : x0.net = x.net := rfl
  rw [hx0n, h.store, h.acct] at hf
  have hRel : Rel E [] { send E (.set (x.fr.acct, k) v true) x0 with
        q := (send E (.set (x.fr.acct, k) v true) x0).q ++ [(kind, (v.getD []).length)] }
      (Sync.seq (Sync.write k v) (fun _ => Sync.bill
        (effect E.costs false kind (v.getD []).length (y.store (y.fr.acct, k)).isSome
          ((y.store (y.fr.acct, k)).getD []).length)) y).2 := by
    refine ⟨?_, ?_, ⟨rs ++ [.old (y.store (y.fr.acct, k)).isSome
        ((y.store (y.fr.acct, k)).getD []).length],
      s + effect E.costs y.fr.query kind (v.getD []).length (y.store (y.fr.acct, k)).isSome
        ((y.store (y.fr.acct, k)).getD []).length, ?_, ?_, ?_⟩, h.bound, h.pro, ?_, h.fee, ?_⟩
    · exact h.fr
    · rw [h.acct, hf]
      simp only [serve1, Sync.seq, Sync.write, Sync.bill]
      congr 1
      rcases v with _ | ⟨_ | ⟨b, bs⟩⟩ <;> rfl
    · exact ho.snoc (k := kind) (n := (v.getD []).length)
          (has := (y.store (y.fr.acct, k)).isSome)
          (size := ((y.store (y.fr.acct, k)).getD []).length) (by rw [hq]; exact he)
    · rw [h.acct, hf, hr]
      simp [serve1]
    · simp only [Sync.seq, Sync.write, Sync.bill, hq]
      show x.fr.used + _ = _
      omega
    · simp only [Sync.seq, Sync.write, Sync.bill]
      show x.out ++ _ = _
      rw [h.out, h.query, h.ro, h.acct]
    · intro k'
      simp only [Sync.seq, Sync.write, Sync.bill]
      by_cases hk : k' = (y.fr.acct, k)
      · subst hk
        rw [Function.update_self]
        split_ifs with h1
        · simp
        · exact h1
      · rw [Function.update_of_ne hk]
        exact h.full k'
  generalize hz : send E (.set (x.fr.acct, k) v true) x0 = z at hRel ⊢
  by_cases hlen : (z.q ++ [(kind, (v.getD []).length)]).length > E.depth
  · rw [if_pos hlen]
    have hpos : 0 < (z.q ++ [(kind, (v.getD []).length)]).length := by simp
    obtain ⟨f, hfu⟩ : ∃ f, (z.q ++ [(kind, (v.getD []).length)]).length = f + 1 :=
      ⟨_, (Nat.succ_pred_eq_of_pos hpos).symm⟩
    obtain ⟨x', h1, h2, _⟩ := drain_part f
      ((z.q ++ [(kind, (v.getD []).length)]).length - E.depth) _ _ [] hRel (by simp)
    rw [hfu] at h1 ⊢
    exact ⟨x', h1, h2⟩
  · rw [if_neg hlen]
    exact ⟨_, rfl, hRel⟩

/-- Writing without a handler. -/
theorem setValue_none_rel {x : X} {y : Sync.Y} (h : Rel E [] x y) (k : Bytes) (v : Option Bytes)
    (hq : y.fr.query = false) :
    ∃ x', setValue E k v none x = (.ok (), x') ∧ Rel E [] x' (Sync.write k v y).2 := by
  obtain ⟨rs, s, ho, hr, hs⟩ := h.owed
  unfold setValue
  rw [if_neg (by rw [h.pro, hq]; simp)]
  simp only [Option.isSome_none]
  set x0 : X := { x with out := x.out ++ [.setValue x.fr.query x.fr.ro (x.fr.acct, k) v] } with hx0
  have hf := final_send E (.set (x.fr.acct, k) v false) x0
  have hx0n : x0.net = x.net := rfl
  rw [hx0n, h.store, h.acct] at hf
  refine ⟨_, rfl, ?_, ?_, ⟨rs, s, ?_, ?_, ?_⟩, h.bound, h.pro, ?_, h.fee, ?_⟩
  · exact h.fr
  · rw [h.acct, hf]
    simp only [serve1, Sync.write]
    congr 1
    rcases v with _ | ⟨_ | ⟨b, bs⟩⟩ <;> rfl
  · exact ho
  · rw [h.acct, hf, hr]
    simp [serve1]
  · exact hs
  · simp only [Sync.write]
    show x.out ++ _ = _
    rw [h.out, h.query, h.ro, h.acct]
  · intro k'
    simp only [Sync.write]
    by_cases hk : k' = (y.fr.acct, k)
    · subst hk
      rw [Function.update_self]
      split_ifs with h1
      · simp
      · exact h1
    · rw [Function.update_of_ne hk]
      exact h.full k'

end Verif.PyExec
