import Mathlib.Tactic.Ring
import Verif.PyExec.Sim

/-! # Every API function, and every contract -/
namespace Verif.PyExec

variable {E : Env}

theorem effect_le (hs : Sane E.costs) {y : Sync.Y} (hf : ∀ k, y.store k ≠ some []) (kind : HKind)
    (k : Key) (n : ℕ) (hn : kind = .refund → 1 ≤ n) :
    effect E.costs false kind n (y.store k).isSome ((y.store k).getD []).length ≤ 0 := by
  unfold effect
  rw [if_neg (by simp)]
  cases hk : y.store k with
  | none => simp
  | some o =>
    have ho : 1 ≤ o.length := by
      cases o with
      | nil => exact absurd hk (hf k)
      | cons b bs => simp
    rw [if_neg (by simp)]
    cases kind with
    | refund =>
      simp only [Option.getD_some]
      by_cases h0 : E.costs .schema = 0
      · rw [if_pos h0]; exact (hs n (hn rfl)).2
      · rw [if_neg h0]; exact (hs _ ho).2
    | delete => exact (hs _ ho).1

theorem effect_delete (c : Costs) (old : Option Bytes) :
    effect c false .delete 0 old.isSome (old.getD []).length =
      (match old with | none => 0 | some o => applied c .delete o.length) := by
  cases old <;> simp [effect]

theorem price_eq (c : Costs) (old : Option Bytes) (v : Bytes) :
    Sync.rebate c old + Sync.price c old v = applied c .set v.length +
      effect c false .refund v.length old.isSome (old.getD []).length := by
  unfold Sync.rebate Sync.price effect
  by_cases h : c .schema = 0
  · cases old with
    | none => simp [h]
    | some o =>
      simp [h, applied, refund, baseStep]
      ring
  · cases old with
    | none => simp [h]
    | some o =>
      simp [h]
      ring

theorem seq_ok {α β : Type} {m : Sync.SM α} {f : α → Sync.SM β} {y y' : Sync.Y} {a : α}
    (h : m y = (.ok a, y')) : Sync.seq m f y = f a y' := by
  unfold Sync.seq; rw [h]

theorem seq_err {α β : Type} {m : Sync.SM α} {f : α → Sync.SM β} {y y' : Sync.Y} {e : Exc}
    (h : m y = (.error e, y')) : Sync.seq m f y = (.error e, y') := by
  unfold Sync.seq; rw [h]

theorem andThen_ok {α β : Type} {m : EM α} {f : α → EM β} {x x' : X} {a : α}
    (h : m x = (.ok a, x')) : andThen m f x = f a x' := by
  unfold andThen; rw [h]

theorem andThen_err {α β : Type} {m : EM α} {f : α → EM β} {x x' : X} {e : Exc}
    (h : m x = (.error e, x')) : andThen m f x = (.error e, x') := by
  unfold andThen; rw [h]

/-- More steps used. -/
def plus (n : ℤ) (y : Sync.Y) : Sync.Y := { y with fr := { y.fr with used := y.fr.used + n } }

theorem plus_plus (a b : ℤ) (y : Sync.Y) : plus a (plus b y) = plus (b + a) y := by
  simp [plus, add_assoc]

theorem bill_eq (n : ℤ) (y : Sync.Y) : Sync.bill n y = (.ok (), plus n y) := rfl

theorem charge_fits {n : ℤ} {y : Sync.Y} (h : y.fr.used + n ≤ y.fr.limit) :
    Sync.charge n y = (.ok (), plus n y) := if_pos h

theorem write_plus (k : Bytes) (v : Option Bytes) (n : ℤ) (y : Sync.Y) :
    Sync.write k v (plus n y) = (.ok (), plus n (Sync.write k v y).2) := rfl

theorem setValue_none_sim (k : Bytes) (v : Option Bytes) (x : X) (y : Sync.Y)
    (h : Rel E [] x y) (hq : y.fr.query = false) :
    (setValue E k v none x).1 = (Sync.write k v y).1 ∧
      Rel E [] (setValue E k v none x).2 (Sync.write k v y).2 := by
  obtain ⟨x', h1, h2⟩ := setValue_none_rel h k v hq
  rw [h1]
  exact ⟨rfl, h2⟩

theorem charge_query (n : ℤ) (y : Sync.Y) : (Sync.charge n y).2.fr.query = y.fr.query := by
  unfold Sync.charge
  split <;> rfl

/-- Pay, then write. -/
theorem pay_write {m : EM Unit} {n : ℤ} (hm : Sim E m (Sync.charge n)) (k v : Bytes) (x : X)
    (y : Sync.Y) (h : Rel E [] x y) (hq : y.fr.query = false) :
    (andThen m (fun _ => setValue E k (some v) none) x).1 =
        (Sync.seq (Sync.charge n) (fun _ => Sync.write k (some v)) y).1 ∧
      Rel E [] (andThen m (fun _ => setValue E k (some v) none) x).2
        (Sync.seq (Sync.charge n) (fun _ => Sync.write k (some v)) y).2 := by
  obtain ⟨h1, h2⟩ := hm x y h
  have hqq := charge_query n y
  rcases hmx : m x with ⟨r, x'⟩
  rcases hsy : Sync.charge n y with ⟨r', y'⟩
  rw [hmx, hsy] at h1 h2
  rw [hsy] at hqq
  simp only at h1 h2 hqq
  subst h1
  cases r with
  | ok a =>
    rw [andThen_ok hmx, seq_ok hsy]
    exact setValue_none_sim k _ x' y' h2 (by rw [hqq, hq])
  | error e =>
    rw [andThen_err hmx, seq_err hsy]
    exact ⟨rfl, h2⟩

theorem Rel.after_full {x : X} {y : Sync.Y}
    (h : Rel E [] x { y with fr := { y.fr with used := y.fr.limit } })
    (hb : y.fr.used ≤ y.fr.limit) : Rel E [] (addStep (y.fr.used - x.fr.limit) x) y := by
  have hl : x.fr.limit = y.fr.limit := h.limit
  have hx : x.fr.used ≤ y.fr.limit := h.bound
  have := h.bump (y.fr.used - x.fr.limit) (by simp only; omega)
  have he : ({ y.fr with used := y.fr.limit + (y.fr.used - x.fr.limit) } : Frame) = y.fr := by
    rw [hl]; simp
  simp only at this
  rw [he] at this
  exact this

theorem dbPut_sim (hs : Sane E.costs) (k v : Bytes) :
    Sim E (dbPut E k v) (Sync.put E.costs k v) := by
  intro x y h
  unfold dbPut Sync.put Frame.readonly
  rw [h.query, h.ro]
  by_cases hro : y.fr.query = true ∨ y.fr.ro = true
  · rw [if_pos (by simpa using hro), if_pos hro]
    exact ⟨rfl, h⟩
  rw [if_neg (by simpa using hro), if_neg hro]
  have hq : y.fr.query = false := by
    cases hh : y.fr.query with
    | false => rfl
    | true => exact absurd (Or.inl hh) hro
  simp only
  cases v with
  | nil =>
    rw [if_neg (by simp), if_pos rfl]
    obtain ⟨x', h1, h2⟩ := setValue_rel h k (some []) .delete hq
      (effect_le hs h.full .delete _ _ (by simp))
    rw [h1]
    simp only [Option.getD_some, List.length_nil, effect_delete] at h2
    exact ⟨rfl, h2⟩
  | cons b bs =>
    rw [if_pos (by simp), if_neg (by simp)]
    have hve := effect_le hs h.full .refund (y.fr.acct, k) (b :: bs).length (by simp)
    have hp := price_eq E.costs (y.store (y.fr.acct, k)) (b :: bs)
    have hxq : x.fr.query = false := by rw [h.query, hq]
    have hc := applyStep_sim (E := E) .set ((b :: bs).length : ℤ) x y h
    by_cases hfit : y.fr.used + applied E.costs .set ((b :: bs).length : ℤ) ≤ y.fr.limit
    · -- the provisional charge fits
      rcases hap : applyStep E .set ((b :: bs).length : ℤ) x with ⟨r, x1⟩
      rw [Sync.charge, if_pos hfit, hap] at hc
      obtain ⟨hc1, hc2⟩ := hc
      simp only at hc1 hc2
      subst hc1
      obtain ⟨x2, h3, h4⟩ := setValue_rel hc2 k (some (b :: bs)) .refund hq hve
      have hm : andThen (fun x => if x.fr.query then (.ok (), x)
          else applyStep E .set ((b :: bs).length : ℤ) x)
          (fun _ => setValue E k (some (b :: bs)) (some .refund)) x = (.ok (), x2) := by
        rw [andThen_ok (a := ()) (x' := x1)]
        · exact h3
        · simp only [hxq]
          exact hap
      rw [hm]
      simp only
      -- the specification
      rw [seq_ok (bill_eq _ _), seq_ok (charge_fits (y := plus _ y) (by
        show y.fr.used + _ + _ ≤ y.fr.limit; omega)), plus_plus, hp]
      refine ⟨rfl, ?_⟩
      rw [write_plus, ← plus_plus]
      exact h4
    · -- it does not: the price is computed from the old value
      rcases hap : applyStep E .set ((b :: bs).length : ℤ) x with ⟨r, x1⟩
      rw [Sync.charge, if_neg hfit, hap] at hc
      obtain ⟨hc1, hc2⟩ := hc
      simp only at hc1 hc2
      subst hc1
      have hm : andThen (fun x => if x.fr.query then (.ok (), x)
          else applyStep E .set ((b :: bs).length : ℤ) x)
          (fun _ => setValue E k (some (b :: bs)) (some .refund)) x =
            (.error (.outOfStep y.fr.used), x1) := by
        apply andThen_err
        simp only [hxq]
        exact hap
      rw [hm]
      simp only
      have hR := hc2.after_full h.used_bound
      obtain ⟨x2, hg, hR2, _⟩ := getValue_rel k hR
      have hx2q : x2.fr.query = false := by rw [hR2.query, hq]
      unfold putFallback
      rw [andThen_ok hg]
      by_cases h0 : E.costs .schema = 0
      · rw [if_pos h0]
        have hreb : Sync.rebate E.costs (y.store (y.fr.acct, k)) = 0 := by
          unfold Sync.rebate
          cases y.store (y.fr.acct, k) <;> simp [h0]
        rw [hreb, seq_ok (a := ()) (y' := y) (by simp [Sync.bill])]
        refine pay_write ?_ k (b :: bs) x2 y hR2 hq
        unfold Sync.price
        rw [if_pos h0]
        cases ho : y.store (y.fr.acct, k) with
        | none =>
          rw [if_neg (by simp), if_neg (by simp)]
          exact applyStep_sim _ _
        | some o =>
          have : 0 < o.length := by
            cases o with
            | nil => exact absurd ho (h.full _)
            | cons b bs => simp
          rw [if_pos (by simpa using this), if_pos (by simp)]
          exact applyStep_sim _ _
      · rw [if_neg h0]
        have hreb : Sync.rebate E.costs (y.store (y.fr.acct, k)) ≤ 0 ∧
            (if (List.length ((y.store (y.fr.acct, k)).getD []) > 0) ∧ x2.fr.query = false then
              addStep (refund E.costs (if E.costs .schema = 0 then 0 else
                ((y.store (y.fr.acct, k)).getD []).length)) x2 else x2) =
            addStep (Sync.rebate E.costs (y.store (y.fr.acct, k))) x2 := by
          unfold Sync.rebate
          cases ho : y.store (y.fr.acct, k) with
          | none => simp [addStep_zero]
          | some o =>
            have : 0 < o.length := by
              cases o with
              | nil => exact absurd ho (h.full _)
              | cons b bs => simp
            rw [if_pos ⟨by simpa using this, hx2q⟩]
            simp only [h0, if_false, Option.getD_some]
            exact ⟨(hs _ this).2, trivial⟩
        obtain ⟨hreb1, hreb2⟩ := hreb
        have hR3 := (addStep_sim (E := E) hreb1 x2 y hR2).2
        have hpr : Sync.price E.costs (y.store (y.fr.acct, k)) (b :: bs) =
            applied E.costs .set ((b :: bs).length : ℤ) := by
          unfold Sync.price; rw [if_neg h0]
        rw [hpr]
        have := pay_write (applyStep_sim (E := E) .set ((b :: bs).length : ℤ)) k (b :: bs) _ _ hR3
          (by exact hq)
        rw [seq_ok (m := Sync.bill _) (a := ()) rfl]
        simp only [andThen, hreb2] at this ⊢
        exact this

theorem dbDelete_sim (hs : Sane E.costs) (k : Bytes) :
    Sim E (dbDelete E k) (Sync.delete E.costs k) := by
  intro x y h
  unfold dbDelete Sync.delete Frame.readonly
  rw [h.query, h.ro]
  by_cases hro : y.fr.query = true ∨ y.fr.ro = true
  · rw [if_pos (by simpa using hro), if_pos hro]
    exact ⟨rfl, h⟩
  rw [if_neg (by simpa using hro), if_neg hro]
  have hq : y.fr.query = false := by
    cases hh : y.fr.query with
    | false => rfl
    | true => exact absurd (Or.inl hh) hro
  obtain ⟨x', h1, h2⟩ := setValue_rel h k none .delete hq
    (effect_le hs h.full .delete _ _ (by simp))
  rw [h1]
  simp only [Option.getD_none, List.length_nil, effect_delete] at h2
  exact ⟨rfl, h2⟩

theorem dbContains_sim (id : ℕ) : Sim E (dbContains E id) (Sync.contains E.costs E.answer id) := by
  intro x y h
  obtain ⟨x1, h1, h2, _⟩ := stepRemained_rel h
  obtain ⟨x2, h3, h4, _⟩ := ask_rel id (y.fr.limit - y.fr.used) h2
  unfold dbContains Sync.contains
  rw [andThen_ok h1, andThen_ok h3]
  generalize E.answer y.store id (y.fr.limit - y.fr.used) = a
  refine Sim.andThen ?_ (fun _ => (applyStep_sim _ _).andThen fun _ => Sim.pure _) x2 y h4
  intro x y h
  by_cases hc : a.2.1 > 1
  · simp only [hc, if_true]
    exact consumeStep_sim _ x y h
  · simp only [hc, if_false]
    rw [charge_zero y h.used_bound]
    exact ⟨rfl, h⟩

theorem emitEvent_sim (id size : ℕ) : Sim E (emitEvent E id size) (Sync.event E.costs id size) := by
  intro x y h
  unfold emitEvent Sync.event Frame.readonly
  rw [h.query, h.ro]
  by_cases hro : y.fr.query = true ∨ y.fr.ro = true
  · rw [if_pos (by simpa using hro), if_pos hro]
    exact ⟨rfl, h⟩
  rw [if_neg (by simpa using hro), if_neg hro]
  have hq : y.fr.query = false := by
    cases hh : y.fr.query with
    | false => rfl
    | true => exact absurd (Or.inl hh) hro
  obtain ⟨h1, h2⟩ := applyStep_sim (E := E) (if E.costs .schema = 0 then .eventLog else .log)
    (size : ℤ) x y h
  have hqq := charge_query (applied E.costs (if E.costs .schema = 0 then .eventLog else .log)
    (size : ℤ)) y
  rcases hmx : applyStep E (if E.costs .schema = 0 then .eventLog else .log) (size : ℤ) x with
    ⟨r, x'⟩
  rcases hsy : Sync.charge (applied E.costs (if E.costs .schema = 0 then .eventLog else .log)
    (size : ℤ)) y with ⟨r', y'⟩
  rw [hmx, hsy] at h1 h2
  rw [hsy] at hqq
  simp only at h1 h2 hqq
  subst h1
  cases r with
  | error e =>
    rw [andThen_err hmx, seq_err hsy]
    exact ⟨rfl, h2⟩
  | ok u =>
    rw [andThen_ok hmx, seq_ok hsy]
    rw [if_neg (by rw [h2.pro, hqq, hq]; simp)]
    refine ⟨rfl, ?_⟩
    simp only
    exact ⟨h2.fr, h2.store, h2.owed, h2.bound, h2.pro, by
      simp only [h2.out, h2.query, h2.ro, h2.acct], h2.fee, h2.full⟩

theorem setFee_sim (p : ℤ) : Sim E (setFee p) (Sync.setFee p) := by
  intro x y h
  unfold setFee Sync.setFee
  rw [h.query]
  by_cases hq : y.fr.query = true
  · rw [if_pos hq, if_pos hq]
    exact ⟨rfl, h⟩
  · rw [if_neg hq, if_neg hq]
    by_cases hp : 0 ≤ p ∧ p ≤ 100
    · rw [if_pos hp, if_neg (by omega)]
      refine ⟨rfl, ?_, h.store, h.owed, h.bound, h.pro, h.out, fun hh => absurd hh hq, h.full⟩
      simp only
      have hfr := h.fr
      generalize x.fr.used = u at hfr
      rw [hfr]
    · rw [if_neg hp, if_pos (by omega)]
      exact ⟨rfl, h⟩

/-! ### Invocations -/

theorem finish_rel {r : Except Exc Unit} (hr : r ≠ .error .crash) {x : X} {y : Sync.Y}
    (h : Rel E [] x y) :
    ∃ x', finish E (r, x) = (.ok (Sync.finish (r, y)).1, x') ∧
      Rel E [] x' (Sync.finish (r, y)).2 ∧ x'.q = [] := by
  obtain ⟨x1, h1, h2, h3⟩ := drain_all h
  have hfr := h2.frame_eq h3
  unfold finish
  split
  · rename_i heq
    exact absurd (congrArg Prod.fst heq) hr
  · rename_i res x0 _ heq
    obtain ⟨rfl, rfl⟩ : r = res ∧ x = x0 := by
      injection heq with a b; exact ⟨a, b⟩
    rw [h1]
    simp only [Sync.finish]
    rw [show x1.fr.fee = y.fr.fee by rw [hfr]]
    by_cases hf : y.fr.fee > 0
    · rw [if_pos hf, if_pos hf]
      have hp : x1.pro = false := by
        rw [h2.pro]
        cases hh : y.fr.query with
        | false => rfl
        | true => have := h2.fee hh; omega
      rw [if_neg (by rw [hp]; simp)]
      refine ⟨_, rfl, ?_, h3⟩
      exact ⟨h2.fr, h2.store, h2.owed, h2.bound, h2.pro, by
        simp only [h2.out, hfr], h2.fee, h2.full⟩
    · rw [if_neg hf, if_neg hf]
      exact ⟨_, rfl, h2, h3⟩

theorem callResult_sim {newLimit status used : ℤ} {x : X} {y : Sync.Y} (h : Rel E [] x y)
    (hq : x.q = []) (hn : newLimit = y.fr.limit - y.fr.used) :
    (callResult newLimit status used x).1 = (Sync.settle newLimit status used y).1 ∧
      Rel E [] (callResult newLimit status used x).2 (Sync.settle newLimit status used y).2 := by
  have hfr := h.frame_eq hq
  unfold callResult Sync.settle
  by_cases hu : used > newLimit
  · rw [if_pos hu, if_pos hu, seq_ok (bill_eq _ _)]
    exact ⟨rfl, h.bump newLimit (by rw [hfr]; omega)⟩
  · rw [if_neg hu, if_neg hu, seq_ok (bill_eq _ _)]
    have := h.bump used (by rw [hfr]; omega)
    by_cases h0 : status = 0
    · rw [if_pos h0, if_pos h0]; exact ⟨rfl, this⟩
    · rw [if_neg h0, if_neg h0]; exact ⟨rfl, this⟩

theorem clean_full (st : Store) (k : Key) : clean st k ≠ some [] := by
  unfold clean
  split <;> simp

theorem charge_no_crash (n : ℤ) (y : Sync.Y) : (Sync.charge n y).1 ≠ .error .crash := by
  unfold Sync.charge
  split <;> simp

theorem seq_no_crash {α β : Type} {m : Sync.SM α} {f : α → Sync.SM β} {y : Sync.Y}
    (h1 : (m y).1 ≠ .error .crash) (h2 : ∀ a z, (f a z).1 ≠ .error .crash) :
    (Sync.seq m f y).1 ≠ .error .crash := by
  unfold Sync.seq
  rcases hm : m y with ⟨r, z⟩
  rw [hm] at h1
  cases r with
  | ok a => exact h2 a z
  | error e => intro h; simp only at h1 h; exact h1 (by injection h with h; rw [h])

theorem spec_no_crash (c : Costs) (answer : Store → ℕ → ℤ → Bool × ℕ × ℕ) (y : Sync.Y) :
    (∀ k, (Sync.get c k y).1 ≠ .error .crash) ∧
    (∀ k v, (Sync.put c k v y).1 ≠ .error .crash) ∧
    (∀ k, (Sync.delete c k y).1 ≠ .error .crash) ∧
    (∀ id, (Sync.contains c answer id y).1 ≠ .error .crash) ∧
    (∀ id n, (Sync.event c id n y).1 ≠ .error .crash) ∧
    (∀ p, (Sync.setFee p y).1 ≠ .error .crash) := by
  have hw : ∀ k v z, (Sync.write k v z).1 ≠ .error .crash := fun _ _ _ => by simp [Sync.write]
  have hb : ∀ n z, (Sync.bill n z).1 ≠ .error .crash := fun _ _ => by simp [Sync.bill]
  refine ⟨fun k => ?_, fun k v => ?_, fun k => ?_, fun id => ?_, fun id n => ?_, fun p => ?_⟩
  · exact seq_no_crash (charge_no_crash _ _) (fun _ _ => by simp)
  · unfold Sync.put
    split
    · simp
    · simp only
      split
      · exact seq_no_crash (hw _ _ _) (fun _ _ => hb _ _)
      · exact seq_no_crash (hb _ _) (fun _ _ => seq_no_crash (charge_no_crash _ _)
          (fun _ _ => hw _ _ _))
  · unfold Sync.delete
    split
    · simp
    · exact seq_no_crash (hw _ _ _) (fun _ _ => hb _ _)
  · exact seq_no_crash (charge_no_crash _ _) (fun _ _ => seq_no_crash (charge_no_crash _ _)
      (fun _ _ => by simp))
  · unfold Sync.event
    split
    · simp
    · exact seq_no_crash (charge_no_crash _ _) (fun _ _ => by simp)
  · unfold Sync.setFee
    split
    · simp
    · split <;> simp

/-- One API call followed by the rest of the contract. -/
theorem step_sim {α : Type} {m : EM α} {s : Sync.SM α} 
    {f : Except Exc α → EM Unit} {g : Except Exc α → Sync.SM Unit}
    (hm : Sim E m s) (hc : ∀ y, (s y).1 ≠ .error .crash)
    (ih : ∀ r, Sim E (f r) (g r) ∧ ∀ y, (g r y).1 ≠ .error .crash) :
    Sim E (fun x => next (m x) f) (fun y => g (s y).1 (s y).2) := by
  intro x y h
  obtain ⟨h1, h2⟩ := hm x y h
  have hcy := hc y
  rw [← h1] at hcy
  rcases hmx : m x with ⟨r, x'⟩
  rw [hmx] at h1 h2 hcy
  simp only [hmx, next]
  rw [← h1]
  rcases r with e | a
  · cases e with
    | crash => exact absurd rfl hcy
    | _ => exact (ih _).1 x' _ h2
  · exact (ih _).1 x' _ h2


theorem settle_no_crash (a b c : ℤ) (y : Sync.Y) : (Sync.settle a b c y).1 ≠ .error .crash := by
  unfold Sync.settle
  split
  · exact seq_no_crash (by simp [Sync.bill]) (fun _ _ => by simp)
  · exact seq_no_crash (by simp [Sync.bill]) (fun _ _ => by simp only; split <;> simp)

theorem Rel.flushed {x : X} {y : Sync.Y} (h : Rel E [] x y) (hq : x.q = []) :
    flush E x.net = ⟨y.store, [], []⟩ := by
  rw [flush_eq, h.store, h.resp_eq hq]

/-- A state with nothing outstanding. -/
theorem Rel.mk_quiet {fr : Frame} {store : Store} {out : List Out} {pro : Bool} {tick : ℕ}
    (hp : pro = fr.query) (hb : fr.used ≤ fr.limit) (hf : fr.query = true → fr.fee ≤ 0)
    (hs : ∀ k, store k ≠ some []) :
    Rel E [] { fr := fr, q := [], net := ⟨store, [], []⟩, pro := pro, out := out, tick := tick }
      ⟨fr, store, out⟩ :=
  ⟨rfl, rfl, ⟨[], 0, Owed.nil, rfl, by simp⟩, hb, hp, rfl, hf, hs⟩

theorem run_sim (hs : Sane E.costs) (p : Prog) :
    Sim E (run E p) (Sync.run E.costs E.answer p) ∧
      ∀ y, (Sync.run E.costs E.answer p y).1 ≠ .error .crash := by
  have hnc := spec_no_crash E.costs E.answer
  induction p with
  | ret => exact ⟨fun x y h => ⟨rfl, h⟩, fun y => by simp [Sync.run]⟩
  | raise e =>
    refine ⟨fun x y h => ⟨rfl, h⟩, fun y => ?_⟩
    simp only [Sync.run]
    split <;> rename_i hh
    · simp
    · intro h; injection h with h; exact hh h
  | get k κ ih =>
    exact ⟨step_sim (dbGet_sim k) (fun y => (hnc y).1 k) ih, fun y => (ih _).2 _⟩
  | put k v κ ih =>
    exact ⟨step_sim (dbPut_sim hs k v) (fun y => (hnc y).2.1 k v) ih, fun y => (ih _).2 _⟩
  | del k κ ih =>
    exact ⟨step_sim (dbDelete_sim hs k) (fun y => (hnc y).2.2.1 k) ih,
      fun y => (ih _).2 _⟩
  | contains id κ ih =>
    exact ⟨step_sim (dbContains_sim id) (fun y => (hnc y).2.2.2.1 id) ih,
      fun y => (ih _).2 _⟩
  | balance id κ ih =>
    refine ⟨step_sim (s := fun y => (.ok (E.answer y.store id 0), y)) ?_
      (fun y => by simp) ih, fun y => (ih _).2 _⟩
    intro x y h
    obtain ⟨x', h1, h2, _⟩ := ask_rel id 0 h
    rw [h1]
    exact ⟨rfl, h2⟩
  | event id n κ ih =>
    exact ⟨step_sim (emitEvent_sim id n) (fun y => (hnc y).2.2.2.2.1 id n) ih,
      fun y => (ih _).2 _⟩
  | api n κ ih =>
    exact ⟨step_sim (consumeStep_sim _) (fun y => charge_no_crash _ _) ih,
      fun y => (ih _).2 _⟩
  | setFee p κ ih =>
    exact ⟨step_sim (setFee_sim p) (fun y => (hnc y).2.2.2.2.2 p) ih,
      fun y => (ih _).2 _⟩
  | call acct query ro over child κ ihc ih =>
    refine ⟨fun x y h => ?_, fun y => ?_⟩
    · obtain ⟨x1, h1, h2, hq⟩ := stepRemained_rel h
      have hfr := h2.frame_eq hq
      simp only [run, h1, next, Sync.run]
      rw [h2.flushed hq]
      by_cases ho : y.fr.limit - y.fr.used < over
      · rw [if_pos ho, if_pos ho]
        have hz : Rel E [] { x1 with net := ⟨y.store, [], []⟩ } y := by
          have := Rel.mk_quiet (E := E) (fr := y.fr) (store := y.store) (out := y.out)
            (pro := x1.pro) (tick := x1.tick) h2.pro h2.used_bound h2.fee h2.full
          rw [← hfr, ← h2.out] at this
          rw [hq]
          have hy : (⟨x1.fr, y.store, x1.out⟩ : Sync.Y) = y := by rw [hfr, h2.out]
          rw [hy] at this
          exact this
        obtain ⟨hr1, hr2⟩ := callResult_sim (newLimit := y.fr.limit - y.fr.used)
          (status := codeOutOfStep) (used := y.fr.limit - y.fr.used) hz hq rfl
        rw [← hr1]
        exact (ih _).1 _ _ hr2
      · rw [if_neg ho, if_neg ho]
        have hz : Rel E [] { x1 with net := ⟨y.store, [], []⟩, pro := (x1.fr.query || query), fr :=
            ⟨acct, x1.fr.query || query, ro, y.fr.limit - y.fr.used - over, 0, 0⟩ }
            { y with fr := ⟨acct, y.fr.query || query, ro, y.fr.limit - y.fr.used - over, 0, 0⟩ } := by
          have := Rel.mk_quiet (E := E)
            (fr := ⟨acct, y.fr.query || query, ro, y.fr.limit - y.fr.used - over, 0, 0⟩)
            (store := y.store) (out := y.out)
            (pro := y.fr.query || query) (tick := x1.tick) rfl (by simp only; omega)
            (fun _ => by simp) h2.full
          rw [hq, hfr, h2.out]
          exact this
        obtain ⟨hc1, hc2⟩ := ihc.1 _ _ hz
        have hcc := ihc.2 { y with fr :=
          ⟨acct, y.fr.query || query, ro, y.fr.limit - y.fr.used - over, 0, 0⟩ }
        generalize run E child _ = xr at hc1 hc2 ⊢
        generalize Sync.run E.costs E.answer child _ = yr at hc1 hc2 hcc ⊢
        obtain ⟨r, x2⟩ := xr
        obtain ⟨r', y2⟩ := yr
        simp only at hc1 hc2 hcc
        subst hc1
        obtain ⟨x3, hf1, hf2, hf3⟩ := finish_rel hcc hc2
        rw [hf1]
        simp only
        rw [hf2.flushed hf3]
        have hw : Rel E [] { x3 with fr := x1.fr, pro := x1.pro, net :=
              if (Sync.finish (r, y2)).1 = 0 then
                ⟨(Sync.finish (r, y2)).2.store, [], []⟩
              else ⟨y.store, [], []⟩ }
            { fr := y.fr, out := (Sync.finish (r, y2)).2.out, store :=
              if (Sync.finish (r, y2)).1 = 0 then (Sync.finish (r, y2)).2.store else y.store } := by
          have := Rel.mk_quiet (E := E) (fr := y.fr)
            (store := if (Sync.finish (r, y2)).1 = 0 then (Sync.finish (r, y2)).2.store
              else y.store) (out := (Sync.finish (r, y2)).2.out)
            (pro := x1.pro) (tick := x3.tick) h2.pro h2.used_bound h2.fee (by
              intro k
              split
              · exact hf2.full k
              · exact h2.full k)
          rw [hf3, hfr, hf2.out]
          split at this
          · rename_i h0; rw [if_pos h0, if_pos h0]; exact this
          · rename_i h0; rw [if_neg h0, if_neg h0]; exact this
        obtain ⟨hr1, hr2⟩ := callResult_sim (newLimit := y.fr.limit - y.fr.used)
          (status := (Sync.finish (r, y2)).1) (used := over + x3.fr.used) hw hf3 rfl
        rw [hf2.frame_eq hf3] at hr1 hr2 ⊢
        rw [← hr1]
        exact (ih _).1 _ _ hr2
    · simp only [Sync.run]
      split
      · exact (ih _).2 _
      · exact (ih _).2 _
  | remote f κ ih =>
    refine ⟨fun x y h => ?_, fun y => (ih _).2 _⟩
    obtain ⟨x1, h1, h2, hq⟩ := stepRemained_rel h
    have hfr := h2.frame_eq hq
    simp only [run, h1, next, Sync.run]
    rw [h2.flushed hq]
    simp only
    have hz : Rel E [] { x1 with net := if x1.fr.query then ⟨y.store, [], []⟩ else
          ⟨clean (f (y.fr.limit - y.fr.used) y.store).1, [], []⟩ }
        { y with store := (if y.fr.query then y.store else
          clean (f (y.fr.limit - y.fr.used) y.store).1) } := by
      have := Rel.mk_quiet (E := E) (fr := y.fr) (store := if y.fr.query then y.store else
          clean (f (y.fr.limit - y.fr.used) y.store).1) (out := y.out)
        (pro := x1.pro) (tick := x1.tick) h2.pro h2.used_bound h2.fee (by
          intro k
          split
          · exact h2.full k
          · exact clean_full _ k)
      rw [hq, hfr, h2.out]
      by_cases hyq : y.fr.query = true
      · rw [if_pos hyq] at this; rw [if_pos hyq, if_pos hyq]; exact this
      · rw [if_neg hyq] at this; rw [if_neg hyq, if_neg hyq]; exact this
    obtain ⟨hr1, hr2⟩ := callResult_sim (newLimit := y.fr.limit - y.fr.used)
      (status := (f (y.fr.limit - y.fr.used) y.store).2.1)
      (used := (f (y.fr.limit - y.fr.used) y.store).2.2) hz hq rfl
    rw [← hr1]
    exact (ih _).1 _ _ hr2

/-- The pipelined executor is the direct one. -/
theorem invoke_eq (hs : Sane E.costs) (p : Prog) (acct : ℕ) (query ro : Bool) (limit : ℤ)
    (hl : 0 ≤ limit) (store : Store) (hst : ∀ k, store k ≠ some []) :
    invoke E p acct query ro limit store =
      some (Sync.invoke E.costs E.answer p acct query ro limit store) := by
  obtain ⟨h1, h2⟩ := run_sim hs p
  have hz : Rel E [] ⟨⟨acct, query, ro, limit, 0, 0⟩, [], ⟨store, [], []⟩, query, [], 0⟩
      ⟨⟨acct, query, ro, limit, 0, 0⟩, store, []⟩ :=
    Rel.mk_quiet rfl hl (fun _ => le_refl _) hst
  obtain ⟨h3, h4⟩ := h1 _ _ hz
  have h5 := h2 ⟨⟨acct, query, ro, limit, 0, 0⟩, store, []⟩
  unfold invoke Sync.invoke
  generalize run E p _ = xr at h3 h4 ⊢
  generalize Sync.run E.costs E.answer p _ = yr at h3 h4 h5 ⊢
  obtain ⟨r, x⟩ := xr
  obtain ⟨r', y⟩ := yr
  simp only at h3 h4 h5
  subst h3
  obtain ⟨x3, hf1, hf2, hf3⟩ := finish_rel h5 h4
  rw [hf1]
  simp only
  rw [hf2.flushed hf3, hf2.frame_eq hf3, hf2.out]

end Verif.PyExec
