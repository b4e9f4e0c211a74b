import Verif.Service.FeePayer
import Verif.Service.DepositProps
import Mathlib.Algebra.BigOperators.Group.Finset.Basic
import Mathlib.Algebra.Order.BigOperators.Group.List

/-! # Lemmas on fee payers -/

namespace Verif.Service
open Verif

/-- All coins in these accounts, in balances and in deposits. -/
def World.total (w : World) (S : Finset Bytes) : ℤ := ∑ a ∈ S, (w.bal a + held (w.dep a))

/-- Every deposit of every account is in order, and an account has no two deposits with the same id. -/
def World.Sound (w : World) : Prop := ∀ a, (∀ d ∈ w.dep a, Dep.Sound d) ∧ (w.dep a).Pairwise Dep.Apart

/-- Sums over the objects a list of pointers points to. -/
def owed (h : PHeap) (is : List ℕ) : ℤ := (is.map (fun i : ℕ => ((h[i]?).bind Payer.steps).getD 0)).sum
def paidSum (h : PHeap) (is : List ℕ) : ℤ := (is.map (fun i : ℕ => ((h[i]?).bind Payer.paid).getD 0)).sum
def feeSum (h : PHeap) (is : List ℕ) : ℤ := (is.map (fun i : ℕ => ((h[i]?).bind Payer.fee).getD 0)).sum

/-- The steps of the payer are fixed. -/
def Payer.IsSet (p : Payer) : Prop :=
  0 ≤ p.portion ∧ p.portion ≤ 100 ∧ ∃ b, p.base = some b ∧ 0 ≤ b ∧ p.steps = some (b * p.portion / 100)

/-- The steps of the payer are still open. -/
def Payer.IsOpen (p : Payer) : Prop :=
  0 ≤ p.portion ∧ p.portion ≤ 100 ∧ p.base = none ∧ p.steps = none

/-- Pointers ready for `PaySteps`: distinct, all with fixed steps except perhaps the last. -/
def PReady (h : PHeap) : List ℕ → Prop
  | [] => True
  | i :: is => (∃ p, h[i]? = some p ∧ (p.IsSet ∨ (p.IsOpen ∧ is = []))) ∧ i ∉ is ∧ PReady h is

theorem share_bounds {b p : ℤ} (hb : 0 ≤ b) (h0 : 0 ≤ p) (h1 : p ≤ 100) : 0 ≤ b * p / 100 ∧ b * p / 100 ≤ b := by
  constructor
  · exact Int.ediv_nonneg (mul_nonneg hb h0) (by norm_num)
  · have : b * p ≤ b * 100 := mul_le_mul_of_nonneg_left h1 hb
    omega

theorem share_add {b p u : ℤ} (hu : 0 ≤ u) (h0 : 0 ≤ p) (h1 : p ≤ 100) :
    b * p / 100 ≤ (b + u) * p / 100 ∧ (b + u) * p / 100 ≤ b * p / 100 + u := by
  have e : (b + u) * p = b * p + u * p := by ring
  have : u * p ≤ u * 100 := mul_le_mul_of_nonneg_left h1 hu
  have : 0 ≤ u * p := mul_nonneg hu h0
  rw [e]
  generalize b * p = x at *
  generalize u * p = y at *
  omega

theorem Payer.IsSet.delegate {p : Payer} (h : p.IsSet) {u : ℤ} (hu : 0 ≤ u) :
    (p.delegateSteps u).IsSet ∧ p.steps.getD 0 ≤ (p.delegateSteps u).steps.getD 0 ∧
      (p.delegateSteps u).steps.getD 0 ≤ p.steps.getD 0 + u := by
  obtain ⟨h1, h2, b, h3, h4, h5⟩ := h
  have e : p.delegateSteps u = { p with base := some (b + u), steps := some ((b + u) * p.portion / 100) } := by
    simp [Payer.delegateSteps, h3, Payer.calcStepsToPay]
  rw [e]
  refine ⟨⟨h1, h2, b + u, rfl, by omega, rfl⟩, ?_⟩
  rw [h5]
  exact share_add hu h1 h2

theorem Payer.IsOpen.delegate {p : Payer} (h : p.IsOpen) {u : ℤ} : p.delegateSteps u = p := by
  simp [Payer.delegateSteps, h.2.2.1]

theorem delegate_same (p : Payer) (u : ℤ) : (p.delegateSteps u).paid = p.paid ∧ (p.delegateSteps u).fee = p.fee ∧
    (p.delegateSteps u).payer = p.payer ∧ (p.delegateSteps u).portion = p.portion ∧ (p.delegateSteps u).parent = p.parent := by
  unfold Payer.delegateSteps; split <;> simp

@[simp] theorem owed_nil (h : PHeap) : owed h [] = 0 := rfl
@[simp] theorem owed_cons (h : PHeap) (i : ℕ) (is : List ℕ) :
    owed h (i :: is) = ((h[i]?).bind Payer.steps).getD 0 + owed h is := by simp [owed]
@[simp] theorem owed_append (h : PHeap) (is js : List ℕ) : owed h (is ++ js) = owed h is + owed h js := by simp [owed]

theorem owed_congr {h h' : PHeap} {is : List ℕ} (he : ∀ i ∈ is, h'[i]? = h[i]?) : owed h' is = owed h is := by
  unfold owed; congr 1; exact List.map_congr_left (fun i hi => by rw [he i hi])

theorem paidSum_congr {h h' : PHeap} {is : List ℕ}
    (he : ∀ i ∈ is, (h'[i]?).bind Payer.paid = (h[i]?).bind Payer.paid) : paidSum h' is = paidSum h is := by
  unfold paidSum; congr 1; exact List.map_congr_left (fun i hi => by rw [he i hi])

theorem PReady.congr {h h' : PHeap} : ∀ {is : List ℕ}, PReady h is → (∀ i ∈ is, h'[i]? = h[i]?) → PReady h' is
  | [], _, _ => trivial
  | i :: is, ⟨⟨p, h1, h2⟩, h3, h4⟩, he =>
    ⟨⟨p, by rw [he i (by simp)]; exact h1, h2⟩, h3, h4.congr (fun j hj => he j (by simp [hj]))⟩

theorem getElem?_modify' (h : PHeap) (j k : ℕ) (f : Payer → Payer) :
    (h.modify j f)[k]? = if j = k then (h[k]?).map f else h[k]? := by
  rw [List.getElem?_modify]
  by_cases hjk : j = k
  · simp [hjk]
  · simp [hjk]

/-- Delegating steps to some object keeps the pointers ready, and adds at most these steps to what is owed. -/
theorem PReady.delegate {h : PHeap} {u : ℤ} (hu : 0 ≤ u) (j : ℕ) : ∀ {is : List ℕ}, PReady h is →
    PReady (h.modify j (fun q => q.delegateSteps u)) is ∧
    owed h is ≤ owed (h.modify j (fun q => q.delegateSteps u)) is ∧
    owed (h.modify j (fun q => q.delegateSteps u)) is ≤ owed h is + u
  | [], _ => by simp [PReady, hu]
  | i :: is, ⟨⟨p, h1, h2⟩, h3, h4⟩ => by
    by_cases hij : j = i
    · subst hij
      have hsame : ∀ k ∈ is, (h.modify j (fun q => q.delegateSteps u))[k]? = h[k]? := by
        intro k hk
        rw [getElem?_modify', if_neg]
        rintro rfl; exact h3 hk
      have hj : (h.modify j (fun q => q.delegateSteps u))[j]? = some (p.delegateSteps u) := by
        rw [getElem?_modify', if_pos rfl, h1]; rfl
      have ho := owed_congr hsame
      rcases h2 with h2 | h2
      · obtain ⟨d1, d2, d3⟩ := h2.delegate hu
        refine ⟨⟨⟨_, hj, Or.inl d1⟩, h3, h4.congr hsame⟩, ?_, ?_⟩ <;>
        · simp only [owed_cons, hj, ho, h1, Option.bind_some]; omega
      · have hd := h2.1.delegate (u := u)
        rw [hd] at hj
        refine ⟨⟨⟨_, hj, Or.inr h2⟩, h3, h4.congr hsame⟩, ?_, ?_⟩ <;>
        · simp only [owed_cons, hj, ho, h1, Option.bind_some]; omega
    · have hi : (h.modify j (fun q => q.delegateSteps u))[i]? = h[i]? := by
        rw [getElem?_modify', if_neg hij]
      obtain ⟨a1, a2, a3⟩ := h4.delegate hu j
      refine ⟨⟨⟨p, by rw [hi]; exact h1, h2⟩, h3, a1⟩, ?_, ?_⟩ <;>
      · rw [owed_cons, owed_cons, hi]; omega

/-- Paying from one account. -/
theorem accountPay_spec {ctx : PayCtx} {s : ℤ} {dl : List Dep} (hd : (∀ d ∈ dl, d.Sound) ∧ dl.Pairwise Dep.Apart) (hs : 0 ≤ s) :
    0 ≤ (accountPaySteps ctx s dl).1.paid.getD 0 ∧ (accountPaySteps ctx s dl).1.paid.getD 0 ≤ s ∧
    0 ≤ (if (accountPaySteps ctx s dl).1.paid.isSome then (accountPaySteps ctx s dl).1.byDeposit else none).getD 0 ∧
    (if (accountPaySteps ctx s dl).1.paid.isSome then (accountPaySteps ctx s dl).1.byDeposit else none).getD 0
      ≤ (accountPaySteps ctx s dl).1.paid.getD 0 ∧
    held (accountPaySteps ctx s dl).2 = held dl -
      (if (accountPaySteps ctx s dl).1.paid.isSome then (accountPaySteps ctx s dl).1.byDeposit else none).getD 0 * ctx.price ∧
    ((∀ d ∈ (accountPaySteps ctx s dl).2, d.Sound) ∧ (accountPaySteps ctx s dl).2.Pairwise Dep.Apart) := by
  unfold accountPaySteps
  by_cases hc : ctx.feeSharing = true ∧ dl ≠ []
  · rw [if_pos hc]
    by_cases hp : ctx.price ≤ 0
    · rw [C45_pay_nothing (Or.inl hp)]
      simp [hs]; exact hd
    · obtain ⟨paid, h1, h2, h3, h4, h5, h6, h7, h8, h9, _⟩ := C45_pay (bh := ctx.height) hd.1 (not_le.1 hp) hs hc.2
      simp only [h1, Option.getD_some, Option.isSome_some, if_true]
      exact ⟨h2, h3, h4, h5, h6, h9, kept_mem h8 hd.2⟩
  · rw [if_neg hc]
    simp [hs]; exact hd

theorem World.total_setDep {w : World} {S : Finset Bytes} {id : Bytes} (hid : id ∈ S) (dl : List Dep) :
    (w.setDep id dl).total S = w.total S + (held dl - held (w.dep id)) := by
  unfold World.total
  rw [← Finset.add_sum_erase S _ hid, ← Finset.add_sum_erase S (fun a => w.bal a + held (w.dep a)) hid]
  have : ∑ x ∈ S.erase id, ((w.setDep id dl).bal x + held ((w.setDep id dl).dep x))
      = ∑ x ∈ S.erase id, (w.bal x + held (w.dep x)) := by
    apply Finset.sum_congr rfl
    intro x hx
    have : x ≠ id := (Finset.mem_erase.1 hx).1
    simp [World.setDep, this]
  rw [this]
  simp only [World.setDep, if_true]
  ring

theorem World.total_setBal {w : World} {S : Finset Bytes} {id : Bytes} (hid : id ∈ S) (v : ℤ) :
    (w.setBal id v).total S = w.total S + (v - w.bal id) := by
  unfold World.total
  rw [← Finset.add_sum_erase S _ hid, ← Finset.add_sum_erase S (fun a => w.bal a + held (w.dep a)) hid]
  have : ∑ x ∈ S.erase id, ((w.setBal id v).bal x + held ((w.setBal id v).dep x))
      = ∑ x ∈ S.erase id, (w.bal x + held (w.dep x)) := by
    apply Finset.sum_congr rfl
    intro x hx
    have : x ≠ id := (Finset.mem_erase.1 hx).1
    simp [World.setBal, this]
  rw [this]
  simp only [World.setBal, if_true]
  ring

/-- What stays the same of all objects when somebody pays. -/
def PKept (h h' : PHeap) : Prop :=
  h'.length = h.length ∧ ∀ k : ℕ, (h'[k]?).map (fun p => (p.payer, p.portion, p.parent)) = (h[k]?).map (fun p => (p.payer, p.portion, p.parent))

theorem owed_nonneg {h : PHeap} : ∀ {is : List ℕ}, PReady h is → 0 ≤ owed h is
  | [], _ => by simp
  | j :: js, ⟨⟨q, g1, g2⟩, g3, g4⟩ => by
    have := owed_nonneg g4
    rw [owed_cons, g1]
    rcases g2 with ⟨a1, a2, b, a3, a4, a5⟩ | ⟨⟨a1, a2, a3, a4⟩, _⟩
    · have := (share_bounds a4 a1 a2).1
      simp only [Option.bind_some, a5, Option.getD_some]; omega
    · simp only [Option.bind_some, a4, Option.getD_none]; omega

/-- What one payment does. -/
def PayerPays (ctx : PayCtx) (w : World) (h : PHeap) (i : ℕ) (is : List ℕ) (toPay : ℤ) : Prop :=
    ∃ w' h' paid fee p s, payerPaySteps ctx w h i toPay = (w', h', paid) ∧ h[i]? = some p ∧
      s = (p.ensureStepsToPay toPay).steps.getD 0 ∧
      0 ≤ paid ∧ paid ≤ s ∧ s ≤ toPay ∧ 0 ≤ fee ∧ fee ≤ paid ∧
      PReady h' is ∧ owed h' is ≤ toPay - paid ∧ w'.Sound ∧ w'.bal = w.bal ∧
      (∀ a, a ≠ accountID p.payer → w'.dep a = w.dep a) ∧
      (accountID p.payer = ctx.systemID → w'.dep = w.dep ∧ fee = 0) ∧
      (∀ S : Finset Bytes, (accountID p.payer ≠ ctx.systemID → accountID p.payer ∈ S) → w'.total S = w.total S - fee * ctx.price) ∧
      PKept h h' ∧
      ((h'[i]?).bind Payer.paid = some paid) ∧ (((h'[i]?).bind Payer.fee).getD 0 = fee ∨ accountID p.payer = ctx.systemID ∧
        (h'[i]?).bind Payer.fee = p.fee) ∧
      (∀ k, k ≠ i → (h'[k]?).bind Payer.paid = (h[k]?).bind Payer.paid ∧ (h'[k]?).bind Payer.fee = (h[k]?).bind Payer.fee)

/-- One payer pays. -/
theorem payer_spec {ctx : PayCtx} {w : World} {h : PHeap} {i : ℕ} {is : List ℕ} {toPay : ℤ}
    (hr : PReady h (i :: is)) (ho : owed h (i :: is) ≤ toPay) (ht : 0 ≤ toPay) (hw : w.Sound) :
    PayerPays ctx w h i is toPay := by
  obtain ⟨⟨p, h1, h2⟩, h3, h4⟩ := hr
  -- what the payer has to pay
  have hs : 0 ≤ (p.ensureStepsToPay toPay).steps.getD 0 ∧ (p.ensureStepsToPay toPay).steps.getD 0 + owed h is ≤ toPay ∧
      (p.ensureStepsToPay toPay).payer = p.payer ∧ (p.ensureStepsToPay toPay).parent = p.parent ∧
      (p.ensureStepsToPay toPay).portion = p.portion ∧ (p.ensureStepsToPay toPay).fee = p.fee := by
    rcases h2 with ⟨a1, a2, b, a3, a4, a5⟩ | ⟨⟨a1, a2, a3, a4⟩, rfl⟩
    · have e : p.ensureStepsToPay toPay = p := by simp [Payer.ensureStepsToPay, a5]
      rw [e]
      refine ⟨?_, ?_, rfl, rfl, rfl, rfl⟩
      · rw [a5]; exact (share_bounds a4 a1 a2).1
      · simpa [owed_cons, h1] using ho
    · have e : p.ensureStepsToPay toPay = { p with base := some toPay, steps := some (toPay * p.portion / 100) } := by
        simp [Payer.ensureStepsToPay, a4, Payer.calcStepsToPay]
      rw [e]
      have := share_bounds ht a1 a2
      exact ⟨this.1, by simpa using this.2, rfl, rfl, rfl, rfl⟩
  have hle : 0 ≤ owed h is := owed_nonneg h4
  generalize hp : p.ensureStepsToPay toPay = q at hs
  obtain ⟨s0, s1, s2, s3, s4, s5⟩ := hs
  have hil : i < h.length := (List.getElem?_eq_some_iff.1 h1).1
  have hset : ∀ (x : Payer) (k : ℕ), k ≠ i → (h.set i x)[k]? = h[k]? := by
    intro x k hk; rw [List.getElem?_set_ne (Ne.symm hk)]
  have hseti : ∀ x : Payer, (h.set i x)[i]? = some x := by
    intro x; rw [List.getElem?_set_self hil]
  by_cases hsys : accountID q.payer = ctx.systemID
  · have e : payerPaySteps ctx w h i toPay = ({ w with sysUsage := w.sysUsage + q.steps.getD 0 * ctx.price },
        h.set i { q with paid := some (q.steps.getD 0) }, q.steps.getD 0) := by
      simp only [payerPaySteps, h1, hp]; rw [if_pos hsys]
    have hsame : ∀ k ∈ is, (h.set i { q with paid := some (q.steps.getD 0) })[k]? = h[k]? :=
      fun k hk => hset _ k (by rintro rfl; exact h3 hk)
    refine ⟨_, _, _, 0, p, q.steps.getD 0, e, h1, by rw [hp], s0, le_refl _, by omega, le_refl _, s0, h4.congr hsame, ?_, hw, rfl,
      fun _ _ => rfl, fun _ => ⟨rfl, rfl⟩, ?_, ⟨by simp, ?_⟩, ?_, Or.inr ⟨s2 ▸ hsys, ?_⟩, ?_⟩
    · rw [owed_congr hsame]; omega
    · intro S _; simp [World.total]
    · intro k
      by_cases hk : k = i
      · subst hk; rw [hseti, h1]; simp [s2, s3, s4]
      · rw [hset _ k hk]
    · rw [hseti]; rfl
    · rw [hseti]; simp [s5]
    · intro k hk; rw [hset _ k hk]; exact ⟨rfl, rfl⟩
  · obtain ⟨p1, p2, p3, p4, p5, p6⟩ := accountPay_spec (ctx := ctx) (s := q.steps.getD 0) (hw (accountID q.payer)) s0
    generalize hpay : accountPaySteps ctx (q.steps.getD 0) (w.dep (accountID q.payer)) = r at *
    generalize hfee : (if r.1.paid.isSome then r.1.byDeposit else none) = fee at *
    generalize hpaid : r.1.paid.getD 0 = paid at *
    have hwS : (w.setDep (accountID q.payer) r.2).Sound := by
      intro a
      simp only [World.setDep]
      split
      · exact p6
      · exact hw a
    have key : ∀ h'' : PHeap, PReady h'' is → owed h'' is ≤ toPay - paid → PKept h h'' →
        ((h''[i]?).bind Payer.paid = some paid ∧ (h''[i]?).bind Payer.fee = fee) →
        (∀ k, k ≠ i → (h''[k]?).bind Payer.paid = (h[k]?).bind Payer.paid ∧ (h''[k]?).bind Payer.fee = (h[k]?).bind Payer.fee) →
        payerPaySteps ctx w h i toPay = (w.setDep (accountID q.payer) r.2, h'', paid) →
        PayerPays ctx w h i is toPay := by
      intro h'' c1 c2 c3 c4 c5 ce
      refine ⟨_, h'', paid, fee.getD 0, p, q.steps.getD 0, ce, h1, by rw [hp], p1, p2, by omega, p3, p4, c1, c2, hwS, rfl, ?_, ?_, ?_, c3,
        c4.1, Or.inl (by rw [c4.2]), c5⟩
      · intro a ha
        simp [World.setDep, s2, ha]
      · intro hs'; exact absurd (s2 ▸ hs') hsys
      · intro S hS
        rw [World.total_setDep (by rw [s2]; exact hS (s2 ▸ hsys)), p5]; ring
    have hsame : ∀ k ∈ is, (h.set i { q with paid := some paid, fee := fee })[k]? = h[k]? :=
      fun k hk => hset _ k (by rintro rfl; exact h3 hk)
    have hk0 : PKept h (h.set i { q with paid := some paid, fee := fee }) := by
      refine ⟨by simp, fun k => ?_⟩
      by_cases hk : k = i
      · subst hk; rw [hseti, h1]; simp [s2, s3, s4]
      · rw [hset _ k hk]
    have hr0 := h4.congr hsame
    have ho0 := owed_congr hsame
    have plain : payerPaySteps ctx w h i toPay
        = (w.setDep (accountID q.payer) r.2, h.set i { q with paid := some paid, fee := fee }, paid) →
        PayerPays ctx w h i is toPay := by
      intro ce
      exact key _ hr0 (by rw [ho0]; omega) hk0 ⟨by rw [hseti]; rfl, by rw [hseti]; rfl⟩
        (fun k hk => by rw [hset _ k hk]; exact ⟨rfl, rfl⟩) ce
    cases hpar : q.parent with
    | none =>
      apply plain
      simp only [payerPaySteps, h1, hp]
      rw [if_neg hsys]
      simp only [hpay, hpar, hfee, hpaid]
    | some j =>
      by_cases hlt : paid < q.steps.getD 0
      · obtain ⟨d1, d2, d3⟩ := hr0.delegate (u := q.steps.getD 0 - paid) (by omega) j
        have hkd : ∀ (k : ℕ), ((h.set i { q with paid := some paid, fee := fee }).modify j
              (fun x => x.delegateSteps (q.steps.getD 0 - paid)))[k]?
            = if j = k then ((h.set i { q with paid := some paid, fee := fee })[k]?).map (fun x => x.delegateSteps (q.steps.getD 0 - paid))
              else (h.set i { q with paid := some paid, fee := fee })[k]? := by
          intro k; rw [getElem?_modify']
        have hpf : ∀ k : ℕ, (((h.set i { q with paid := some paid, fee := fee }).modify j
              (fun x => x.delegateSteps (q.steps.getD 0 - paid)))[k]?).bind Payer.paid
              = ((h.set i { q with paid := some paid, fee := fee })[k]?).bind Payer.paid ∧
            (((h.set i { q with paid := some paid, fee := fee }).modify j
              (fun x => x.delegateSteps (q.steps.getD 0 - paid)))[k]?).bind Payer.fee
              = ((h.set i { q with paid := some paid, fee := fee })[k]?).bind Payer.fee := by
          intro k
          rw [hkd]
          split
          · cases (h.set i { q with paid := some paid, fee := fee })[k]? with
            | none => exact ⟨rfl, rfl⟩
            | some x => exact ⟨(delegate_same x _).1, (delegate_same x _).2.1⟩
          · exact ⟨rfl, rfl⟩
        refine key _ d1 ?_ ?_ ?_ ?_ ?_
        · rw [ho0] at d3; omega
        · refine ⟨by simp, fun k => ?_⟩
          rw [← hk0.2 k, hkd]
          split
          · cases (h.set i { q with paid := some paid, fee := fee })[k]? with
            | none => rfl
            | some x =>
              have := delegate_same x (q.steps.getD 0 - paid)
              simp [this.2.2.1, this.2.2.2.1, this.2.2.2.2]
          · rfl
        · rw [(hpf i).1, (hpf i).2, hseti]; exact ⟨rfl, rfl⟩
        · intro k hk
          rw [(hpf k).1, (hpf k).2, hset _ k hk]; exact ⟨rfl, rfl⟩
        · simp only [payerPaySteps, h1, hp]
          rw [if_neg hsys]
          simp only [hpay, hpar, hfee, hpaid]
          rw [if_pos hlt]
      · apply plain
        simp only [payerPaySteps, h1, hp]
        rw [if_neg hsys]
        simp only [hpay, hpar, hfee, hpaid]
        rw [if_neg hlt]

theorem feeSum_congr {h h' : PHeap} {is : List ℕ}
    (he : ∀ i ∈ is, (h'[i]?).bind Payer.fee = (h[i]?).bind Payer.fee) : feeSum h' is = feeSum h is := by
  unfold feeSum; congr 1; exact List.map_congr_left (fun i hi => by rw [he i hi])

@[simp] theorem paidSum_cons (h : PHeap) (i : ℕ) (is : List ℕ) :
    paidSum h (i :: is) = ((h[i]?).bind Payer.paid).getD 0 + paidSum h is := by simp [paidSum]
@[simp] theorem feeSum_cons (h : PHeap) (i : ℕ) (is : List ℕ) :
    feeSum h (i :: is) = ((h[i]?).bind Payer.fee).getD 0 + feeSum h is := by simp [feeSum]

theorem PKept.refl (h : PHeap) : PKept h h := ⟨rfl, fun _ => rfl⟩
theorem PKept.trans {a b c : PHeap} (h1 : PKept a b) (h2 : PKept b c) : PKept a c :=
  ⟨h2.1.trans h1.1, fun k => (h2.2 k).trans (h1.2 k)⟩

theorem PKept.payer {h h' : PHeap} (hk : PKept h h') {i : ℕ} {p p' : Payer} (h1 : h[i]? = some p) (h2 : h'[i]? = some p') :
    p'.payer = p.payer ∧ p'.portion = p.portion := by
  have := hk.2 i; rw [h1, h2] at this; simp at this; exact ⟨this.1, this.2.1⟩

/-- All payers of a list pay. -/
theorem payLoop_spec {ctx : PayCtx} : ∀ {ps : FeePayers} {w : World} {h : PHeap} {toPay : ℤ},
    PReady h (ps.filterMap id) → owed h (ps.filterMap id) ≤ toPay → 0 ≤ toPay → w.Sound →
    (∀ i ∈ ps.filterMap id, (h[i]?).bind Payer.fee = none) →
    ∃ w' h' left, payLoop ctx w h ps toPay = (w', h', left) ∧ 0 ≤ left ∧ left ≤ toPay ∧
      paidSum h' (ps.filterMap id) = toPay - left ∧
      w'.Sound ∧ w'.bal = w.bal ∧
      (∀ a, (∀ i ∈ ps.filterMap id, ∀ p, h[i]? = some p → accountID p.payer ≠ a) → w'.dep a = w.dep a) ∧
      w'.dep ctx.systemID = w.dep ctx.systemID ∧
      (∀ S : Finset Bytes, (∀ i ∈ ps.filterMap id, ∀ p, h[i]? = some p → accountID p.payer ≠ ctx.systemID → accountID p.payer ∈ S) →
        w'.total S = w.total S - feeSum h' (ps.filterMap id) * ctx.price) ∧
      PKept h h' ∧
      (∀ k, k ∉ ps.filterMap id → (h'[k]?).bind Payer.paid = (h[k]?).bind Payer.paid ∧ (h'[k]?).bind Payer.fee = (h[k]?).bind Payer.fee) ∧
      (∀ i ∈ ps.filterMap id, ∃ p paid, h'[i]? = some p ∧ p.paid = some paid ∧ 0 ≤ paid ∧ 0 ≤ p.fee.getD 0 ∧ p.fee.getD 0 ≤ paid ∧
        (accountID p.payer = ctx.systemID → p.fee = none))
  | [], w, h, toPay, _, _, ht, hw, _ => by
    refine ⟨w, h, toPay, rfl, ht, le_refl _, by simp [paidSum], hw, rfl, fun _ _ => rfl, rfl, ?_, PKept.refl h, fun _ _ => ⟨rfl, rfl⟩, by simp⟩
    intro S _; simp [feeSum]
  | none :: ps, w, h, toPay, hr, ho, ht, hw, hf => by
    simp only [List.filterMap_cons, id] at *
    rw [payLoop]
    exact payLoop_spec hr ho ht hw hf
  | some i :: ps, w, h, toPay, hr, ho, ht, hw, hf => by
    have hfm : (some i :: ps).filterMap id = i :: ps.filterMap id := rfl
    rw [hfm] at hr ho hf ⊢
    generalize his : ps.filterMap id = is at *
    obtain ⟨w1, h1, paid, fee, p, s, e, hp, hs, a1, a2, a3, a4, a5, a6, a7, a8, a9, a10, a11, a12, a13, a14, a15, a16⟩ :=
      payer_spec (ctx := ctx) hr ho ht hw
    have hni : i ∉ is := hr.2.1
    have hfi : (h[i]?).bind Payer.fee = none := hf i (by simp)
    have hfee : ((h1[i]?).bind Payer.fee).getD 0 = fee ∧ (accountID p.payer = ctx.systemID → (h1[i]?).bind Payer.fee = none) := by
      rw [hp] at hfi
      rcases a15 with a15 | ⟨hsys, a15⟩
      · refine ⟨a15, fun hsys => ?_⟩
        -- for the system account the fee entry is left alone
        have : payerPaySteps ctx w h i toPay = ({ w with sysUsage := w.sysUsage + (p.ensureStepsToPay toPay).steps.getD 0 * ctx.price },
            h.set i { p.ensureStepsToPay toPay with paid := some ((p.ensureStepsToPay toPay).steps.getD 0) },
            (p.ensureStepsToPay toPay).steps.getD 0) := by
          simp only [payerPaySteps, hp]
          rw [if_pos]
          rw [show (p.ensureStepsToPay toPay).payer = p.payer by unfold Payer.ensureStepsToPay; split <;> rfl]; exact hsys
        rw [e] at this
        have h1e : h1 = _ := congrArg (fun x => x.2.1) this
        rw [h1e]
        dsimp only
        rw [List.getElem?_set_self (List.getElem?_eq_some_iff.1 hp).1]
        simp only [Option.bind_some] at hfi ⊢
        rw [show (p.ensureStepsToPay toPay).fee = p.fee by unfold Payer.ensureStepsToPay; split <;> rfl]; exact hfi
      · have hn : (h1[i]?).bind Payer.fee = none := by rw [a15]; simpa using hfi
        exact ⟨by rw [hn, (a11 hsys).2]; rfl, fun _ => hn⟩
    have hf1 : ∀ j ∈ ps.filterMap id, (h1[j]?).bind Payer.fee = none := by
      intro j hj
      rw [his] at hj
      rw [(a16 j (by rintro rfl; exact hni hj)).2]
      exact hf j (by simp [hj])
    have hsame : ∀ j ∈ is, ∀ q, h1[j]? = some q → ∃ q', h[j]? = some q' ∧ q'.payer = q.payer := by
      intro j hj q hq
      have := a13.2 j
      rw [hq] at this
      cases hx : h[j]? with
      | none => rw [hx] at this; simp at this
      | some q' => exact ⟨q', rfl, ((PKept.payer a13 hx hq).1).symm⟩
    obtain ⟨w2, h2, left, e2, b1, b2, b3, b4, b5, b6, b6s, b7, b8, b9, b10⟩ :=
      payLoop_spec (ctx := ctx) (ps := ps) (w := w1) (h := h1) (toPay := toPay - paid) (by rw [his]; exact a6) (by rw [his]; exact a7)
        (by omega) a8 hf1
    rw [his] at b3 b6 b7 b9 b10
    have hi2 : (h2[i]?).bind Payer.paid = some paid := by rw [(b9 i hni).1]; exact a14
    have hi2f : (h2[i]?).bind Payer.fee = (h1[i]?).bind Payer.fee := (b9 i hni).2
    refine ⟨w2, h2, left, ?_, b1, by omega, ?_, b4, b5.trans a9, ?_, ?_, ?_, a13.trans b8, ?_, ?_⟩
    · rw [payLoop, e]; exact e2
    · rw [paidSum_cons, hi2, b3]; simp only [Option.getD_some]; ring
    · intro a ha
      rw [b6 a ?_, a10 a (fun h => ha i (by simp) p hp h.symm)]
      intro j hj q hq
      obtain ⟨q', g1, g2⟩ := hsame j hj q hq
      rw [← g2]; exact ha j (by simp [hj]) q' g1
    · rw [b6s]
      by_cases hsys : accountID p.payer = ctx.systemID
      · rw [(a11 hsys).1]
      · exact a10 _ (Ne.symm hsys)
    · intro S hS
      rw [b7 S ?_, a12 S (hS i (by simp) p hp), feeSum_cons, hi2f, hfee.1]
      · ring
      · intro j hj q hq
        obtain ⟨q', g1, g2⟩ := hsame j hj q hq
        rw [← g2]; exact hS j (by simp [hj]) q' g1
    · intro k hk
      rw [List.mem_cons, not_or] at hk
      rw [(b9 k hk.2).1, (b9 k hk.2).2]
      exact a16 k hk.1
    · intro j hj
      rcases List.mem_cons.1 hj with rfl | hj
      · cases hq : h2[j]? with
        | none => rw [hq] at hi2; simp at hi2
        | some q =>
          rw [hq] at hi2 hi2f
          simp only [Option.bind_some] at hi2 hi2f
          have hpp := (PKept.payer (a13.trans b8) hp hq).1
          refine ⟨q, paid, rfl, hi2, a1, ?_, ?_, ?_⟩
          · rw [hi2f, hfee.1]; exact a4
          · rw [hi2f, hfee.1]; exact a5
          · intro hsys; rw [hi2f]; exact hfee.2 (hpp ▸ hsys)
      · exact b10 j hj

/-! ### Frames -/

/-- The object a pointer points to satisfies `P`. -/
def At (h : PHeap) (P : Payer → Prop) (i : ℕ) : Prop := ∃ p, h[i]? = some p ∧ P p

/-- A payer not yet used for paying. -/
def Payer.Unpaid (p : Payer) : Prop := p.paid = none ∧ p.fee = none

/-- The payers of a frame: those of calls made from it, with fixed steps, then its own. -/
structure FrameOK (h : PHeap) (f : Frame) : Prop where
  shape : f.payers = [] ∨ ∃ (subs : List ℕ) (own : Option ℕ), f.payers = subs.map some ++ [own]
  subs : ∀ i, some i ∈ f.payers.dropLast → At h (fun p => p.IsSet ∧ p.Unpaid) i
  own : ∀ i, f.payers.getLast? = some (some i) → At h (fun p => p.IsOpen ∧ p.Unpaid) i
  owe : owed h (f.payers.dropLast.filterMap id) ≤ f.childUsed
  used : 0 ≤ f.childUsed

def Frame.ids (f : Frame) : List ℕ := f.payers.filterMap id

structure CallCtx.Inv (c : CallCtx) : Prop where
  frames : ∀ f ∈ c.frames, FrameOK c.heap f
  nodup : ∀ f ∈ c.frames, f.ids.Nodup
  apart : c.frames.Pairwise (fun f g => ∀ i ∈ f.ids, i ∉ g.ids)

theorem At.lt {h : PHeap} {P : Payer → Prop} {i : ℕ} (ha : At h P i) : i < h.length := by
  obtain ⟨p, hp, _⟩ := ha; exact (List.getElem?_eq_some_iff.1 hp).1

theorem FrameOK.congr {h h' : PHeap} {f : Frame} (hf : FrameOK h f) (he : ∀ i ∈ f.ids, h'[i]? = h[i]?) : FrameOK h' f := by
  have hm : ∀ i, some i ∈ f.payers.dropLast → i ∈ f.ids := by
    intro i hi; rw [Frame.ids, List.mem_filterMap]; exact ⟨some i, List.dropLast_subset _ hi, rfl⟩
  have hl : ∀ i, f.payers.getLast? = some (some i) → i ∈ f.ids := by
    intro i hi; rw [Frame.ids, List.mem_filterMap]; exact ⟨some i, List.mem_of_getLast? hi, rfl⟩
  refine ⟨hf.shape, ?_, ?_, ?_, hf.used⟩
  · intro i hi
    obtain ⟨p, hp, hP⟩ := hf.subs i hi
    exact ⟨p, by rw [he i (hm i hi)]; exact hp, hP⟩
  · intro i hi
    obtain ⟨p, hp, hP⟩ := hf.own i hi
    exact ⟨p, by rw [he i (hl i hi)]; exact hp, hP⟩
  · rw [owed_congr]; exact hf.owe
    intro i hi
    rw [List.mem_filterMap] at hi
    obtain ⟨o, ho, hoi⟩ := hi
    obtain rfl : o = some i := hoi
    exact he i (hm i ho)

theorem FrameOK.ids_lt {h : PHeap} {f : Frame} (hf : FrameOK h f) : ∀ i ∈ f.ids, i < h.length := by
  intro i hi
  rw [Frame.ids, List.mem_filterMap] at hi
  obtain ⟨o, ho, hoi⟩ := hi
  obtain rfl : o = some i := hoi
  rcases hf.shape with hs | ⟨subs, own, hs⟩
  · rw [hs] at ho; simp at ho
  · rw [hs] at ho
    rcases List.mem_append.1 ho with ho | ho
    · exact (hf.subs i (by rw [hs, List.dropLast_concat]; exact ho)).lt
    · refine (hf.own i ?_).lt
      rw [hs, List.getLast?_concat, List.mem_singleton.1 ho]

theorem getElem?_append_lt {h : PHeap} {x : List Payer} {i : ℕ} (hi : i < h.length) : (h ++ x)[i]? = h[i]? :=
  List.getElem?_append_left hi

theorem filterMap_map_some (l : List ℕ) : (l.map some).filterMap id = l := by
  induction l with
  | nil => rfl
  | cons a l ih => simp

theorem FrameOK.subs_list {h : PHeap} {f : Frame} (hf : FrameOK h f) :
    ∃ subs : List ℕ, f.payers.dropLast = subs.map some := by
  rcases hf.shape with hs | ⟨subs, own, hs⟩
  · exact ⟨[], by simp [hs]⟩
  · exact ⟨subs, by simp [hs]⟩

/-- `SetFeeProportion` on the payers of a frame. -/
theorem setFee_spec {h : PHeap} {f : Frame} (hf : FrameOK h f) (hn : f.ids.Nodup) (payer : Bytes) (portion : ℤ) :
    let r := setFeeProportion h f.payers payer portion
    FrameOK r.1 { f with payers := r.2 } ∧ (Frame.ids { f with payers := r.2 }).Nodup ∧
    (∀ i ∈ Frame.ids { f with payers := r.2 }, i ∈ f.ids ∨ i = h.length) ∧
    (∀ i, i < h.length → r.1[i]? = h[i]?) ∧
    (∀ p ∈ r.1, p ∈ h ∨ p.payer = payer ∧ 0 < portion ∧ portion ≤ 100) := by
  intro r
  obtain ⟨subs, hsubs⟩ := hf.subs_list
  have hsm : ∀ i ∈ subs, i ∈ f.ids := by
    intro i hi
    rw [Frame.ids, List.mem_filterMap]
    exact ⟨some i, List.dropLast_subset _ (by rw [hsubs]; exact List.mem_map_of_mem hi), rfl⟩
  have hsn : subs.Nodup := by
    have : f.payers.dropLast.filterMap id = subs := by rw [hsubs, filterMap_map_some]
    rw [← this]
    exact List.Nodup.sublist (List.Sublist.filterMap id (List.dropLast_sublist _)) hn
  by_cases hbad : portion < 0 ∨ portion > 100
  · have e : r = (h, f.payers) := by simp only [r, setFeeProportion]; rw [if_pos hbad]
    rw [e]
    exact ⟨hf, hn, fun i hi => Or.inl hi, fun _ _ => rfl, fun p hp => Or.inl hp⟩
  · by_cases h0 : portion = 0
    · have e : r = (h, f.payers.dropLast ++ [none]) := by
        simp only [r, setFeeProportion]; rw [if_neg hbad]; simp [h0]
      rw [e]
      have hids : Frame.ids { f with payers := f.payers.dropLast ++ [none] } = subs := by
        simp only [Frame.ids, List.filterMap_append, hsubs, filterMap_map_some]; simp
      refine ⟨⟨Or.inr ⟨subs, none, by rw [hsubs]⟩, ?_, ?_, ?_, hf.used⟩, by rw [hids]; exact hsn, ?_, fun _ _ => rfl, fun p hp => Or.inl hp⟩
      · intro i hi
        simp only [List.dropLast_concat] at hi
        exact hf.subs i hi
      · intro i hi; simp at hi
      · simp only [List.dropLast_concat]; exact hf.owe
      · intro i hi; rw [hids] at hi; exact Or.inl (hsm i hi)
    · have e : r = (h ++ [{ payer := payer, portion := portion }], f.payers.dropLast ++ [some h.length]) := by
        simp only [r, setFeeProportion]; rw [if_neg hbad]; simp [h0]
      rw [e]
      have hids : Frame.ids { f with payers := f.payers.dropLast ++ [some h.length] } = subs ++ [h.length] := by
        simp only [Frame.ids, List.filterMap_append, hsubs, filterMap_map_some]; simp
      refine ⟨⟨Or.inr ⟨subs, some h.length, by rw [hsubs]⟩, ?_, ?_, ?_, hf.used⟩, ?_, ?_,
        fun i hi => getElem?_append_lt hi, ?_⟩
      · intro i hi
        simp only [List.dropLast_concat] at hi
        have ha := hf.subs i hi
        obtain ⟨p, hp, hP⟩ := ha
        exact ⟨p, by rw [getElem?_append_lt (List.getElem?_eq_some_iff.1 hp).1]; exact hp, hP⟩
      · intro i hi
        simp only [List.getLast?_concat, Option.some.injEq] at hi
        subst hi
        refine ⟨{ payer := payer, portion := portion }, by simp, ⟨?_, ?_, rfl, rfl⟩, rfl, rfl⟩
        · simp only; omega
        · simp only; omega
      · simp only [List.dropLast_concat]
        rw [owed_congr]; exact hf.owe
        intro i hi
        rw [hsubs, filterMap_map_some] at hi
        exact getElem?_append_lt (hf.ids_lt i (hsm i hi))
      · rw [hids, List.nodup_append]
        refine ⟨hsn, by simp, ?_⟩
        intro a ha b hb
        rw [List.mem_singleton.1 hb]
        have := hf.ids_lt a (hsm a ha)
        omega
      · intro i hi
        rw [hids] at hi
        rcases List.mem_append.1 hi with hi | hi
        · exact Or.inl (hsm i hi)
        · exact Or.inr (List.mem_singleton.1 hi)
      · intro p hp
        rcases List.mem_append.1 hp with hp | hp
        · exact Or.inl hp
        · rw [List.mem_singleton.1 hp]; exact Or.inr ⟨rfl, by omega, by omega⟩

/-- Everything but the parent. -/
def strip (p : Payer) : Payer := { p with parent := none }

theorem setParent_fold (own : ℕ) : ∀ (is : List ℕ) (h : PHeap),
    let h' := is.foldl (fun h i => h.modify i (fun p => match p.parent with | none => { p with parent := some own } | some _ => p)) h
    h'.length = h.length ∧ (∀ k : ℕ, (h'[k]?).map strip = (h[k]?).map strip) ∧ (∀ k, k ∉ is → h'[k]? = h[k]?)
  | [], h => ⟨rfl, fun _ => rfl, fun _ _ => rfl⟩
  | i :: is, h => by
    intro h'
    obtain ⟨a1, a2, a3⟩ := setParent_fold own is (h.modify i (fun p => match p.parent with | none => { p with parent := some own } | some _ => p))
    refine ⟨by rw [show h'.length = _ from a1]; simp, ?_, ?_⟩
    · intro k
      rw [show (h'[k]?).map strip = _ from a2 k, getElem?_modify']
      split
      · cases h[k]? with
        | none => rfl
        | some p =>
          simp only [Option.map_some, Option.some.injEq]
          cases hp : p.parent <;> simp [strip]
      · rfl
    · intro k hk
      rw [List.mem_cons, not_or] at hk
      rw [show h'[k]? = _ from a3 k hk.2, getElem?_modify', if_neg (Ne.symm hk.1)]

theorem setParentOfSub_spec (h : PHeap) (ps : FeePayers) :
    (setParentOfSub h ps).length = h.length ∧ (∀ k : ℕ, ((setParentOfSub h ps)[k]?).map strip = (h[k]?).map strip) ∧
    (∀ k, k ∉ ps.filterMap id → (setParentOfSub h ps)[k]? = h[k]?) := by
  unfold setParentOfSub
  split
  · rename_i own _
    obtain ⟨a1, a2, a3⟩ := setParent_fold own (ps.dropLast.filterMap id) h
    refine ⟨a1, a2, fun k hk => a3 k (fun hh => hk ?_)⟩
    exact (List.Sublist.filterMap id (List.dropLast_sublist ps)).subset hh
  · exact ⟨rfl, fun _ => rfl, fun _ _ => rfl⟩

theorem strip_iff {p q : Payer} (h : strip p = strip q) :
    (p.IsSet ↔ q.IsSet) ∧ (p.IsOpen ↔ q.IsOpen) ∧ (p.Unpaid ↔ q.Unpaid) ∧ p.steps = q.steps ∧ p.payer = q.payer := by
  simp only [strip, Payer.mk.injEq] at h
  obtain ⟨h1, h2, h3, h4, h5, h6, _⟩ := h
  refine ⟨?_, ?_, ?_, h3, h1⟩
  · simp only [Payer.IsSet, h2, h3, h4]
  · simp only [Payer.IsOpen, h2, h3, h4]
  · simp only [Payer.Unpaid, h5, h6]

theorem strip_get {h h' : PHeap} {k : ℕ} (he : (h'[k]?).map strip = (h[k]?).map strip) {p : Payer} (hp : h[k]? = some p) :
    ∃ p', h'[k]? = some p' ∧ strip p' = strip p := by
  rw [hp] at he
  cases hx : h'[k]? with
  | none => rw [hx] at he; simp at he
  | some p' => rw [hx] at he; exact ⟨p', rfl, by simpa using he⟩

theorem PReady.strip {h h' : PHeap} (he : ∀ k : ℕ, (h'[k]?).map strip = (h[k]?).map strip) : ∀ {is : List ℕ}, PReady h is → PReady h' is
  | [], _ => trivial
  | i :: is, ⟨⟨p, h1, h2⟩, h3, h4⟩ => by
    obtain ⟨p', g1, g2⟩ := strip_get (he i) h1
    refine ⟨⟨p', g1, ?_⟩, h3, h4.strip he⟩
    rcases h2 with h2 | ⟨h2, h5⟩
    · exact Or.inl ((strip_iff g2).1.2 h2)
    · exact Or.inr ⟨(strip_iff g2).2.1.2 h2, h5⟩

theorem owed_strip {h h' : PHeap} (he : ∀ k : ℕ, (h'[k]?).map strip = (h[k]?).map strip) (is : List ℕ) : owed h' is = owed h is := by
  unfold owed; congr 1
  apply List.map_congr_left
  intro i _
  have := he i
  cases hx : h[i]? with
  | none => rw [hx] at this; simp at this; simp [this]
  | some p =>
    obtain ⟨p', g1, g2⟩ := strip_get this hx
    rw [g1]; simp [(strip_iff g2).2.2.2.1]

theorem applyLoop_spec : ∀ {ps : FeePayers} {h : PHeap} {steps : ℤ}, PReady h (ps.filterMap id) → owed h (ps.filterMap id) ≤ steps →
    0 ≤ steps → (∀ i ∈ ps.filterMap id, At h Payer.Unpaid i) →
    (∀ i ∈ ps.filterMap id, At (applyLoop h ps steps) (fun p => p.IsSet ∧ p.Unpaid) i) ∧
    owed (applyLoop h ps steps) (ps.filterMap id) ≤ steps ∧
    (∀ k, k ∉ ps.filterMap id → (applyLoop h ps steps)[k]? = h[k]?) ∧
    (applyLoop h ps steps).length = h.length ∧
    (∀ k : ℕ, ((applyLoop h ps steps)[k]?).map Payer.payer = (h[k]?).map Payer.payer)
  | [], h, steps, _, _, hs, _ => by simp [applyLoop, hs]
  | none :: ps, h, steps, hr, ho, hs, hu => by
    simp only [List.filterMap_cons, id] at *
    rw [applyLoop]
    exact applyLoop_spec hr ho hs hu
  | some i :: ps, h, steps, hr, ho, hs, hu => by
    have hfm : (some i :: ps).filterMap id = i :: ps.filterMap id := rfl
    rw [hfm] at hr ho hu ⊢
    obtain ⟨⟨p, h1, h2⟩, h3, h4⟩ := hr
    have hmod : ∀ k : ℕ, (h.modify i (fun p => p.ensureStepsToPay steps))[k]? = if i = k then (h[k]?).map (fun p => p.ensureStepsToPay steps) else h[k]? :=
      fun k => getElem?_modify' h i k _
    have hi : (h.modify i (fun p => p.ensureStepsToPay steps))[i]? = some (p.ensureStepsToPay steps) := by
      rw [hmod, if_pos rfl, h1]; rfl
    have hsame : ∀ k, k ≠ i → (h.modify i (fun p => p.ensureStepsToPay steps))[k]? = h[k]? := by
      intro k hk; rw [hmod, if_neg (Ne.symm hk)]
    have hsame' : ∀ k ∈ ps.filterMap id, (h.modify i (fun p => p.ensureStepsToPay steps))[k]? = h[k]? :=
      fun k hk => hsame k (by rintro rfl; exact h3 hk)
    have hun : (p.ensureStepsToPay steps).Unpaid := by
      obtain ⟨q, hq, hqu⟩ := hu i (by simp)
      rw [h1] at hq
      obtain rfl : p = q := by simpa using hq
      unfold Payer.ensureStepsToPay; split <;> exact hqu
    have hpy : (p.ensureStepsToPay steps).payer = p.payer := by unfold Payer.ensureStepsToPay; split <;> rfl
    have hse : (p.ensureStepsToPay steps).IsSet ∧ (p.ensureStepsToPay steps).steps.getD 0 + owed h (ps.filterMap id) ≤ steps := by
      rcases h2 with h2 | ⟨⟨a1, a2, a3, a4⟩, h5⟩
      · obtain ⟨a1, a2, b, a3, a4, a5⟩ := h2
        have e : p.ensureStepsToPay steps = p := by simp [Payer.ensureStepsToPay, a5]
        rw [e]
        exact ⟨⟨a1, a2, b, a3, a4, a5⟩, by simpa [owed_cons, h1] using ho⟩
      · have e : p.ensureStepsToPay steps = { p with base := some steps, steps := some (steps * p.portion / 100) } := by
          simp [Payer.ensureStepsToPay, a4, Payer.calcStepsToPay]
        rw [e, h5]
        have := share_bounds hs a1 a2
        exact ⟨⟨a1, a2, steps, rfl, hs, rfl⟩, by simpa using this.2⟩
    have hle : 0 ≤ owed h (ps.filterMap id) := owed_nonneg h4
    obtain ⟨b1, b2, b3, b4, b5⟩ := applyLoop_spec (ps := ps) (h := h.modify i (fun p => p.ensureStepsToPay steps))
      (steps := steps - (p.ensureStepsToPay steps).steps.getD 0)
      (h4.congr hsame') (by rw [owed_congr hsame']; omega) (by omega)
      (fun k hk => by
        obtain ⟨q, hq, hqu⟩ := hu k (List.mem_cons_of_mem _ hk)
        exact ⟨q, by rw [hsame' k hk]; exact hq, hqu⟩)
    have e : applyLoop h (some i :: ps) steps = applyLoop (h.modify i (fun p => p.ensureStepsToPay steps)) ps
        (steps - (p.ensureStepsToPay steps).steps.getD 0) := by
      simp only [applyLoop, hi, Option.bind_some]
    rw [e]
    have hi' := b3 i h3
    rw [hi] at hi'
    refine ⟨?_, ?_, ?_, by rw [b4]; simp, ?_⟩
    · intro k hk
      rcases List.mem_cons.1 hk with rfl | hk
      · exact ⟨_, hi', hse.1, hun⟩
      · exact b1 k hk
    · rw [owed_cons, hi']; simp only [Option.bind_some]; omega
    · intro k hk
      rw [List.mem_cons, not_or] at hk
      rw [b3 k hk.2, hsame k hk.1]
    · intro k
      rw [b5]
      by_cases hk : k = i
      · subst hk; rw [hi, h1, Option.map_some, Option.map_some, hpy]
      · rw [hsame k hk]

/-- The pointers of a frame are ready for `PaySteps` or `Apply`. -/
theorem FrameOK.ready {h : PHeap} {f : Frame} (hf : FrameOK h f) (hn : f.ids.Nodup) :
    PReady h f.ids ∧ owed h f.ids ≤ f.childUsed ∧ (∀ i ∈ f.ids, At h Payer.Unpaid i) := by
  rcases hf.shape with hs | ⟨subs, own, hs⟩
  · simp [Frame.ids, hs, PReady, hf.used]
  · have hd : f.payers.dropLast = subs.map some := by simp [hs]
    have hset : ∀ i ∈ subs, At h (fun p => p.IsSet ∧ p.Unpaid) i :=
      fun i hi => hf.subs i (by rw [hd]; exact List.mem_map_of_mem hi)
    have hob := hf.owe
    rw [hd, filterMap_map_some] at hob
    have build : ∀ (l tl : List ℕ), (∀ i ∈ l, At h (fun p => p.IsSet ∧ p.Unpaid) i) → (l ++ tl).Nodup → PReady h tl → PReady h (l ++ tl) := by
      intro l tl
      induction l with
      | nil => intro _ _ h; exact h
      | cons a l ih =>
        intro ha hnd htl
        obtain ⟨p, hp, hP, _⟩ := ha a (by simp)
        rw [List.cons_append, List.nodup_cons] at hnd
        exact ⟨⟨p, hp, Or.inl hP⟩, hnd.1, ih (fun i hi => ha i (by simp [hi])) hnd.2 htl⟩
    cases own with
    | none =>
      have hids : f.ids = subs := by simp [Frame.ids, hs, filterMap_map_some]
      rw [hids] at hn ⊢
      refine ⟨by simpa using build subs [] hset (by simpa using hn) trivial, hob, ?_⟩
      intro i hi
      obtain ⟨p, hp, _, hu⟩ := hset i hi
      exact ⟨p, hp, hu⟩
    | some k =>
      have hids : f.ids = subs ++ [k] := by simp [Frame.ids, hs, filterMap_map_some]
      obtain ⟨p, hp, hop, hu⟩ := hf.own k (by simp [hs])
      rw [hids] at hn ⊢
      refine ⟨build subs [k] hset hn ⟨⟨p, hp, Or.inr ⟨hop, rfl⟩⟩, by simp, trivial⟩, ?_, ?_⟩
      · rw [owed_append, owed_cons, hp]
        simp only [Option.bind_some, hop.2.2.2, Option.getD_none, owed_nil]; omega
      · intro i hi
        rcases List.mem_append.1 hi with hi | hi
        · obtain ⟨p, hp, _, hu⟩ := hset i hi
          exact ⟨p, hp, hu⟩
        · rw [List.mem_singleton.1 hi]; exact ⟨p, hp, hu⟩

/-- `popFrame` of a frame whose effects are kept. -/
theorem apply_spec {h : PHeap} {f g : Frame} (hf : FrameOK h f) (hg : FrameOK h g) (hfn : f.ids.Nodup) (hgn : g.ids.Nodup)
    (hap : ∀ i ∈ f.ids, i ∉ g.ids) {used : ℤ} (hu : f.childUsed ≤ used) :
    let r := applyPayers h g.payers f.payers used
    let g' : Frame := { g with payers := r.2, childUsed := g.childUsed + used }
    FrameOK r.1 g' ∧ g'.ids.Nodup ∧ (∀ i ∈ g'.ids, i ∈ f.ids ∨ i ∈ g.ids) ∧
    (∀ k, k ∉ f.ids → r.1[k]? = h[k]?) ∧ r.1.length = h.length ∧
    (∀ k : ℕ, (r.1[k]?).map Payer.payer = (h[k]?).map Payer.payer) := by
  intro r g'
  obtain ⟨p1, p2, p3⟩ := setParentOfSub_spec h f.payers
  obtain ⟨q1, q2, q3⟩ := hf.ready hfn
  have hused : 0 ≤ used := le_trans hf.used hu
  obtain ⟨a1, a2, a3, a4, a5⟩ := applyLoop_spec (ps := f.payers) (h := setParentOfSub h f.payers) (steps := used)
    (q1.strip p2) (by rw [owed_strip p2]; exact le_trans q2 hu) hused
    (fun i hi => by
      obtain ⟨p, hp, hpu⟩ := q3 i hi
      obtain ⟨p', g1, g2⟩ := strip_get (p2 i) hp
      exact ⟨p', g1, (strip_iff g2).2.2.1.2 hpu⟩)
  obtain ⟨subs, hsubs⟩ := hg.subs_list
  have hfilter : f.payers.filter Option.isSome = f.ids.map some := by
    unfold Frame.ids
    generalize f.payers = l
    induction l with
    | nil => rfl
    | cons a l ih => cases a <;> simp [ih]
  have hr2 : r.2 = (subs ++ f.ids).map some ++ [g.payers.getLast?.join] := by
    simp only [r, applyPayers, hsubs, hfilter, List.map_append]
  have hr1 : r.1 = applyLoop (setParentOfSub h f.payers) f.payers used := rfl
  have hsame : ∀ k, k ∉ f.ids → r.1[k]? = h[k]? := by
    intro k hk; rw [hr1, a3 k hk, p3 k hk]
  have hsm : ∀ i ∈ subs, i ∈ g.ids := by
    intro i hi
    rw [Frame.ids, List.mem_filterMap]
    exact ⟨some i, List.dropLast_subset _ (by rw [hsubs]; exact List.mem_map_of_mem hi), rfl⟩
  have hgids : g.ids = subs ++ (g.payers.getLast?.join).toList := by
    rcases hg.shape with hs | ⟨s', own, hs⟩
    · have : subs = [] := by simpa [hs] using hsubs.symm
      simp [Frame.ids, hs, this]
    · have : subs = s' := by
        have : s'.map some = subs.map some := by rw [← hsubs, hs]; simp
        exact (List.map_injective_iff.2 (Option.some_injective _) this).symm
      subst this
      cases own <;> simp [Frame.ids, hs, filterMap_map_some]
  have hgids' : g'.ids = subs ++ f.ids ++ (g.payers.getLast?.join).toList := by
    simp only [g', Frame.ids, hr2, List.filterMap_append, filterMap_map_some]
    cases g.payers.getLast?.join <;> simp
  have hdl : g'.payers.dropLast = (subs ++ f.ids).map some := by
    simp only [g', hr2, List.dropLast_concat]
  refine ⟨⟨Or.inr ⟨subs ++ f.ids, g.payers.getLast?.join, hr2⟩, ?_, ?_, ?_, ?_⟩, ?_, ?_, hsame, ?_, ?_⟩
  · intro i hi
    rw [hdl] at hi
    have hi : i ∈ subs ++ f.ids := by simpa using hi
    rcases List.mem_append.1 hi with hi | hi
    · obtain ⟨p, hp, hP⟩ := hg.subs i (by rw [hsubs]; exact List.mem_map_of_mem hi)
      exact ⟨p, by rw [hsame i (fun hh => hap i hh (hsm i hi))]; exact hp, hP⟩
    · exact a1 i hi
  · intro i hi
    have hi : g.payers.getLast?.join = some i := by simpa [g', hr2] using hi
    have hl : g.payers.getLast? = some (some i) := by
      cases hx : g.payers.getLast? with
      | none => rw [hx] at hi; simp at hi
      | some x => rw [hx] at hi; simpa using hi
    obtain ⟨p, hp, hP⟩ := hg.own i hl
    have : i ∈ g.ids := by rw [hgids, hi]; simp
    exact ⟨p, by rw [hsame i (fun hh => hap i hh this)]; exact hp, hP⟩
  · rw [hdl, filterMap_map_some, owed_append]
    have ho := hg.owe
    rw [hsubs, filterMap_map_some] at ho
    have : owed r.1 subs = owed h subs := owed_congr (fun i hi => hsame i (fun hh => hap i hh (hsm i hi)))
    have h2 : owed r.1 f.ids ≤ used := a2
    simp only [g']; omega
  · have := hg.used; simp only [g']; omega
  · rw [hgids', List.append_assoc]
    rw [hgids, List.nodup_append] at hgn
    rw [List.nodup_append]
    refine ⟨hgn.1, ?_, ?_⟩
    · rw [List.nodup_append]
      refine ⟨hfn, hgn.2.1, ?_⟩
      rintro a ha b hb rfl
      exact hap a ha (by rw [hgids]; exact List.mem_append_right _ hb)
    · rintro a ha b hb rfl
      rcases List.mem_append.1 hb with hb | hb
      · exact hap a hb (hsm a ha)
      · exact hgn.2.2 a ha a hb rfl
  · intro i hi
    rw [hgids'] at hi
    simp only [List.mem_append] at hi
    rcases hi with (hi | hi) | hi
    · exact Or.inr (hsm i hi)
    · exact Or.inl hi
    · exact Or.inr (by rw [hgids]; exact List.mem_append_right _ hi)
  · rw [hr1, a4, p1]
  · intro k
    rw [hr1, a5]
    have := p2 k
    have e : ∀ o : Option Payer, o.map Payer.payer = (o.map strip).map Payer.payer := by
      intro o; cases o <;> rfl
    rw [e, this, ← e]

/-- A frame that is popped has used at least what its calls have used. -/
def FrameOp.Valid (c : CallCtx) : FrameOp → Prop
  | .pop _ used => ∀ f ∈ c.frames.head?, f.childUsed ≤ used
  | _ => True

theorem CallCtx.Inv.step {c : CallCtx} (hc : c.Inv) {op : FrameOp} (m s : Bool) (hv : op.Valid c) : (c.step m s op).Inv := by
  cases op with
  | push =>
    simp only [CallCtx.step]
    refine ⟨?_, ?_, ?_⟩
    · intro f hf
      rcases List.mem_cons.1 hf with rfl | hf
      · exact ⟨Or.inl rfl, by simp, by simp, by simp, le_refl _⟩
      · exact hc.frames f hf
    · intro f hf
      rcases List.mem_cons.1 hf with rfl | hf
      · simp [Frame.ids]
      · exact hc.nodup f hf
    · rw [List.pairwise_cons]
      exact ⟨by simp [Frame.ids], hc.apart⟩
  | setFee payer portion =>
    simp only [CallCtx.step]
    split
    · exact hc
    · cases hfr : c.frames with
      | nil => exact hc
      | cons f fs =>
        cases fs with
        | nil => exact hc
        | cons g fs =>
          have hfs := hc.frames; have hns := hc.nodup; have hap := hc.apart
          rw [hfr] at hfs hns hap
          rw [List.pairwise_cons, List.pairwise_cons] at hap
          simp only
          by_cases hfid : f.fid = 2
          · rw [if_pos hfid]
            obtain ⟨a1, a2, a3, a4, _⟩ := setFee_spec (hfs g (by simp)) (hns g (by simp)) payer portion
            have hlt : ∀ x ∈ f :: g :: fs, ∀ i ∈ x.ids, i < c.heap.length := fun x hx => (hfs x hx).ids_lt
            refine ⟨?_, ?_, ?_⟩
            · intro x hx
              simp only [List.mem_cons] at hx
              rcases hx with rfl | rfl | hx
              · exact (hfs _ (by simp)).congr (fun i hi => a4 i (hlt _ (by simp) i hi))
              · exact a1
              · exact (hfs x (by simp [hx])).congr (fun i hi => a4 i (hlt x (by simp [hx]) i hi))
            · intro x hx
              simp only [List.mem_cons] at hx
              rcases hx with rfl | rfl | hx
              · exact hns _ (by simp)
              · exact a2
              · exact hns x (by simp [hx])
            · rw [List.pairwise_cons, List.pairwise_cons]
              refine ⟨?_, ?_, hap.2.2⟩
              · intro x hx i hi hxi
                rcases List.mem_cons.1 hx with rfl | hx
                · rcases a3 i hxi with h | h
                  · exact hap.1 g (by simp) i hi h
                  · have := hlt f (by simp) i hi; omega
                · exact hap.1 x (by simp [hx]) i hi hxi
              · intro x hx i hi hxi
                rcases a3 i hi with h | h
                · exact hap.2.1 x hx i h hxi
                · have := hlt x (by simp [hx]) i hxi; omega
          · rw [if_neg hfid]
            split
            · obtain ⟨a1, a2, a3, a4, _⟩ := setFee_spec (hfs f (by simp)) (hns f (by simp)) payer portion
              have hlt : ∀ x ∈ f :: g :: fs, ∀ i ∈ x.ids, i < c.heap.length := fun x hx => (hfs x hx).ids_lt
              refine ⟨?_, ?_, ?_⟩
              · intro x hx
                rcases List.mem_cons.1 hx with rfl | hx
                · exact a1
                · exact (hfs x (List.mem_cons_of_mem _ hx)).congr (fun i hi => a4 i (hlt x (List.mem_cons_of_mem _ hx) i hi))
              · intro x hx
                rcases List.mem_cons.1 hx with rfl | hx
                · exact a2
                · exact hns x (List.mem_cons_of_mem _ hx)
              · rw [List.pairwise_cons]
                refine ⟨?_, List.pairwise_cons.2 hap.2⟩
                intro x hx i hi hxi
                rcases a3 i hi with h | h
                · exact hap.1 x hx i h hxi
                · have := hlt x (List.mem_cons_of_mem _ hx) i hxi; omega
            · exact hc
  | pop keep used =>
    simp only [CallCtx.step]
    cases hfr : c.frames with
    | nil => exact hc
    | cons f fs =>
      cases fs with
      | nil => exact hc
      | cons g fs =>
        have hfs := hc.frames; have hns := hc.nodup; have hap := hc.apart
        rw [hfr] at hfs hns hap
        rw [List.pairwise_cons, List.pairwise_cons] at hap
        simp only [FrameOp.Valid, hfr, List.head?_cons, Option.mem_some_iff, forall_eq'] at hv
        simp only
        cases keep with
        | false =>
          simp only [Bool.false_eq_true, if_false]
          exact ⟨fun x hx => hfs x (List.mem_cons_of_mem _ hx), fun x hx => hns x (List.mem_cons_of_mem _ hx), List.pairwise_cons.2 hap.2⟩
        | true =>
          simp only [if_true]
          obtain ⟨a1, a2, a3, a4, a5, _⟩ := apply_spec (hfs f (by simp)) (hfs g (by simp)) (hns f (by simp)) (hns g (by simp))
            (hap.1 g (by simp)) hv
          refine ⟨?_, ?_, ?_⟩
          · intro x hx
            rcases List.mem_cons.1 hx with rfl | hx
            · exact a1
            · exact (hfs x (by simp [hx])).congr (fun i hi => a4 i (fun hh => hap.1 x (by simp [hx]) i hh hi))
          · intro x hx
            rcases List.mem_cons.1 hx with rfl | hx
            · exact a2
            · exact hns x (by simp [hx])
          · rw [List.pairwise_cons]
            refine ⟨?_, hap.2.2⟩
            intro x hx i hi hxi
            rcases a3 i hi with h | h
            · exact hap.1 x (by simp [hx]) i h hxi
            · exact hap.2.1 x hx i h hxi

/-- Whose address is in the heap. -/
theorem step_payers {c : CallCtx} (hc : c.Inv) {op : FrameOp} (m s : Bool) (hv : op.Valid c) :
    ∀ p ∈ (c.step m s op).heap, (∃ q ∈ c.heap, q.payer = p.payer) ∨ ∃ portion, op = .setFee p.payer portion ∧ 0 < portion ∧ portion ≤ 100 := by
  intro p hp
  cases op with
  | push => exact Or.inl ⟨p, hp, rfl⟩
  | setFee payer portion =>
    simp only [CallCtx.step] at hp
    split at hp
    · exact Or.inl ⟨p, hp, rfl⟩
    · cases hfr : c.frames with
      | nil => rw [hfr] at hp; exact Or.inl ⟨p, hp, rfl⟩
      | cons f fs =>
        cases fs with
        | nil => rw [hfr] at hp; exact Or.inl ⟨p, hp, rfl⟩
        | cons g fs =>
          have hfs := hc.frames; have hns := hc.nodup
          rw [hfr] at hfs hns hp
          simp only at hp
          have fin : (p ∈ c.heap ∨ p.payer = payer ∧ 0 < portion ∧ portion ≤ 100) →
              (∃ q ∈ c.heap, q.payer = p.payer) ∨ ∃ x, FrameOp.setFee payer portion = .setFee p.payer x ∧ 0 < x ∧ x ≤ 100 := by
            rintro (h | ⟨h1, h2, h3⟩)
            · exact Or.inl ⟨p, h, rfl⟩
            · exact Or.inr ⟨portion, by rw [h1], h2, h3⟩
          by_cases hfid : f.fid = 2
          · rw [if_pos hfid] at hp
            exact fin ((setFee_spec (hfs g (by simp)) (hns g (by simp)) payer portion).2.2.2.2 p hp)
          · rw [if_neg hfid] at hp
            split at hp
            · exact fin ((setFee_spec (hfs f (by simp)) (hns f (by simp)) payer portion).2.2.2.2 p hp)
            · exact Or.inl ⟨p, hp, rfl⟩
  | pop keep used =>
    left
    simp only [CallCtx.step] at hp
    cases hfr : c.frames with
    | nil => rw [hfr] at hp; exact ⟨p, hp, rfl⟩
    | cons f fs =>
      cases fs with
      | nil => rw [hfr] at hp; exact ⟨p, hp, rfl⟩
      | cons g fs =>
        have hfs := hc.frames; have hns := hc.nodup; have hap := hc.apart
        rw [hfr] at hfs hns hap hp
        rw [List.pairwise_cons] at hap
        simp only [FrameOp.Valid, hfr, List.head?_cons, Option.mem_some_iff, forall_eq'] at hv
        simp only at hp
        cases keep with
        | false => exact ⟨p, hp, rfl⟩
        | true =>
          simp only [if_true] at hp
          obtain ⟨_, _, _, _, a5, a6⟩ := apply_spec (hfs f (by simp)) (hfs g (by simp)) (hns f (by simp)) (hns g (by simp))
            (hap.1 g (by simp)) hv
          obtain ⟨k, hk⟩ := List.mem_iff_getElem?.1 hp
          have := a6 k
          rw [hk] at this
          cases hx : c.heap[k]? with
          | none => rw [hx] at this; simp at this
          | some q =>
            rw [hx] at this
            exact ⟨q, List.mem_iff_getElem?.2 ⟨k, hx⟩, by simpa using this.symm⟩

end Verif.Service
