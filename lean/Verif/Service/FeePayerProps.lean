import Verif.Service.FeePayerLemmas
import Mathlib.Data.List.Induction

/-!
# C51: fee payers and receipts

Any sequence of calls, returns and `setFeeProportion` requests in a transaction, followed by paying its steps.
-/

namespace Verif.Service
open Verif

/-- The frame operations of a transaction, one after the other. -/
def CallCtx.run (multiple feeSharing : Bool) : CallCtx → List FrameOp → CallCtx
  | c, [] => c
  | c, op :: ops => CallCtx.run multiple feeSharing (c.step multiple feeSharing op) ops

/-- A frame uses at least the steps that the calls it made used. -/
def RunValid (multiple feeSharing : Bool) : CallCtx → List FrameOp → Prop
  | _, [] => True
  | c, op :: ops => op.Valid c ∧ RunValid multiple feeSharing (c.step multiple feeSharing op) ops

theorem CallCtx.start_inv : CallCtx.start.Inv := by
  refine ⟨?_, ?_, ?_⟩
  · intro f hf
    obtain rfl : f = ⟨1, [], 0⟩ := by simpa [CallCtx.start] using hf
    exact ⟨Or.inl rfl, by simp, by simp, by simp, le_refl _⟩
  · intro f hf
    obtain rfl : f = ⟨1, [], 0⟩ := by simpa [CallCtx.start] using hf
    simp [Frame.ids]
  · simp [CallCtx.start]

theorem CallCtx.Inv.run {m s : Bool} : ∀ {ops : List FrameOp} {c : CallCtx}, c.Inv → RunValid m s c ops → (c.run m s ops).Inv
  | [], _, hc, _ => hc
  | _ :: _, _, hc, hv => (hc.step m s hv.1).run hv.2

theorem run_payers {m s : Bool} : ∀ {ops : List FrameOp} {c : CallCtx}, c.Inv → RunValid m s c ops →
    ∀ p ∈ (c.run m s ops).heap, (∃ q ∈ c.heap, q.payer = p.payer) ∨ ∃ portion, FrameOp.setFee p.payer portion ∈ ops ∧ 0 < portion ∧ portion ≤ 100
  | [], _, _, _, p, hp => Or.inl ⟨p, hp, rfl⟩
  | op :: ops, c, hc, hv, p, hp => by
    rcases run_payers (hc.step m s hv.1) hv.2 p hp with ⟨q, hq, he⟩ | ⟨po, h1, h2⟩
    · rcases step_payers hc m s hv.1 q hq with h | ⟨po, h1, h2⟩
      · rw [he] at h; exact Or.inl h
      · rw [he] at h1
        exact Or.inr ⟨po, by simp [h1], h2⟩
    · exact Or.inr ⟨po, List.mem_cons_of_mem _ h1, h2⟩

/-- What each payer did: address, steps paid, steps paid out of deposited coins. -/
def results (h : PHeap) (ps : FeePayers) : List (Bytes × ℤ × ℤ) :=
  (ps.filterMap id).filterMap (fun i : ℕ => (h[i]?).map (fun p => (p.payer, p.paid.getD 0, p.fee.getD 0)))

theorem sums_aux {h : PHeap} : ∀ {is : List ℕ}, (∀ i ∈ is, i < h.length) →
    paidSum h is = ((is.filterMap (fun i : ℕ => (h[i]?).map (fun p => (p.payer, p.paid.getD 0, p.fee.getD 0)))).map (fun r => r.2.1)).sum ∧
    feeSum h is = ((is.filterMap (fun i : ℕ => (h[i]?).map (fun p => (p.payer, p.paid.getD 0, p.fee.getD 0)))).map (fun r => r.2.2)).sum
  | [], _ => by simp [paidSum, feeSum]
  | i :: is, hl => by
    have hi := hl i (by simp)
    obtain ⟨a, b⟩ := sums_aux (is := is) (fun j hj => hl j (by simp [hj]))
    have e : h[i]? = some h[i] := List.getElem?_eq_getElem hi
    rw [paidSum_cons, feeSum_cons, a, b, List.filterMap_cons, e]
    simp

/-- **C51 (who pays, and how much).** After any calls of a transaction, paying its steps: the payers pay between them what is
redeemed, never more than the steps; every payer was named by some `setFeeProportion` with a proportion of 1 to 100; no balance
changes; only the deposits of payers change; and the coins in deposits decrease by exactly price times the steps paid out of
deposits. -/
theorem C51_pay {m s : Bool} {ops : List FrameOp} {base : Frame} {ctx : PayCtx} {w : World} {steps : ℤ}
    (hv : RunValid m s CallCtx.start ops) (hb : (CallCtx.start.run m s ops).frames = [base])
    (hs : base.childUsed ≤ steps) (hw : w.Sound) :
    ∃ w' h' redeemed, redeemSteps ctx w (CallCtx.start.run m s ops).heap base.payers steps = (w', h', redeemed) ∧
      0 ≤ redeemed ∧ redeemed ≤ steps ∧
      redeemed = ((results h' base.payers).map (fun r => r.2.1)).sum ∧
      (∀ r ∈ results h' base.payers, 0 ≤ r.2.2 ∧ r.2.2 ≤ r.2.1 ∧
        ∃ portion, FrameOp.setFee r.1 portion ∈ ops ∧ 0 < portion ∧ portion ≤ 100) ∧
      w'.bal = w.bal ∧ w'.Sound ∧
      (∀ a, (∀ r ∈ results h' base.payers, accountID r.1 ≠ a) → w'.dep a = w.dep a) ∧
      w'.dep ctx.systemID = w.dep ctx.systemID ∧
      (∀ S : Finset Bytes, (∀ r ∈ results h' base.payers, accountID r.1 ≠ ctx.systemID → accountID r.1 ∈ S) →
        w'.total S = w.total S - ((results h' base.payers).map (fun r => r.2.2)).sum * ctx.price) ∧
      (∀ i ∈ base.payers.filterMap id, ∃ p, h'[i]? = some p ∧ 0 ≤ p.fee.getD 0 ∧ p.fee.getD 0 ≤ p.paid.getD 0) := by
  have hinv := CallCtx.start_inv.run hv
  have hpay := run_payers CallCtx.start_inv hv
  generalize CallCtx.start.run m s ops = c at *
  have hF := hinv.frames base (by rw [hb]; simp)
  have hN := hinv.nodup base (by rw [hb]; simp)
  obtain ⟨r1, r2, r3⟩ := hF.ready hN
  have h0 : 0 ≤ steps := le_trans hF.used hs
  have hlt := hF.ids_lt
  obtain ⟨w', h', left, e, a1, a2, a3, a4, a5, a6, a7, a8, a9, a10, a11⟩ :=
    payLoop_spec (ctx := ctx) (ps := base.payers) (w := w) (h := c.heap) (toPay := steps) r1 (le_trans r2 hs) h0 hw (by
      intro i hi
      obtain ⟨p, hp, hu⟩ := r3 i hi
      rw [hp]; exact hu.2)
  have hlt' : ∀ i ∈ base.payers.filterMap id, i < h'.length := by
    intro i hi; rw [a9.1]; exact hlt i hi
  obtain ⟨s1, s2⟩ := sums_aux hlt'
  have hmem : ∀ r ∈ results h' base.payers, ∃ i ∈ base.payers.filterMap id, ∃ p q, h'[i]? = some p ∧ c.heap[i]? = some q ∧
      p.payer = q.payer ∧ r = (p.payer, p.paid.getD 0, p.fee.getD 0) := by
    intro r hr
    simp only [results, List.mem_filterMap (f := fun i : ℕ => _)] at hr
    obtain ⟨i, hi, hr⟩ := hr
    obtain ⟨p, hp, hr⟩ := Option.map_eq_some_iff.1 hr
    have : i < c.heap.length := hlt i hi
    refine ⟨i, hi, p, c.heap[i], hp, List.getElem?_eq_getElem this, ?_, hr.symm⟩
    exact (a9.payer (List.getElem?_eq_getElem this) hp).1
  have hres : ∀ i ∈ base.payers.filterMap id, ∀ q, c.heap[i]? = some q → ∃ r ∈ results h' base.payers, r.1 = q.payer := by
    intro i hi q hq
    obtain ⟨p, paid, hp, _⟩ := a11 i hi
    refine ⟨(p.payer, p.paid.getD 0, p.fee.getD 0), ?_, (a9.payer hq hp).1⟩
    simp only [results, List.mem_filterMap (f := fun i : ℕ => _)]
    exact ⟨i, hi, by rw [hp]; rfl⟩
  refine ⟨w', h', steps - left, by simp [redeemSteps, e], by omega, by omega, ?_, ?_, a5, a4, ?_, a7, ?_, ?_⟩
  · rw [results, ← s1, a3]
  · intro r hr
    obtain ⟨i, hi, p, q, hp, hq, hpq, rfl⟩ := hmem r hr
    obtain ⟨p', paid, hp', b1, b2, b3, b4, _⟩ := a11 i hi
    obtain rfl : p' = p := by rw [hp] at hp'; simpa using hp'.symm
    refine ⟨b3, by rw [b1]; exact b4, ?_⟩
    rcases hpay q (List.mem_of_getElem? hq) with ⟨x, hx, _⟩ | h
    · simp [CallCtx.start] at hx
    · rw [← hpq] at h; exact h
  · intro a ha
    refine a6 a (fun i hi q hq => ?_)
    obtain ⟨r, hr, hrq⟩ := hres i hi q hq
    rw [← hrq]; exact ha r hr
  · intro S hS
    rw [a8 S, s2]; rfl
    intro i hi q hq hne
    obtain ⟨r, hr, hrq⟩ := hres i hi q hq
    rw [← hrq]; exact hS r hr (by rw [hrq]; exact hne)
  · intro i hi
    obtain ⟨p, paid, h1, h2, _, h3, h4, _⟩ := a11 i hi
    exact ⟨p, h1, h3, by rw [h2]; exact h4⟩

theorem run_append {m s : Bool} (ops ops' : List FrameOp) : ∀ c : CallCtx, c.run m s (ops ++ ops') = (c.run m s ops).run m s ops' := by
  induction ops with
  | nil => intro c; rfl
  | cons op ops ih => intro c; exact ih _

/-- The request that counts: the last one with a proportion of 0 to 100. -/
def lastSet (sets : List (Bytes × ℤ)) : Option (Bytes × ℤ) := (sets.filter (fun x => 0 ≤ x.2 ∧ x.2 ≤ 100)).getLast?

/-- The base frame holds this request. -/
def Holds (h : PHeap) (ps : FeePayers) : Option (Bytes × ℤ) → Prop
  | none => ps = []
  | some (a, p) => if p = 0 then ps = [none] else ∃ i, ps = [some i] ∧ h[i]? = some { payer := a, portion := p }

theorem first_frame_sets {m : Bool} (sets : List (Bytes × ℤ)) :
    ∃ ps, ((CallCtx.start.step m true .push).run m true (sets.map (fun x => FrameOp.setFee x.1 x.2))).frames = [⟨2, [], 0⟩, ⟨1, ps, 0⟩] ∧
      Holds ((CallCtx.start.step m true .push).run m true (sets.map (fun x => FrameOp.setFee x.1 x.2))).heap ps (lastSet sets) := by
  induction sets using List.reverseRecOn with
  | nil => exact ⟨[], rfl, rfl⟩
  | append_singleton sets x ih =>
    obtain ⟨ps, h1, h2⟩ := ih
    rw [List.map_append, run_append]
    generalize (CallCtx.start.step m true .push).run m true (sets.map (fun x => FrameOp.setFee x.1 x.2)) = c at *
    have e : c.run m true ([x].map (fun x => FrameOp.setFee x.1 x.2)) =
        { c with heap := (setFeeProportion c.heap ps x.1 x.2).1,
                 frames := [⟨2, [], 0⟩, ⟨1, (setFeeProportion c.heap ps x.1 x.2).2, 0⟩] } := by
      simp [CallCtx.run, CallCtx.step, h1]
    rw [e]
    refine ⟨_, rfl, ?_⟩
    simp only
    have hl : ps.length ≤ 1 := by
      cases hls : lastSet sets with
      | none => rw [hls] at h2; simp only [Holds] at h2; simp [h2]
      | some y =>
        rw [hls] at h2
        simp only [Holds] at h2
        split at h2
        · simp [h2]
        · obtain ⟨i, hi, _⟩ := h2; simp [hi]
    have hdl : ps.dropLast = [] := by
      match ps, hl with
      | [], _ => rfl
      | [_], _ => rfl
    unfold setFeeProportion
    by_cases hx : 0 ≤ x.2 ∧ x.2 ≤ 100
    · rw [if_neg (by omega)]
      have : lastSet (sets ++ [x]) = some x := by simp [lastSet, List.filter_append, hx]
      rw [this, hdl]
      simp only [Holds]
      by_cases h0 : x.2 = 0
      · simp [h0]
      · simp [h0]
    · rw [if_pos (by omega)]
      have : lastSet (sets ++ [x]) = lastSet sets := by
        unfold lastSet; rw [List.filter_append]; simp [hx]
      rw [this]; exact h2

/-- **C51 (a contract called by a transaction).** The transaction calls a contract, which asks for proportions any number of times;
then its call ends, in success or failure. Only the last valid request counts, even if the call failed: with a proportion
`p` of `a`, the deposits of `a` pay for `p` percent of all the steps of the transaction, rounded down, as far as they can; nothing
else changes. Without a request, or with proportion 0, nothing is redeemed. -/
theorem C51_single {m keep : Bool} {sets : List (Bytes × ℤ)} {used steps : ℤ} {ctx : PayCtx} {w : World} :
    ∃ base, (CallCtx.start.run m true (.push :: (sets.map (fun x => FrameOp.setFee x.1 x.2) ++ [.pop keep used]))).frames = [base] ∧
      ((∀ x ∈ sets, x.2 < 0 ∨ 100 < x.2) → ∃ h', redeemSteps ctx w
          (CallCtx.start.run m true (.push :: (sets.map (fun x => FrameOp.setFee x.1 x.2) ++ [.pop keep used]))).heap base.payers steps = (w, h', 0)) ∧
      (∀ front a p tail, sets = front ++ (a, p) :: tail → (∀ x ∈ tail, x.2 < 0 ∨ 100 < x.2) → 0 ≤ p → p ≤ 100 →
        ∃ w' h' paid, redeemSteps ctx w
          (CallCtx.start.run m true (.push :: (sets.map (fun x => FrameOp.setFee x.1 x.2) ++ [.pop keep used]))).heap base.payers steps = (w', h', paid) ∧
          (p = 0 → w' = w ∧ paid = 0) ∧
          (0 < p → accountID a ≠ ctx.systemID → ctx.feeSharing = true → w.dep (accountID a) ≠ [] →
            paid = (paySteps ctx.height ctx.price (steps * p / 100) (w.dep (accountID a))).1.paid.getD 0 ∧
            w'.dep (accountID a) = (paySteps ctx.height ctx.price (steps * p / 100) (w.dep (accountID a))).2 ∧
            (∀ b, b ≠ accountID a → w'.dep b = w.dep b) ∧ w'.bal = w.bal ∧ w'.sysUsage = w.sysUsage) ∧
          (0 < p → accountID a ≠ ctx.systemID → w.dep (accountID a) = [] → paid = 0 ∧ w' = w) ∧
          (0 < p → accountID a = ctx.systemID → paid = steps * p / 100 ∧
            w' = { w with sysUsage := w.sysUsage + steps * p / 100 * ctx.price })) := by
  obtain ⟨ps, h1, h2⟩ := first_frame_sets (m := m) sets
  have e : CallCtx.start.run m true (.push :: (sets.map (fun x => FrameOp.setFee x.1 x.2) ++ [.pop keep used])) =
      ((CallCtx.start.step m true .push).run m true (sets.map (fun x => FrameOp.setFee x.1 x.2))).step m true (.pop keep used) := by
    rw [CallCtx.run, run_append]; rfl
  rw [e]
  generalize (CallCtx.start.step m true .push).run m true (sets.map (fun x => FrameOp.setFee x.1 x.2)) = c at *
  -- the frame and the objects after the call
  have hpop : ∃ base, (c.step m true (.pop keep used)).frames = [base] ∧ (c.step m true (.pop keep used)).heap = c.heap ∧
      (base.payers = ps ∨ base.payers = ps.dropLast ++ [ps.getLast?.join]) := by
    simp only [CallCtx.step, h1]
    cases keep with
    | false => exact ⟨_, rfl, rfl, Or.inl rfl⟩
    | true =>
      refine ⟨_, rfl, ?_, Or.inr ?_⟩
      · simp [applyPayers, setParentOfSub, applyLoop]
      · simp [applyPayers]
  obtain ⟨base, b1, b2, b3⟩ := hpop
  rw [b2]
  refine ⟨base, b1, ?_, ?_⟩
  · intro hall
    have : lastSet sets = none := by
      simp only [lastSet, List.getLast?_eq_none_iff, List.filter_eq_nil_iff]
      intro x hx; have := hall x hx; simp; omega
    rw [this] at h2
    simp only [Holds] at h2
    subst h2
    rcases b3 with h | h <;> rw [h] <;> exact ⟨c.heap, by simp [redeemSteps, payLoop]⟩
  · intro front a p tail hsets htail hp0 hp1
    have : lastSet sets = some (a, p) := by
      have ht : tail.filter (fun x => 0 ≤ x.2 ∧ x.2 ≤ 100) = [] := by
        rw [List.filter_eq_nil_iff]; intro x hx; have := htail x hx; simp; omega
      rw [lastSet, hsets, List.filter_append, List.filter_cons, if_pos (by simp [hp0, hp1]), ht]; simp
    rw [this] at h2
    simp only [Holds] at h2
    by_cases h0 : p = 0
    · rw [if_pos h0] at h2
      subst h2
      have hb : base.payers = [none] := by rcases b3 with h | h <;> rw [h] <;> rfl
      refine ⟨w, c.heap, 0, by simp [redeemSteps, payLoop, hb], fun _ => ⟨rfl, rfl⟩, ?_, ?_, ?_⟩ <;> intro h <;> omega
    · rw [if_neg h0] at h2
      obtain ⟨i, hi, hh⟩ := h2
      subst hi
      have hb : base.payers = [some i] := by rcases b3 with h | h <;> rw [h] <;> rfl
      refine ⟨_, _, _, rfl, fun h => absurd h h0, ?_, ?_, ?_⟩
      · intro _ hsys hfs hdep
        simp [redeemSteps, payLoop, hb, payerPaySteps, hh, Payer.ensureStepsToPay, Payer.calcStepsToPay, hsys, accountPaySteps, hfs, hdep,
          World.setDep]
        intro b hb hb'; exact absurd hb' hb
      · intro _ hsys hdep
        simp [redeemSteps, payLoop, hb, payerPaySteps, hh, Payer.ensureStepsToPay, Payer.calcStepsToPay, hsys, accountPaySteps, hdep,
          World.setDep]
        cases w; simp only [World.mk.injEq, true_and, and_true]
        funext b; split
        · rename_i hb; subst hb; exact hdep.symm
        · rfl
      · intro _ hsys
        simp [redeemSteps, payLoop, hb, payerPaySteps, hh, Payer.ensureStepsToPay, Payer.calcStepsToPay, hsys]

/-- What an account pays when asked for `steps`. -/
def pays (ctx : PayCtx) (w : World) (addr : Bytes) (steps : ℤ) : ℤ :=
  (paySteps ctx.height ctx.price steps (w.dep (accountID addr))).1.paid.getD 0

/-- The deposits of an account after paying for `steps`. -/
def after (ctx : PayCtx) (w : World) (addr : Bytes) (steps : ℤ) : List Dep :=
  (paySteps ctx.height ctx.price steps (w.dep (accountID addr))).2

theorem pay_one {ctx : PayCtx} {w : World} {h : PHeap} {i : ℕ} {p : Payer} {t : ℤ} (hi : h[i]? = some p)
    (hfs : ctx.feeSharing = true) (hs : accountID p.payer ≠ ctx.systemID) (hd : w.dep (accountID p.payer) ≠ []) :
    (payerPaySteps ctx w h i t).1 = w.setDep (accountID p.payer) (after ctx w p.payer ((p.ensureStepsToPay t).steps.getD 0)) ∧
    (payerPaySteps ctx w h i t).2.2 = pays ctx w p.payer ((p.ensureStepsToPay t).steps.getD 0) ∧
    (p.parent = none → ∀ k, k ≠ i → (payerPaySteps ctx w h i t).2.1[k]? = h[k]?) ∧
    (∀ j, p.parent = some j → j ≠ i → ∀ q, h[j]? = some q →
      (pays ctx w p.payer ((p.ensureStepsToPay t).steps.getD 0) < (p.ensureStepsToPay t).steps.getD 0 →
        (payerPaySteps ctx w h i t).2.1[j]? = some (q.delegateSteps ((p.ensureStepsToPay t).steps.getD 0 -
          pays ctx w p.payer ((p.ensureStepsToPay t).steps.getD 0)))) ∧
      (¬ pays ctx w p.payer ((p.ensureStepsToPay t).steps.getD 0) < (p.ensureStepsToPay t).steps.getD 0 →
        (payerPaySteps ctx w h i t).2.1[j]? = some q)) ∧
    (∀ j, p.parent = some j → ∀ k, k ≠ i → k ≠ j → (payerPaySteps ctx w h i t).2.1[k]? = h[k]?) := by
  have hpp : (p.ensureStepsToPay t).payer = p.payer ∧ (p.ensureStepsToPay t).parent = p.parent := by
    unfold Payer.ensureStepsToPay; split <;> simp
  have pay : ∀ s, accountPaySteps ctx s (w.dep (accountID p.payer)) = paySteps ctx.height ctx.price s (w.dep (accountID p.payer)) := by
    intro s; simp [accountPaySteps, hfs, hd]
  simp only [payerPaySteps, hi, hpp.1, hpp.2, if_neg hs, pay]
  refine ⟨rfl, rfl, ?_, ?_, ?_⟩
  · intro hn k hk
    simp only [hn]
    rw [List.getElem?_set_ne (Ne.symm hk)]
  · intro j hj hji q hq
    simp only [hj, pays]
    constructor
    · intro hlt
      rw [if_pos hlt, getElem?_modify', if_pos rfl, List.getElem?_set_ne (Ne.symm hji), hq]; rfl
    · intro hlt
      rw [if_neg hlt, List.getElem?_set_ne (Ne.symm hji), hq]
  · intro j hj k hk hkj
    simp only [hj]
    split
    · rw [getElem?_modify', if_neg (Ne.symm hkj), List.getElem?_set_ne (Ne.symm hk)]
    · rw [List.getElem?_set_ne (Ne.symm hk)]

/-- **C51 (a call made by the called contract).** Contract `a`, called by the transaction, asks to pay `q` percent; it calls
contract `b`, which asks to pay `p` percent and succeeds using `u` steps. Then `b` pays `p` percent of `u`, and `a` pays `q` percent
of what remains of all steps, each rounded down and as far as their deposits reach. If the call of `a` fails, only `a` pays. -/
theorem C51_nested {a b : Bytes} {p q u used steps : ℤ} {ctx : PayCtx} {w : World} (hp : 0 < p ∧ p ≤ 100) (hq : 0 < q ∧ q ≤ 100)
    (hfs : ctx.feeSharing = true) (ha : accountID a ≠ ctx.systemID) (hb : accountID b ≠ ctx.systemID)
    (hda : w.dep (accountID a) ≠ []) (hdb : w.dep (accountID b) ≠ []) (hab : accountID a ≠ accountID b) (keep : Bool) :
    let c := CallCtx.start.run true true [.push, .setFee a q, .push, .setFee b p, .pop true u, .pop keep used]
    ∃ base, c.frames = [base] ∧
      let r := redeemSteps ctx w c.heap base.payers steps
      let byB := if keep then pays ctx w b (u * p / 100) else 0
      r.2.2 = byB + pays ctx w a ((steps - byB) * q / 100) ∧
      r.1.dep (accountID a) = after ctx w a ((steps - byB) * q / 100) ∧
      r.1.dep (accountID b) = (if keep then after ctx w b (u * p / 100) else w.dep (accountID b)) ∧
      (∀ x, x ≠ accountID a → x ≠ accountID b → r.1.dep x = w.dep x) := by
  have np : ¬ (p < 0 ∨ p > 100) := by omega
  have nq : ¬ (q < 0 ∨ q > 100) := by omega
  have p0 : p ≠ 0 := by omega
  have q0 : q ≠ 0 := by omega
  intro c
  cases keep with
  | true =>
    have e : c = ⟨[{ payer := a, portion := q }, { payer := b, portion := p, steps := some (u * p / 100), base := some u }],
          [⟨1, [some 1, some 0], used⟩], 4⟩ := by
      simp [c, CallCtx.run, CallCtx.step, CallCtx.start, setFeeProportion, np, nq, p0, q0, applyPayers, setParentOfSub, applyLoop,
        Payer.ensureStepsToPay, Payer.calcStepsToPay]
    rw [e]
    refine ⟨_, rfl, ?_⟩
    simp only [redeemSteps, payLoop, if_true]
    obtain ⟨x1, x2, x3, _⟩ := pay_one (ctx := ctx) (w := w) (t := steps) (i := 1)
      (h := [{ payer := a, portion := q }, { payer := b, portion := p, steps := some (u * p / 100), base := some u }])
      (p := { payer := b, portion := p, steps := some (u * p / 100), base := some u }) rfl hfs hb hdb
    have x3 := x3 rfl 0 (by decide)
    simp only [Payer.ensureStepsToPay, Option.getD_some] at x1 x2
    simp only [List.getElem?_cons_zero] at x3
    generalize payerPaySteps ctx w _ 1 steps = r1 at *
    rw [x1, x2]
    obtain ⟨y1, y2, _⟩ := pay_one (ctx := ctx) (w := w.setDep (accountID b) (after ctx w b (u * p / 100)))
      (t := steps - pays ctx w b (u * p / 100)) x3 hfs ha (by simp [World.setDep, hab, hda])
    simp only [Payer.ensureStepsToPay, Option.getD_some, Payer.calcStepsToPay] at y1 y2
    generalize payerPaySteps ctx _ _ 0 _ = r2 at *
    have z : ∀ s, pays ctx (w.setDep (accountID b) (after ctx w b (u * p / 100))) a s = pays ctx w a s ∧
        after ctx (w.setDep (accountID b) (after ctx w b (u * p / 100))) a s = after ctx w a s := by
      intro s; simp [pays, after, World.setDep, hab]
    rw [y1, y2, (z _).1, (z _).2]
    refine ⟨by ring, by simp [World.setDep], by simp [World.setDep, Ne.symm hab], ?_⟩
    intro x hx hx'
    simp [World.setDep, hx, hx']
  | false =>
    have e : c = ⟨[{ payer := a, portion := q }, { payer := b, portion := p, steps := some (u * p / 100), base := some u }],
          [⟨1, [some 0], 0⟩], 4⟩ := by
      simp [c, CallCtx.run, CallCtx.step, CallCtx.start, setFeeProportion, np, nq, p0, q0, applyPayers, setParentOfSub, applyLoop,
        Payer.ensureStepsToPay, Payer.calcStepsToPay]
    rw [e]
    refine ⟨_, rfl, ?_⟩
    simp only [redeemSteps, payLoop, Bool.false_eq_true, if_false, sub_zero, zero_add]
    obtain ⟨x1, x2, x3, _⟩ := pay_one (ctx := ctx) (w := w) (t := steps) (i := 0)
      (h := [{ payer := a, portion := q }, { payer := b, portion := p, steps := some (u * p / 100), base := some u }])
      (p := { payer := a, portion := q }) rfl hfs ha hda
    simp only [Payer.ensureStepsToPay, Option.getD_some, Payer.calcStepsToPay] at x1 x2
    generalize payerPaySteps ctx w _ 0 steps = r1 at *
    rw [x1, x2]
    refine ⟨by ring, by simp [World.setDep], by simp [World.setDep, Ne.symm hab], ?_⟩
    intro x hx hx'
    simp [World.setDep, hx]

/-- **C51 (steps a callee cannot pay go to its caller).** Contract `a`, called by the transaction without asking to pay, calls `b`,
which asks to pay `p` percent; `b` calls `d`, which asks to pay `r` percent and succeeds using `v` of the `u` steps of `b`. Then `d`
pays `r` percent of `v` as far as its deposits reach, and `b` pays `p` percent of `u` less what `d` really paid. -/
theorem C51_delegate {b d : Bytes} {p r u v used steps : ℤ} {ctx : PayCtx} {w : World} (hp : 0 < p ∧ p ≤ 100) (hr : 0 < r ∧ r ≤ 100)
    (hv : 0 ≤ v) (hpr : 0 < ctx.price) (hw : w.Sound)
    (hfs : ctx.feeSharing = true) (hb : accountID b ≠ ctx.systemID) (hd : accountID d ≠ ctx.systemID)
    (hdb : w.dep (accountID b) ≠ []) (hdd : w.dep (accountID d) ≠ []) (hbd : accountID b ≠ accountID d) :
    let c := CallCtx.start.run true true [.push, .push, .push, .setFee d r, .pop true v, .setFee b p, .pop true u, .pop true used]
    ∃ base, c.frames = [base] ∧
      let x := redeemSteps ctx w c.heap base.payers steps
      let byD := pays ctx w d (v * r / 100)
      x.2.2 = byD + pays ctx w b ((u - byD) * p / 100) ∧
      x.1.dep (accountID d) = after ctx w d (v * r / 100) ∧
      x.1.dep (accountID b) = after ctx w b ((u - byD) * p / 100) ∧
      (∀ x', x' ≠ accountID b → x' ≠ accountID d → x.1.dep x' = w.dep x') := by
  have np : ¬ (p < 0 ∨ p > 100) := by omega
  have nr : ¬ (r < 0 ∨ r > 100) := by omega
  have p0 : p ≠ 0 := by omega
  have r0 : r ≠ 0 := by omega
  have hle : pays ctx w d (v * r / 100) ≤ v * r / 100 := by
    obtain ⟨paid, h1, h2, h3, _⟩ := C45_pay (bh := ctx.height) (hw (accountID d)).1 hpr
      (share_bounds hv (by omega : 0 ≤ r) hr.2).1 hdd
    rw [pays, h1]; exact h3
  intro c
  have e : c = ⟨[{ payer := d, portion := r, steps := some (v * r / 100), base := some v, parent := some 1 },
        { payer := b, portion := p, steps := some ((u - v * r / 100) * p / 100), base := some (u - v * r / 100) }],
        [⟨1, [some 0, some 1, none], used⟩], 5⟩ := by
    simp [c, CallCtx.run, CallCtx.step, CallCtx.start, setFeeProportion, np, nr, p0, r0, applyPayers, setParentOfSub, applyLoop,
      Payer.ensureStepsToPay, Payer.calcStepsToPay]
  rw [e]
  refine ⟨_, rfl, ?_⟩
  simp only [redeemSteps, payLoop]
  obtain ⟨x1, x2, _, x3, _⟩ := pay_one (ctx := ctx) (w := w) (t := steps) (i := 0)
    (h := [{ payer := d, portion := r, steps := some (v * r / 100), base := some v, parent := some 1 },
        { payer := b, portion := p, steps := some ((u - v * r / 100) * p / 100), base := some (u - v * r / 100) }])
    (p := { payer := d, portion := r, steps := some (v * r / 100), base := some v, parent := some 1 }) rfl hfs hd hdd
  have x3 := x3 1 rfl (by decide) _ rfl
  simp only [Payer.ensureStepsToPay, Option.getD_some] at x1 x2 x3
  generalize payerPaySteps ctx w _ 0 steps = r1 at *
  rw [x1, x2]
  have hq : ∃ q : Payer, r1.2.1[1]? = some q ∧ q.payer = b ∧ q.parent = none ∧ q.steps = some ((u - pays ctx w d (v * r / 100)) * p / 100) := by
    by_cases hlt : pays ctx w d (v * r / 100) < v * r / 100
    · have x3 := x3.1 hlt
      refine ⟨_, x3, rfl, rfl, ?_⟩
      simp only [Payer.delegateSteps, Payer.calcStepsToPay]
      congr 3; ring
    · have x3 := x3.2 hlt
      refine ⟨_, x3, rfl, rfl, ?_⟩
      have : pays ctx w d (v * r / 100) = v * r / 100 := by omega
      simp only [this]
  obtain ⟨q, hq, qb, qp, qs⟩ := hq
  obtain ⟨y1, y2, _⟩ := pay_one (ctx := ctx) (w := w.setDep (accountID d) (after ctx w d (v * r / 100)))
    (t := steps - pays ctx w d (v * r / 100)) hq hfs (by rw [qb]; exact hb) (by rw [qb]; simp [World.setDep, hbd, hdb])
  have eq : q.ensureStepsToPay (steps - pays ctx w d (v * r / 100)) = q := by simp [Payer.ensureStepsToPay, qs]
  rw [eq, qs, qb] at y1 y2
  simp only [Option.getD_some] at y1 y2
  generalize payerPaySteps ctx _ _ 1 _ = r2 at *
  have z : ∀ s, pays ctx (w.setDep (accountID d) (after ctx w d (v * r / 100))) b s = pays ctx w b s ∧
      after ctx (w.setDep (accountID d) (after ctx w d (v * r / 100))) b s = after ctx w b s := by
    intro s; simp [pays, after, World.setDep, hbd]
  rw [y1, y2, (z _).1, (z _).2]
  refine ⟨by ring, by simp [World.setDep, Ne.symm hbd], by simp [World.setDep], ?_⟩
  intro x hx hx'
  simp [World.setDep, hx, hx']

end Verif.Service
