import Verif.Service.TxFee
import Verif.Service.ReceiptProps

/-!
# C52: fees neither create nor lose coins
-/

namespace Verif.Service
open Verif

/-- Deposits in order and no negative balance. -/
structure World.Good (w : World) : Prop where
  sound : w.Sound
  nonneg : ∀ a, 0 ≤ w.bal a

/-- The frame operations among the operations of a transaction. -/
def frameOps : List TxOp → List FrameOp
  | [] => []
  | .push :: ops => .push :: frameOps ops
  | .pop k u :: ops => .pop k u :: frameOps ops
  | .setFee p n :: ops => .setFee p n :: frameOps ops
  | _ :: ops => frameOps ops

/-- The accounts an operation names. -/
def TxOp.accounts : TxOp → List Bytes
  | .push => []
  | .pop _ _ => []
  | .setFee p _ => [accountID p]
  | .transfer f d _ _ _ => [f, d]
  | .addDeposit f d _ _ => [f, d]
  | .withdraw f d _ _ _ => [f, d]

/-- All accounts a transaction names are in `S`. -/
def Tx.Within (tx : Tx) (S : Finset Bytes) : Prop := accountID tx.sender ∈ S ∧ ∀ op ∈ tx.ops, ∀ a ∈ op.accounts, a ∈ S

/-- Rules as they can be: the price and the rate are not negative. -/
structure Rules.Ok (R : Rules) : Prop where
  price : 0 ≤ R.price
  rate : 0 ≤ R.rate

/-- Every call, and the transaction, uses at least the steps of the calls it made; every call ended; the minimum is not negative. -/
structure Tx.Valid (R : Rules) (tx : Tx) : Prop where
  run : RunValid R.multiple R.feeSharing CallCtx.start (frameOps tx.ops)
  closed : ∃ base, (CallCtx.start.run R.multiple R.feeSharing (frameOps tx.ops)).frames = [base] ∧ base.childUsed ≤ tx.used
  minSteps : 0 ≤ tx.minSteps

/-! ### The operations -/

theorem good_setBal {w : World} (hw : w.Good) {a : Bytes} {v : ℤ} (hv : 0 ≤ v) : (w.setBal a v).Good :=
  ⟨hw.sound, fun b => by simp only [World.setBal]; split; exacts [hv, hw.nonneg b]⟩

theorem good_setDep {w : World} (hw : w.Good) {a : Bytes} {dl : List Dep} (h : (∀ d ∈ dl, d.Sound) ∧ dl.Pairwise Dep.Apart) :
    (w.setDep a dl).Good :=
  ⟨fun b => by simp only [World.setDep]; split; exacts [h, hw.sound b], hw.nonneg⟩

/-- **C52 (transfers and deposits conserve coins).** Each of the operations of the handlers that succeeds keeps the total of balances
and deposits, and no balance becomes negative. -/
theorem C52_handlers {R : Rules} {txid : Bytes} {w w' : World} {S : Finset Bytes} {f d : Bytes} (hR : R.Ok) (hw : w.Good) (hf : f ∈ S)
    (hd : d ∈ S) (ht : R.treasury ∈ S) :
    (∀ v a1 a2, doTransfer w f d v a1 a2 = some w' → w'.Good ∧ w'.total S = w.total S) ∧
    (∀ v a, doAddDeposit R txid w f d v a = some w' → w'.Good ∧ w'.total S = w.total S) ∧
    (∀ id v a, doWithdraw R txid w f d id v a = some w' → w'.Good ∧ w'.total S = w.total S) := by
  refine ⟨?_, ?_, ?_⟩
  · intro v a1 a2 h
    unfold doTransfer at h
    by_cases c1 : (!a1) = true
    · rw [if_pos c1] at h; simp at h
    by_cases c2 : v < 0
    · rw [if_neg c1, if_pos c2] at h; simp at h
    by_cases c3 : w.bal f < v
    · rw [if_neg c1, if_neg c2, if_pos c3] at h; simp at h
    by_cases c4 : (!a2) = true
    · rw [if_neg c1, if_neg c2, if_neg c3] at h; simp only [if_pos c4] at h; simp at h
    rw [if_neg c1, if_neg c2, if_neg c3] at h
    simp only [if_neg c4, Option.some.injEq] at h
    subst h
    have g1 : (w.setBal f (w.bal f - v)).Good := good_setBal hw (by omega)
    refine ⟨good_setBal g1 (by have := g1.nonneg d; omega), ?_⟩
    rw [World.total_setBal hd, World.total_setBal hf]; ring
  · intro v a h
    unfold doAddDeposit at h
    by_cases c1 : (!a) = true
    · rw [if_pos c1] at h; simp at h
    by_cases c2 : (!R.feeSharing) = true
    · rw [if_neg c1, if_pos c2] at h; simp at h
    by_cases c3 : v < 0
    · rw [if_neg c1, if_neg c2, if_pos c3] at h; simp at h
    by_cases c4 : R.term > 0 ∧ (v < depositMinimum ∨ v > depositMaximum)
    · rw [if_neg c1, if_neg c2, if_neg c3, if_pos c4] at h; simp at h
    by_cases c5 : w.bal f < v
    · rw [if_neg c1, if_neg c2, if_neg c3, if_neg c4, if_pos c5] at h; simp at h
    rw [if_neg c1, if_neg c2, if_neg c3, if_neg c4, if_neg c5] at h
    have g1 : (w.setBal f (w.bal f - v)).Good := good_setBal hw (by omega)
    simp only at h
    cases ha : addDeposit (R.depCtx txid) v ((w.setBal f (w.bal f - v)).dep d) with
    | error e => rw [ha] at h; simp at h
    | ok dl =>
      rw [ha] at h
      simp only [Option.some.injEq] at h
      obtain ⟨b1, b2, b3, _⟩ := C45_add ha (by omega) hR.rate (g1.sound d).1 (g1.sound d).2
      subst h
      refine ⟨good_setDep g1 ⟨b2, b3⟩, ?_⟩
      rw [World.total_setDep hd, World.total_setBal hf, b1]; ring
  · intro id v a h
    unfold doWithdraw at h
    by_cases c1 : (!a) = true
    · rw [if_pos c1] at h; simp at h
    by_cases c2 : (v.any (· < 0)) = true
    · rw [if_neg c1, if_pos c2] at h; simp at h
    rw [if_neg c1, if_neg c2] at h
    cases hwd : withdrawDeposit (R.depCtx txid) id v (w.dep d) with
    | error e => rw [hwd] at h; simp at h
    | ok x =>
      obtain ⟨amount, fee, dl⟩ := x
      rw [hwd] at h
      simp only [Option.some.injEq] at h
      obtain ⟨b1, b2, b3, b4, b5, _⟩ := C45_withdraw hwd (hw.sound d).1 hR.price (hw.sound d).2
      subst h
      have g1 := good_setDep (a := d) hw ⟨b4, b5⟩
      have g2 : ((w.setDep d dl).setBal f ((w.setDep d dl).bal f + amount)).Good :=
        good_setBal g1 (by have := g1.nonneg f; omega)
      refine ⟨good_setBal g2 (by have := g2.nonneg R.treasury; omega), ?_⟩
      rw [World.total_setBal ht, World.total_setBal hf, World.total_setDep hd, b3]; ring

/-! ### The calls of a transaction -/

/-- The world of a transaction under way, and all its snapshots, have the coins of the world before it. -/
structure Body.Inv (S : Finset Bytes) (w0 : World) (b : Body) : Prop where
  good : b.w.Good
  total : b.w.total S = w0.total S
  snaps : ∀ s ∈ b.snaps, s.Good ∧ s.total S = w0.total S
  depth : b.c.frames.length = b.snaps.length + 1

theorem step_length {m s : Bool} {c : CallCtx} :
    ((c.step m s .push).frames.length = c.frames.length + 1) ∧
    (∀ p n, (c.step m s (.setFee p n)).frames.length = c.frames.length) ∧
    (∀ k u, 2 ≤ c.frames.length → (c.step m s (.pop k u)).frames.length + 1 = c.frames.length) ∧
    (∀ k u, c.frames.length ≤ 1 → c.step m s (.pop k u) = c) := by
  refine ⟨by simp [CallCtx.step], ?_, ?_, ?_⟩
  · intro p n
    simp only [CallCtx.step]
    split
    · rfl
    · cases hc : c.frames with
      | nil => simp [hc]
      | cons f fs =>
        cases fs with
        | nil => simp [hc]
        | cons g fs =>
          simp only
          split
          · simp
          · split
            · simp
            · simp [hc]
  · intro k u h
    simp only [CallCtx.step]
    match hc : c.frames, h with
    | f :: g :: fs, _ => cases k <;> simp
  · intro k u h
    simp only [CallCtx.step]
    match hc : c.frames, h with
    | [], _ => rfl
    | [f], _ => rfl

theorem Body.Inv.step {R : Rules} {txid : Bytes} {S : Finset Bytes} {w0 : World} {b : Body} (hR : R.Ok) (ht : R.treasury ∈ S)
    (hb : b.Inv S w0) {op : TxOp} (hop : ∀ a ∈ op.accounts, a ∈ S) : (b.step R txid op).Inv S w0 := by
  have world : ∀ o : Option World, (∀ w', o = some w' → w'.Good ∧ w'.total S = b.w.total S) →
      Body.Inv S w0 { b with w := o.getD b.w } := by
    intro o ho
    cases o with
    | none => exact hb
    | some w' =>
      obtain ⟨h1, h2⟩ := ho w' rfl
      exact ⟨h1, by rw [← hb.total]; exact h2, hb.snaps, hb.depth⟩
  cases op with
  | push =>
    refine ⟨hb.good, hb.total, ?_, ?_⟩
    · intro s hs
      rcases List.mem_cons.1 hs with rfl | hs
      · exact ⟨hb.good, hb.total⟩
      · exact hb.snaps s hs
    · simp only [Body.step, step_length.1, hb.depth, List.length_cons]
  | pop keep used =>
    simp only [Body.step]
    cases hs : b.snaps with
    | nil => exact hb
    | cons s ss =>
      have hd := hb.depth
      rw [hs, List.length_cons] at hd
      have hsn := hb.snaps
      rw [hs] at hsn
      refine ⟨?_, ?_, fun x hx => hsn x (List.mem_cons_of_mem _ hx), ?_⟩
      · simp only; split; exacts [hb.good, (hsn s (by simp)).1]
      · simp only; split; exacts [hb.total, (hsn s (by simp)).2]
      · have := step_length (m := R.multiple) (s := R.feeSharing) (c := b.c) |>.2.2.1 keep used (by omega)
        simp only; omega
  | setFee p n =>
    refine ⟨hb.good, hb.total, hb.snaps, ?_⟩
    simp only [Body.step]
    rw [step_length.2.1]; exact hb.depth
  | transfer f d v a1 a2 =>
    exact world _ (fun w' h => (C52_handlers (R := R) (txid := txid) hR hb.good (hop f (by simp [TxOp.accounts]))
      (hop d (by simp [TxOp.accounts])) ht).1 v a1 a2 h)
  | addDeposit f d v a =>
    exact world _ (fun w' h => (C52_handlers (R := R) (txid := txid) hR hb.good (hop f (by simp [TxOp.accounts]))
      (hop d (by simp [TxOp.accounts])) ht).2.1 v a h)
  | withdraw f d i v a =>
    exact world _ (fun w' h => (C52_handlers (R := R) (txid := txid) hR hb.good (hop f (by simp [TxOp.accounts]))
      (hop d (by simp [TxOp.accounts])) ht).2.2 i v a h)

theorem Body.Inv.run {R : Rules} {txid : Bytes} {S : Finset Bytes} {w0 : World} (hR : R.Ok) (ht : R.treasury ∈ S) :
    ∀ {ops : List TxOp} {b : Body}, b.Inv S w0 → (∀ op ∈ ops, ∀ a ∈ op.accounts, a ∈ S) → (b.run R txid ops).Inv S w0
  | [], _, hb, _ => hb
  | op :: ops, b, hb, hops => by
    rw [Body.run]
    exact Body.Inv.run hR ht (hb.step hR ht (hops op (by simp))) (fun o ho => hops o (List.mem_cons_of_mem _ ho))

theorem body_ctx {R : Rules} {txid : Bytes} : ∀ {ops : List TxOp} {b : Body}, b.c.frames.length = b.snaps.length + 1 →
    (b.run R txid ops).c = b.c.run R.multiple R.feeSharing (frameOps ops)
  | [], _, _ => rfl
  | op :: ops, b, hd => by
    rw [Body.run]
    cases op with
    | push =>
      rw [body_ctx]; · rfl
      simp only [Body.step, step_length.1, hd, List.length_cons]
    | pop keep used =>
      simp only [frameOps, CallCtx.run, Body.step]
      cases hs : b.snaps with
      | nil =>
        rw [hs] at hd
        simp only
        rw [body_ctx (by rw [hs]; exact hd), step_length.2.2.2 _ _ (by simp at hd; omega)]
      | cons s ss =>
        rw [hs, List.length_cons] at hd
        simp only
        rw [body_ctx]
        have := step_length (m := R.multiple) (s := R.feeSharing) (c := b.c) |>.2.2.1 keep used (by omega)
        simp only; omega
    | setFee p n =>
      rw [body_ctx]; · rfl
      simp only [Body.step]
      rw [step_length.2.1]; exact hd
    | transfer f d v a1 a2 => rw [body_ctx (by exact hd)]; rfl
    | addDeposit f d v a => rw [body_ctx (by exact hd)]; rfl
    | withdraw f d i v a => rw [body_ctx (by exact hd)]; rfl

theorem frameOps_setFee {p : Bytes} {n : ℤ} : ∀ {ops : List TxOp}, FrameOp.setFee p n ∈ frameOps ops → TxOp.setFee p n ∈ ops
  | [], h => by simp [frameOps] at h
  | op :: ops, h => by
    cases op <;> simp only [frameOps, List.mem_cons, FrameOp.setFee.injEq, reduceCtorEq, false_or] at h <;>
      first
        | (exact List.mem_cons_of_mem _ (frameOps_setFee h))
        | (rcases h with ⟨rfl, rfl⟩ | h
           · simp
           · exact List.mem_cons_of_mem _ (frameOps_setFee h))

/-! ### Charging -/

/-- What the charging loop keeps. -/
structure Charge.Inv (redeemed : Bool) (wcs : World) (h : PHeap) (S : Finset Bytes) (sender : Bytes) (s : Charge) : Prop where
  good : s.w.Good
  bal : s.bal = s.w.bal sender
  fee : s.fee = s.stepToPay * s.price
  price : 0 ≤ s.price
  toPay : 0 ≤ s.stepToPay
  used : s.stepToPay + ((results h s.payers).map (fun r => r.2.1)).sum = s.stepUsed
  total : s.w.total S + ((results h s.payers).map (fun r => r.2.2)).sum * s.price = wcs.total S
  payers : ∀ i ∈ s.payers.filterMap id, ∃ p, h[i]? = some p ∧ 0 ≤ p.fee.getD 0 ∧ p.fee.getD 0 ≤ p.paid.getD 0
  none : redeemed = false → ∀ r ∈ results h s.payers, r.2.1 = 0 ∧ r.2.2 = 0

theorem results_nil (h : PHeap) : results h [] = [] := rfl

theorem sum_zero_of {α : Type} {l : List α} {f : α → ℤ} (h : ∀ a ∈ l, f a = 0) : (l.map f).sum = 0 := by
  apply List.sum_eq_zero
  intro z hz
  obtain ⟨q, hq, rfl⟩ := List.mem_map.1 hz
  exact h q hq

theorem Charge.Inv.step {redeemed : Bool} {wcs : World} {h : PHeap} {S : Finset Bytes} {sender : Bytes} {s : Charge}
    (hw : wcs.Good) (hs : s.Inv redeemed wcs h S sender) : (chargeStep false redeemed wcs sender s).1.Inv redeemed wcs h S sender := by
  have paid0 : ∀ r ∈ results h s.payers, 0 ≤ r.2.1 ∧ 0 ≤ r.2.2 := by
    intro q hq
    simp only [results, List.mem_filterMap (f := fun i : ℕ => _)] at hq
    obtain ⟨i, hi, hq⟩ := hq
    obtain ⟨p, h1, h3, h4⟩ := hs.payers i hi
    rw [h1] at hq
    simp only [Option.map_some, Option.some.injEq] at hq
    rw [← hq]; simp only; omega
  have hused : 0 ≤ s.stepUsed := by
    have : 0 ≤ ((results h s.payers).map (fun r => r.2.1)).sum := List.sum_nonneg (by
      intro z hz; obtain ⟨b, hb, rfl⟩ := List.mem_map.1 hz; exact (paid0 b hb).1)
    have := hs.used; have := hs.toPay; omega
  unfold chargeStep
  simp only [Bool.false_eq_true, if_false]
  cases redeemed with
  | true =>
    by_cases hok : s.ok = true
    · rw [if_pos hok]
      simp only [if_true]
      exact ⟨hw, rfl, rfl, hs.price, hused, by simp [results_nil], by simp [results_nil], by simp, by simp⟩
    · rw [if_neg hok]
      exact ⟨hw, rfl, by simp, le_refl _, hused, by simp [results_nil], by simp [results_nil], by simp, by simp⟩
  | false =>
    have hn := hs.none rfl
    have z1 : ((results h s.payers).map (fun r => r.2.1)).sum = 0 := sum_zero_of (fun r hr => (hn r hr).1)
    have z2 : ((results h s.payers).map (fun r => r.2.2)).sum = 0 := sum_zero_of (fun r hr => (hn r hr).2)
    have ht := hs.total
    rw [z2] at ht
    by_cases hok : s.ok = true
    · rw [if_pos hok]
      exact ⟨hw, rfl, rfl, hs.price, hs.toPay, hs.used, by simp [z2], hs.payers, hs.none⟩
    · rw [if_neg hok]
      exact ⟨hs.good, hs.bal, by simp, le_refl _, hs.toPay, hs.used, (by show s.w.total S + _ * 0 = _; rw [mul_zero]; rw [zero_mul] at ht; exact ht), hs.payers, hs.none⟩

theorem chargeLoop_inv {redeemed : Bool} {wcs : World} {h : PHeap} {S : Finset Bytes} {sender : Bytes} (hw : wcs.Good) :
    ∀ {n : ℕ} {s s' : Charge}, s.Inv redeemed wcs h S sender → chargeLoop false redeemed wcs sender n s = some s' →
      s'.Inv redeemed wcs h S sender ∧ s'.fee ≤ s'.bal
  | 0, s, s', hs, he => by
    unfold chargeLoop at he
    split at he
    · simp at he
    · obtain rfl := Option.some.inj he
      exact ⟨hs, by omega⟩
  | n + 1, s, s', hs, he => by
    unfold chargeLoop at he
    by_cases hlt : s.bal < s.fee
    · rw [if_pos hlt] at he
      have hb : (chargeStep false redeemed wcs sender s).2 = false := by
        unfold chargeStep; simp only [Bool.false_eq_true, if_false]; split <;> [rfl; split <;> rfl]
      rw [hb] at he
      simp only [Bool.false_eq_true, if_false] at he
      exact chargeLoop_inv hw (hs.step hw) he
    · rw [if_neg hlt] at he
      obtain rfl := Option.some.inj he
      exact ⟨hs, by omega⟩

theorem chargeLoop_done {redeemed : Bool} {wcs : World} {h : PHeap} {S : Finset Bytes} {sender : Bytes} (hw : wcs.Good) {s : Charge}
    (hs : s.Inv redeemed wcs h S sender) : ∃ s', ∀ n, 2 ≤ n → chargeLoop false redeemed wcs sender n s = some s' := by
  have brk : ∀ s, (chargeStep false redeemed wcs sender s).2 = false := by
    intro s; unfold chargeStep; simp only [Bool.false_eq_true, if_false]; split <;> [rfl; split <;> rfl]
  have turn : ∀ n s, chargeLoop false redeemed wcs sender (n + 1) s =
      if s.bal < s.fee then chargeLoop false redeemed wcs sender n (chargeStep false redeemed wcs sender s).1 else some s := by
    intro n s; rw [chargeLoop, brk]; simp
  have stop : ∀ n s, ¬ s.bal < s.fee → chargeLoop false redeemed wcs sender n s = some s := by
    intro n s hn; cases n <;> simp [chargeLoop, hn]
  by_cases h0 : s.bal < s.fee
  swap
  · exact ⟨s, fun n _ => stop n s h0⟩
  have i1 := hs.step hw
  -- a step on a failed transaction ends the loop
  have last : ∀ t : Charge, t.Inv redeemed wcs h S sender → t.ok = false →
      ¬ (chargeStep false redeemed wcs sender t).1.bal < (chargeStep false redeemed wcs sender t).1.fee := by
    intro t ht hok
    have h1 := (ht.step hw).bal
    have h2 := (ht.step hw).good.nonneg sender
    have h3 : (chargeStep false redeemed wcs sender t).1.fee = 0 := by
      unfold chargeStep; simp only [Bool.false_eq_true, if_false, hok]; split <;> rfl
    omega
  by_cases hok : s.ok = true
  · have hok1 : (chargeStep false redeemed wcs sender s).1.ok = false := by
      unfold chargeStep; simp only [Bool.false_eq_true, if_false, hok, if_true]
    by_cases h1 : (chargeStep false redeemed wcs sender s).1.bal < (chargeStep false redeemed wcs sender s).1.fee
    · refine ⟨(chargeStep false redeemed wcs sender (chargeStep false redeemed wcs sender s).1).1, ?_⟩
      intro n hn
      obtain ⟨k, rfl⟩ := Nat.exists_eq_add_of_le' hn
      rw [show k + 2 = (k + 1) + 1 by ring, turn, if_pos h0, turn, if_pos h1, stop _ _ (last _ i1 hok1)]
    · refine ⟨(chargeStep false redeemed wcs sender s).1, ?_⟩
      intro n hn
      obtain ⟨k, rfl⟩ := Nat.exists_eq_add_of_le' hn
      rw [show k + 2 = (k + 1) + 1 by ring, turn, if_pos h0, stop _ _ h1]
  · have hok : s.ok = false := by simpa using hok
    refine ⟨(chargeStep false redeemed wcs sender s).1, ?_⟩
    intro n hn
    obtain ⟨k, rfl⟩ := Nat.exists_eq_add_of_le' hn
    rw [show k + 2 = (k + 1) + 1 by ring, turn, if_pos h0, stop _ _ (last _ hs hok)]

theorem chargeLoop_mono {l redeemed : Bool} {wcs : World} {sender : Bytes} : ∀ {n : ℕ} {s s' : Charge},
    chargeLoop l redeemed wcs sender n s = some s' → ∀ m, n ≤ m → chargeLoop l redeemed wcs sender m s = some s'
  | 0, s, s', h, m, _ => by
    rw [chargeLoop] at h
    by_cases hlt : s.bal < s.fee
    · rw [if_pos hlt] at h; simp at h
    · rw [if_neg hlt] at h
      cases m <;> simp [chargeLoop, hlt] <;> simpa using h
  | n + 1, s, s', h, m, hm => by
    obtain ⟨k, rfl⟩ := Nat.exists_eq_add_of_le' (by omega : 1 ≤ m)
    rw [chargeLoop] at h ⊢
    by_cases hlt : s.bal < s.fee
    · rw [if_pos hlt] at h ⊢
      by_cases hb : (chargeStep l redeemed wcs sender s).2 = true
      · rw [if_pos hb] at h ⊢; exact h
      · rw [if_neg hb] at h ⊢
        exact chargeLoop_mono h k (by omega)
    · rw [if_neg hlt] at h ⊢; exact h

theorem results_unpaid {h : PHeap} {ps : FeePayers} (hu : ∀ i ∈ ps.filterMap id, At h Payer.Unpaid i) :
    ∀ r ∈ results h ps, r.2.1 = 0 ∧ r.2.2 = 0 := by
  intro q hq
  simp only [results, List.mem_filterMap (f := fun i : ℕ => _)] at hq
  obtain ⟨i, hi, hq⟩ := hq
  obtain ⟨p, h1, h2, h3⟩ := hu i hi
  rw [h1] at hq
  simp only [Option.map_some, Option.some.injEq] at hq
  rw [← hq]; simp [h2, h3]

/-- More about the state in which charging starts. -/
structure ChargeStarts (R : Rules) (tx : Tx) (b : Body) (s : Charge) : Prop where
  ok : s.ok = tx.ok
  price : s.price = if tx.isPatch then 0 else R.price
  used : s.stepUsed = max tx.used tx.minSteps
  bal : s.w.bal = b.w.bal
  le : s.stepToPay ≤ s.stepUsed
  dep : ∀ a, (∀ p n, TxOp.setFee p n ∈ tx.ops → accountID p ≠ a) → s.w.dep a = b.w.dep a
  all : redeems R tx = false → s.stepToPay = s.stepUsed ∧ s.w = b.w

/-- The state in which charging starts. -/
theorem chargeStart_inv {R : Rules} {tx : Tx} {wcs : World} {S : Finset Bytes} {base : Frame} (hR : R.Ok) (hw : wcs.Good)
    (ht : R.treasury ∈ S) (hS : tx.Within S) (hv : tx.Valid R)
    (hb : ((Body.start wcs).run R tx.txid tx.ops).c.frames = [base]) :
    (chargeStart R tx ((Body.start wcs).run R tx.txid tx.ops) base).1.Inv (redeems R tx) wcs
      (chargeStart R tx ((Body.start wcs).run R tx.txid tx.ops) base).2 S (accountID tx.sender) ∧
    ChargeStarts R tx ((Body.start wcs).run R tx.txid tx.ops) (chargeStart R tx ((Body.start wcs).run R tx.txid tx.ops) base).1 := by
  have hinv : ((Body.start wcs).run R tx.txid tx.ops).Inv S wcs :=
    Body.Inv.run hR ht ⟨hw, rfl, by simp [Body.start], by simp [Body.start, CallCtx.start]⟩ hS.2
  have hc : ((Body.start wcs).run R tx.txid tx.ops).c = CallCtx.start.run R.multiple R.feeSharing (frameOps tx.ops) :=
    body_ctx (by simp [Body.start, CallCtx.start])
  have hused : base.childUsed ≤ tx.used := by
    obtain ⟨base', h1, h2⟩ := hv.closed
    rw [← hc, hb] at h1
    obtain rfl : base = base' := by simpa using h1
    exact h2
  generalize (Body.start wcs).run R tx.txid tx.ops = b at *
  have hcinv := CallCtx.start_inv.run hv.run
  rw [← hc] at hcinv
  have hF := hcinv.frames base (by rw [hb]; simp)
  have hN := hcinv.nodup base (by rw [hb]; simp)
  have hmin := hv.minSteps
  have hch := hF.used
  unfold chargeStart
  generalize hsu : (if tx.used < tx.minSteps then tx.minSteps else tx.used) = su at *
  have hmax : su = max tx.used tx.minSteps := by
    rw [← hsu]; split <;> omega
  have hsu0 : base.childUsed ≤ su ∧ 0 ≤ su := by
    rw [← hsu]; split <;> omega
  generalize hpr : (if tx.isPatch = true then (0 : ℤ) else R.price) = price at *
  have hpr' := hpr.symm
  have hpr0 : 0 ≤ price := by rw [← hpr]; split; exacts [le_refl _, hR.price]
  by_cases hcond : R.feeSharing = true ∧ price > 0
  · have hprice : R.price = price := by
      rw [← hpr]; split
      · rename_i h; rw [if_pos h] at hpr; omega
      · rfl
    simp only
    rw [if_pos hcond]
    have hred : redeems R tx = true := by
      unfold redeems; rw [hpr]; simp [hcond.1, hcond.2]
    obtain ⟨w', h', redeemed, e, r0, r1, r2, r3, r4, r5, r6, _, r8, r9⟩ :=
      C51_pay (ctx := R.payCtx) (w := b.w) (steps := su) hv.run (base := base) (by rw [← hc]; exact hb) hsu0.1 hinv.good.sound
    rw [← hc] at e
    rw [e]
    refine ⟨⟨⟨r5, ?_⟩, rfl, rfl, hpr0, by simp only; omega, by simp only; rw [r2]; ring, ?_, r9, by simp [hred]⟩,
      ⟨rfl, hpr', hmax, r4, by simp only; omega, ?_, by simp [hred]⟩⟩
    · intro a; simp only; rw [r4]; exact hinv.good.nonneg a
    · simp only
      rw [r8 S ?_, ← hinv.total]
      · show _ - _ * R.price + _ = _
        rw [hprice]; ring
      · intro r hr _
        obtain ⟨po, hpo, _⟩ := (r3 r hr).2.2
        exact hS.2 _ (frameOps_setFee hpo) _ (by simp [TxOp.accounts])
    · intro a ha
      refine r6 a (fun r hr => ?_)
      obtain ⟨po, hpo, _⟩ := (r3 r hr).2.2
      exact ha _ _ (frameOps_setFee hpo)
  · simp only
    rw [if_neg hcond]
    have hred : redeems R tx = false := by
      unfold redeems; rw [hpr]
      by_cases h1 : R.feeSharing = true
      · have : ¬ price > 0 := fun h => hcond ⟨h1, h⟩
        simp [this]
      · simp [h1]
    have hunp := (hF.ready hN).2.2
    have hz := results_unpaid (ps := base.payers) (fun i hi => hunp i hi)
    refine ⟨⟨hinv.good, rfl, rfl, hpr0, hsu0.2, ?_, ?_, ?_, fun _ => hz⟩, ⟨rfl, hpr', hmax, rfl, le_refl _, fun _ _ => rfl, fun _ => ⟨rfl, rfl⟩⟩⟩
    · simp only; rw [sum_zero_of (fun r hr => (hz r hr).1)]; ring
    · simp only; rw [sum_zero_of (fun r hr => (hz r hr).2), zero_mul, add_zero]; exact hinv.total
    · intro i hi
      obtain ⟨p, h1, h2, h3⟩ := hunp i hi
      exact ⟨p, h1, by simp [h3], by simp [h2, h3]⟩

/-- **C52 (a transaction neither creates nor loses coins).** Whatever the calls of a transaction do, whether they succeed, whoever
shares the fee and whether the sender can afford it: the balances and deposits afterwards, together with the fee of the receipt, add up
to the balances and deposits before; and no balance is negative. -/
theorem C52_tx {R : Rules} {tx : Tx} {wcs : World} {o : Outcome} {S : Finset Bytes} (hR : R.Ok) (hleg : R.legacyFeeCharge = false)
    (hw : wcs.Good) (ht : R.treasury ∈ S) (hS : tx.Within S) (hv : tx.Valid R) (he : Executes R tx wcs o) :
    o.w.Good ∧ 0 ≤ o.receipt.totalFee ∧ o.w.total S + o.receipt.totalFee = wcs.total S := by
  obtain ⟨base, s, es, n, hb, hl, hp, rfl⟩ := he
  obtain ⟨i0, _⟩ := chargeStart_inv hR hw ht hS hv hb
  rw [hleg] at hl
  obtain ⟨i1, hfee⟩ := chargeLoop_inv hw i0 hl
  have hrec := C51_receipt (sender := tx.sender) (price := s.price) hp i1.payers i1.toPay i1.used
  obtain ⟨_, _, _, _, _, _, _, hr⟩ := hrec
  simp only [finish]
  have hfs : 0 ≤ ((results (chargeStart R tx ((Body.start wcs).run R tx.txid tx.ops) base).2 s.payers).map (fun r => r.2.2)).sum := by
    apply List.sum_nonneg
    intro z hz
    obtain ⟨q, hq, rfl⟩ := List.mem_map.1 hz
    simp only [results, List.mem_filterMap (f := fun i : ℕ => _)] at hq
    obtain ⟨i, hi, hq⟩ := hq
    obtain ⟨p, h1, h3, h4⟩ := i1.payers i hi
    rw [h1] at hq
    simp only [Option.map_some, Option.some.injEq] at hq
    rw [← hq]; exact h3
  refine ⟨good_setBal i1.good (by omega), ?_, ?_⟩
  · rw [hr]; exact mul_nonneg (add_nonneg hfs i1.toPay) i1.price
  · rw [World.total_setBal hS.1, hr, ← i1.total, i1.bal, i1.fee]; ring

/-- **C52 (a block neither creates nor loses coins).** The transactions of a block one after the other, then the fees to the treasury:
the total of all balances and deposits is the same as before. -/
theorem C52_block {R : Rules} {txs : List Tx} {w w' : World} {rs : List Receipt} {S : Finset Bytes} (hR : R.Ok)
    (hleg : R.legacyFeeCharge = false) (hfix : R.fixLostFee = true) (hw : w.Good) (ht : R.treasury ∈ S) (hS : ∀ tx ∈ txs, tx.Within S)
    (hv : ∀ tx ∈ txs, tx.Valid R) (he : ExecuteAll R txs w rs w') :
    (payTreasury R rs w').Good ∧ (payTreasury R rs w').total S = w.total S := by
  have key : w'.Good ∧ 0 ≤ gatheredFee R rs ∧ w'.total S + gatheredFee R rs = w.total S := by
    induction he with
    | nil w => exact ⟨hw, by simp [gatheredFee], by simp [gatheredFee]⟩
    | @cons tx txs w w' o rs hx _ ih =>
      obtain ⟨g, f0, e⟩ := C52_tx hR hleg hw ht (hS tx (by simp)) (hv tx (by simp)) hx
      obtain ⟨g', f0', e'⟩ := ih g (fun t ht => hS t (by simp [ht])) (fun t ht => hv t (by simp [ht]))
      have : gatheredFee R (o.receipt :: rs) = o.receipt.totalFee + gatheredFee R rs := by simp [gatheredFee, hfix]
      rw [this]
      exact ⟨g', by omega, by omega⟩
  obtain ⟨g, f0, e⟩ := key
  refine ⟨good_setBal g (by have := g.nonneg R.treasury; omega), ?_⟩
  unfold payTreasury
  rw [World.total_setBal ht]; omega

/-- **C52 (every transaction is charged, in one way).** The loop that charges the fee ends, and the outcome does not depend on the
order in which Go visits its map of payers. -/
theorem C52_executes {R : Rules} {tx : Tx} {wcs : World} (hR : R.Ok) (hleg : R.legacyFeeCharge = false) (hw : wcs.Good)
    (hv : tx.Valid R) : ∃! o, Executes R tx wcs o := by
  obtain ⟨base, hb, _⟩ := hv.closed
  have hc : ((Body.start wcs).run R tx.txid tx.ops).c = CallCtx.start.run R.multiple R.feeSharing (frameOps tx.ops) :=
    body_ctx (by simp [Body.start, CallCtx.start])
  rw [← hc] at hb
  -- some set of accounts that is large enough
  have hS : ∃ S : Finset Bytes, R.treasury ∈ S ∧ tx.Within S :=
    ⟨insert R.treasury (insert (accountID tx.sender) (tx.ops.flatMap TxOp.accounts).toFinset), by simp, by simp, by
      intro op ho a ha
      simp only [Finset.mem_insert, List.mem_toFinset, List.mem_flatMap]
      exact Or.inr (Or.inr ⟨op, ho, ha⟩)⟩
  obtain ⟨S, ht, hS⟩ := hS
  obtain ⟨i0, _⟩ := chargeStart_inv hR hw ht hS hv hb
  obtain ⟨s, hs⟩ := chargeLoop_done hw i0
  refine ⟨finish tx s (payerLogs (chargeStart R tx ((Body.start wcs).run R tx.txid tx.ops) base).2 s.payers),
    ⟨base, s, _, 2, hb, by rw [hleg]; exact hs 2 (le_refl _), List.Perm.refl _, rfl⟩, ?_⟩
  rintro o ⟨base', s', es, n, hb', hl, hp, rfl⟩
  obtain rfl : base' = base := by rw [hb] at hb'; simpa using hb'.symm
  rw [hleg] at hl
  have h1 := chargeLoop_mono hl (max n 2) (le_max_left _ _)
  rw [hs _ (le_max_right _ _)] at h1
  obtain rfl := Option.some.inj h1
  obtain ⟨i1, _⟩ := chargeLoop_inv hw i0 hl
  unfold finish
  rw [C51_receipt_order hp (List.Perm.refl _) i1.payers i1.toPay]

/-! ### What the outcome can be -/

theorem chargeLoop_cases {redeemed : Bool} {wcs : World} {h : PHeap} {S : Finset Bytes} {sender : Bytes} (hw : wcs.Good) {n : ℕ}
    {s s' : Charge} (hs : s.Inv redeemed wcs h S sender) (hl : chargeLoop false redeemed wcs sender n s = some s') :
    (s' = s ∧ s.fee ≤ s.bal) ∨
    (s.bal < s.fee ∧ s.ok = true ∧ s' = (chargeStep false redeemed wcs sender s).1) ∨
    (s.bal < s.fee ∧ ∃ t, (t = s ∨ s.ok = true ∧ t = (chargeStep false redeemed wcs sender s).1) ∧ t.ok = false ∧ t.bal < t.fee ∧
      s' = (chargeStep false redeemed wcs sender t).1) := by
  have brk : ∀ s, (chargeStep false redeemed wcs sender s).2 = false := by
    intro s; unfold chargeStep; simp only [Bool.false_eq_true, if_false]; split <;> [rfl; split <;> rfl]
  have turn : ∀ n s, chargeLoop false redeemed wcs sender (n + 1) s =
      if s.bal < s.fee then chargeLoop false redeemed wcs sender n (chargeStep false redeemed wcs sender s).1 else some s := by
    intro n s; rw [chargeLoop, brk]; simp
  have stop : ∀ n s, ¬ s.bal < s.fee → chargeLoop false redeemed wcs sender n s = some s := by
    intro n s hn; cases n <;> simp [chargeLoop, hn]
  have last : ∀ t : Charge, t.Inv redeemed wcs h S sender → t.ok = false →
      ¬ (chargeStep false redeemed wcs sender t).1.bal < (chargeStep false redeemed wcs sender t).1.fee := by
    intro t ht hok
    have h1 := (ht.step hw).bal
    have h2 := (ht.step hw).good.nonneg sender
    have h3 : (chargeStep false redeemed wcs sender t).1.fee = 0 := by
      unfold chargeStep; simp only [Bool.false_eq_true, if_false, hok]; split <;> rfl
    omega
  have hl := chargeLoop_mono hl (n + 2) (by omega)
  rw [show n + 2 = (n + 1) + 1 by ring, turn] at hl
  by_cases h0 : s.bal < s.fee
  swap
  · rw [if_neg h0] at hl
    exact Or.inl ⟨(Option.some.inj hl).symm, by omega⟩
  rw [if_pos h0] at hl
  by_cases hok : s.ok = true
  · have hok1 : (chargeStep false redeemed wcs sender s).1.ok = false := by
      unfold chargeStep; simp only [Bool.false_eq_true, if_false, hok, if_true]
    rw [turn] at hl
    by_cases h1 : (chargeStep false redeemed wcs sender s).1.bal < (chargeStep false redeemed wcs sender s).1.fee
    · rw [if_pos h1, stop _ _ (last _ (hs.step hw) hok1)] at hl
      exact Or.inr (Or.inr ⟨h0, _, Or.inr ⟨hok, rfl⟩, hok1, h1, (Option.some.inj hl).symm⟩)
    · rw [if_neg h1] at hl
      exact Or.inr (Or.inl ⟨h0, hok, (Option.some.inj hl).symm⟩)
  · have hok : s.ok = false := by simpa using hok
    rw [stop _ _ (last _ hs hok)] at hl
    exact Or.inr (Or.inr ⟨h0, _, Or.inl rfl, hok, h0, (Option.some.inj hl).symm⟩)

/-- Calls and returns match. -/
def Nested : ℕ → List TxOp → Prop
  | d, [] => d = 0
  | d, .push :: ops => Nested (d + 1) ops
  | d, .pop _ _ :: ops => 0 < d ∧ Nested (d - 1) ops
  | d, _ :: ops => Nested d ops

/-- The operations of a transaction are one call of a handler, ending as the transaction does, or nothing if it was refused before. -/
def Tx.Shaped (tx : Tx) : Prop :=
  (tx.ops = [] ∧ tx.ok = false) ∨ ∃ inner used, tx.ops = .push :: (inner ++ [.pop tx.ok used]) ∧ Nested 0 inner

theorem nested_snaps {R : Rules} {txid : Bytes} : ∀ {ops : List TxOp} {d : ℕ} {b : Body} {pre rest : List World}, Nested d ops →
    b.snaps = pre ++ rest → pre.length = d → (b.run R txid ops).snaps = rest
  | [], d, b, pre, rest, hn, hb, hp => by
    have : pre = [] := List.length_eq_zero_iff.1 (hp.trans hn)
    rw [Body.run, hb, this]; rfl
  | op :: ops, d, b, pre, rest, hn, hb, hp => by
    rw [Body.run]
    cases op with
    | push => exact nested_snaps (pre := b.w :: pre) hn (by simp [Body.step, hb]) (by simp [hp])
    | pop k u =>
      obtain ⟨h1, h2⟩ := hn
      cases pre with
      | nil => simp at hp; omega
      | cons x pre =>
        refine nested_snaps (pre := pre) h2 ?_ (by simp at hp; omega)
        simp only [Body.step, hb, List.cons_append]
    | setFee p n => exact nested_snaps hn hb hp
    | transfer f d v a1 a2 => exact nested_snaps hn hb hp
    | addDeposit f d v a => exact nested_snaps hn hb hp
    | withdraw f d i v a => exact nested_snaps hn hb hp

theorem body_run_append {R : Rules} {txid : Bytes} (ops ops' : List TxOp) : ∀ b : Body,
    b.run R txid (ops ++ ops') = (b.run R txid ops).run R txid ops' := by
  induction ops with
  | nil => intro b; rfl
  | cons op ops ih => intro b; exact ih _

/-- A failed transaction has its effects undone. -/
theorem body_failed {R : Rules} {tx : Tx} {wcs : World} (hs : tx.Shaped) (hf : tx.ok = false) :
    ((Body.start wcs).run R tx.txid tx.ops).w = wcs := by
  rcases hs with ⟨h, _⟩ | ⟨inner, used, h, hn⟩
  · rw [h]; rfl
  · rw [h, hf, Body.run, body_run_append]
    have hsn := nested_snaps (R := R) (txid := tx.txid) (b := (Body.start wcs).step R tx.txid .push) (pre := []) (rest := [wcs])
      hn rfl rfl
    generalize ((Body.start wcs).step R tx.txid .push).run R tx.txid inner = b at *
    simp only [Body.run, Body.step, hsn, Bool.false_eq_true, if_false]

/-- **C52 (the three ways a transaction ends).** Let `b` be the world after its calls. (1) The sender can pay: the world is `b`, less
the sender's part of the fee and what deposits pay; the receipt has the status of the calls and the price. (2) The calls succeeded but
the sender cannot pay its part: everything is undone, the receipt says failure, and the sender pays the whole fee alone. (3) It
cannot pay then either: everything is undone, the receipt says failure with price 0, and nobody pays. -/
theorem C52_outcome {R : Rules} {tx : Tx} {wcs : World} {o : Outcome} (hR : R.Ok) (hleg : R.legacyFeeCharge = false) (hw : wcs.Good)
    (hv : tx.Valid R) (hsh : tx.Shaped) (he : Executes R tx wcs o) :
    let b := ((Body.start wcs).run R tx.txid tx.ops).w
    let price := if tx.isPatch then 0 else R.price
    let sender := accountID tx.sender
    let steps := max tx.used tx.minSteps
    (o.ok = tx.ok ∧ o.receipt.stepPrice = price ∧ o.receipt.stepUsed = steps ∧
      (∃ redeemed, 0 ≤ redeemed ∧ redeemed ≤ steps ∧ o.w.bal sender = b.bal sender - (steps - redeemed) * price ∧
        (redeemed = 0 ∨ o.receipt.feeDetail ≠ [])) ∧
      (∀ a, a ≠ sender → o.w.bal a = b.bal a) ∧
      (∀ a, (∀ p n, TxOp.setFee p n ∈ tx.ops → accountID p ≠ a) → o.w.dep a = b.dep a)) ∨
    (tx.ok = true ∧ o.ok = false ∧ o.receipt.stepPrice = price ∧ o.receipt.stepUsed = steps ∧ o.receipt.feeDetail = [] ∧
      o.w.dep = wcs.dep ∧ o.w.bal sender = wcs.bal sender - steps * price ∧ (∀ a, a ≠ sender → o.w.bal a = wcs.bal a)) ∨
    (o.ok = false ∧ o.receipt.stepPrice = 0 ∧ o.receipt.stepUsed = steps ∧ o.receipt.feeDetail = [] ∧ o.w.dep = wcs.dep ∧
      o.w.bal = wcs.bal ∧ wcs.bal sender < steps * price) := by
  have hS : ∃ S : Finset Bytes, R.treasury ∈ S ∧ tx.Within S :=
    ⟨insert R.treasury (insert (accountID tx.sender) (tx.ops.flatMap TxOp.accounts).toFinset), by simp, by simp, by
      intro op ho a ha
      simp only [Finset.mem_insert, List.mem_toFinset, List.mem_flatMap]
      exact Or.inr (Or.inr ⟨op, ho, ha⟩)⟩
  obtain ⟨S, ht, hS⟩ := hS
  obtain ⟨base, s, es, n, hb, hl, hp, rfl⟩ := he
  obtain ⟨i0, c0⟩ := chargeStart_inv hR hw ht hS hv hb
  rw [hleg] at hl
  obtain ⟨i1, hfee⟩ := chargeLoop_inv hw i0 hl
  obtain ⟨q1, q2, q3, _, _, q6, _, _⟩ := C51_receipt (sender := tx.sender) (price := s.price) hp i1.payers i1.toPay i1.used
  have hcases := chargeLoop_cases hw i0 hl
  have hfail := body_failed (R := R) (wcs := wcs) hsh
  intro b price sender steps
  generalize hs0 : (chargeStart R tx ((Body.start wcs).run R tx.txid tx.ops) base).1 = s0 at *
  generalize (chargeStart R tx ((Body.start wcs).run R tx.txid tx.ops) base).2 = hp' at *
  have hsteps : s0.stepUsed = steps := c0.used
  have hprice : s0.price = price := c0.price
  have hsame : ∀ v, (s.w.setBal sender v).bal sender = v ∧ (∀ a, a ≠ sender → (s.w.setBal sender v).bal a = s.w.bal a) ∧
      (s.w.setBal sender v).dep = s.w.dep := by
    intro v
    refine ⟨by simp [World.setBal], ?_, rfl⟩
    intro a ha; simp [World.setBal, ha]
  -- after a step in which redeeming is undone, or was never done, there is no detail
  have nodetail : (redeems R tx = true → s.payers = []) → (finish tx s es).receipt.feeDetail = [] := by
    intro hpay
    refine q3.2 ?_
    cases hr : redeems R tx with
    | true => rw [hpay hr]; simp [results_nil]
    | false => exact fun x hx => (i1.none hr x hx).1
  simp only [finish] at *
  rcases hcases with ⟨rfl, _⟩ | ⟨_, hok, hs'⟩ | ⟨_, t, ht', htok, htlt, hs'⟩
  · left
    have hu : s.stepToPay + ((results hp' s.payers).map (fun r => r.2.1)).sum = s.stepUsed := i1.used
    refine ⟨c0.ok, by rw [q2]; exact hprice, by rw [q1]; exact hsteps, ⟨s.stepUsed - s.stepToPay, ?_, ?_, ?_, ?_⟩, ?_, ?_⟩
    · have := c0.le; omega
    · have := i1.toPay; omega
    · rw [(hsame _).1, i1.bal, i1.fee, hprice, c0.bal, ← hsteps]; ring
    · by_cases hd : (makeReceipt es tx.sender s.stepToPay s.stepUsed s.price).feeDetail = []
      · left
        rw [sum_zero_of (q3.1 hd)] at hu; omega
      · exact Or.inr hd
    · intro a ha
      rw [(hsame _).2.1 a ha, c0.bal]
    · intro a ha
      rw [(hsame _).2.2]; exact c0.dep a ha
  · right; left
    have e : s.w = wcs ∧ s.ok = false ∧ s.stepToPay = s0.stepUsed ∧ s.stepUsed = s0.stepUsed ∧ s.price = s0.price ∧
        (redeems R tx = true → s.payers = []) := by
      rw [hs']
      unfold chargeStep
      simp only [Bool.false_eq_true, if_false, hok, if_true]
      cases hr : redeems R tx with
      | true => exact ⟨trivial, trivial, by simp, trivial, trivial, fun _ => by simp⟩
      | false => exact ⟨trivial, trivial, by simpa using (c0.all hr).1, trivial, trivial, by simp⟩
    obtain ⟨e1, e2, e3, e4, e5, e6⟩ := e
    refine ⟨by rw [← c0.ok]; exact hok, e2, by rw [q2, e5]; exact hprice, by rw [q1, e4]; exact hsteps, nodetail e6, ?_, ?_, ?_⟩
    · rw [(hsame _).2.2, e1]
    · rw [(hsame _).1, i1.bal, i1.fee, e1, e3, e5, hprice, hsteps]
    · intro a ha; rw [(hsame _).2.1 a ha, e1]
  · right; right
    have et : t.stepUsed = s0.stepUsed ∧ t.bal = wcs.bal sender ∧ t.fee ≤ s0.stepUsed * s0.price ∧ (redeems R tx = false → t.w.bal = wcs.bal ∧ t.w.dep = wcs.dep ∧ t.stepToPay = s0.stepUsed ∧ t.price = s0.price) := by
      rcases ht' with rfl | ⟨hok, rfl⟩
      · refine ⟨rfl, ?_, ?_, fun hr => ?_⟩
        · rw [i0.bal, c0.bal, hfail (by rw [← c0.ok]; exact htok)]
        · rw [i0.fee]; exact mul_le_mul_of_nonneg_right c0.le i0.price
        have hb : t.w = wcs := by
          rw [(c0.all hr).2]; exact hfail (by rw [← c0.ok]; exact htok)
        exact ⟨by rw [hb], by rw [hb], (c0.all hr).1, rfl⟩
      · unfold chargeStep
        simp only [Bool.false_eq_true, if_false, hok, if_true, true_and]
        refine ⟨rfl, ?_, ?_⟩
        · cases hr : redeems R tx with
          | true => simp
          | false => simp [(c0.all hr).1]
        intro hr
        simp only [hr, Bool.false_eq_true, if_false]
        exact ⟨(c0.all hr).1, trivial⟩
    have e : s.ok = false ∧ s.stepUsed = s0.stepUsed ∧ s.price = 0 ∧ s.fee = 0 ∧ (redeems R tx = true → s.payers = []) ∧
        s.w.bal = wcs.bal ∧ s.w.dep = wcs.dep := by
      rw [hs']
      unfold chargeStep
      simp only [Bool.false_eq_true, if_false, htok]
      cases hr : redeems R tx with
      | true =>
        simp only [if_true]
        exact ⟨trivial, et.1, trivial, trivial, fun _ => trivial, trivial, trivial⟩
      | false =>
        simp only [Bool.false_eq_true, if_false]
        exact ⟨trivial, et.1, trivial, trivial, by simp, (et.2.2.2 hr).1, (et.2.2.2 hr).2.1⟩
    obtain ⟨e2, e4, e5, ef, e6, e7, e8⟩ := e
    refine ⟨e2, by rw [q2, e5], by rw [q1, e4]; exact hsteps, nodetail e6, by rw [(hsame _).2.2, e8], ?_, ?_⟩
    · funext a
      by_cases ha : a = sender
      · rw [ha, (hsame _).1, i1.bal, ef, e7, sub_zero]
      · rw [(hsame _).2.1 a ha, e7]
    · rw [← hsteps, ← hprice, ← et.2.1]
      exact lt_of_lt_of_le htlt et.2.2.1

/-- **C52 (a transaction that passed the check of its balance is charged).** If the sender had enough for the step limit and the value
before, its calls take no more than the value from it, and the steps are within the limit, then nothing is undone for lack of coins:
the outcome is the first of the three. -/
theorem C52_afforded {R : Rules} {tx : Tx} {wcs : World} {o : Outcome} (hR : R.Ok) (hleg : R.legacyFeeCharge = false) (hw : wcs.Good)
    (hv : tx.Valid R) (he : Executes R tx wcs o) (hc : checkBalance R tx wcs = true)
    (hval : wcs.bal (accountID tx.sender) - tx.value ≤ ((Body.start wcs).run R tx.txid tx.ops).w.bal (accountID tx.sender))
    (hu : tx.used ≤ tx.stepLimit) (hm : tx.minSteps ≤ tx.stepLimit) :
    o.ok = tx.ok ∧ o.receipt.stepPrice = (if tx.isPatch then 0 else R.price) ∧
    (∀ a, a ≠ accountID tx.sender → o.w.bal a = ((Body.start wcs).run R tx.txid tx.ops).w.bal a) ∧
    0 ≤ o.w.bal (accountID tx.sender) := by
  have hS : ∃ S : Finset Bytes, R.treasury ∈ S ∧ tx.Within S :=
    ⟨insert R.treasury (insert (accountID tx.sender) (tx.ops.flatMap TxOp.accounts).toFinset), by simp, by simp, by
      intro op ho a ha
      simp only [Finset.mem_insert, List.mem_toFinset, List.mem_flatMap]
      exact Or.inr (Or.inr ⟨op, ho, ha⟩)⟩
  obtain ⟨S, ht, hS⟩ := hS
  have hgood := (C52_tx hR hleg hw ht hS hv he).1
  obtain ⟨base, s, es, n, hb, hl, hp, rfl⟩ := he
  obtain ⟨i0, c0⟩ := chargeStart_inv hR hw ht hS hv hb
  rw [hleg] at hl
  obtain ⟨i1, hfee⟩ := chargeLoop_inv hw i0 hl
  obtain ⟨_, q2, _⟩ := C51_receipt (sender := tx.sender) (price := s.price) hp i1.payers i1.toPay i1.used
  generalize hs0 : (chargeStart R tx ((Body.start wcs).run R tx.txid tx.ops) base).1 = s0 at *
  have hok : ¬ s0.bal < s0.fee := by
    have h1 : s0.fee ≤ R.price * tx.stepLimit := by
      rw [i0.fee]
      have hpl : s0.price ≤ R.price := by rw [c0.price]; split; exacts [hR.price, le_refl _]
      have hsl : s0.stepToPay ≤ tx.stepLimit := by have := c0.le; have := c0.used; omega
      calc s0.stepToPay * s0.price ≤ s0.stepToPay * R.price := mul_le_mul_of_nonneg_left hpl i0.toPay
        _ ≤ tx.stepLimit * R.price := mul_le_mul_of_nonneg_right hsl hR.price
        _ = R.price * tx.stepLimit := by ring
    have h2 : s0.bal = ((Body.start wcs).run R tx.txid tx.ops).w.bal (accountID tx.sender) := by rw [i0.bal, c0.bal]
    have h3 : R.price * tx.stepLimit + tx.value ≤ wcs.bal (accountID tx.sender) := by simpa [checkBalance] using hc
    omega
  have hss : s = s0 := by
    cases n <;> simp [chargeLoop, hok] at hl <;> exact hl.symm
  subst hss
  refine ⟨c0.ok, ?_, ?_, hgood.nonneg _⟩
  · show (makeReceipt es tx.sender s.stepToPay s.stepUsed s.price).stepPrice = _
    rw [q2]; exact c0.price
  · intro a ha
    show (s.w.setBal _ _).bal a = _
    simp only [World.setBal, if_neg ha]
    rw [c0.bal]

/-! ### Havah -/

/-- **C52 (Havah).** Under every revision of Havah (and every value below 256) fees of deposits reach the treasury and an unaffordable
fee is not forgotten silently; several payers share fees from revision 4 on. -/
theorem C52_havah {v : ℤ} (hv : v < 256) (R : Rules) :
    (R.withRevision (valueToRevision v)).legacyFeeCharge = false ∧ (R.withRevision (valueToRevision v)).fixLostFee = true ∧
    ((R.withRevision (valueToRevision v)).multiple = true ↔ 4 ≤ v) := by
  have key : ∀ (n k i : ℕ), n < 256 → 8 ≤ i → (n + 256 * k).testBit i = k.testBit (i - 8) := by
    intro n k i hn hi
    have : (n + 256 * k) / 2 ^ 8 = k := by omega
    rw [← this, Nat.testBit_div_two_pow, Nat.sub_add_cancel hi]
    congr 1; omega
  have acc : ∀ idx < 8, accumulated idx = 256 * (accumulated idx / 256) ∧ (accumulated idx / 256).testBit 6 = false ∧
      (accumulated idx / 256).testBit 12 = true ∧ ((accumulated idx / 256).testBit 13 = true ↔ 4 ≤ idx) := by
    decide +kernel
  simp only [Rules.withRevision, valueToRevision]
  generalize hn : (if v < 0 then 0 else v.toNat) = n
  have hn' : n < 256 := by rw [← hn]; split <;> omega
  generalize hi : (if n ≥ revisionFlags.length then revisionFlags.length - 1 else n) = idx
  have hlen : revisionFlags.length = 8 := rfl
  have hi' : idx < 8 := by rw [← hi, hlen]; split <;> omega
  obtain ⟨a1, a2, a3, a4⟩ := acc idx hi'
  rw [a1, key _ _ _ hn' (by decide), key _ _ _ hn' (by decide), key _ _ _ hn' (by decide)]
  refine ⟨a2, a3, a4.trans ?_⟩
  have e1 : idx = if n ≥ 8 then 7 else n := by rw [← hi, hlen]
  have e2 : n = if v < 0 then 0 else v.toNat := hn.symm
  split at e1 <;> split at e2 <;> omega

/-- Above that, the value runs into the flags: revision 16384 would have `LegacyFeeCharge`. (`Ex_setRevision` accepts at most 7.) -/
example : (valueToRevision 16384).testBit bitLegacyFeeCharge = true := by decide +kernel

/-! ### A concrete block, and what the flags are for -/

def dA : Bytes := [0, 1]
def dB : Bytes := [1, 2]
def dR : Rules := ⟨true, true, false, true, 10, 100, 0, 8, [9], [8]⟩
def dW : World := ⟨fun a => if a = [1] then 100000 else 0, fun a => if a = [2] then [.v2 5000] else [], 0⟩
/-- `A` calls contract `B`, with a value of 70; the contract pays for 30 percent. -/
def dTx : Tx := ⟨dA, false, [7], 70, 1000, [.push, .transfer [1] [2] 70 true true, .setFee dB 30, .pop true 500], true, 600, 100⟩

example : dTx.Valid dR ∧ dTx.Shaped ∧ dTx.Within {[1], [2], [8]} ∧ dR.Ok ∧ dW.Good := by
  refine ⟨⟨?_, ?_, by decide⟩, ?_, ?_, ⟨by decide, by decide⟩, ?_, ?_⟩
  · simp [dTx, frameOps, RunValid, FrameOp.Valid, CallCtx.step, CallCtx.start, dR, setFeeProportion]
  · refine ⟨⟨1, [some 0], 500⟩, ?_, by decide⟩
    simp [dTx, frameOps, CallCtx.run, CallCtx.step, CallCtx.start, dR, setFeeProportion, applyPayers, setParentOfSub, applyLoop]
  · exact Or.inr ⟨[.transfer [1] [2] 70 true true, .setFee dB 30], 500, rfl, by simp [Nested]⟩
  · refine ⟨by decide, ?_⟩
    intro op ho a ha
    simp only [dTx, List.mem_cons, List.not_mem_nil, or_false] at ho
    rcases ho with rfl | rfl | rfl | rfl <;> simp [TxOp.accounts, accountID, dB] at ha <;> simp [ha]
    rcases ha with rfl | rfl <;> simp
  · intro a
    simp only [dW]
    split
    · refine ⟨?_, by simp⟩
      intro d hd
      obtain rfl : d = .v2 5000 := by simpa using hd
      show (0 : ℤ) ≤ 5000; decide
    · simp
  · intro a; simp only [dW]; split <;> decide

/-- What the block does to the accounts: sender, contract (balance and deposit) and treasury. -/
def dShow (R : Rules) (tx : Tx) (w : World) : List ℤ :=
  match ((Body.start w).run R tx.txid tx.ops).c.frames with
  | [base] =>
    let cs := chargeStart R tx ((Body.start w).run R tx.txid tx.ops) base
    match chargeLoop R.legacyFeeCharge (redeems R tx) w (accountID tx.sender) 2 cs.1 with
    | some s =>
      let o := finish tx s (payerLogs cs.2 s.payers)
      let w' := payTreasury R [o.receipt] o.w
      [w'.bal [1], w'.bal [2], held (w'.dep [2]), w'.bal [8]]
    | none => []
  | _ => []

example : dShow dR dTx dW = [100000 - 70 - 4200, 70, 5000 - 1800, 6000] := by decide +kernel
/-- Without `FixLostFeeByDeposit` the fee taken from the deposit reaches nobody. -/
example : dShow { dR with fixLostFee := false } dTx dW = [100000 - 70 - 4200, 70, 5000 - 1800, 4200] := by decide +kernel
/-- With `LegacyFeeCharge`, a sender who cannot pay its part loses the coins of the deposit for nothing. -/
example : dShow { dR with legacyFeeCharge := true } dTx { dW with bal := fun a => if a = [1] then 100 else 0 } = [30, 70, 3200, 0] := by
  decide +kernel
/-- Without it, all is undone and nobody pays. -/
example : dShow dR dTx { dW with bal := fun a => if a = [1] then 100 else 0 } = [100, 0, 5000, 0] := by decide +kernel
/-- If the sender can pay only without the value: undone, and it pays all. -/
example : dShow dR { dTx with ops := [.push, .transfer [1] [2] 99000 true true, .setFee dB 30, .pop true 500] } dW = [94000, 0, 5000, 6000] := by
  decide +kernel

end Verif.Service
