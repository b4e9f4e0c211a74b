import Verif.Service.FeePayerProps
import Mathlib.Tactic.Linarith

/-!
# C51: the fee part of a receipt
-/

namespace Verif.Service
open Verif

/-- Weighted sum of the steps of a fee detail. -/
def dsum (f : Bytes → ℤ) (d : List (Bytes × ℤ)) : ℤ := (d.map (fun e => f e.1 * e.2)).sum
/-- Weighted sums over the entries of `GetLogs`. -/
def psum (f : Bytes → ℤ) (es : List LogEntry) : ℤ := (es.map (fun e => f e.1 * e.2.1.getD 0)).sum
def fsum (es : List LogEntry) : ℤ := (es.map (fun e => e.2.2.getD 0)).sum

theorem dsum_add (f : Bytes → ℤ) (a : Bytes) (s : ℤ) : ∀ d, dsum f (addToDetail a s d) = dsum f d + f a * s
  | [] => by simp [dsum, addToDetail]
  | p :: ps => by
    have ih := dsum_add f a s ps
    unfold addToDetail
    by_cases h : p.1 = a
    · rw [if_pos h]; simp [dsum, h]; ring
    · rw [if_neg h]; simp only [dsum, List.map_cons, List.sum_cons] at *; rw [ih]; ring

theorem keys_add (a : Bytes) (s : ℤ) : ∀ d : List (Bytes × ℤ), ∀ x, x ∈ (addToDetail a s d).map (·.1) ↔ x = a ∨ x ∈ d.map (·.1)
  | [], x => by simp [addToDetail]
  | p :: ps, x => by
    have ih := keys_add a s ps x
    unfold addToDetail
    by_cases h : p.1 = a
    · rw [if_pos h]; simp [h]
    · rw [if_neg h]; simp only [List.map_cons, List.mem_cons, ih]; tauto

/-- One entry for each address, all with positive steps. -/
structure GoodDetail (d : List (Bytes × ℤ)) : Prop where
  nodup : (d.map (·.1)).Nodup
  pos : ∀ e ∈ d, 0 < e.2

theorem GoodDetail.add {a : Bytes} {s : ℤ} (hs : 0 < s) : ∀ {d : List (Bytes × ℤ)}, GoodDetail d → GoodDetail (addToDetail a s d)
  | [], _ => ⟨by simp [addToDetail], by simp [addToDetail, hs]⟩
  | p :: ps, h => by
    have h1 : GoodDetail ps := ⟨(List.nodup_cons.1 h.nodup).2, fun e he => h.pos e (by simp [he])⟩
    have ih := h1.add (a := a) hs
    unfold addToDetail
    by_cases he : p.1 = a
    · rw [if_pos he]
      refine ⟨by simpa using h.nodup, ?_⟩
      intro e hm
      rcases List.mem_cons.1 hm with rfl | hm
      · have := h.pos p (by simp); simp only; omega
      · exact h1.pos e hm
    · rw [if_neg he]
      refine ⟨?_, ?_⟩
      · rw [List.map_cons, List.nodup_cons, keys_add]
        refine ⟨?_, ih.nodup⟩
        rintro (h' | h')
        · exact he h'
        · exact (List.nodup_cons.1 h.nodup).1 h'
      · intro e hm
        rcases List.mem_cons.1 hm with rfl | hm
        · exact h.pos _ (by simp)
        · exact ih.pos e hm

theorem GoodDetail.mem_iff {d : List (Bytes × ℤ)} (h : GoodDetail d) (a : Bytes) (v : ℤ) :
    (a, v) ∈ d ↔ 0 < v ∧ dsum (fun x => if x = a then 1 else 0) d = v := by
  have zero : ∀ d : List (Bytes × ℤ), a ∉ d.map (·.1) → dsum (fun x => if x = a then 1 else 0) d = 0 := by
    intro d
    induction d with
    | nil => intro _; rfl
    | cons p ps ih =>
      intro hn
      simp only [List.map_cons, List.mem_cons, not_or] at hn
      have := ih hn.2
      simp only [dsum, List.map_cons, List.sum_cons] at *
      rw [this, if_neg (Ne.symm hn.1)]; ring
  obtain ⟨hn, hp⟩ := h
  induction d with
  | nil => simp [dsum]; intro h1 h2; omega
  | cons p ps ih =>
    rw [List.map_cons, List.nodup_cons] at hn
    have ih := ih hn.2 (fun e he => hp e (by simp [he]))
    have hpp := hp p (by simp)
    by_cases ha : p.1 = a
    · have hz := zero ps (ha ▸ hn.1)
      have e : dsum (fun x => if x = a then 1 else 0) (p :: ps) = p.2 := by
        simp only [dsum, List.map_cons, List.sum_cons] at *; rw [hz, if_pos ha]; ring
      rw [e]
      constructor
      · intro hm
        rcases List.mem_cons.1 hm with h | h
        · rw [← h] at hpp ⊢; exact ⟨hpp, rfl⟩
        · exact absurd (List.mem_map_of_mem (f := (·.1)) h) (ha ▸ hn.1)
      · rintro ⟨h1, h2⟩
        rw [← h2, ← ha]; simp
    · have e : dsum (fun x => if x = a then 1 else 0) (p :: ps) = dsum (fun x => if x = a then 1 else 0) ps := by
        simp only [dsum, List.map_cons, List.sum_cons]; rw [if_neg ha]; ring
      rw [e]
      refine Iff.trans ?_ ih
      rw [List.mem_cons]
      constructor
      · rintro (h | h)
        · rw [← h] at ha; exact absurd rfl ha
        · exact h
      · exact Or.inr

theorem GoodDetail.perm {d d' : List (Bytes × ℤ)} (h : GoodDetail d) (h' : GoodDetail d') (he : ∀ f, dsum f d = dsum f d') : d.Perm d' := by
  refine (List.perm_ext_iff_of_nodup h.nodup.of_map h'.nodup.of_map).2 ?_
  rintro ⟨a, v⟩
  rw [h.mem_iff, h'.mem_iff, he]

/-! ### Sorting -/

theorem addrLE_trans (a b c : Bytes × ℤ) (h1 : addrLE a b = true) (h2 : addrLE b c = true) : addrLE a c = true := by
  simp only [addrLE, decide_eq_true_eq] at *; exact le_trans h1 h2

theorem addrLE_total (a b : Bytes × ℤ) : (addrLE a b || addrLE b a) = true := by
  simp only [addrLE, Bool.or_eq_true, decide_eq_true_eq]; exact le_total _ _

instance : IsTrans (Bytes × ℤ) (fun a b => addrLE a b = true) := ⟨addrLE_trans⟩
instance : Std.Total (fun a b : Bytes × ℤ => addrLE a b = true) := ⟨fun a b => by have := addrLE_total a b; simpa using this⟩

theorem normalize_perm (d : List (Bytes × ℤ)) : (normalize d).Perm d := List.perm_insertionSort _ _

theorem toNat_map_inj {a b : Bytes} (h : a.map UInt8.toNat = b.map UInt8.toNat) : a = b :=
  List.map_injective_iff.2 (fun x y hxy => UInt8.toNat_inj.1 hxy) h

theorem normalize_eq {d d' : List (Bytes × ℤ)} (hn : (d.map (·.1)).Nodup) (hp : d.Perm d') : normalize d = normalize d' := by
  have s1 := List.pairwise_insertionSort (fun a b => addrLE a b = true) d
  have s2 := List.pairwise_insertionSort (fun a b => addrLE a b = true) d'
  have hpp : (normalize d).Perm (normalize d') := (normalize_perm d).trans (hp.trans (normalize_perm d').symm)
  refine List.Perm.eq_of_pairwise ?_ s1 s2 hpp
  intro a b ha hb h1 h2
  have ha : a ∈ d := (normalize_perm d).mem_iff.1 ha
  have hb : b ∈ d := hp.mem_iff.2 ((normalize_perm d').mem_iff.1 hb)
  simp only [addrLE, decide_eq_true_eq] at h1 h2
  exact List.inj_on_of_nodup_map hn ha hb (toNat_map_inj (le_antisymm h1 h2))

/-! ### The entries of `GetLogs` -/

theorem addBigInt_getD (a b : Option ℤ) : (addBigInt a b).getD 0 = a.getD 0 + b.getD 0 := by
  cases a <;> cases b <;> simp [addBigInt]

theorem sums_addLog (f : Bytes → ℤ) (k : Bytes) (p fe : Option ℤ) : ∀ es,
    psum f (addLog k p fe es) = psum f es + f k * p.getD 0 ∧ fsum (addLog k p fe es) = fsum es + fe.getD 0
  | [] => by simp [psum, fsum, addLog]
  | e :: es => by
    obtain ⟨i1, i2⟩ := sums_addLog f k p fe es
    unfold addLog
    by_cases h : e.1 = k
    · rw [if_pos h]
      simp only [psum, fsum, List.map_cons, List.sum_cons, addBigInt_getD, h]
      exact ⟨by ring, by ring⟩
    · rw [if_neg h]
      simp only [psum, fsum, List.map_cons, List.sum_cons] at *
      rw [i1, i2]
      exact ⟨by ring, by ring⟩

/-- An entry in order: no more was paid out of deposits than altogether. -/
def LogEntry.Ok (e : LogEntry) : Prop := 0 ≤ e.2.2.getD 0 ∧ e.2.2.getD 0 ≤ e.2.1.getD 0

theorem ok_addLog {k : Bytes} {p fe : Option ℤ} (h : LogEntry.Ok (k, p, fe)) : ∀ {es : List LogEntry}, (∀ e ∈ es, e.Ok) →
    ∀ e ∈ addLog k p fe es, LogEntry.Ok e
  | [], _, e, he => by
    obtain rfl : e = (k, p, fe) := by simpa [addLog] using he
    exact h
  | x :: es, hes, e, he => by
    unfold addLog at he
    by_cases hx : x.1 = k
    · rw [if_pos hx] at he
      rcases List.mem_cons.1 he with rfl | he
      · obtain ⟨a2, a3⟩ := h
        obtain ⟨b2, b3⟩ := hes x (by simp)
        simp only at a2 a3
        refine ⟨?_, ?_⟩
        · simp only [addBigInt_getD]; omega
        · simp only [addBigInt_getD]; omega
      · exact hes e (by simp [he])
    · rw [if_neg hx] at he
      rcases List.mem_cons.1 he with rfl | he
      · exact hes _ (by simp)
      · exact ok_addLog h (fun e he => hes e (by simp [he])) e he

theorem payerLogs_spec {h : PHeap} {ps : FeePayers}
    (hp : ∀ i ∈ ps.filterMap id, ∃ p, h[i]? = some p ∧ 0 ≤ p.fee.getD 0 ∧ p.fee.getD 0 ≤ p.paid.getD 0) :
    (∀ e ∈ payerLogs h ps, e.Ok) ∧
    (∀ f, psum f (payerLogs h ps) = ((results h ps).map (fun r => f r.1 * r.2.1)).sum) ∧
    fsum (payerLogs h ps) = ((results h ps).map (fun r => r.2.2)).sum := by
  have key : ∀ (is : List ℕ) (m : List LogEntry),
      (∀ i ∈ is, ∃ p, h[i]? = some p ∧ 0 ≤ p.fee.getD 0 ∧ p.fee.getD 0 ≤ p.paid.getD 0) →
      (∀ e ∈ m, LogEntry.Ok e) →
      let m' := is.foldl (addLogOf h) m
      let rs := is.filterMap (fun i : ℕ => (h[i]?).map (fun p => (p.payer, p.paid.getD 0, p.fee.getD 0)))
      (∀ e ∈ m', LogEntry.Ok e) ∧ (∀ f, psum f m' = psum f m + (rs.map (fun r => f r.1 * r.2.1)).sum) ∧
      fsum m' = fsum m + (rs.map (fun r => r.2.2)).sum := by
    intro is
    induction is with
    | nil => intro m _ hm; exact ⟨hm, fun f => by simp, by simp⟩
    | cons i is ih =>
      intro m hi hm
      obtain ⟨p, h1, h3, h4⟩ := hi i (by simp)
      have hm' := ok_addLog (k := p.payer) (p := p.paid) (fe := p.fee) ⟨h3, h4⟩ hm
      obtain ⟨a1, a2, a3⟩ := ih (addLog p.payer p.paid p.fee m) (fun j hj => hi j (by simp [hj])) hm'
      simp only [List.foldl_cons, addLogOf, h1, List.filterMap_cons, Option.map_some, List.map_cons, List.sum_cons]
      refine ⟨a1, ?_, ?_⟩
      · intro f
        rw [a2 f, (sums_addLog f _ _ _ m).1]; ring
      · rw [a3, (sums_addLog (fun _ => 0) _ _ _ m).2]; ring
  obtain ⟨a1, a2, a3⟩ := key (ps.filterMap id) [] hp (by simp)
  refine ⟨a1, ?_, ?_⟩
  · intro f; rw [payerLogs, a2 f]; simp [psum, results]
  · rw [payerLogs, a3]; simp [fsum, results]

theorem addPayment_getD (r : Receipt) (a : Bytes) (s : ℤ) (fe : Option ℤ) :
    (r.addPayment a s fe).feeSteps.getD 0 = r.feeSteps.getD 0 + fe.getD 0 := by
  unfold Receipt.addPayment
  cases fe <;> cases r.feeSteps <;> simp

theorem addLogs_fold (es : List LogEntry) (r : Receipt) (b : Bool) (hok : ∀ e ∈ es, e.Ok) (hg : GoodDetail r.feeDetail)
    (hb : b = true ↔ r.feeDetail ≠ []) :
    let x := es.foldl addLogsStep (r, b)
    GoodDetail x.1.feeDetail ∧ (∀ f, dsum f x.1.feeDetail = dsum f r.feeDetail + psum f es) ∧
    x.1.feeSteps.getD 0 = r.feeSteps.getD 0 + fsum es ∧ (x.2 = true ↔ x.1.feeDetail ≠ []) ∧
    (x.2 = true ↔ b = true ∨ ∃ e ∈ es, e.2.1.getD 0 ≠ 0) := by
  induction es generalizing r b with
  | nil => simp [psum, fsum]; exact ⟨hg, hb⟩
  | cons e es ih =>
    obtain ⟨h2, h3⟩ := hok e (by simp)
    have hok' : ∀ e ∈ es, LogEntry.Ok e := fun x hx => hok x (by simp [hx])
    have hstep : addLogsStep (r, b) e = if e.2.1.getD 0 = 0 then (r, b) else (r.addPayment e.1 (e.2.1.getD 0) e.2.2, true) := by
      unfold addLogsStep; cases e.2.1 <;> simp
    rw [List.foldl_cons, hstep]
    generalize h1 : e.2.1.getD 0 = paid at *
    by_cases h0 : paid = 0
    · rw [if_pos h0]
      obtain ⟨a1, a2, a3, a4, a5⟩ := ih r b hok' hg hb
      refine ⟨a1, ?_, ?_, a4, ?_⟩
      · intro f; rw [a2 f]; simp [psum, h1, h0]
      · rw [a3]; simp only [fsum, List.map_cons, List.sum_cons]; omega
      · rw [a5]; simp [h1, h0]
    · rw [if_neg h0]
      have hpos : 0 < paid := by omega
      have hd : (r.addPayment e.1 paid e.2.2).feeDetail = addToDetail e.1 paid r.feeDetail := by
        simp [Receipt.addPayment, h0]
      have hne : addToDetail e.1 paid r.feeDetail ≠ [] := by
        cases r.feeDetail with
        | nil => simp [addToDetail]
        | cons p ps => unfold addToDetail; split <;> simp
      obtain ⟨a1, a2, a3, a4, a5⟩ := ih (r.addPayment e.1 paid e.2.2) true hok' (by rw [hd]; exact hg.add hpos) (by rw [hd]; simp [hne])
      refine ⟨a1, ?_, ?_, a4, ?_⟩
      · intro f; rw [a2 f, hd, dsum_add]; simp [psum, h1]; ring
      · rw [a3, addPayment_getD]; simp only [fsum, List.map_cons, List.sum_cons]; ring
      · rw [a5]; simp [h1, h0]

theorem sum_perm {α : Type} {l l' : List α} (f : α → ℤ) (h : l.Perm l') : (l.map f).sum = (l'.map f).sum := (h.map f).sum_eq

theorem dsum_perm {f : Bytes → ℤ} {d d' : List (Bytes × ℤ)} (h : d.Perm d') : dsum f d = dsum f d' := sum_perm _ h

/-- **C51 (the fee detail of a receipt).** Whatever order Go visits the payers in: if some contract paid, the receipt lists each
payer once, in the order of addresses, with the sum of what it paid (for the sender, including the rest), and the listed steps add up
to the steps used; if none paid, the list is empty. The fee is price times the steps paid with coins: by the sender, and out of
deposits. -/
theorem C51_receipt {h : PHeap} {ps : FeePayers} {es : List LogEntry} {sender : Bytes} {stepToPay used price : ℤ}
    (hes : es.Perm (payerLogs h ps))
    (hp : ∀ i ∈ ps.filterMap id, ∃ p, h[i]? = some p ∧ 0 ≤ p.fee.getD 0 ∧ p.fee.getD 0 ≤ p.paid.getD 0)
    (h0 : 0 ≤ stepToPay) (hused : stepToPay + ((results h ps).map (fun r => r.2.1)).sum = used) :
    let r := makeReceipt es sender stepToPay used price
    r.stepUsed = used ∧ r.stepPrice = price ∧
    (r.feeDetail = [] ↔ ∀ x ∈ results h ps, x.2.1 = 0) ∧
    (r.feeDetail.map (·.1)).Nodup ∧ r.feeDetail.Pairwise (fun a b => a.1.map UInt8.toNat ≤ b.1.map UInt8.toNat) ∧
    (r.feeDetail ≠ [] → (r.feeDetail.map (·.2)).sum = used) ∧
    (r.feeDetail ≠ [] → ∀ a v, (a, v) ∈ r.feeDetail ↔
      0 < v ∧ v = (((results h ps).filter (fun x => x.1 = a)).map (fun x => x.2.1)).sum + (if a = sender then stepToPay else 0)) ∧
    r.totalFee = (((results h ps).map (fun x => x.2.2)).sum + stepToPay) * price := by
  intro r
  obtain ⟨l1, l2, l3⟩ := payerLogs_spec hp
  have ok : ∀ e ∈ es, LogEntry.Ok e := fun e he => l1 e (hes.mem_iff.1 he)
  have p2 : ∀ f, psum f es = ((results h ps).map (fun r => f r.1 * r.2.1)).sum := fun f => by rw [← l2 f]; exact sum_perm _ hes
  have p3 : fsum es = ((results h ps).map (fun r => r.2.2)).sum := by rw [← l3]; exact sum_perm _ hes
  have hfold := addLogs_fold es {} false ok ⟨by simp, by simp⟩ (by simp)
  rw [show es.foldl addLogsStep ({}, false) = addLogs es {} from rfl] at hfold
  obtain ⟨a1, a2, a3, a4, a5⟩ := hfold
  simp only [Bool.false_eq_true, false_or] at a5
  have a2 : ∀ f, dsum f (addLogs es {}).1.feeDetail = psum f es := fun f => by rw [a2 f]; simp [dsum]
  have a3 : (addLogs es {}).1.feeSteps.getD 0 = fsum es := by rw [a3]; simp
  have hr : r = makeReceipt es sender stepToPay used price := rfl
  unfold makeReceipt at hr
  generalize addLogs es {} = x at *
  -- the receipt before `SetResult`
  generalize hy : (if x.2 = true ∧ stepToPay ≠ 0 then x.1.addPayment sender stepToPay (some stepToPay) else x.1) = y at *
  have hempty : x.2 = true ↔ ∃ q ∈ results h ps, q.2.1 ≠ 0 := by
    rw [a5]
    have nn : ∀ q ∈ results h ps, 0 ≤ q.2.1 := by
      intro q hq
      simp only [results, List.mem_filterMap (f := fun i : ℕ => _)] at hq
      obtain ⟨i, hi, hq⟩ := hq
      obtain ⟨p, h1, h3, h4⟩ := hp i hi
      rw [h1] at hq
      simp only [Option.map_some, Option.some.injEq] at hq
      rw [← hq]; simp only; omega
    have nne : ∀ e ∈ es, 0 ≤ e.2.1.getD 0 := by
      intro e he
      obtain ⟨h2, h3⟩ := ok e he
      omega
    have tot : (es.map (fun e => e.2.1.getD 0)).sum = ((results h ps).map (fun q => q.2.1)).sum := by
      have := p2 (fun _ => 1)
      simpa [psum] using this
    have pos : ∀ {α : Type} (l : List α) (g : α → ℤ), (∀ a ∈ l, 0 ≤ g a) → ((∃ a ∈ l, g a ≠ 0) ↔ 0 < (l.map g).sum) := by
      intro α l g
      induction l with
      | nil => intro _; simp
      | cons a l ih =>
        intro hn
        have ha := hn a (by simp)
        have hl : 0 ≤ (l.map g).sum := List.sum_nonneg (by
          intro z hz; obtain ⟨b, hb, rfl⟩ := List.mem_map.1 hz; exact hn b (by simp [hb]))
        have ih := ih (fun b hb => hn b (by simp [hb]))
        simp only [List.mem_cons, exists_eq_or_imp, List.map_cons, List.sum_cons, ih]
        omega
    rw [pos es _ nne, pos _ _ nn, tot]
  by_cases hx : x.2 = true
  · -- some contract paid
    have hxd := a4.1 hx
    have hyd : GoodDetail y.feeDetail ∧ y.feeDetail ≠ [] ∧ (∀ f, dsum f y.feeDetail = psum f es + f sender * stepToPay) ∧
        y.feeSteps.getD 0 = fsum es + stepToPay := by
      by_cases hs : stepToPay = 0
      · rw [if_neg (by simp [hs])] at hy
        subst hy
        refine ⟨a1, hxd, ?_, ?_⟩
        · intro f; rw [a2 f, hs]; ring
        · rw [a3, hs]; ring
      · rw [if_pos ⟨hx, hs⟩] at hy
        have e : y.feeDetail = addToDetail sender stepToPay x.1.feeDetail := by rw [← hy]; simp [Receipt.addPayment, hs]
        refine ⟨?_, ?_, ?_, ?_⟩
        · rw [e]; exact a1.add (by omega)
        · rw [e]
          cases hd : x.1.feeDetail with
          | nil => exact absurd hd hxd
          | cons p q => unfold addToDetail; split <;> simp
        · intro f; rw [e, dsum_add, a2 f]
        · rw [← hy, addPayment_getD, a3]; rfl
    obtain ⟨y1, y2, y3, y4⟩ := hyd
    have hperm := normalize_perm y.feeDetail
    have hrd : r.feeDetail = normalize y.feeDetail := by rw [hr]; rfl
    have hrne : r.feeDetail ≠ [] := by
      rw [hrd]; intro hn; rw [hn] at hperm; exact y2 (List.nil_perm.1 hperm)
    have good : GoodDetail r.feeDetail := by
      rw [hrd]
      exact ⟨(hperm.map _).nodup_iff.2 y1.nodup, fun e he => y1.pos e (hperm.mem_iff.1 he)⟩
    have hds : ∀ f, dsum f r.feeDetail = psum f es + f sender * stepToPay := by
      intro f; rw [hrd, dsum_perm hperm, y3]
    refine ⟨by rw [hr]; rfl, by rw [hr]; rfl, ?_, good.nodup, ?_, ?_, ?_, ?_⟩
    · constructor
      · intro h; exact absurd h hrne
      · intro h
        obtain ⟨q, hq, hq0⟩ := hempty.1 hx
        exact absurd (h q hq) hq0
    · rw [hrd]
      refine (List.pairwise_insertionSort (fun a b => addrLE a b = true) y.feeDetail).imp ?_
      intro a b hab; simpa [addrLE] using hab
    · intro _
      have := hds (fun _ => 1)
      rw [p2] at this
      simp only [dsum, one_mul] at this
      rw [this, ← hused]; ring
    · intro _ a v
      rw [good.mem_iff, hds, p2]
      have e : ∀ l : List (Bytes × ℤ × ℤ), (l.map (fun r => (if r.1 = a then 1 else 0) * r.2.1)).sum =
          ((l.filter (fun x => x.1 = a)).map (fun x => x.2.1)).sum := by
        intro l
        induction l with
        | nil => rfl
        | cons z l ih =>
          rw [List.map_cons, List.sum_cons, ih, List.filter_cons]
          by_cases hz : z.1 = a <;> simp [hz]
      rw [e]
      have e2 : (if sender = a then (1 : ℤ) else 0) * stepToPay = if a = sender then stepToPay else 0 := by
        by_cases hs : a = sender
        · simp [hs]
        · simp [hs, Ne.symm hs]
      rw [e2]
      exact and_congr_right (fun _ => eq_comm)
    · have hf : r.feeSteps = y.feeSteps := by rw [hr]; rfl
      have hpr : r.stepPrice = price := by rw [hr]; rfl
      unfold Receipt.totalFee
      rw [if_pos hrne, hf, hpr, ← p3, ← y4]
      cases y.feeSteps <;> simp
  · -- no contract paid
    rw [if_neg (by simp [hx])] at hy
    subst hy
    have hxd : x.1.feeDetail = [] := by
      by_contra hne; exact hx (a4.2 hne)
    have hrd : r.feeDetail = [] := by
      rw [hr]; show normalize x.1.feeDetail = []; rw [hxd]; simp [normalize]
    have hz : ∀ q ∈ results h ps, q.2.1 = 0 := by
      intro q hq
      by_contra hne
      exact hx (hempty.2 ⟨q, hq, hne⟩)
    have hzs : ((results h ps).map (fun r => r.2.1)).sum = 0 := by
      apply List.sum_eq_zero
      intro z hz'
      obtain ⟨q, hq, rfl⟩ := List.mem_map.1 hz'
      exact hz q hq
    have hfs : ((results h ps).map (fun r => r.2.2)).sum = 0 := by
      apply List.sum_eq_zero
      intro z hz'
      obtain ⟨q, hq, rfl⟩ := List.mem_map.1 hz'
      have := hz q hq
      simp only [results, List.mem_filterMap (f := fun i : ℕ => _)] at hq
      obtain ⟨i, hi, hq⟩ := hq
      obtain ⟨p, h1, h3, h4⟩ := hp i hi
      rw [h1] at hq
      simp only [Option.map_some, Option.some.injEq] at hq
      rw [← hq] at this ⊢
      simp only at this ⊢; omega
    refine ⟨by rw [hr]; rfl, by rw [hr]; rfl, ?_, by simp [hrd], by simp [hrd], by simp [hrd], by simp [hrd], ?_⟩
    · simp only [hrd, true_iff]; exact hz
    · unfold Receipt.totalFee
      have h1 : r.stepUsed = used := by rw [hr]; rfl
      have h2 : r.stepPrice = price := by rw [hr]; rfl
      rw [if_neg (by simp [hrd]), h1, h2, hfs, ← hused, hzs]; ring

/-- **C51 (the receipt does not depend on the order of a Go map).** -/
theorem C51_receipt_order {h : PHeap} {ps : FeePayers} {es es' : List LogEntry} {sender : Bytes} {stepToPay used price : ℤ}
    (hes : es.Perm (payerLogs h ps)) (hes' : es'.Perm (payerLogs h ps))
    (hp : ∀ i ∈ ps.filterMap id, ∃ p, h[i]? = some p ∧ 0 ≤ p.fee.getD 0 ∧ p.fee.getD 0 ≤ p.paid.getD 0)
    (h0 : 0 ≤ stepToPay) :
    makeReceipt es sender stepToPay used price = makeReceipt es' sender stepToPay used price := by
  obtain ⟨l1, l2, l3⟩ := payerLogs_spec hp
  have go : ∀ es : List LogEntry, es.Perm (payerLogs h ps) → GoodDetail (addLogs es {}).1.feeDetail ∧
      (∀ f, dsum f (addLogs es {}).1.feeDetail = psum f (payerLogs h ps)) ∧
      ((addLogs es {}).2 = true ↔ ∃ e ∈ payerLogs h ps, e.2.1.getD 0 ≠ 0) := by
    intro es hes
    have ok : ∀ e ∈ es, LogEntry.Ok e := fun e he => l1 e (hes.mem_iff.1 he)
    have hfold := addLogs_fold es {} false ok ⟨by simp, by simp⟩ (by simp)
    rw [show es.foldl addLogsStep ({}, false) = addLogs es {} from rfl] at hfold
    obtain ⟨a1, a2, a3, a4, a5⟩ := hfold
    refine ⟨a1, ?_, ?_⟩
    · intro f; rw [a2 f, show psum f es = psum f (payerLogs h ps) from sum_perm _ hes]; simp [dsum]
    · rw [a5]; simp only [Bool.false_eq_true, false_or]
      exact ⟨fun ⟨e, h1, h2⟩ => ⟨e, hes.mem_iff.1 h1, h2⟩, fun ⟨e, h1, h2⟩ => ⟨e, hes.mem_iff.2 h1, h2⟩⟩
  obtain ⟨g1, g2, g3⟩ := go es hes
  obtain ⟨g1', g2', g3'⟩ := go es' hes'
  have hb : (addLogs es {}).2 = (addLogs es' {}).2 := Bool.eq_iff_iff.2 (g3.trans g3'.symm)
  have hsteps : (addLogs es {}).1.feeSteps = (addLogs es' {}).1.feeSteps := by
    have comb : ∀ (l : List LogEntry) (r : Receipt) (b : Bool), (l.foldl addLogsStep (r, b)).1.feeSteps =
        l.foldl (fun o e => if e.2.1.getD 0 = 0 then o else addBigInt o e.2.2) r.feeSteps := by
      intro l
      induction l with
      | nil => intro r b; rfl
      | cons e l ih =>
        intro r b
        simp only [List.foldl_cons, addLogsStep]
        cases he : e.2.1 with
        | none => simp only [Option.getD_none, if_true]; exact ih r b
        | some paid =>
          simp only [Option.getD_some]
          by_cases hz : paid = 0
          · simp only [hz, if_true]; exact ih r b
          · simp only [if_neg hz]
            rw [ih]
            congr 1
            unfold Receipt.addPayment
            cases e.2.2 <;> cases r.feeSteps <;> rfl
    rw [show (addLogs es {}).1.feeSteps = _ from comb es {} false, show (addLogs es' {}).1.feeSteps = _ from comb es' {} false]
    haveI : RightCommutative (fun (o : Option ℤ) (e : LogEntry) => if e.2.1.getD 0 = 0 then o else addBigInt o e.2.2) := ⟨by
      intro o e e'
      by_cases h1 : e.2.1.getD 0 = 0
      · simp [h1]
      · by_cases h2 : e'.2.1.getD 0 = 0
        · simp [h2]
        · simp only [if_neg h1, if_neg h2]
          cases o <;> cases e.2.2 <;> cases e'.2.2 <;> simp [addBigInt] <;> ring⟩
    exact (hes.trans hes'.symm).foldl_eq _
  have hdet : ∀ es : List LogEntry, (addLogs es {}).1.stepUsed = 0 ∧ (addLogs es {}).1.stepPrice = 0 := by
    intro es
    have : ∀ (l : List LogEntry) (r : Receipt) (b : Bool), (l.foldl addLogsStep (r, b)).1.stepUsed = r.stepUsed ∧
        (l.foldl addLogsStep (r, b)).1.stepPrice = r.stepPrice := by
      intro l
      induction l with
      | nil => intro r b; exact ⟨rfl, rfl⟩
      | cons e l ih =>
        intro r b
        simp only [List.foldl_cons, addLogsStep]
        cases he : e.2.1 with
        | none => exact ih r b
        | some paid =>
          simp only
          by_cases hz : paid = 0
          · simp only [hz, if_true]; exact ih r b
          · simp only [if_neg hz]; exact ih _ _
    exact this es {} false
  have hperm : (addLogs es {}).1.feeDetail.Perm (addLogs es' {}).1.feeDetail := g1.perm g1' (fun f => by rw [g2, g2'])
  unfold makeReceipt
  rw [hb]
  by_cases hc : (addLogs es' {}).2 = true ∧ stepToPay ≠ 0
  · rw [if_pos hc, if_pos hc]
    have pos : 0 < stepToPay := by have := hc.2; omega
    simp only [Receipt.setResult, Receipt.addPayment, if_neg hc.2, hsteps, Receipt.mk.injEq, and_true, true_and]
    refine normalize_eq (g1.add pos).nodup ((g1.add pos).perm (g1'.add pos) (fun f => ?_))
    rw [dsum_add, dsum_add, g2, g2']
  · rw [if_neg hc, if_neg hc]
    simp only [Receipt.setResult, hsteps, Receipt.mk.injEq, and_true, true_and]
    exact normalize_eq g1.nodup hperm

end Verif.Service
