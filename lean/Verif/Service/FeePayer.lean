import Verif.Service.Deposit
import Mathlib.Data.List.Lex
import Mathlib.Data.List.Sort

/-!
# Who pays for the steps of a transaction

Models `/repo/service/contract/feepayerinfo.go`, the parts of `callcontext.go` and `callframe.go` that carry fee payers through the
call frames of a transaction, and the fee part of a receipt (`/repo/service/txresult/feedetail.go`, `receipt.go`).

`FeePayer` objects are shared by pointer (`parent`): they live in a heap, a list, and a pointer is an index.
Account states are a map from account id to deposits.  Logging is left out.
-/

namespace Verif.Service
open Verif

/-- `feepayerinfo.go:30-38` `FeePayer`. The payer is its address (21 bytes: type and id). -/
structure Payer where
  payer : Bytes
  portion : ℤ
  steps : Option ℤ := none
  base : Option ℤ := none
  paid : Option ℤ := none
  fee : Option ℤ := none
  parent : Option ℕ := none
  deriving DecidableEq, Repr

/-- All `FeePayer` objects made so far. -/
abbrev PHeap := List Payer

/-- `feepayerinfo.go:107` `FeePayerInfo`: pointers, nil is `none`. -/
abbrev FeePayers := List (Option ℕ)

/-- `common/address.go:101-103` `ID`. -/
def accountID (addr : Bytes) : Bytes := addr.drop 1

/-- What fee paying sees of the world: the deposits of each account (by id), the balances, and the counter
`VarSystemDepositUsage` of the system account. -/
structure World where
  bal : Bytes → ℤ
  dep : Bytes → List Dep
  sysUsage : ℤ

def World.setDep (w : World) (id : Bytes) (dl : List Dep) : World :=
  { w with dep := fun a => if a = id then dl else w.dep a }

def World.setBal (w : World) (id : Bytes) (v : ℤ) : World :=
  { w with bal := fun a => if a = id then v else w.bal a }

/-- `depositlist.go:35-40` `PayContext` and the id of the system account. -/
structure PayCtx where
  feeSharing : Bool
  price : ℤ
  height : ℤ
  systemID : Bytes

/-- `account.go:855-862` `PaySteps` of an account. -/
def accountPaySteps (ctx : PayCtx) (steps : ℤ) (dl : List Dep) : Payment × List Dep :=
  if ctx.feeSharing = true ∧ dl ≠ [] then paySteps ctx.height ctx.price steps dl else (⟨none, none⟩, dl)

/-- `feepayerinfo.go:82-85` `calcStepsToPay`. -/
def Payer.calcStepsToPay (p : Payer) (s : ℤ) : ℤ := s * p.portion / 100

/-- `feepayerinfo.go:87-93` `ensureStepsToPay`. -/
def Payer.ensureStepsToPay (p : Payer) (s : ℤ) : Payer :=
  match p.steps with
  | some _ => p
  | none => { p with base := some s, steps := some (p.calcStepsToPay s) }

/-- `feepayerinfo.go:100-105` `DelegateSteps`. -/
def Payer.delegateSteps (p : Payer) (s : ℤ) : Payer :=
  match p.base with
  | none => p
  | some b => { p with base := some (b + s), steps := some (p.calcStepsToPay (b + s)) }

/-- `feepayerinfo.go:40-78` `FeePayer.PaySteps` (with `payWithSystemDeposit`, `payWithAccountDeposit`) of the object at `i`:
the world and the objects afterwards, and the steps paid. (Errors of the store are left out.) -/
def payerPaySteps (ctx : PayCtx) (w : World) (h : PHeap) (i : ℕ) (steps : ℤ) : World × PHeap × ℤ :=
  match h[i]? with
  | none => (w, h, 0)
  | some p0 =>
    let p := p0.ensureStepsToPay steps
    let toPay := p.steps.getD 0
    if accountID p.payer = ctx.systemID then
      ({ w with sysUsage := w.sysUsage + toPay * ctx.price }, h.set i { p with paid := some toPay }, toPay)
    else
      let r := accountPaySteps ctx toPay (w.dep (accountID p.payer))
      let w' := w.setDep (accountID p.payer) r.2
      let paid := r.1.paid.getD 0
      let fee := if r.1.paid.isSome then r.1.byDeposit else none
      let h' := h.set i { p with paid := some paid, fee := fee }
      let h'' :=
        match p.parent with
        | some j => if paid < toPay then h'.modify j (fun q => q.delegateSteps (toPay - paid)) else h'
        | none => h'
      (w', h'', paid)

/-- The loop of `feepayerinfo.go:163-175`: what is left to pay afterwards. -/
def payLoop (ctx : PayCtx) : World → PHeap → FeePayers → ℤ → World × PHeap × ℤ
  | w, h, [], toPay => (w, h, toPay)
  | w, h, none :: ps, toPay => payLoop ctx w h ps toPay
  | w, h, some i :: ps, toPay =>
    payLoop ctx (payerPaySteps ctx w h i toPay).1 (payerPaySteps ctx w h i toPay).2.1 ps
      (toPay - (payerPaySteps ctx w h i toPay).2.2)

/-- `feepayerinfo.go:161-177` `FeePayerInfo.PaySteps`, called by `RedeemSteps` (`callcontext.go:611-613`): the world, the objects,
the steps paid. -/
def redeemSteps (ctx : PayCtx) (w : World) (h : PHeap) (ps : FeePayers) (steps : ℤ) : World × PHeap × ℤ :=
  ((payLoop ctx w h ps steps).1, (payLoop ctx w h ps steps).2.1, steps - (payLoop ctx w h ps steps).2.2)

/-! ### Frames -/

/-- `feepayerinfo.go:118-131` `SetFeeProportion`. -/
def setFeeProportion (h : PHeap) (ps : FeePayers) (payer : Bytes) (portion : ℤ) : PHeap × FeePayers :=
  if portion < 0 ∨ portion > 100 then (h, ps)
  else
    let r : PHeap × Option ℕ := if portion ≠ 0 then (h ++ [{ payer := payer, portion := portion }], some h.length) else (h, none)
    (r.1, ps.dropLast ++ [r.2])

/-- `feepayerinfo.go:133-142` `setParentOfSub`. -/
def setParentOfSub (h : PHeap) (ps : FeePayers) : PHeap :=
  match ps.getLast? with
  | some (some own) =>
    (ps.dropLast.filterMap id).foldl
      (fun h i => h.modify i (fun p => match p.parent with | none => { p with parent := some own } | some _ => p)) h
  | _ => h

/-- The loop of `feepayerinfo.go:151-156`: `ApplySteps` (`:95-98`) to each payer that is not nil. -/
def applyLoop : PHeap → FeePayers → ℤ → PHeap
  | h, [], _ => h
  | h, none :: ps, steps => applyLoop h ps steps
  | h, some i :: ps, steps =>
    let h' := h.modify i (fun p => p.ensureStepsToPay steps)
    applyLoop h' ps (steps - ((h'[i]?).bind Payer.steps).getD 0)

/-- `feepayerinfo.go:144-159` `Apply` of the payers of a frame to those of its parent. -/
def applyPayers (h : PHeap) (p p2 : FeePayers) (steps : ℤ) : PHeap × FeePayers :=
  (applyLoop (setParentOfSub h p2) p2 steps, p.dropLast ++ p2.filter Option.isSome ++ [p.getLast?.join])

/-- The part of a `callFrame` (`callframe.go:20-37`) that matters here. `childUsed` is not in the code: the steps used by the
calls made from this frame whose effects were kept. -/
structure Frame where
  fid : ℕ
  payers : FeePayers
  childUsed : ℤ

/-- The part of a `callContext` that matters here: frames, innermost first. -/
structure CallCtx where
  heap : PHeap
  frames : List Frame
  nextFID : ℕ

/-- `callcontext.go:117-139` `NewCallContext`: only the base frame (`baseFID` 1). -/
def CallCtx.start : CallCtx := ⟨[], [⟨1, [], 0⟩], 2⟩

/-- What happens to frames during a transaction. -/
inductive FrameOp
  /-- `pushFrame` -/
  | push
  /-- `SetFeeProportion` by the contract running in the innermost frame -/
  | setFee (payer : Bytes) (portion : ℤ)
  /-- `popFrame` of a frame that used these steps; `keep` if it succeeded and is not read-only -/
  | pop (keep : Bool) (used : ℤ)

/-- `callcontext.go:141-155` `pushFrame`, `:157-178` `popFrame` (with `callframe.go:190-192`), `:596-609` `SetFeeProportion`.
`multiple` is the revision flag `MultipleFeePayers`. The base frame is never popped (`:394-398`). -/
def CallCtx.step (multiple feeSharing : Bool) (c : CallCtx) : FrameOp → CallCtx
  | .push => { c with frames := ⟨c.nextFID, [], 0⟩ :: c.frames, nextFID := c.nextFID + 1 }
  | .setFee payer portion =>
    if !feeSharing then c
    else match c.frames with
      | f :: g :: fs =>
        if f.fid = 2 then
          { c with heap := (setFeeProportion c.heap g.payers payer portion).1,
                   frames := f :: { g with payers := (setFeeProportion c.heap g.payers payer portion).2 } :: fs }
        else if multiple then
          { c with heap := (setFeeProportion c.heap f.payers payer portion).1,
                   frames := { f with payers := (setFeeProportion c.heap f.payers payer portion).2 } :: g :: fs }
        else c
      | _ => c
  | .pop keep used =>
    match c.frames with
    | f :: g :: fs =>
      if keep then
        { c with heap := (applyPayers c.heap g.payers f.payers used).1,
                 frames := { g with payers := (applyPayers c.heap g.payers f.payers used).2, childUsed := g.childUsed + used } :: fs }
      else { c with frames := g :: fs }
    | _ => c

/-! ### The fee part of a receipt -/

/-- `receipt.go` (`data.FeeDetail`, `feeSteps`, `StepUsed`, `StepPrice`). -/
structure Receipt where
  feeDetail : List (Bytes × ℤ) := []
  feeSteps : Option ℤ := none
  stepUsed : ℤ := 0
  stepPrice : ℤ := 0
  deriving DecidableEq, Repr

/-- `feedetail.go:38-53` `AddPayment`. -/
def addToDetail (addr : Bytes) (steps : ℤ) : List (Bytes × ℤ) → List (Bytes × ℤ)
  | [] => [(addr, steps)]
  | p :: ps => if p.1 = addr then (p.1, p.2 + steps) :: ps else p :: addToDetail addr steps ps

/-- `receipt.go:419-432` `AddPayment`. -/
def Receipt.addPayment (r : Receipt) (addr : Bytes) (steps : ℤ) (feeSteps : Option ℤ) : Receipt :=
  { r with
    feeDetail := if steps = 0 then r.feeDetail else addToDetail addr steps r.feeDetail
    feeSteps := match feeSteps with
      | none => r.feeSteps
      | some f => match r.feeSteps with
        | none => some f
        | some g => some (g + f) }

/-- `feepayerinfo.go:179-187` `addBigInt`. -/
def addBigInt : Option ℤ → Option ℤ → Option ℤ
  | none, v => v
  | some a, none => some a
  | some a, some b => some (a + b)

/-- An entry of the map of `GetLogs`: payer, paid steps, fee steps. -/
abbrev LogEntry := Bytes × Option ℤ × Option ℤ

/-- One turn of the loop `feepayerinfo.go:191-206`. -/
def addLog (key : Bytes) (paid fee : Option ℤ) : List LogEntry → List LogEntry
  | [] => [(key, paid, fee)]
  | e :: es => if e.1 = key then (key, addBigInt paid e.2.1, addBigInt fee e.2.2) :: es else e :: addLog key paid fee es

/-- The same for the payer at `i`. -/
def addLogOf (h : PHeap) (m : List LogEntry) (i : ℕ) : List LogEntry :=
  match h[i]? with
  | some p => addLog p.payer p.paid p.fee m
  | none => m

/-- The map built by `feepayerinfo.go:190-206`, as a list in some order. -/
def payerLogs (h : PHeap) (ps : FeePayers) : List LogEntry := (ps.filterMap id).foldl (addLogOf h) []

/-- One turn of the loop `feepayerinfo.go:210-217`: the receipt and whether anything was added. -/
def addLogsStep (acc : Receipt × Bool) (e : LogEntry) : Receipt × Bool :=
  match e.2.1 with
  | none => acc
  | some paid => if paid = 0 then acc else (acc.1.addPayment e.1 paid e.2.2, true)

/-- The loop, over the map in the order `es`. -/
def addLogs (es : List LogEntry) (r : Receipt) : Receipt × Bool := es.foldl addLogsStep (r, false)

/-- Addresses in the order of `bytes.Compare`. -/
def addrLE (a b : Bytes × ℤ) : Bool := decide (a.1.map UInt8.toNat ≤ b.1.map UInt8.toNat)

/-- `feedetail.go:88-93` `Normalize`. -/
def normalize (d : List (Bytes × ℤ)) : List (Bytes × ℤ) := d.insertionSort (fun a b => addrLE a b = true)

/-- `receipt.go:668-682` `SetResult`. (`Normalize` runs only from version 3 on; there are payments only from version 3 on.) -/
def Receipt.setResult (r : Receipt) (used price : ℤ) : Receipt :=
  { r with stepUsed := used, stepPrice := price, feeDetail := normalize r.feeDetail }

/-- The receipt of a transaction: `/repo/service/transaction/transactionhandler.go:268-277`. `es` is the map of `GetLogs` in the
order Go happens to visit it; status, events and reason are left out. -/
def makeReceipt (es : List LogEntry) (sender : Bytes) (stepToPay used price : ℤ) : Receipt :=
  ((if (addLogs es {}).2 = true ∧ stepToPay ≠ 0 then (addLogs es {}).1.addPayment sender stepToPay (some stepToPay)
    else (addLogs es {}).1)).setResult used price

/-- `receipt.go:717-729` `Fee`. -/
def Receipt.totalFee (r : Receipt) : ℤ :=
  if r.feeDetail ≠ [] then
    match r.feeSteps with
    | some f => f * r.stepPrice
    | none => 0
  else r.stepUsed * r.stepPrice

/-- `receipt.go:710-715`, `:731-733` `FeeByEOA`, `feedetail.go:116-124`; the first byte of an address is 1 for a contract. -/
def Receipt.feeByEOA (r : Receipt) : ℤ :=
  (if r.feeDetail ≠ [] then ((r.feeDetail.filter (fun p => p.1.head? ≠ some 1)).map (·.2)).sum else r.stepUsed) * r.stepPrice

end Verif.Service
