import Verif.Service.FeePayer

/-!
# The coins moved by a transaction, and its fee

Models the coin movements of `/repo/service/contract/transferhandler.go` and `deposithandler.go`, the snapshots of call frames
(`callcontext.go:141-178`), the charging of the fee in `/repo/service/transaction/transactionhandler.go:163-281`, and the treasury
in `/repo/service/transition.go:764-799`.
-/

namespace Verif.Service
open Verif

/-- What does not change during the execution of a block. `treasury` and `systemID` are account ids. -/
structure Rules where
  feeSharing : Bool
  /-- revision flag `MultipleFeePayers` -/
  multiple : Bool
  /-- revision flag `LegacyFeeCharge` -/
  legacyFeeCharge : Bool
  /-- revision flag `FixLostFeeByDeposit` -/
  fixLostFee : Bool
  price : ℤ
  height : ℤ
  term : ℤ
  rate : ℤ
  systemID : Bytes
  treasury : Bytes

def Rules.payCtx (R : Rules) : PayCtx := ⟨R.feeSharing, R.price, R.height, R.systemID⟩
def Rules.depCtx (R : Rules) (txid : Bytes) : DepCtx := ⟨R.price, R.height, R.term, R.rate, txid⟩

/-- `transferhandler.go:38-61` `DoExecuteSync`. `none` is an error. `fromOk`, `dstOk`: the address and the account agree on being a
contract. The event and read-only mode are left out (a read-only frame changes nothing). -/
def doTransfer (w : World) (sender dst : Bytes) (value : ℤ) (fromOk dstOk : Bool) : Option World :=
  if !fromOk then none
  else if value < 0 then none
  else if w.bal sender < value then none
  else
    let w1 := w.setBal sender (w.bal sender - value)
    if !dstOk then none
    else some (w1.setBal dst (w1.bal dst + value))

/-- `deposithandler.go:37-38`. -/
def depositMinimum : ℤ := 5000000000000000000000
def depositMaximum : ℤ := 100000000000000000000000

/-- `deposithandler.go:119-158`, action "add". `allowed`: the addresses are in order and the sender owns the contract (`:103-117`). -/
def doAddDeposit (R : Rules) (txid : Bytes) (w : World) (sender dst : Bytes) (value : ℤ) (allowed : Bool) : Option World :=
  if !allowed then none
  else if !R.feeSharing then none
  else if value < 0 then none
  else if R.term > 0 ∧ (value < depositMinimum ∨ value > depositMaximum) then none
  else if w.bal sender < value then none
  else
    let w1 := w.setBal sender (w.bal sender - value)
    match addDeposit (R.depCtx txid) value (w1.dep dst) with
    | .error _ => none
    | .ok dl => some (w1.setDep dst dl)

/-- `deposithandler.go:159-197`, action "withdraw" (the value of the call must be zero: `:160-163`, in `allowed`). -/
def doWithdraw (R : Rules) (txid : Bytes) (w : World) (sender dst : Bytes) (id : Bytes) (value : Option ℤ) (allowed : Bool) :
    Option World :=
  if !allowed then none
  else if value.any (· < 0) then none
  else match withdrawDeposit (R.depCtx txid) id value (w.dep dst) with
    | .error _ => none
    | .ok (amount, fee, dl) =>
      let w1 := w.setDep dst dl
      let w2 := w1.setBal sender (w1.bal sender + amount)
      some (w2.setBal R.treasury (w2.bal R.treasury + fee))

/-- What happens in the calls of a transaction. A handler that fails has its frame undone (`popFrame(false)`), so nothing changes. -/
inductive TxOp
  | push
  | pop (keep : Bool) (used : ℤ)
  | setFee (payer : Bytes) (portion : ℤ)
  | transfer (sender dst : Bytes) (value : ℤ) (fromOk dstOk : Bool)
  | addDeposit (sender dst : Bytes) (value : ℤ) (allowed : Bool)
  | withdraw (sender dst id : Bytes) (value : Option ℤ) (allowed : Bool)

/-- Frames, the snapshot of each frame except the base (innermost first), and the world. -/
structure Body where
  c : CallCtx
  snaps : List World
  w : World

/-- `callcontext.go:117-139`. -/
def Body.start (w : World) : Body := ⟨CallCtx.start, [], w⟩

/-- One operation. `pushFrame` takes a snapshot (`callcontext.go:147-149`), `popFrame(false)` goes back to it (`:168-170`). A
read-only frame has no snapshot and is never kept; it changed nothing. -/
def Body.step (R : Rules) (txid : Bytes) (b : Body) : TxOp → Body
  | .push => { b with c := b.c.step R.multiple R.feeSharing .push, snaps := b.w :: b.snaps }
  | .pop keep used =>
    match b.snaps with
    | [] => b
    | s :: ss => { c := b.c.step R.multiple R.feeSharing (.pop keep used), snaps := ss, w := if keep then b.w else s }
  | .setFee p n => { b with c := b.c.step R.multiple R.feeSharing (.setFee p n) }
  | .transfer f d v a1 a2 => { b with w := (doTransfer b.w f d v a1 a2).getD b.w }
  | .addDeposit f d v a => { b with w := (doAddDeposit R txid b.w f d v a).getD b.w }
  | .withdraw f d i v a => { b with w := (doWithdraw R txid b.w f d i v a).getD b.w }

def Body.run (R : Rules) (txid : Bytes) : Body → List TxOp → Body
  | b, [] => b
  | b, op :: ops => Body.run R txid (b.step R txid op) ops

/-- The variables of the charging part of `Execute` (`transactionhandler.go:184-266`). `payers`: those of the base frame. -/
structure Charge where
  w : World
  ok : Bool
  stepUsed : ℤ
  stepToPay : ℤ
  price : ℤ
  fee : ℤ
  bal : ℤ
  payers : FeePayers

/-- One turn of the loop `transactionhandler.go:226-263`, entered when `bal < fee`. `redeemed`: `redeemed != nil`; `wcs`: the world
before the transaction; `sender` is an account id. The flag says `break`. -/
def chargeStep (legacy redeemed : Bool) (wcs : World) (sender : Bytes) (s : Charge) : Charge × Bool :=
  if legacy then
    ({ s with payers := if redeemed then [] else s.payers, stepToPay := 0, stepUsed := 0, fee := 0 }, true)
  else if s.ok then
    let stepToPay := if redeemed then s.stepUsed else s.stepToPay
    ({ s with ok := false, w := wcs, bal := wcs.bal sender, payers := if redeemed then [] else s.payers,
              stepToPay := stepToPay, fee := stepToPay * s.price }, false)
  else if redeemed then
    ({ s with w := wcs, bal := wcs.bal sender, payers := [], stepToPay := s.stepUsed, price := 0, fee := 0 }, false)
  else ({ s with price := 0, fee := 0 }, false)

/-- The loop, at most `n` turns; `none`: not done by then. -/
def chargeLoop (legacy redeemed : Bool) (wcs : World) (sender : Bytes) : ℕ → Charge → Option Charge
  | 0, s => if s.bal < s.fee then none else some s
  | n + 1, s =>
    if s.bal < s.fee then
      if (chargeStep legacy redeemed wcs sender s).2 then some (chargeStep legacy redeemed wcs sender s).1
      else chargeLoop legacy redeemed wcs sender n (chargeStep legacy redeemed wcs sender s).1
    else some s

/-- A transaction: the sender's address, whether it is a patch, its id, what its calls do and how they end. -/
structure Tx where
  sender : Bytes
  isPatch : Bool
  txid : Bytes
  /-- the value it carries and the steps it may use: see `checkBalance` -/
  value : ℤ
  stepLimit : ℤ
  ops : List TxOp
  ok : Bool
  /-- `cc.StepUsed()` at the end -/
  used : ℤ
  /-- `StepsFor(default, 1)` -/
  minSteps : ℤ

/-- `transactionhandler.go:184-224`: the variables when the loop is entered, and the objects. -/
def chargeStart (R : Rules) (tx : Tx) (b : Body) (base : Frame) : Charge × PHeap :=
  let price := if tx.isPatch then 0 else R.price
  let stepUsed := if tx.used < tx.minSteps then tx.minSteps else tx.used
  if R.feeSharing = true ∧ price > 0 then
    let r := redeemSteps R.payCtx b.w b.c.heap base.payers stepUsed
    ({ w := r.1, ok := tx.ok, stepUsed := stepUsed, stepToPay := stepUsed - r.2.2, price := price,
       fee := (stepUsed - r.2.2) * price, bal := r.1.bal (accountID tx.sender), payers := base.payers }, r.2.1)
  else
    ({ w := b.w, ok := tx.ok, stepUsed := stepUsed, stepToPay := stepUsed, price := price, fee := stepUsed * price,
       bal := b.w.bal (accountID tx.sender), payers := base.payers }, b.c.heap)

/-- `redeemed != nil`. -/
def redeems (R : Rules) (tx : Tx) : Bool := R.feeSharing && decide ((if tx.isPatch then 0 else R.price) > 0)

/-- What a transaction leaves. -/
structure Outcome where
  w : World
  receipt : Receipt
  /-- the status of the receipt -/
  ok : Bool

/-- `transactionhandler.go:264-281`: charge, and make the receipt; `es` is the map of `GetLogs` in some order. -/
def finish (tx : Tx) (s : Charge) (es : List LogEntry) : Outcome :=
  { w := s.w.setBal (accountID tx.sender) (s.bal - s.fee)
    receipt := makeReceipt es tx.sender s.stepToPay s.stepUsed s.price
    ok := s.ok }

/-- `transactionhandler.go:163-281` `Execute` of a transaction on the world `wcs`: these are the possible outcomes. (Failures of the
node, which stop the block, are left out.) -/
def Executes (R : Rules) (tx : Tx) (wcs : World) (o : Outcome) : Prop :=
  ∃ base s es n,
    ((Body.start wcs).run R tx.txid tx.ops).c.frames = [base] ∧
    chargeLoop R.legacyFeeCharge (redeems R tx) wcs (accountID tx.sender) n
      (chargeStart R tx ((Body.start wcs).run R tx.txid tx.ops) base).1 = some s ∧
    es.Perm (payerLogs (chargeStart R tx ((Body.start wcs).run R tx.txid tx.ops) base).2 s.payers) ∧
    o = finish tx s es

/-- Transactions one after the other: the receipts, and the world after them. -/
inductive ExecuteAll (R : Rules) : List Tx → World → List Receipt → World → Prop
  | nil (w : World) : ExecuteAll R [] w [] w
  | cons {tx : Tx} {txs : List Tx} {w w' : World} {o : Outcome} {rs : List Receipt} :
      Executes R tx w o → ExecuteAll R txs o.w rs w' → ExecuteAll R (tx :: txs) w (o.receipt :: rs) w'

/-- `transition.go:764-799`: the fees of all receipts go to the treasury. -/
def gatheredFee (R : Rules) (rs : List Receipt) : ℤ :=
  (rs.map (fun r => if R.fixLostFee then r.totalFee else r.feeByEOA)).sum

def payTreasury (R : Rules) (rs : List Receipt) (w : World) : World :=
  w.setBal R.treasury (w.bal R.treasury + gatheredFee R rs)

/-- `transactionhandler.go:83-102` `checkBalance` (without `LegacyBalanceCheck`, and without the check of deposits). -/
def checkBalance (R : Rules) (tx : Tx) (w : World) : Bool :=
  decide (w.bal (accountID tx.sender) ≥ R.price * tx.stepLimit + tx.value)

/-! ### Revisions of Havah -/

/-- `/repo/module/revision.go:21-45`: the bits of a revision. -/
def bitInputCostingWithJSON : ℕ := 8
def bitExpandErrorCode : ℕ := 9
def bitUseChainID : ℕ := 10
def bitUseMPTOnEvents : ℕ := 11
def bitUseCompactAPIInfo : ℕ := 12
def bitLegacyFeeCharge : ℕ := 14
def bitLegacyBalanceCheck : ℕ := 17
def bitFixLostFeeByDeposit : ℕ := 20
def bitMultipleFeePayers : ℕ := 21
def bitPurgeEnumCache : ℕ := 22
def bitContractSetEvent : ℕ := 23
def bitFixMapValues : ℕ := 24

/-- `/repo/havah/hvhmodule/revision.go:56-74` `revisionFlags`. -/
def revisionFlags : List (List ℕ) :=
  [[bitFixLostFeeByDeposit, bitInputCostingWithJSON, bitExpandErrorCode, bitUseChainID, bitUseMPTOnEvents, bitUseCompactAPIInfo,
    bitPurgeEnumCache, bitFixMapValues],
   [bitContractSetEvent], [], [], [bitMultipleFeePayers], [], [], []]

/-- `revision.go:76-82` `init`: the flags of revision `idx` and all before it. (No flag is named twice, so exclusive or is or.) -/
def accumulated (idx : ℕ) : ℕ := (((revisionFlags.take (idx + 1)).flatten).map (fun b => 2 ^ b)).foldl Nat.xor 0

/-- `revision.go:84-93` `ValueToRevision`. -/
def valueToRevision (v : ℤ) : ℕ :=
  let idx := if v < 0 then 0 else v.toNat
  let v' := if v < 0 then 0 else v.toNat
  v' + accumulated (if idx ≥ revisionFlags.length then revisionFlags.length - 1 else idx)

/-- Rules with the flags of a revision (`/repo/module/revision.go:82-84`, `Has`). -/
def Rules.withRevision (R : Rules) (rev : ℕ) : Rules :=
  { R with
    legacyFeeCharge := rev.testBit bitLegacyFeeCharge
    fixLostFee := rev.testBit bitFixLostFeeByDeposit
    multiple := rev.testBit bitMultipleFeePayers }

end Verif.Service
