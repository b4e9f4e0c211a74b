import Verif.Base.Bytes

/-!
# Step deposits

Models `/repo/service/state/deposit.go` and `/repo/service/state/depositlist.go`: the deposits of a contract that pay
the fees of transactions calling it.

`*big.Int` values are integers (no method changes one in place); `big.Int.Div` is Euclidean division, which is Lean's
`/` on `ℤ`.  A nil `*big.Int` result is `none`.  Not modelled: `ToJSON`, log messages, the RLP bytes themselves
(only what encoding and decoding lose, `Dep.reload`).
-/

namespace Verif.Service
open Verif

/-- `deposit.go:99-107` `depositV1`. -/
structure DepV1 where
  id : Bytes
  amount : ℤ
  remain : ℤ
  expire : ℤ
  issued : ℤ
  stepRemain : ℤ
  exhausted : Bool
  deriving DecidableEq, Repr

/-- `deposit.go:55-57` `deposit`, `:99-107` `depositV1`, `:326-328` `depositV2`. -/
inductive Dep
  | v1 (d : DepV1)
  | v2 (remain : ℤ)
  deriving DecidableEq, Repr

/-- The errors of these methods. -/
inductive DepErr
  | duplicateDeposit
  | partialWithdraw
  | notEnoughBalance
  | invalidAmount
  | notFound
  deriving DecidableEq, Repr

/-- `depositlist.go:27-33` `DepositContext`. -/
structure DepCtx where
  price : ℤ
  height : ℤ
  term : ℤ
  rate : ℤ
  txid : Bytes
  deriving DecidableEq, Repr

/-- `deposit.go:143-145` `minDeposit`. -/
def minDeposit (amount : ℤ) : ℤ := amount / 10

/-- `deposit.go:147-155` `calcVirtualSteps`. -/
def calcVirtualSteps (amount rate price : ℤ) : ℤ :=
  if price ≤ 0 then 0 else amount * rate / 100 / price

/-- `deposit.go:157-159` `expireAt`. -/
def DepV1.expireAt (d : DepV1) (height : ℤ) : Bool := decide (height ≥ d.expire)

/-- `deposit.go:170-186`, `:387-389` `ConsumeSteps`: the deposit afterwards and the steps still to pay. -/
def Dep.consumeSteps (height : ℤ) (steps : ℤ) : Dep → Dep × ℤ
  | .v1 d =>
    if d.expireAt height then (.v1 d, steps)
    else if d.stepRemain = 0 then (.v1 d, steps)
    else if d.stepRemain < steps then (.v1 { d with stepRemain := 0 }, steps - d.stepRemain)
    else (.v1 { d with stepRemain := d.stepRemain - steps }, 0)
  | .v2 r => (.v2 r, steps)

/-- `deposit.go:188-193`, `:344-346` `GetAvailableDeposit`. -/
def Dep.available (height : ℤ) : Dep → ℤ
  | .v1 d => if d.expireAt height then 0 else d.remain
  | .v2 r => r

/-- `deposit.go:161-166`, `:340-342` `GetAvailableSteps`. -/
def Dep.availableSteps (height : ℤ) : Dep → ℤ
  | .v1 d => if d.expireAt height then 0 else d.stepRemain
  | .v2 _ => 0

/-- `deposit.go:195-205`, `:348-350` `GetUsableDeposit`. -/
def Dep.usable (height : ℤ) : Dep → ℤ
  | .v1 d =>
    if d.expireAt height then 0
    else if d.remain ≤ minDeposit d.amount then 0
    else d.remain - minDeposit d.amount
  | .v2 r => r

/-- `deposit.go:209-227`, `:391-400` `ConsumeDepositLv1`: the deposit afterwards and the fee still to pay. -/
def Dep.consumeLv1 (height : ℤ) (amount : ℤ) : Dep → Dep × ℤ
  | .v1 d =>
    if d.expireAt height || d.exhausted then (.v1 d, amount)
    else if d.remain ≤ minDeposit d.amount then (.v1 d, amount)
    else
      let payable := d.remain - minDeposit d.amount
      if payable ≤ amount then
        (.v1 { d with remain := d.remain - payable, exhausted := true }, amount - payable)
      else (.v1 { d with remain := d.remain - amount }, 0)
  | .v2 r => if r ≤ amount then (.v2 0, amount - r) else (.v2 (r - amount), 0)

/-- `deposit.go:229-242`, `:402-404` `ConsumeDepositLv2`. -/
def Dep.consumeLv2 (height : ℤ) (amount : ℤ) : Dep → Dep × ℤ
  | .v1 d =>
    if d.expireAt height then (.v1 d, amount)
    else if d.remain < amount then (.v1 { d with remain := 0 }, amount - d.remain)
    else (.v1 { d with remain := d.remain - amount }, 0)
  | .v2 r => (.v2 r, amount)

/-- `deposit.go:244-249`, `:336-338` `CanPay`. -/
def Dep.canPay (height feeLimit : ℤ) : Dep → Bool
  | .v1 d => !(d.expireAt height || d.exhausted)
  | .v2 r => decide (r ≥ feeLimit)

/-- `deposit.go:264-266`, `:360-362` `IsIdentifiedBy`. -/
def Dep.isIdentifiedBy (id : Bytes) : Dep → Bool
  | .v1 d => decide (d.id = id)
  | .v2 _ => decide (id.length = 0)

/-- `deposit.go:268-270`, `:364-367` `Add`. -/
def Dep.add (value : ℤ) : Dep → Except DepErr Dep
  | .v1 _ => .error .duplicateDeposit
  | .v2 r => .ok (.v2 (r + value))

/-- What `Withdraw` gives when there is no error: the amount, the penalty, whether the deposit is to be
removed, and the deposit afterwards. -/
structure Withdrawal where
  amount : ℤ
  penalty : ℤ
  removal : Bool
  after : Dep
  deriving DecidableEq, Repr

/-- `deposit.go:272-290`, `:369-385` `Withdraw`; `value` is `none` for nil. -/
def Dep.withdraw (height price : ℤ) (value : Option ℤ) : Dep → Except DepErr Withdrawal
  | .v1 d =>
    match value with
    | some _ => .error .partialWithdraw
    | none =>
      if d.expireAt height then .ok ⟨d.remain, 0, true, .v1 d⟩
      else
        let penalty := (d.issued - d.stepRemain) * price
        if penalty ≤ d.remain then .ok ⟨d.remain - penalty, penalty, true, .v1 d⟩
        else .ok ⟨0, d.remain, true, .v1 d⟩
  | .v2 r =>
    let amount := value.getD r
    if r > amount then .ok ⟨amount, 0, false, .v2 (r - amount)⟩
    else if r = amount then
      .ok ⟨amount, 0, value.isNone, if value.isSome then .v2 0 else .v2 r⟩
    else .error .notEnoughBalance

/-- `deposit.go:314-324` `newDepositV1`; the height is an int64, so the sum may wrap around. -/
def newDepositV1 (dc : DepCtx) (value : ℤ) : Dep :=
  let issue := calcVirtualSteps value dc.rate dc.price
  .v1 ⟨dc.txid, value, value, Int.bmod (dc.height + dc.term) (2 ^ 64), issue, issue, false⟩

/-- `deposit.go:424-428` `newDepositV2`. -/
def newDepositV2 (value : ℤ) : Dep := .v2 value

/-- The loop of `depositlist.go:78-82`: the first deposit with this id gets `Add`. `none`: there is none. -/
def addTo (tid : Bytes) (value : ℤ) : List Dep → Option (Except DepErr (List Dep))
  | [] => none
  | dp :: dl =>
    if dp.isIdentifiedBy tid then some ((dp.add value).map (· :: dl))
    else (addTo tid value dl).map (fun r => r.map (dp :: ·))

/-- `depositlist.go:71-96` `AddDeposit`. -/
def addDeposit (dc : DepCtx) (value : ℤ) (dl : List Dep) : Except DepErr (List Dep) :=
  let tid := if dc.term = 0 then [] else dc.txid
  match addTo tid value dl with
  | some r => r
  | none => .ok (dl ++ [if dc.term = 0 then newDepositV2 value else newDepositV1 dc value])

/-- The loop of `depositlist.go:105-123`. `none`: no deposit with this id. -/
def withdrawFrom (dc : DepCtx) (id : Bytes) (value : Option ℤ) :
    List Dep → Option (Except DepErr (ℤ × ℤ × List Dep))
  | [] => none
  | dp :: dl =>
    if dp.isIdentifiedBy id then
      some ((dp.withdraw dc.height dc.price value).map fun w =>
        (w.amount, w.penalty, if w.removal then dl else w.after :: dl))
    else (withdrawFrom dc id value dl).map (fun r => r.map (fun (a, p, l) => (a, p, dp :: l)))

/-- `depositlist.go:100-125` `WithdrawDeposit`: the amount, the penalty and the deposits afterwards. -/
def withdrawDeposit (dc : DepCtx) (id : Bytes) (value : Option ℤ) (dl : List Dep) :
    Except DepErr (ℤ × ℤ × List Dep) :=
  if value.any (· < 0) then .error .invalidAmount
  else match withdrawFrom dc id value dl with
    | some r => r
    | none => .error .notFound

/-- `depositlist.go:127-133` `getAvailableDeposit`. -/
def availableDeposit (bh : ℤ) : List Dep → ℤ
  | [] => 0
  | dp :: dl => dp.available bh + availableDeposit bh dl

/-- The loop of `depositlist.go:148-154`: stops as soon as nothing remains to be paid. -/
def consumeStepsAll (bh : ℤ) : ℤ → List Dep → List Dep × ℤ
  | remains, [] => ([], remains)
  | remains, dp :: dl =>
    let r := dp.consumeSteps bh remains
    if r.2 = 0 then (r.1 :: dl, 0)
    else ((r.1 :: (consumeStepsAll bh r.2 dl).1), (consumeStepsAll bh r.2 dl).2)

/-- The loop of `depositlist.go:172-178`. -/
def consumeLv1All (bh : ℤ) : ℤ → List Dep → List Dep × ℤ
  | fee, [] => ([], fee)
  | fee, dp :: dl =>
    let r := dp.consumeLv1 bh fee
    if r.2 = 0 then (r.1 :: dl, 0)
    else ((r.1 :: (consumeLv1All bh r.2 dl).1), (consumeLv1All bh r.2 dl).2)

/-- The loop of `depositlist.go:180-186`. -/
def consumeLv2All (bh : ℤ) : ℤ → List Dep → List Dep × ℤ
  | fee, [] => ([], fee)
  | fee, dp :: dl =>
    let r := dp.consumeLv2 bh fee
    if r.2 = 0 then (r.1 :: dl, 0)
    else ((r.1 :: (consumeLv2All bh r.2 dl).1), (consumeLv2All bh r.2 dl).2)

/-- The results of `PaySteps`: both nil if `paid` is `none`. -/
structure Payment where
  paid : Option ℤ
  byDeposit : Option ℤ
  deriving DecidableEq, Repr

/-- `depositlist.go:137-190` `PaySteps`: the results, and the deposits afterwards. -/
def paySteps (bh price steps : ℤ) (dl : List Dep) : Payment × List Dep :=
  if price ≤ 0 ∨ dl = [] then (⟨none, none⟩, dl)
  else
    let r := consumeStepsAll bh steps dl
    if r.2 = 0 then (⟨some steps, none⟩, r.1)
    else
      let remains := r.2
      let payable := availableDeposit bh r.1 / price
      let byDeposit := if payable < remains then payable else remains
      let paid := if payable < remains then steps - remains + byDeposit else steps
      let l1 := consumeLv1All bh (byDeposit * price) r.1
      let l2 := if l1.2 ≠ 0 then (consumeLv2All bh l1.2 l1.1).1 else l1.1
      (⟨some paid, some byDeposit⟩, l2)

/-- `depositlist.go:216-225` `CanPay`. -/
def canPay (height limit : ℤ) (dl : List Dep) : Bool := dl.any (fun d => d.canPay height limit)

/-- What remains of a deposit when the account is written and read back: `deposit.go:113-127`, `:352-354`
(`RLPDecodeFields`) recompute `isExhausted`. -/
def Dep.reload : Dep → Dep
  | .v1 d => .v1 { d with exhausted := decide (d.remain ≤ minDeposit d.amount) }
  | .v2 r => .v2 r

end Verif.Service
