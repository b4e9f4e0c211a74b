import Mathlib.Logic.Function.Basic
import Mathlib.Algebra.BigOperators.Group.Finset.Basic

/-!
# Model of the HAVAH reward economy

Function-by-function model of
* `havah/hvh/hvhstate/state.go`      (planets, rewards, issue, lost coins, managers),
* `havah/hvh/hvhstate/planetreward.go`,
* `havah/hvh/extension.go`           (the extension API used by the chain SCORE),
* `havah/hvh/base.go`                (base transaction: term end / term start),
* `havah/hvh/context.go`             (coin movements), and
* `havah/chainscore_havah.go`        (entry points with their permission checks).

Simplifications common to the whole file
* a `VarDB` is modelled by the value its getter returns (absent = the getter's default), a
  `DictDB` by a function to `Option`, an `ArrayDB` by a list: that these containers behave like
  that is C06-C09;
* an account is identified by the 20-byte body of its address as a number (`Addr.id`), as
  `address.ID()` does in Go: `hx..` and `cx..` with the same body share a balance;
* log lines, events and step charging are dropped; `nil` arguments are not modelled;
* `int64` state variables are unbounded integers (all are heights, counters or bounded flags);
  the conversion `HexInt.Int64()` of API arguments, which wraps, *is* modelled (`int64`);
* the validator part of a base transaction is modelled in `Verif.Havah.Validators`.
-/
namespace Verif.Havah

/-- `module.Address`: kind flag and 20-byte body (`common/address.go`). -/
structure Addr where
  contract : Bool
  id : ℕ
deriving DecidableEq, Repr

/-- Error classes returned by the modelled functions (`service/scoreresult`, `common/errors`,
`service/transaction`); payloads are dropped. -/
inductive Err
  | illegalArgument | invalidState | rewardError | reverted | accessDenied | invalidParameter
  | invalidAmount | invalidBalance | invalidSupply | invalidTxValue
deriving DecidableEq, Repr

/-! ### Constants — `havah/hvhmodule/constant.go:28-66,140-169` -/

/-- `hx3000000000000000000000000000000000000000` (constant.go:162). -/
def publicTreasury : Addr := ⟨false, 0x3000000000000000000000000000000000000000⟩
/-- constant.go:163 -/
def sustainableFund : Addr := ⟨true, 0x4000000000000000000000000000000000000000⟩
/-- constant.go:165 -/
def hooverFund : Addr := ⟨false, 0x6000000000000000000000000000000000000000⟩
/-- constant.go:166 -/
def ecoSystem : Addr := ⟨true, 0x7000000000000000000000000000000000000000⟩
/-- constant.go:167 -/
def planetNFT : Addr := ⟨true, 0x8000000000000000000000000000000000000000⟩
/-- constant.go:168 -/
def serviceTreasury : Addr := ⟨false, 0x9000000000000000000000000000000000000000⟩
/-- default treasury `hx1000...` (`service/state/worldcontext.go:513`). -/
def treasury : Addr := ⟨false, 0x1000000000000000000000000000000000000000⟩
/-- `state.SystemAddress`, `cx0000...` (`service/state/worldstate.go`). -/
def systemAddress : Addr := ⟨true, 0⟩

/-- constant.go:40 -/
def maxPlanetCount : Int := 50000
/-- constant.go:41 -/
def maxCountToClaim : ℕ := 50
/-- `TermPeriod = DayBlock` (constant.go:29,72) -/
def defaultTermPeriod : Int := 43200
/-- constant.go:74 -/
def defaultReductionCycle : Int := 360
/-- constant.go:76 -/
def defaultIssueLimit : Int := 18000
/-- `PrivateClaimableRate = MonthPerYear * 2`, i.e. `0/24` (constant.go:77) -/
def defaultClaimableRate : Int := 24
/-- `BigIntUSDTDecimal` (constant.go:149) -/
def usdtDecimal : Int := 1000000
/-- `BigIntDayPerYear` (constant.go:152) -/
def dayPerYear : Int := 360

/-! ### State -/

/-- `Planet` (`hvhstate/planet.go:21-29`); `flags` split into its two bits. -/
structure Planet where
  isPrivate : Bool
  isCompany : Bool
  owner : Addr
  usdt : Int
  price : Int
  height : Int
deriving DecidableEq, Repr

/-- `planetReward` (`hvhstate/planetreward.go:14-18`). -/
structure Reward where
  total : Int
  lastTN : Int
  current : Int
deriving DecidableEq, Repr

/-- `newEmpyPlanetReward` (planetreward.go:20-22). -/
def Reward.empty : Reward := ⟨0, 0, 0⟩

/-- The extension state variables (`hvhmodule/constant.go:81-111`) together with the part of the
world state they interact with: balances, total supply and the four counters kept in the
SustainableFund SCORE (`constant.go:114-119`). -/
structure EState where
  bal : ℕ → Int
  supply : Int
  usdtPrice : Int
  activeUSDT : Int
  issueStart : Int
  /-- raw `VarTermPeriod`, `VarIssueReductionCycle`, `VarIssueLimit`; 0 when absent -/
  termPeriodRaw : Int
  reductionCycleRaw : Int
  issueLimitRaw : Int
  issueAmount : Int
  hooverBudget : Int
  managers : List Addr
  planets : Int → Option Planet
  rewards : Int → Option Reward
  allPlanet : Int
  active : Int
  working : Int
  rewardTotal : Int
  rewardRemain : Int
  eco : Int
  lost : Int
  /-- raw `VarPrivateClaimableRate`: `num<<16 | denom`, 0 when absent -/
  claimRateRaw : Int
  sfTxFee : Int
  sfServiceFee : Int
  sfMissing : Int
  sfHooverRefill : Int

abbrev M := Except Err

/-! ### `havah/hvh/context.go`: coins -/

/-- `addBalance` with `setBalance` (context.go:25-33,146-150). -/
def addBalance (s : EState) (id : ℕ) (amount : Int) : M EState :=
  if s.bal id + amount < 0 then .error .invalidBalance
  else .ok { s with bal := Function.update s.bal id (s.bal id + amount) }

/-- `callContext.Transfer` (context.go:117-144). -/
def transfer (s : EState) (src dst : Addr) (amount : Int) : M EState :=
  if amount < 0 then .error .invalidAmount
  else if amount = 0 ∨ src = dst then .ok s
  else do
    let s ← addBalance s src.id (-amount)
    addBalance s dst.id amount

/-- `addTotalSupply` (context.go:161-174). -/
def addTotalSupply (s : EState) (amount : Int) : M EState :=
  if s.supply + amount < 0 then .error .invalidSupply
  else .ok { s with supply := s.supply + amount }

/-- `callContext.Issue` (context.go:70-93) with `deposit` (51-58). -/
def issue (s : EState) (dst : Addr) (amount : Int) : M EState :=
  if amount < 0 then .error .illegalArgument
  else if 0 < amount then do
    let s ← addTotalSupply s amount
    addBalance s dst.id amount
  else .ok s

/-- `callContext.Burn` (context.go:95-115) with `withdraw` (60-68). -/
def burn (s : EState) (amount : Int) : M EState :=
  if amount < 0 then .error .illegalArgument
  else if 0 < amount then do
    let s ← addTotalSupply s (-amount)
    addBalance s systemAddress.id (-amount)
  else .ok s

/-! ### `havah/hvh/hvhstate/state.go` -/

/-- `getInt64OrDefault` (state.go:398-404). -/
def getOrDefault (v d : Int) : Int := if v ≤ 0 then d else v

/-- `GetTermPeriod` (state.go:154-156). -/
def EState.termPeriod (s : EState) : Int := getOrDefault s.termPeriodRaw defaultTermPeriod
/-- `GetIssueReductionCycle` (state.go:158-160). -/
def EState.reductionCycle (s : EState) : Int :=
  getOrDefault s.reductionCycleRaw defaultReductionCycle
/-- `GetIssueLimit` (state.go:642-644). -/
def EState.issueLimit (s : EState) : Int := getOrDefault s.issueLimitRaw defaultIssueLimit

/-- `SetUSDTPrice` (state.go:106-111). -/
def setUSDTPrice (s : EState) (price : Int) : M EState :=
  if price < 0 then .error .reverted else .ok { s with usdtPrice := price }

/-- `IsIssueStarted` (state.go:117-119). -/
def isIssueStarted (height issueStart : Int) : Bool := 0 < issueStart ∧ issueStart ≤ height

/-- `GetTermSequenceAndBlockIndex` (state.go:121-130). `/` and `%` are applied to non-negative
operands only, where Go's truncated and Lean's Euclidean division agree. -/
def termSequenceAndBlockIndex (height issueStart termPeriod : Int) : Int × Int :=
  if issueStart = 0 ∨ height - issueStart < 0 then (-1, -1)
  else ((height - issueStart) / termPeriod, (height - issueStart) % termPeriod)

/-- `SetIssueStart` (state.go:137-152). -/
def setIssueStart (s : EState) (height newStart : Int) : M EState :=
  if newStart < 1 ∨ newStart ≤ height then .error .illegalArgument
  else if isIssueStarted height s.issueStart then .error .illegalArgument
  else .ok { s with issueStart := newStart }

/-- `GetIssueAmountByTS` (state.go:180-193): reduction rate 3/10, rounded down. -/
def issueAmountByTS (s : EState) (termSeq : Int) : Int × Bool :=
  if 0 < termSeq ∧ termSeq % s.reductionCycle = 0 then
    let reduction := s.issueAmount * 3 / 10
    if 0 < reduction then (s.issueAmount - reduction, true) else (s.issueAmount, false)
  else (s.issueAmount, false)

/-- `GetIssueAmount` (state.go:166-178). -/
def getIssueAmount (s : EState) (height : Int) : Int :=
  if ¬ isIssueStarted height s.issueStart then 0
  else if (height - s.issueStart) % s.termPeriod ≠ 0 then 0
  else (issueAmountByTS s ((height - s.issueStart) / s.termPeriod)).1

/-- `IsPlanetManager` (state.go:234-246): linear scan. -/
def isPlanetManager (s : EState) (a : Addr) : Bool := s.managers.any (fun m => a == m)

/-- `AddPlanetManager` (state.go:204-212). -/
def addPlanetManager (s : EState) (a : Addr) : M EState :=
  if isPlanetManager s a then .error .reverted
  else .ok { s with managers := s.managers ++ [a] }

/-- `RemovePlanetManager` (state.go:214-232): the first match at `i` is overwritten with the popped
last entry, unless it was the last. -/
def removePlanetManager (s : EState) (a : Addr) : M EState :=
  let size := s.managers.length
  let i := s.managers.findIdx (fun m => a == m)
  if i < size then
    let popped := s.managers.dropLast
    match s.managers.getLast? with
    | none => .error .reverted
    | some last =>
      .ok { s with managers := if i < size - 1 then popped.set i last else popped }
  else .error .reverted

/-- `RegisterPlanet` (state.go:248-285). -/
def registerPlanet (s : EState) (id : Int) (p : Planet) : M EState :=
  if id < 0 then .error .illegalArgument
  else if (s.planets id).isSome then .error .illegalArgument
  else if maxPlanetCount ≤ s.allPlanet then .error .illegalArgument
  else .ok { s with planets := Function.update s.planets id (some p),
                    allPlanet := s.allPlanet + 1 }

/-- `GetPlanetReward` (state.go:477-485): absent reads as the empty reward. -/
def getPlanetReward (s : EState) (id : Int) : Reward := (s.rewards id).getD Reward.empty

/-- `addLost` (state.go:783-798). -/
def addLost (s : EState) (amount : Int) : M EState :=
  if amount < 0 then .error .illegalArgument
  else .ok { s with lost := s.lost + amount }

/-- `UnregisterPlanet` (state.go:287-332). -/
def unregisterPlanet (s : EState) (rev id : Int) : M EState :=
  if id < 0 then .error .illegalArgument
  else if (s.planets id).isNone then .error .illegalArgument
  else if s.allPlanet < 1 then .error .invalidState
  else do
    let s := { s with planets := Function.update s.planets id none,
                      allPlanet := s.allPlanet - 1 }
    if 2 ≤ rev then
      let s ← addLost s (getPlanetReward s id).current
      pure { s with rewards := Function.update s.rewards id none }
    else pure s

/-- `GetPlanet` / `getPlanet` (state.go:347-364). -/
def getPlanet (s : EState) (id : Int) : M Planet :=
  if id < 0 then .error .illegalArgument
  else match s.planets id with
    | none => .error .illegalArgument
    | some p => .ok p

/-- `SetPlanetOwner` (state.go:334-345) with `Planet.setOwner` (planet.go:106-118). -/
def setPlanetOwner (s : EState) (id : Int) (owner : Addr) : M EState := do
  let p ← getPlanet s id
  pure { s with planets := Function.update s.planets id (some { p with owner := owner }) }

/-- `DecreaseRewardRemain` (state.go:410-432). -/
def decreaseRewardRemain (s : EState) (amount : Int) : M EState :=
  if amount < 0 then .error .illegalArgument
  else if amount = 0 then .ok s
  else if s.rewardRemain - amount < 0 then .error .rewardError
  else .ok { s with rewardRemain := s.rewardRemain - amount }

/-- `planetReward.increment` (planetreward.go:72-87). -/
def Reward.increment (pr : Reward) (tn amount total : Int) : M Reward :=
  if amount < 0 ∨ total < 0 then .error .illegalArgument
  else if tn ≤ pr.lastTN then .error .illegalArgument
  else .ok ⟨pr.total + total, tn, pr.current + amount⟩

/-- `planetReward.claim` (planetreward.go:89-101). -/
def Reward.claim (pr : Reward) (amount : Int) : M Reward :=
  if amount < 0 then .error .illegalArgument
  else if pr.current < amount then .error .illegalArgument
  else .ok { pr with current := pr.current - amount }

/-- `setPlanetReward` (state.go:487-490). -/
def setPlanetReward (s : EState) (id : Int) (pr : Reward) : EState :=
  { s with rewards := Function.update s.rewards id (some pr) }

/-- `OfferReward` (state.go:434-450). -/
def offerReward (s : EState) (tn id : Int) (pr : Reward) (amount total : Int) : M EState := do
  let pr ← pr.increment tn amount total
  pure (setPlanetReward s id pr)

/-- `IncrementWorkingPlanet` (state.go:452-459). -/
def incrementWorkingPlanet (s : EState) : EState := { s with working := s.working + 1 }

/-- `IncreaseEcoSystemReward` (state.go:461-475). -/
def increaseEcoSystemReward (s : EState) (amount : Int) : EState := { s with eco := s.eco + amount }

/-- `ClaimEcoSystemReward` (state.go:492-509): returns the reward and resets it. -/
def claimEcoSystemReward (s : EState) : M (Int × EState) :=
  if s.eco < 0 then .error .invalidState
  else .ok (s.eco, { s with eco := 0 })

/-- `validatePrivateClaimableRate` (utils.go:41-52). -/
def validClaimRate (num denom : Int) : Bool :=
  ¬ (denom ≤ 0 ∨ 10000 < denom) ∧ ¬ num < 0 ∧ ¬ denom < num

/-- `SetPrivateClaimableRate` (state.go:749-755): `num<<16|denom`; with a valid rate `denom` fits
in 16 bits, so the bitwise or is an addition. -/
def setPrivateClaimableRate (s : EState) (num denom : Int) : M EState :=
  if validClaimRate num denom then .ok { s with claimRateRaw := num * 65536 + denom }
  else .error .invalidParameter

/-- `GetPrivateClaimableRate` (state.go:757-763): `value>>16`, `value&0xffff`. -/
def privateClaimableRate (s : EState) : Int × Int :=
  let value := getOrDefault s.claimRateRaw defaultClaimableRate
  (value / 65536, value % 65536)

/-- `calcClaimableReward` (state.go:547-571). -/
def calcClaimableReward (s : EState) (p : Planet) (pr : Reward) : M Int :=
  if ¬ p.isPrivate ∨ pr.current = 0 then .ok pr.current
  else
    let r := privateClaimableRate s
    if ¬ validClaimRate r.1 r.2 then .error .invalidParameter
    else if r.1 < r.2 then
      let locked := (r.2 - r.1) * pr.total / r.2
      let c := pr.current - locked
      .ok (if c < 0 then 0 else c)
    else .ok pr.current

/-- `State.ClaimPlanetReward` (state.go:511-545): returns the claimed amount. -/
def stateClaimPlanetReward (s : EState) (id : Int) (owner : Addr) : M (Int × EState) := do
  let p ← getPlanet s id
  if owner ≠ p.owner then .error .accessDenied
  else
    let pr := getPlanetReward s id
    let c ← calcClaimableReward s p pr
    if 0 < c then
      let pr ← pr.claim c
      pure (c, setPlanetReward s id pr)
    else pure (c, s)

/-- `ClaimMissedReward` (state.go:573-598). -/
def claimMissedReward (s : EState) : M (Int × EState) :=
  let missed :=
    if 0 < s.active then s.rewardTotal / s.active * (s.active - s.working) else s.rewardTotal
  if s.rewardRemain - missed < 0 then .error .invalidState
  else .ok (missed, { s with rewardRemain := s.rewardRemain - missed })

/-- `State.OnTermEnd` (state.go:600-613). -/
def stateOnTermEnd (s : EState) : EState := { s with working := 0, active := 0, activeUSDT := 0 }

/-- `State.OnTermStart` (state.go:615-640). -/
def stateOnTermStart (s : EState) (issueAmount : Int) : EState :=
  { s with active := s.allPlanet, activeUSDT := s.usdtPrice,
           rewardRemain := s.rewardRemain + issueAmount,
           rewardTotal := s.rewardRemain + issueAmount }

/-- `GetActivePlanetCountAndReward` (state.go:669-679), reward part. -/
def rewardPerActivePlanet (s : EState) : Int :=
  if 0 < s.active then s.rewardTotal / s.active else 0

/-- `DeleteLost` (state.go:769-781). -/
def deleteLost (s : EState) : Int × EState := (s.lost, { s with lost := 0 })

/-! ### `havah/hvh/extension.go` -/

/-- `calcHooverLimit` (extension.go:409-413). -/
def calcHooverLimit (total rewardPerPlanet planetPrice : Int) : Int :=
  planetPrice - total - rewardPerPlanet

/-- `calcHooverGuide` (extension.go:419-425). `big.Int.Div` is Euclidean division, as Lean's `/`. -/
def calcHooverGuide (priceInUSDT activeUSDTPrice : Int) : Int :=
  priceInUSDT * activeUSDTPrice / usdtDecimal / 10 / dayPerYear

/-- `calcSubsidyFromHooverFund` (extension.go:427-440). -/
def calcSubsidy (hooverLimit hooverGuide hooverBalance reward : Int) : Int :=
  let r := hooverGuide - reward
  let r := if hooverLimit < r then hooverLimit else r
  if hooverBalance < r then hooverBalance else r

/-- The subsidy requested for one work report (extension.go:355-368). -/
def hooverRequest (s : EState) (p : Planet) (pr : Reward) (reward : Int) : Int :=
  let limit := calcHooverLimit pr.total reward p.price
  if 0 < limit then
    let guide := calcHooverGuide p.usdt s.activeUSDT
    if reward < guide then
      let balance := s.bal hooverFund.id
      if 0 < balance then calcSubsidy limit guide balance reward else 0
    else 0
  else 0

/-- The crediting part of `ReportPlanetWork` (extension.go:375-396): company rewards are divided
between the ecosystem (3/5, rounded down) and the owner. -/
def creditReport (s : EState) (p : Planet) (tn id : Int) (pr : Reward) (withHoover : Int) :
    M EState :=
  if p.isCompany then do
    let ecoReward := withHoover * 3 / 5
    let s ← offerReward s tn id pr (withHoover - ecoReward) withHoover
    pure (increaseEcoSystemReward s ecoReward)
  else offerReward s tn id pr withHoover withHoover

/-- `ExtensionStateImpl.ReportPlanetWork` (extension.go:305-407). -/
def reportPlanetWork (s : EState) (height id : Int) : M EState := do
  if ¬ isIssueStarted height s.issueStart then .error .invalidState
  else
    let p ← getPlanet s id
    let termSeq := (height - s.issueStart) / s.termPeriod
    let termStart := termSeq * s.termPeriod + s.issueStart
    let termNumber := termSeq + 1
    if termStart ≤ p.height then .error .rewardError
    else
      let pr := getPlanetReward s id
      if termNumber ≤ pr.lastTN then .error .rewardError
      else
        let reward := rewardPerActivePlanet s
        let s ← decreaseRewardRemain s reward
        let hoover := hooverRequest s p pr reward
        let withHoover := reward + hoover
        let s ← transfer s hooverFund publicTreasury hoover
        let s ← creditReport s p termNumber id pr withHoover
        pure (incrementWorkingPlanet s)

/-- The loop of `ExtensionStateImpl.ClaimPlanetReward` (extension.go:461-476): an error for one id
skips it; a failing transfer ends the call *successfully*. -/
def claimLoop (owner : Addr) : List Int → EState → EState
  | [], s => s
  | id :: ids, s =>
    match stateClaimPlanetReward s id owner with
    | .error _ => claimLoop owner ids s
    | .ok (c, s1) =>
      if 0 < c then
        match transfer s1 publicTreasury owner c with
        | .error _ => s1
        | .ok s2 => claimLoop owner ids s2
      else claimLoop owner ids s1

/-- `ExtensionStateImpl.ClaimPlanetReward` (extension.go:444-479). -/
def claimPlanetReward (s : EState) (height : Int) (owner : Addr) (ids : List Int) : M EState :=
  if maxCountToClaim < ids.length then .error .illegalArgument
  else if ¬ isIssueStarted height s.issueStart then .error .invalidState
  else .ok (claimLoop owner ids s)

/-- `WithdrawLostTo` (extension.go:565-589). -/
def withdrawLostTo (s : EState) (dst : Addr) : M EState :=
  if dst.contract then .error .illegalArgument
  else
    let (lost, s) := deleteLost s
    if 0 < lost then transfer s publicTreasury dst lost else .ok s

/-! ### `havah/hvh/base.go` -/

/-- `increaseScoreVarDB` (base.go:607-619): non-positive amounts are ignored. -/
def increaseCounter (v amount : Int) : Int := if amount ≤ 0 then v else v + amount

/-- `TransferEcoSystemReward` (base.go:398-411). -/
def transferEcoSystemReward (s : EState) : M EState := do
  let (reward, s) ← claimEcoSystemReward s
  transfer s publicTreasury ecoSystem reward

/-- `distributeFee` (base.go:576-601) with proportion 1/5: returns the sustainable-fund share. -/
def distributeFee (s : EState) (src : Addr) : M (Int × EState) := do
  let balance := s.bal src.id
  if 0 < balance then
    let ecoAmount := balance * 1 / 5
    let susAmount := balance - ecoAmount
    let s ← transfer s src sustainableFund susAmount
    let s ← transfer s src ecoSystem ecoAmount
    pure (susAmount, s)
  else pure (0, s)

/-- `distributeTxFee` (base.go:560-574). -/
def distributeTxFee (s : EState) : M EState := do
  let (sf, s) ← distributeFee s treasury
  pure { s with sfTxFee := increaseCounter s.sfTxFee sf }

/-- `distributeServiceFee` (base.go:544-558). -/
def distributeServiceFee (s : EState) : M EState := do
  let (sf, s) ← distributeFee s serviceTreasury
  pure { s with sfServiceFee := increaseCounter s.sfServiceFee sf }

/-- `TransferMissedReward` (base.go:413-440). -/
def transferMissedReward (s : EState) : M EState := do
  let (missed, s) ← claimMissedReward s
  if s.bal publicTreasury.id < missed then .error .invalidState
  else
    let s ← transfer s publicTreasury sustainableFund missed
    pure { s with sfMissing := increaseCounter s.sfMissing missed }

/-- `refillHooverFund` (base.go:457-490). -/
def refillHooverFund (s : EState) : M EState := do
  let amount := s.hooverBudget - s.bal hooverFund.id
  if 0 < amount then
    let sfBalance := s.bal sustainableFund.id
    let amount := if sfBalance < amount then sfBalance else amount
    let s ← transfer s sustainableFund hooverFund amount
    pure { s with sfHooverRefill := increaseCounter s.sfHooverRefill amount }
  else pure s

/-- `onTermEnd` (base.go:370-396); `distributeFees` (442-455) is the two middle steps. -/
def onTermEnd (s : EState) : M EState := do
  let s ← transferEcoSystemReward s
  let s ← distributeTxFee s
  let s ← distributeServiceFee s
  let s ← transferMissedReward s
  let s ← refillHooverFund s
  pure (stateOnTermEnd s)

/-- `onTermStart` (base.go:492-529) with `issueCoin` (531-542). `proposed` is the issue amount the
proposer wrote in the base transaction. -/
def onTermStart (s : EState) (termSeq proposed : Int) : M EState := do
  let r := issueAmountByTS s termSeq
  let s := if r.2 then { s with issueAmount := r.1 } else s
  if proposed ≠ r.1 then .error .invalidTxValue
  else
    let s ← issue s publicTreasury r.1
    pure (stateOnTermStart s r.1)

/-- `OnBaseTx` (base.go:291-368) without its validator part (337-363): the work done at the first
block of a term. -/
def onBaseTx (s : EState) (height proposed : Int) : M EState := do
  if ¬ isIssueStarted height s.issueStart then .error .invalidState
  else
    let t := termSequenceAndBlockIndex height s.issueStart s.termPeriod
    if t.2 = 0 then
      let limit := s.issueLimit
      let s ← if 0 < t.1 ∧ (limit = 0 ∨ t.1 ≤ limit) then onTermEnd s else pure s
      if limit = 0 ∨ t.1 < limit then onTermStart s t.1 proposed else pure s
    else pure s

/-! ### `havah/chainscore_havah.go`: entry points -/

/-- `(*big.Int).Int64()` as used by `HexInt.Int64()` in the entry points: wraps modulo 2^64. -/
def int64 (x : Int) : Int := Int.bmod x 18446744073709551616

/-- What an entry point sees: block height, revision, caller and the governance address. -/
structure Ctx where
  height : Int
  rev : Int
  caller : Addr
  gov : Addr

/-- The state-changing entry points of the system SCORE that concern the economy, plus plain coin
movements (`transfer`) and fees (`fee`: the caller pays the treasury). -/
inductive Call
  | setUSDTPrice (price : Int)
  | startRewardIssue (height : Int)
  | addPlanetManager (a : Addr)
  | removePlanetManager (a : Addr)
  | registerPlanet (id : Int) (isPrivate isCompany : Bool) (owner : Addr) (usdt price : Int)
  | unregisterPlanet (id : Int)
  | setPlanetOwner (id : Int) (owner : Addr)
  | reportPlanetWork (id : Int)
  | claimPlanetReward (ids : List Int)
  | fallback (value : Int)
  | setPrivateClaimableRate (num denom : Int)
  | withdrawLostTo (dst : Addr)
  | transfer (dst : Addr) (amount : Int)
  | fee (amount : Int)

/-- `checkGovernance` (chainscore.go:850-860). -/
def checkGovernance (c : Ctx) : M Unit := if c.caller = c.gov then .ok () else .error .accessDenied
/-- `checkNFT` (chainscore_havah.go:31-41). -/
def checkNFT (c : Ctx) : M Unit := if c.caller = planetNFT then .ok () else .error .accessDenied

/-- The revision-dependent check of `Ex_setUSDTPrice` (chainscore_havah.go:110-114). -/
def checkPriceSetter (c : Ctx) : M Unit := if 3 ≤ c.rev then checkGovernance c else .ok ()

/-- The `Ex_` methods of `chainscore_havah.go` (line numbers at each case). -/
def exec (c : Ctx) (s : EState) : Call → M EState
  -- 109-120: governance only from revision 3 on
  | .setUSDTPrice price => do checkPriceSetter c; setUSDTPrice s price
  -- 135-148
  | .startRewardIssue h => do
    checkGovernance c
    if int64 h ≤ c.height then .error .reverted else setIssueStart s c.height (int64 h)
  -- 150-159
  | .addPlanetManager a => do checkGovernance c; addPlanetManager s a
  -- 161-170
  | .removePlanetManager a => do checkGovernance c; removePlanetManager s a
  -- 185-198
  | .registerPlanet id pv co owner usdt price => do
    checkNFT c
    registerPlanet s (int64 id) ⟨pv, co, owner, usdt, price, c.height⟩
  -- 200-209
  | .unregisterPlanet id => do checkNFT c; unregisterPlanet s c.rev (int64 id)
  -- 211-220
  | .setPlanetOwner id owner => do checkNFT c; setPlanetOwner s (int64 id) owner
  -- 233-249
  | .reportPlanetWork id =>
    if isPlanetManager s c.caller then reportPlanetWork s c.height (int64 id)
    else .error .accessDenied
  -- 251-266
  | .claimPlanetReward ids => claimPlanetReward s c.height c.caller (ids.map int64)
  -- 309-318 and extension.go:536-546; the value is moved to the system address first
  | .fallback value => do
    let s ← transfer s c.caller systemAddress value
    burn s value
  -- 320-330
  | .setPrivateClaimableRate n d => do
    checkGovernance c; setPrivateClaimableRate s (int64 n) (int64 d)
  -- 343-352
  | .withdrawLostTo dst => do checkGovernance c; withdrawLostTo s dst
  -- plain coin transfer (service/contract/transferhandler.go)
  | .transfer dst amount => transfer s c.caller dst amount
  -- transaction fee credited to the treasury (service/transition.go)
  | .fee amount => transfer s c.caller treasury amount

/-- A top-level call: a failing one leaves the state as it was (the world state is reset to the
snapshot taken before the call). -/
def apply (c : Ctx) (s : EState) (call : Call) : EState :=
  match exec c s call with
  | .ok s' => s'
  | .error _ => s

/-- Execution of the base transaction at the start of block `height` (platform.go
`OnValidateTransactions` requires one at the first block of every term; in other blocks the economy
part of `OnBaseTx` does nothing). A failing base transaction makes the block invalid. -/
def beginBlock (s : EState) (height proposed : Int) : M EState :=
  let t := termSequenceAndBlockIndex height s.issueStart s.termPeriod
  if 0 ≤ t.1 ∧ t.2 = 0 then onBaseTx s height proposed else .ok s

/-- A chain: the height of the block being executed and the state. -/
structure Chain where
  height : Int
  st : EState

/-- One step of the chain: a call inside the current block, or the start of the next block with the
base transaction of some proposer. Nobody holds a key for the public treasury, and no contract lives
at its body, so no call is made by it. -/
inductive Step : Chain → Chain → Prop
  | call (h : Int) (s : EState) (c : Ctx) (k : Call) (hh : c.height = h)
      (hk : c.caller.id ≠ publicTreasury.id) : Step ⟨h, s⟩ ⟨h, apply c s k⟩
  | block (h : Int) (s s' : EState) (proposed : Int) (hb : beginBlock s (h + 1) proposed = .ok s') :
      Step ⟨h, s⟩ ⟨h + 1, s'⟩

/-- Zero or more steps. -/
inductive Steps : Chain → Chain → Prop
  | refl (c : Chain) : Steps c c
  | tail {a b c : Chain} : Steps a b → Step b c → Steps a c

/-- Genesis (`InitState`, state.go:691-732, and the genesis accounts): no planets, no rewards;
configured values arbitrary except that the issue amount and balances are not negative. -/
structure Genesis (s : EState) : Prop where
  bal_nonneg : ∀ a, 0 ≤ s.bal a
  supply : ∃ U : Finset ℕ, (∀ a, a ∉ U → s.bal a = 0) ∧ ∑ a ∈ U, s.bal a = s.supply
  issueAmount : 0 ≤ s.issueAmount
  issueStart : s.issueStart = 0
  managers : s.managers = []
  planets : s.planets = fun _ => none
  rewards : s.rewards = fun _ => none
  allPlanet : s.allPlanet = 0
  active : s.active = 0
  working : s.working = 0
  rewardTotal : s.rewardTotal = 0
  rewardRemain : s.rewardRemain = 0
  eco : s.eco = 0
  lost : s.lost = 0
  claimRateRaw : s.claimRateRaw = 0

/-- Reachable chains: genesis at height 0 followed by any steps. -/
def Reachable (g : EState) (c : Chain) : Prop := Genesis g ∧ Steps ⟨0, g⟩ c

end Verif.Havah
