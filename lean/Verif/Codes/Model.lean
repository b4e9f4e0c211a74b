import Mathlib.Data.Int.Basic
import Mathlib.Data.List.Basic
import Mathlib.Tactic.Linarith

/-!
# Failure codes: from the exception of a contract to the receipt

pyee/pyexec/base/exception.py, pyee/pyexec/service_engine.py, pyee/pyexec/iconscore/internal_call.py,
service/eeproxy/proxy.go, service/contract/callcontext.go, service/transaction/transactionhandler.go,
service/scoreresult.
-/
namespace Verif.Codes

/-- An exception that leaves a contract method. `score index`: `IconScoreException` (or a subclass that keeps its
behaviour), also what `revert` raises; `system code`: another `IconServiceBaseException`; `custom code`: an
`IconServiceBaseException` whose `code` the contract determines (a subclass with its own `code` property);
`foreign`: any other exception. -/
inductive Exc
  | score (index : ℤ)
  | system (code : ℤ)
  | custom (code : ℤ)
  | foreign
  deriving DecidableEq

/-- `ExceptionCode` (exception.py:21-39). -/
def SYSTEM_ERROR : ℤ := 1
def SCORE_ERROR : ℤ := 32
def END : ℤ := 999

/-- `IconScoreException.__init__` (exception.py:137-148). -/
def scoreCode (index : ℤ) : ℤ :=
  let code := SCORE_ERROR + index
  if code < SCORE_ERROR then SCORE_ERROR
  else if code > END then END
  else code

/-- `_get_status_from_exception` (service_engine.py:134-152). -/
def Exc.code : Exc → ℤ
  | .score i => scoreCode i
  | .system c => c
  | .custom c => c
  | .foreign => SYSTEM_ERROR

/-- `IconServiceBaseException.create` (exception.py:64-68). -/
def create (code : ℤ) : Exc :=
  if SCORE_ERROR ≤ code ∧ code ≤ END then .score (code - SCORE_ERROR) else .system code

/-- `StatusToCodeAndFlag` (proxy.go:300-307): `&` and `>>` on two's complement. -/
def codeAndFlag (c : ℤ) : ℤ × ℤ := (c % 2 ^ 24, c / 2 ^ 24)

/-- `scoreresult.StatusOf` (service/scoreresult/errors.go:12-18, 51-56) of an error with code `c`. -/
def statusOf (c : ℤ) : ℤ := if c ≤ 0 ∨ c ≥ 1000 then 1 else c

/-- `validateStatus` (callcontext.go:230-238). -/
def validate (expand : Bool) (c : ℤ) : ℤ :=
  if expand = false ∧ statusOf c > 99 ∧ statusOf c ≤ 999 then 99 else c

/-- `IsCriticalCode` (common/errors/errors.go:79-81). -/
def isCritical (c : ℤ) : Bool := decide (7000 ≤ c ∧ c < 8000)

/-- `errors.ExecutionFailError`, `scoreresult.TimeoutError`. -/
def executionFail : ℤ := 1008
def timeout : ℤ := 12

/-- How a frame ends. -/
inductive Outcome
  | ret
  | raise (e : Exc)
  deriving DecidableEq

/-- A contract that waits for the result of a call: how it ends when the call ends with success (`none`) or with the
exception `create code` (`some`; internal_call.py:73-76). -/
abbrev Caller := Option Exc → Outcome

/-- What becomes of the transaction: a receipt with a status, or an error that keeps the block from being
executed. -/
inductive TxResult
  | receipt (status : ℤ)
  | failed (code : ℤ)
  deriving DecidableEq

/-- The end of the transaction (transactionhandler.go:148-162, 178-184, 269-277) when nothing else goes wrong (fee): the
code of the outermost call, 0 for success; `rerun`: the flag was seen. -/
def finish (rerun : Bool) (c : ℤ) : TxResult :=
  if c = executionFail ∨ isCritical c then .failed c
  else if rerun then .failed 7004
  else if c = 0 then .receipt 0
  else .receipt (statusOf c)

/-- A frame ends with `o`; `callers` are the frames waiting, the innermost first. `proxy.HandleMessage`
(proxy.go:396-423), `waitResult` and `handleResult` (callcontext.go:318-346, 381-415), `SendResult`
(proxy.go:338-355). -/
def deliver (expand : Bool) : Bool → Outcome → List Caller → TxResult
  | rerun, .ret, [] => finish rerun 0
  | rerun, .ret, f :: fs => deliver expand rerun (f none) fs
  | rerun, .raise e, fs =>
    let cf := codeAndFlag e.code
    let rerun := rerun || cf.2 % 2 == 1
    if cf.1 = 0 then
      match fs with
      | [] => finish rerun 0
      | f :: fs => deliver expand rerun (f none) fs
    else
      let c := validate expand cf.1
      if c = timeout ∨ c = executionFail ∨ isCritical c then finish rerun c
      else match fs with
        | [] => finish rerun c
        | f :: fs => deliver expand rerun (f (some (create c))) fs
termination_by _ _ fs => fs.length

end Verif.Codes
