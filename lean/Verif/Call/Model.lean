import Mathlib.Data.Int.Order.Basic
import Mathlib.Tactic.Common
import Mathlib.Logic.Function.Iterate

/-!
# Calls between contracts

The call context of a transaction (`service/contract/callcontext.go`, `callframe.go`): a stack of frames with snapshots of the world, and a loop that
gets messages from the execution environments.

A contract is a program that acts on the world, emits events and messages, uses steps and calls other contracts; what it does next depends on what it
observes.  Contracts that are executed by an execution environment are *asynchronous*: what they want comes as messages to the loop of the innermost
pending `Call`.  Others (transfers, deployments, system calls from the platform) are *synchronous*: they run on the stack of Go and use `Call`
themselves.  The world is any type, its snapshots are values (`GetSnapshot`, `Reset`).
-/

namespace Verif.Call

/-- How a call ends: successfully, with a failure, or with one of the failures that end all frames (`TimeoutError`, `ExecutionFailError` or a
critical error, `callcontext.go:378-383`). -/
inductive Status
  | ok
  | fail (code : ℕ)
  | abort (code : ℕ)
deriving DecidableEq

/-- See `Status`. -/
def Status.isAbort : Status → Bool
  | .abort _ => true
  | _ => false

/-- What a contract does in its own frame. -/
inductive Act (W E B : Type) : Type
  /-- change the world (`SetValue`, `DeleteValue`, a transfer, …) -/
  | write (f : W → W)
  /-- emit an event (`OnEvent`) -/
  | event (e : E)
  /-- send a BTP message (`OnBTPMessage`) -/
  | btp (b : B)
  /-- use steps (`ApplySteps`, `DeductSteps`) -/
  | deduct (s : ℤ)
  /-- enter the read-only mode (`EnterReadOnlyMode`) -/
  | readonly

/-- What it sees after that. -/
structure Obs (W : Type) where
  w : W
  ok : Bool
  ro : Bool
  avail : Option ℤ

/-- A contract. -/
inductive Prog (W E B : Type) : Type
  /-- end with a status; an asynchronous contract reports the steps it used (`OnResult`) -/
  | done (st : Status) (steps : ℤ)
  /-- the timer fires (`callcontext.go:322-329`) -/
  | timeout
  | act (a : Act W E B) (k : Obs W → Prog W E B)
  /-- call another contract with a step limit, and go on with its status and the steps it used -/
  | call (async : Bool) (p : Prog W E B) (limit : Option ℤ) (k : Status → ℤ → Prog W E B)

/-- `callFrame` (`callframe.go:21-37`) without the execution ids, the custom logs and the fee payers. -/
structure Frame (W E B : Type) where
  ro : Bool
  snap : Option W
  used : ℤ
  limit : Option ℤ
  ev : List E
  btp : List B

variable {W E B : Type}

/-- `NewFrame` and the snapshot that `pushFrame` takes (`callframe.go:39-51`, `callcontext.go:140-155`). -/
def newFrame (parent : Frame W E B) (w : W) (limit : Option ℤ) : Frame W E B :=
  { ro := parent.ro, snap := if parent.ro then none else some w, used := 0, limit := limit, ev := [], btp := [] }

/-- `deductSteps` (`callframe.go:53-64`). -/
def Frame.deduct (f : Frame W E B) (s : ℤ) : Frame W E B × Bool :=
  let u := f.used + s
  match f.limit with
  | none => ({ f with used := u }, true)
  | some l => if u > l then ({ f with used := l }, false) else ({ f with used := u }, true)

/-- `getStepAvailable` (`callframe.go:71-77`). -/
def Frame.avail (f : Frame W E B) : Option ℤ := f.limit.map (· - f.used)

/-- `addLog` (`callframe.go:79-88`). -/
def Frame.addLog (f : Frame W E B) (e : E) : Frame W E B := if f.ro then f else { f with ev := f.ev ++ [e] }

/-- `addBTPMessage` (`callframe.go:106-112`). -/
def Frame.addBTP (f : Frame W E B) (b : B) : Frame W E B := if f.ro then f else { f with btp := f.btp ++ [b] }

/-- `applyFrameLogsOf` and `applyBTPMessagesOf` (`callframe.go:90-97, 114-118`). -/
def Frame.apply (f g : Frame W E B) : Frame W E B := { f with ev := f.ev ++ g.ev, btp := f.btp ++ g.btp }

/-- `enterReadOnlyMode` (`callframe.go:124-132`) with the world after it. -/
def Frame.enterReadOnly (f : Frame W E B) (w : W) : W × Frame W E B :=
  if f.ro then (w, f) else (f.snap.getD w, { f with snap := none, ev := [], btp := [], ro := true })

/-- An act in the current frame.  Writes in the read-only mode are refused by the handlers: `callhandler.go:425, 448, 625` for contracts, whose methods
are read-only exactly if the frame is (`:341-348`), `transferhandler.go:38`, `deployhandler.go:273`, `deposithandler.go:94`.  That the system
contracts do not write in methods they declare read-only is assumed. -/
def actM (a : Act W E B) (w : W) (f : Frame W E B) : W × Frame W E B × Bool :=
  match a with
  | .write g => if f.ro then (w, f, false) else (g w, f, true)
  | .event e => (w, f.addLog e, true)
  | .btp b => (w, f.addBTP b, true)
  | .deduct s => (w, f.deduct s)
  | .readonly => let r := f.enterReadOnly w; (r.1, r.2, true)

/-- A frame that waits for the result of a call, with its handler: its kind and what it does with the result. -/
structure Item (W E B : Type) where
  f : Frame W E B
  async : Bool
  k : Status → ℤ → Prog W E B

/-- The state: the world, the current frame with what its handler does next, and the frames below it. -/
structure Cfg (W E B : Type) where
  w : W
  top : Frame W E B
  async : Bool
  cur : Prog W E B
  stack : List (Item W E B)

/-- `cleanUpFrames` (`callcontext.go:352-379`): all frames are removed up to the target of the innermost `Call`, which is the first frame whose parent
is synchronous (or the base frame); the world is reset to the target's snapshot, and that `Call` returns. -/
def cleanUp (st : Status) (w : W) (top : Frame W E B) (par : Item W E B) : List (Item W E B) → Cfg W E B
  | [] => ⟨if top.ro then w else top.snap.getD w, par.f, par.async, par.k st top.used, []⟩
  | par' :: rest =>
    if par.async then cleanUp st w par.f par' rest
    else ⟨if top.ro then w else top.snap.getD w, par.f, par.async, par.k st top.used, par' :: rest⟩

/-- `popFrame` (`callcontext.go:157-178`) and the return of the result: either `Call` returns it to the synchronous parent, or `handleResult` sends it
to the asynchronous one (`:381-418`). -/
def pop (st : Status) (w : W) (top : Frame W E B) (par : Item W E B) (rest : List (Item W E B)) : Cfg W E B :=
  if top.ro then ⟨w, par.f, par.async, par.k st top.used, rest⟩
  else if st = .ok then ⟨w, par.f.apply top, par.async, par.k st top.used, rest⟩
  else ⟨top.snap.getD w, par.f, par.async, par.k st top.used, rest⟩

/-- The end of the handler of the current frame: the steps an asynchronous one reports are deducted (`waitResult`, `callcontext.go:334`), then
`handleResult` (`:381-418`). -/
def finish (st : Status) (s : ℤ) (c : Cfg W E B) (par : Item W E B) (rest : List (Item W E B)) : Cfg W E B :=
  let top := if c.async then (c.top.deduct s).1 else c.top
  if st.isAbort then cleanUp st c.w top par rest else pop st c.w top par rest

/-- The status of a timeout. -/
def timeoutCode : ℕ := 0

/-- One step of `Call`, `runFrame`, `waitResult` and `handleResult` (`callcontext.go:231-265, 318-350, 381-418`).  Nothing happens any more when the
base frame is the only one and its handler is done. -/
def step (c : Cfg W E B) : Cfg W E B :=
  match c.cur with
  | .done st s =>
    match c.stack with
    | [] => c
    | par :: rest => finish st s c par rest
  | .timeout =>
    match c.stack with
    | [] => c
    | par :: rest => cleanUp (.abort timeoutCode) c.w c.top par rest
  | .act a k =>
    let r := actM a c.w c.top
    { c with w := r.1, top := r.2.1, cur := k ⟨r.1, r.2.2, r.2.1.ro, r.2.1.avail⟩ }
  | .call async p limit k => ⟨c.w, newFrame c.top c.w limit, async, p, ⟨c.top, c.async, k⟩ :: c.stack⟩

/-- `Call` from the base frame (`transactionhandler.go:148-150`). -/
def start (w : W) (base : Frame W E B) (async : Bool) (p : Prog W E B) (limit : Option ℤ) : Cfg W E B :=
  ⟨w, newFrame base w limit, async, p, [⟨base, false, .done⟩]⟩

end Verif.Call
