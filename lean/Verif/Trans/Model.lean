import Mathlib.Data.List.Basic

/-!
# Shared executions: the transition layer of the block manager

Models `block/transition.go` of the Go code: the objects (`transitionImpl`) that stand for one execution of a list of
transactions by the service manager, the handles on them (`transition`) that the block nodes and the import and
propose tasks own, and the reports of an execution to its handles. It also models when the executor
(`service/transition.go`) reports and what its canceler does.

The model has the memory of the Go code: a heap of `transitionImpl`s and one of handles, both addressed by numbers
(nothing is freed).

Simplifications:
* a transition of the service manager (`module.Transition`) is a number, and `Equal` between two of them
  (`service/transition.go:1010-1026`) is any Boolean function `eq`;
* what the service manager answers (`CreateTransition`, `ProposeTransition`, `PatchTransition`,
  `CreateSyncTransition`, and if `Execute` goes well) are arguments of the operations;
* all operations run under the manager's lock. The callbacks of a handle queue a function (`manager.go:359-363`,
  `399-403`, `500-504`, `514-518`) or send to a channel (`848-854`); they do not come back into this code, so a call
  of a callback is an entry in `log`, and a handle knows if it has one;
* the public method `cancel` of a handle is called by `dispose` only (there is no other caller in the code), so it is no
  operation of its own;
* `verifyResult`, tracing and `String` are left out.
-/

namespace Verif.Trans

/-- An error value of the executor; `none` is nil. -/
abbrev Err := Option Nat

/-- A report of the executor: `OnValidate(tr, err)` or `OnExecute(tr, err)`. -/
inductive Rep where
  | val (e : Err)
  | exe (e : Err)
deriving Repr, DecidableEq

/-- A `transitionImpl` (transition.go:20-31). `mtr` is nil after the last handle is disposed. `made` is no field of the
Go code, nothing reads it: the object it was created under. -/
structure Impl where
  mtr : Option Nat
  canceler : Bool
  cbs : List Nat
  valErr : Option Err
  exeErr : Option Err
  nRef : Int
  parent : Option Nat
  children : List Nat
  sync : Bool
  made : Option Nat
deriving Repr, DecidableEq

/-- A `transition` (transition.go:45-50): `ti` is nil when it is disposed, `cb` says if the callback is set.
`of` and `wants` are no fields of the Go code, nothing reads them: the object it was made for, and if it was made with
a callback. -/
structure Handle where
  ti : Option Nat
  cb : Bool
  of : Nat
  wants : Bool
deriving Repr, DecidableEq

/-- The steps of the executor (service/transition.go:33-41), without those before its start. -/
inductive Step where
  | validating | executing | complete | error | canceled
deriving Repr, DecidableEq

/-- The executor's side of a running transition: its step, how far its goroutine is (0: it has not reported on
validation; 1: it goes on after a validation without error; 2: it is done), and a report which it makes after it
released its own lock (`CallAfterUnlock`, service/transition.go:456-458, 482-484). -/
structure Exec where
  step : Step
  pc : Nat
  flight : Option Rep
deriving Repr, DecidableEq

/-- The state. `log` has the calls of callbacks (by handle), `stops` the calls of cancelers. `crashed`: a nil pointer was
dereferenced. -/
structure St where
  impls : Nat → Impl
  nImpl : Nat
  handles : Nat → Handle
  nHandle : Nat
  execs : Nat → Exec
  running : Bool
  log : List (Nat × Rep)
  stops : List Nat
  crashed : Bool

/-- A write to a `transitionImpl`. -/
def St.mod (s : St) (p : Nat) (f : Impl → Impl) : St :=
  { s with impls := fun q => if q = p then f (s.impls q) else s.impls q }

/-- A write to a handle. -/
def St.modH (s : St) (h : Nat) (f : Handle → Handle) : St :=
  { s with handles := fun k => if k = h then f (s.handles k) else s.handles k }

/-- A write to an executor. -/
def St.modE (s : St) (p : Nat) (f : Exec → Exec) : St :=
  { s with execs := fun q => if q = p then f (s.execs q) else s.execs q }

/-- `running()` (transition.go:52-54). -/
def Impl.running (i : Impl) : Bool := i.cbs.length != 0

/-- `transition.onValidate` (transition.go:279-287). -/
def hOnValidate (s : St) (h : Nat) (e : Err) : St :=
  let cb := (s.handles h).cb
  let s := if e.isSome then s.modH h fun x => { x with cb := false } else s
  if cb then { s with log := s.log ++ [(h, .val e)] } else s

/-- `transition.onExecute` (transition.go:289-295). -/
def hOnExecute (s : St) (h : Nat) (e : Err) : St :=
  let cb := (s.handles h).cb
  let s := s.modH h fun x => { x with cb := false }
  if cb then { s with log := s.log ++ [(h, .exe e)] } else s

/-- A new handle object on `p`. -/
def St.alloc (s : St) (p : Nat) (cb : Bool) : St :=
  { s with
    handles := fun k => if k = s.nHandle then ⟨some p, cb, p, cb⟩ else s.handles k
    nHandle := s.nHandle + 1 }

/-- `transitionImpl._newTransition` (transition.go:56-72). Returns the new handle. -/
def newTransitionImpl (s : St) (p : Nat) (cb : Bool) : St × Option Nat :=
  let h := s.nHandle
  let s := s.alloc p cb
  let s := s.mod p fun i => { i with nRef := i.nRef + 1 }
  let s := match (s.impls p).valErr with | some e => hOnValidate s h e | none => s
  let s := match (s.impls p).exeErr with | some e => hOnExecute s h e | none => s
  let s := if (s.impls p).running then s.mod p fun i => { i with cbs := i.cbs ++ [h] } else s
  (s, some h)

/-- A list without one entry: the last one takes its place (transition.go:79-83, 105-111). -/
def swapRemove (l : List Nat) (x : Nat) : List Nat :=
  match l.getLast? with
  | none => l
  | some y => if x ∈ l then (l.set (l.idxOf x) y).dropLast else l

/-- `cancelExecution` of the executor (service/transition.go:996-1008). -/
def cancelExecution (x : Exec) : Exec :=
  if x.step = .complete ∨ x.step = .error then x else { x with step := .canceled }

/-- `transitionImpl.cancel` (transition.go:74-91). The canceler of an object that was never started is nil. -/
def cancelImpl (s : St) (p h : Nat) : St :=
  if !(s.impls p).running then s
  else if h ∈ (s.impls p).cbs then
    let s := s.mod p fun i => { i with cbs := swapRemove i.cbs h }
    if (s.impls p).cbs.length = 0 then
      if (s.impls p).canceler then
        { s.modE p cancelExecution with stops := s.stops ++ [p] }
      else { s with crashed := true }
    else s
  else s

/-- `c._parent = nil` for all entries of a list (transition.go:99-101). -/
def orphan (s : St) (cs : List Nat) : St :=
  cs.foldl (fun s c => s.mod c fun i => { i with parent := none }) s

/-- `transitionImpl.unref` (transition.go:93-117). -/
def unref (s : St) (p : Nat) : St :=
  let s := s.mod p fun i => { i with nRef := i.nRef - 1 }
  if (s.impls p).nRef = 0 then
    let s := orphan s (s.impls p).children
    let s := s.mod p fun i => { i with children := [] }
    let s := match (s.impls p).parent with
      | some q => s.mod q fun i => { i with children := swapRemove i.children p }
      | none => s
    s.mod p fun i => { i with mtr := none }
  else s

/-- `transition.cancel` (transition.go:307-314). -/
def hCancel (s : St) (h : Nat) : St :=
  match (s.handles h).ti with
  | none => s
  | some p => (cancelImpl s p h).modH h fun x => { x with cb := false }

/-- `transition.dispose` (transition.go:297-305). -/
def dispose (s : St) (h : Nat) : St :=
  match (s.handles h).ti with
  | none => s
  | some p =>
    let s := hCancel s h
    let s := s.modH h fun x => { x with ti := none }
    unref s p

/-- `transitionImpl.OnValidate` (transition.go:119-134). -/
def onValidate (s : St) (p : Nat) (e : Err) : St :=
  if !s.running || !(s.impls p).running then s
  else
    let cbs := (s.impls p).cbs
    let s := s.mod p fun i => { i with valErr := some e }
    let s := if e.isSome then s.mod p fun i => { i with cbs := [] } else s
    cbs.foldl (fun s h => hOnValidate s h e) s

/-- `transitionImpl.OnExecute` (transition.go:136-148). -/
def onExecute (s : St) (p : Nat) (e : Err) : St :=
  if !s.running || !(s.impls p).running then s
  else
    let cbs := (s.impls p).cbs
    let s := s.mod p fun i => { i with exeErr := some e, cbs := [] }
    cbs.foldl (fun s h => hOnExecute s h e) s

/-- `transitionImpl._addChild` (transition.go:150-172) and, with `sync`, the mark that `sync` sets on the new object
(248). `ok`: `Execute` returns no error; if it does, the new objects are dropped. `validated`: where the executor
starts (service/transition.go:312-316). -/
def addChild (s : St) (p : Nat) (m : Nat) (cb ok validated sync : Bool) : St × Option Nat :=
  if ok then
    let c := s.nImpl
    let h := s.nHandle
    let s := s.alloc c cb
    let s := { s with
      impls := fun q => if q = c then
        { mtr := some m, canceler := true, cbs := [h], valErr := none, exeErr := none, nRef := 1,
          parent := some p, children := [], sync := sync, made := some p } else s.impls q
      execs := fun q => if q = c then ⟨if validated then .executing else .validating, 0, none⟩ else s.execs q
      nImpl := s.nImpl + 1 }
    (s.mod p fun i => { i with children := i.children ++ [c] }, some h)
  else (s, none)

/-- `nmtr.Equal(s._mtransition)`; `Equal(nil)` is a panic of a type assertion in the Go code (the model: not equal; it is
shown that no list of children has such an object). -/
def equals (eq : Nat → Nat → Bool) (m : Nat) (i : Impl) : Bool :=
  match i.mtr with
  | some k => eq m k
  | none => false

/-- The two loops over the children (transition.go:181-190, 206-215, 226-235): a sync transition has
priority. -/
def findEqual (eq : Nat → Nat → Bool) (s : St) (m : Nat) (cs : List Nat) : Option Nat :=
  match cs.find? (fun c => (s.impls c).sync && equals eq m (s.impls c)) with
  | some c => some c
  | none => cs.find? (fun c => equals eq m (s.impls c))

/-- `transitionImpl.patch` (transition.go:174-192). A patched transition is not validated
(service/manager.go:291). -/
def patchImpl (eq : Nat → Nat → Bool) (s : St) (p m : Nat) (cb ok : Bool) : St × Option Nat :=
  match (s.impls p).parent with
  | none => ({ s with crashed := true }, none)
  | some q =>
    match findEqual eq s m (s.impls q).children with
    | some c => newTransitionImpl s c cb
    | none => addChild s q m cb ok false false

/-- `transitionImpl.transit` (transition.go:194-218). -/
def transitImpl (eq : Nat → Nat → Bool) (s : St) (p : Nat) (ans : Option Nat) (cb ok validated : Bool) :
    St × Option Nat :=
  match ans with
  | none => (s, none)
  | some m =>
    match findEqual eq s m (s.impls p).children with
    | some c => newTransitionImpl s c cb
    | none => addChild s p m cb ok validated false

/-- `transitionImpl.propose` (transition.go:220-237). -/
def proposeImpl (eq : Nat → Nat → Bool) (s : St) (p : Nat) (ans : Option Nat) (cb ok : Bool) : St × Option Nat :=
  match ans with
  | none => (s, none)
  | some m =>
    match findEqual eq s m (s.impls p).children with
    | some c => newTransitionImpl s c cb
    | none => addChild s p m cb ok true false

/-- `transitionImpl.sync` (transition.go:239-250). -/
def syncImpl (s : St) (p : Nat) (ans : Option Nat) (cb ok : Bool) : St × Option Nat :=
  match ans with
  | none => (s, none)
  | some m =>
    match (s.impls p).parent with
    | none => ({ s with crashed := true }, none)
    | some q => addChild s q m cb ok true true

/-- `transition.patch` (transition.go:316-325). -/
def patch (eq : Nat → Nat → Bool) (s : St) (h m : Nat) (cb ok : Bool) : St × Option Nat :=
  match (s.handles h).ti with
  | none => (s, none)
  | some p => patchImpl eq s p m cb ok

/-- `transition.transit` (transition.go:327-338). -/
def transit (eq : Nat → Nat → Bool) (s : St) (h : Nat) (ans : Option Nat) (cb ok validated : Bool) :
    St × Option Nat :=
  match (s.handles h).ti with
  | none => (s, none)
  | some p => transitImpl eq s p ans cb ok validated

/-- `transition.propose` (transition.go:340-345). -/
def propose (eq : Nat → Nat → Bool) (s : St) (h : Nat) (ans : Option Nat) (cb ok : Bool) : St × Option Nat :=
  match (s.handles h).ti with
  | none => (s, none)
  | some p => proposeImpl eq s p ans cb ok

/-- `transition.sync` (transition.go:347-352). -/
def sync (s : St) (h : Nat) (ans : Option Nat) (cb ok : Bool) : St × Option Nat :=
  match (s.handles h).ti with
  | none => (s, none)
  | some p => syncImpl s p ans cb ok

/-- `transition.newTransition` (transition.go:354-359). -/
def newTransition (s : St) (h : Nat) (cb : Bool) : St × Option Nat :=
  match (s.handles h).ti with
  | none => (s, none)
  | some p => newTransitionImpl s p cb

/-- `newInitialTransition` (transition.go:375-395). -/
def newInitial (s : St) (m : Nat) : St × Option Nat :=
  let p := s.nImpl
  let h := s.nHandle
  let s := s.alloc p false
  ({ s with
      impls := fun q => if q = p then
        { mtr := some m, canceler := false, cbs := [], valErr := some none, exeErr := some none, nRef := 1,
          parent := none, children := [], sync := false, made := none } else s.impls q
      nImpl := s.nImpl + 1 }, some h)

/-- What a report does in the executor before it reaches the manager: `reportValidation` and `reportExecution`
(service/transition.go:443-466, 468-492), called by its goroutine (`doExecute`, `doForceSync`, 610-856). -/
def reported (x : Exec) (r : Rep) : Exec :=
  match r with
  | .val e =>
    let pc := if e.isSome then 2 else 1
    if x.step = .validating ∨ x.step = .executing then
      ⟨if e.isSome then .error else .executing, pc, some (.val e)⟩
    else { x with pc := pc }
  | .exe e =>
    if x.step = .executing then
      ⟨if e.isSome then .error else .complete, 2, some (.exe e)⟩
    else { x with pc := 2 }

/-- The executor's call of the manager. -/
def deliver (s : St) (p : Nat) : St :=
  match (s.execs p).flight with
  | none => s
  | some (.val e) => onValidate (s.modE p fun x => { x with flight := none }) p e
  | some (.exe e) => onExecute (s.modE p fun x => { x with flight := none }) p e

/-- The operations of the manager on its handles, and what comes from outside: the goroutine of an executor makes a
report, the report arrives, the chain is terminated (`running = false`, manager.go:735-754). -/
inductive Ev where
  | initial (m : Nat)
  | transit (h : Nat) (ans : Option Nat) (cb ok validated : Bool)
  | propose (h : Nat) (ans : Option Nat) (cb ok : Bool)
  | patch (h m : Nat) (cb ok : Bool)
  | sync (h : Nat) (ans : Option Nat) (cb ok : Bool)
  | dup (h : Nat) (cb : Bool)
  | dispose (h : Nat)
  | report (p : Nat) (r : Rep)
  | deliver (p : Nat)
  | term
deriving Repr, DecidableEq

/-- One event: the state after it, and the handle that the caller gets. -/
def apply (eq : Nat → Nat → Bool) (s : St) : Ev → St × Option Nat
  | .initial m => newInitial s m
  | .transit h ans cb ok v => transit eq s h ans cb ok v
  | .propose h ans cb ok => propose eq s h ans cb ok
  | .patch h m cb ok => patch eq s h m cb ok
  | .sync h ans cb ok => sync s h ans cb ok
  | .dup h cb => newTransition s h cb
  | .dispose h => (dispose s h, none)
  | .report p r => (s.modE p fun x => reported x r, none)
  | .deliver p => (deliver s p, none)
  | .term => ({ s with running := false }, none)

/-- When an event can happen: an operation is on a handle that was given out; the goroutine of a started executor
reports on the validation first, then on the execution, and only after its last call returned. -/
def Allowed (s : St) : Ev → Prop
  | .initial _ => True
  | .transit h _ _ _ _ | .propose h _ _ _ | .patch h _ _ _ | .sync h _ _ _ | .dup h _ | .dispose h =>
    h < s.nHandle
  | .report p r => p < s.nImpl ∧ (s.impls p).canceler = true ∧ (s.execs p).flight = none ∧
      match r with
      | .val _ => (s.execs p).pc = 0
      | .exe _ => (s.execs p).pc = 1
  | .deliver p => p < s.nImpl ∧ (s.execs p).flight.isSome
  | .term => True

/-- A manager without any transition. -/
def St.empty : St where
  impls := fun _ => ⟨none, false, [], none, none, 0, none, [], false, none⟩
  nImpl := 0
  handles := fun _ => ⟨none, false, 0, false⟩
  nHandle := 0
  execs := fun _ => ⟨.canceled, 2, none⟩
  running := true
  log := []
  stops := []
  crashed := false

end Verif.Trans
