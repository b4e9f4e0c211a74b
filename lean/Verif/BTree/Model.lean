import Mathlib.Data.List.Basic

/-!
# The block manager's tree of blocks

Models the part of `block/manager.go` of the Go code that keeps the blocks above the last finalized one: the tree
of `bnode`s with its reference counts (`manager.go:36-51`, `204-290`), the import and propose tasks that put
blocks into it (`302-571`), `Finalize`, `Term`, and `Dup`/`Dispose` of a block candidate (`735-754`, `976-1015`,
`1410-1434`, `blockcandidate.go`).

The Go code links the nodes by pointers in both directions and finds them by block ID in a map. The model has that
memory: a heap of node objects addressed by numbers (nothing is freed: a removed node is garbage that stays in the
heap), and the map.

Simplifications:
* a block is its ID: `prev` gives the `PrevID` of the block with that ID (a block ID is a hash of the content, so two
  blocks with one ID are the same block);
* the two transitions of a node (`in`, `preexe`) are one flag `held`: both handles are alive; `dispose` on a disposed
  handle does nothing (`transition.go:297-305`). A task's handles are modelled one by one. Which executions several
  handles share (`transitionImpl`) is not modelled here: the reports of the executor to each handle are events that
  come in any order, with any result;
* what verification, the executor, and the service manager answer (`verifyNewBlock`, `patch`, `transit`, `propose`,
  `sync`, `verifyResult`) are arguments of the events;
* `Finalize` meets no database or service error (the consensus stops the node with a panic if it does,
  `consensus.go:963`, `975`); proof context maps, the block cache, finalization callbacks and block versions are left out;
* every operation runs under the manager's lock, together with the callbacks it queues (`syncer.go`), so operations
  are atomic; the caller's callback is called by a new goroutine after that, so `log` says that it was handed over.
-/

namespace Verif.BTree

/-- A block ID. -/
abbrev Id := Nat
/-- A reference to a node object. -/
abbrev Ptr := Nat
/-- A reference to a task object. -/
abbrev Tid := Nat

/-- What the block IDs stand for: `PrevID()` of each block (nil for a genesis block). -/
structure Chain where
  prev : Id → Option Id

/-- A `bnode` (manager.go:36-47). `held`: `in` and `preexe` are not disposed. -/
structure Node where
  parent : Option Ptr
  children : List Ptr
  block : Id
  held : Bool
  nRef : Int
deriving Repr, DecidableEq

/-- What a task was asked to do: import the block `b` (by force or not; manager.go:189-195), or propose a block
on top of `p` (195-202). -/
inductive Kind where
  | imp (b : Id) (force : Bool)
  | prop (p : Id)
deriving Repr, DecidableEq

/-- The states of a task (manager.go:162-169). -/
inductive TState where
  | executingIn | validatingOut | validatedOut | stopped
deriving Repr, DecidableEq

/-- A task. A transition handle it owns is `none` if there is none or it is disposed, and `some cb` if it is alive,
where `cb` says if its callback is still set (`transition._cb`, transition.go:45-50). -/
structure Task where
  kind : Kind
  state : TState
  inH : Option Bool
  outH : Option Bool
deriving Repr, DecidableEq

/-- The manager. `stuck`: a recursive function of the model ran out of its bound (shown never to happen);
`crashed`: a nil pointer was dereferenced, the process ends. -/
structure St where
  heap : Ptr → Node
  next : Nat
  nmap : Id → Option Ptr
  finalized : Option Ptr
  running : Bool
  tasks : List Task
  stuck : Bool
  crashed : Bool

/-- A write to a node object. -/
def St.mod (s : St) (p : Ptr) (f : Node → Node) : St :=
  { s with heap := fun q => if q = p then f (s.heap q) else s.heap q }

/-- `delete(m.nmap, id)`. -/
def St.del (s : St) (i : Id) : St :=
  { s with nmap := fun j => if j = i then none else s.nmap j }

/-- `bn.in.dispose(); bn.preexe.dispose()` (manager.go:250-251, 263-264, 283-284). -/
def St.disposeNode (s : St) (p : Ptr) : St := s.mod p fun n => { n with held := false }

/-- `bn.parent = nil`. -/
def St.unparent (s : St) (p : Ptr) : St := s.mod p fun n => { n with parent := none }

/-- `bn.nRef += k`. -/
def St.ref (s : St) (p : Ptr) (k : Int) : St := s.mod p fun n => { n with nRef := n.nRef + k }

/-- `_removeNode` (manager.go:246-257). The first argument bounds the depth of the recursion. -/
def removeSub : Nat → St → Ptr → St
  | 0, s, _ => { s with stuck := true }
  | n + 1, s, p =>
    let s := (s.heap p).children.foldl (fun s c => removeSub n s c) s
    let s := s.disposeNode p
    let s := s.unparent p
    s.del (s.heap p).block

/-- `for _, c := range … { m._removeNode(c) }` (manager.go:247-249, 260-262). -/
def removeSubs (n : Nat) (s : St) (cs : List Ptr) : St := cs.foldl (fun s c => removeSub n s c) s

/-- The removal of `bn` from `par.children` (manager.go:234-241): the last child takes its place. (The Go loop
goes on after that; it finds `bn` no second time, as no list of children has a node twice.) -/
def swapRemove (cs : List Ptr) (p : Ptr) : List Ptr :=
  match cs.getLast? with
  | none => cs
  | some l => if p ∈ cs then (cs.set (cs.idxOf p) l).dropLast else cs

/-- `unrefNode` (manager.go:225-244), with `removeNode` (259-273) written in place. The first argument bounds the depth of the
recursion along the parents. -/
def unrefNode : Nat → St → Ptr → St
  | 0, s, _ => { s with stuck := true }
  | n + 1, s, p =>
    let s := s.ref p (-1)
    if (s.heap p).nRef = 0 then
      let par := (s.heap p).parent
      -- removeNode
      let s := removeSubs (s.next + 1) s (s.heap p).children
      let s := s.disposeNode p
      let s :=
        match (s.heap p).parent with
        | some q => (unrefNode n s q).unparent p
        | none => s
      let s := s.del (s.heap p).block
      -- back in unrefNode
      match par with
      | some q => s.mod q fun nd => { nd with children := swapRemove nd.children p }
      | none => s
    else s

/-- `removeNode` (manager.go:259-273). -/
def removeNode (s : St) (p : Ptr) : St :=
  let s := removeSubs (s.next + 1) s (s.heap p).children
  let s := s.disposeNode p
  let s :=
    match (s.heap p).parent with
    | some q => (unrefNode (s.next + 1) s q).unparent p
    | none => s
  s.del (s.heap p).block

/-- The loop of `removeNodeExcept` (manager.go:276-282). -/
def removeChildrenExcept (e : Ptr) : List Ptr → St → St
  | [], s => s
  | c :: cs, s =>
    removeChildrenExcept e cs (if c = e then s.unparent c else removeSub (s.next + 1) s c)

/-- `removeNodeExcept` (manager.go:275-293). -/
def removeNodeExcept (s : St) (p e : Ptr) : St :=
  let s := removeChildrenExcept e (s.heap p).children s
  let s := s.disposeNode p
  let s :=
    match (s.heap p).parent with
    | some q => (unrefNode (s.next + 1) s q).unparent p
    | none => s
  s.del (s.heap p).block

/-- `bn = &bnode{…}; m.addNode(pbn, bn)` (manager.go:204-212, 379-390, 553-564): `none` if `pbn` is nil. -/
def addNode (s : St) (par : Option Ptr) (b : Id) : Option (St × Ptr) :=
  match par with
  | none => none
  | some q =>
    let p := s.next
    let s : St := { s with next := p + 1 }
    let s := s.mod p fun _ => ⟨none, [], b, true, 0⟩
    let s := s.mod q fun n => { n with children := n.children ++ [p] }
    let s := s.mod p fun n => { n with parent := some q }
    let s := s.ref q 1
    some ({ s with nmap := fun j => if j = b then some p else s.nmap j }, p)

/-- What happened to the caller's callback in an operation: nothing, an error, or a candidate for a block. -/
inductive Cb where
  | quiet | fail | cand (b : Id)
deriving Repr, DecidableEq

/-- Replace a task object. -/
def St.setTask (s : St) (t : Tid) (k : Task) : St := { s with tasks := s.tasks.set t k }

/-- `stop()` (manager.go:332-340, 478-483): both handles are disposed (a propose task has no `out`). -/
def Task.stop (k : Task) : Task := { k with inH := none, outH := none, state := .stopped }

/-- The end of a successful task (manager.go:376-395, 551-570): the node for `b` is found or made, the task stops,
and a new candidate (214-223) is handed over. -/
def deliver (ch : Chain) (s : St) (t : Tid) (k : Task) (b : Id) : St × Cb :=
  match s.nmap b with
  | some p =>
    let s := s.setTask t { k.stop with state := .validatedOut }
    (s.ref p 1, .cand b)
  | none =>
    match addNode s ((ch.prev b).bind s.nmap) b with
    | none => ({ s with crashed := true }, .quiet)
    | some (s, p) =>
      let s := s.setTask t { k.stop with state := .validatedOut }
      (s.ref p 1, .cand b)

/-- `stop(); cb(nil, err)`. -/
def failTask (s : St) (t : Tid) (k : Task) : St × Cb := (s.setTask t k.stop, .fail)

/-- Which of a task's handles gets a report. -/
inductive Side where
  | inn | out
deriving Repr, DecidableEq

/-- The handle of a task on that side. -/
def Task.hd (k : Task) : Side → Option Bool
  | .inn => k.inH
  | .out => k.outH

/-- The callback of the handle on that side is dropped. -/
def Task.mute (k : Task) : Side → Task
  | .inn => { k with inH := k.inH.map fun _ => false }
  | .out => { k with outH := k.outH.map fun _ => false }

/-- `transition.onValidate` (transition.go:279-287), `importTask._onValidate` (manager.go:365-397),
`proposeTask._onValidate` (506-512): a report of the executor on a validation. It is dropped when the manager is not
running (transition.go:122-124) and when the handle is disposed or its callback is gone. -/
def onValidate (ch : Chain) (s : St) (t : Tid) (side : Side) (err : Bool) : St × Cb :=
  match s.tasks[t]? with
  | none => (s, .quiet)
  | some k =>
    if !s.running then (s, .quiet) else
    if k.hd side ≠ some true then (s, .quiet) else
    let k := if err then k.mute side else k
    match k.kind with
    | .imp b _ =>
      if k.state = .executingIn then
        if err then failTask s t k else (s, .quiet)
      else if k.state = .validatingOut then
        if err then failTask s t k else deliver ch s t k b
      else (s.setTask t k, .quiet)
    | .prop _ => if err then failTask s t k else (s, .quiet)

/-- What the environment answers while a task handles a report on an execution: if the result is the one in the
block, if `sync`, and if `transit` or `propose` go well, and the block that `NewBlock` makes. -/
structure Answers where
  verify : Bool
  sync : Bool
  goOn : Bool
  made : Id
deriving Repr, DecidableEq

/-- `_handleExecutionError` (manager.go:405-418). `sync` dereferences the parent of the transition
(transition.go:244), which may be gone if the parent block is: the model counts that as a crash. -/
def handleExecutionError (ch : Chain) (s : St) (t : Tid) (k : Task) (b : Id) (force : Bool) (a : Answers) : St × Cb :=
  if force then
    if ((ch.prev b).bind s.nmap).isNone then ({ s with crashed := true }, .quiet)
    else if a.sync then (s.setTask t { k with inH := some true }, .quiet)
    else failTask s t k
  else failTask s t k

/-- `transition.onExecute` (transition.go:289-295), `importTask._onExecute` (manager.go:420-441),
`proposeTask._onExecute` (520-571): a report of the executor on an execution. `NewBlock` makes a block on top of the task's
parent block (`base` gives it `parentBlock`), so other values of `made` do nothing. -/
def onExecute (ch : Chain) (s : St) (t : Tid) (side : Side) (err : Bool) (a : Answers) : St × Cb :=
  match s.tasks[t]? with
  | none => (s, .quiet)
  | some k =>
    if !s.running then (s, .quiet) else
    if k.hd side ≠ some true then (s, .quiet) else
    let k := k.mute side
    match k.kind with
    | .imp b force =>
      if k.state = .executingIn then
        if err || !a.verify then handleExecutionError ch s t k b force a
        else if a.goOn then (s.setTask t { k with outH := some true, state := .validatingOut }, .quiet)
        else failTask s t k
      else (s.setTask t k, .quiet)
    | .prop p =>
      if err then failTask s t k
      else if !a.goOn then failTask s t k
      else if ch.prev a.made ≠ some p then (s, .quiet)
      else deliver ch s t k a.made

/-- What a call answers. -/
inductive Resp where
  | notRunning | badParent | refused | task (t : Tid) | canceled | ignored | done | invalid
deriving Repr, DecidableEq

/-- `ImportBlock` and `_import` (manager.go:302-330, 823-842; `Import`, 790-821, decodes the block before that). `ok`: the block is verified and its
patches are accepted. -/
def doImport (ch : Chain) (s : St) (b : Id) (force ok : Bool) : St × Resp :=
  if !s.running then (s, .notRunning)
  else match (ch.prev b).bind s.nmap with
    | none => (s, .badParent)
    | some _ =>
      if !ok then (s, .refused)
      else ({ s with tasks := s.tasks ++ [⟨.imp b force, .executingIn, some true, none⟩] }, .task s.tasks.length)

/-- `Propose` and `_propose` (manager.go:443-476, 951-970). -/
def doPropose (s : St) (p : Id) (ok : Bool) : St × Resp :=
  if !s.running then (s, .notRunning)
  else match s.nmap p with
    | none => (s, .badParent)
    | some _ =>
      if !ok then (s, .refused)
      else ({ s with tasks := s.tasks ++ [⟨.prop p, .executingIn, some true, none⟩] }, .task s.tasks.length)

/-- `Cancel` (manager.go:342-357, 485-498). -/
def doCancel (s : St) (t : Tid) : St × Resp :=
  match s.tasks[t]? with
  | none => (s, .ignored)
  | some k =>
    match k.kind, k.state with
    | _, .executingIn => (s.setTask t k.stop, .canceled)
    | .imp _ _, .validatingOut => (s.setTask t k.stop, .canceled)
    | _, _ => (s, .ignored)

/-- `Dup` of a candidate for `b` (manager.go:1410-1423). -/
def doDup (s : St) (b : Id) : St :=
  match s.nmap b with
  | some p => s.ref p 1
  | none => s

/-- `Dispose` of a candidate for `b` (manager.go:1425-1434). -/
def doDispose (s : St) (b : Id) : St :=
  match s.nmap b with
  | some p => unrefNode (s.next + 1) s p
  | none => s

/-- `Finalize` and `finalize` (manager.go:976-1015). -/
def doFinalize (s : St) (b : Id) : St × Resp :=
  if !s.running then (s, .notRunning)
  else match s.nmap b with
    | none => (s, .invalid)
    | some p =>
      if (s.heap p).parent ≠ s.finalized then (s, .invalid)
      else
        let s :=
          match s.finalized with
          | some f => removeNodeExcept s f p
          | none => s
        let s : St := { s with finalized := some p }
        (s.ref p 1, .done)

/-- `Term` (manager.go:735-754; `removeNode` of nil would panic). -/
def doTerm (s : St) : St :=
  if !s.running then s
  else match s.finalized with
    | some f => { removeNode s f with finalized := none, running := false }
    | none => { s with crashed := true }

/-- The state `NewManager` makes (manager.go:574-710): one node, for the last block of the database (or for the
genesis block, 939-940, 1011-1012), with the manager's reference. -/
def init (g : Id) : St :=
  { heap := fun _ => ⟨none, [], g, false, 0⟩, next := 1, nmap := fun i => if i = g then some 0 else none,
    finalized := some 0, running := true, tasks := [], stuck := false, crashed := false
    : St }.mod 0 fun _ => ⟨none, [], g, true, 1⟩

/-- What can happen. `dup` and `dispose` are calls on a candidate for block `b`. -/
inductive Ev where
  | importBlock (b : Id) (force ok : Bool)
  | propose (p : Id) (ok : Bool)
  | cancel (t : Tid)
  | validated (t : Tid) (side : Side) (err : Bool)
  | executed (t : Tid) (side : Side) (err : Bool) (a : Answers)
  | dup (b : Id)
  | dispose (b : Id)
  | finalize (b : Id)
  | term
deriving Repr, DecidableEq

/-- The manager and what its user has seen: `cands b` counts the candidates for block `b` that were handed over or
duplicated and not disposed; `log` has the callbacks, newest first, with the block of the candidate (none: an error);
`cancels` the tasks for which `Cancel` has returned true; `fins` the finalized blocks, newest first. -/
structure World where
  s : St
  cands : Id → Nat
  log : List (Tid × Option Id)
  cancels : List Tid
  fins : List Id

/-- Book a callback. -/
def World.book (w : World) (t : Tid) (r : St × Cb) : World :=
  match r.2 with
  | .quiet => { w with s := r.1 }
  | .fail => { w with s := r.1, log := (t, none) :: w.log }
  | .cand b =>
    { w with s := r.1, log := (t, some b) :: w.log, cands := fun i => if i = b then w.cands i + 1 else w.cands i }

/-- One event. -/
def step (ch : Chain) (w : World) : Ev → World
  | .importBlock b force ok => { w with s := (doImport ch w.s b force ok).1 }
  | .propose p ok => { w with s := (doPropose w.s p ok).1 }
  | .cancel t =>
    { w with s := (doCancel w.s t).1,
             cancels := if (doCancel w.s t).2 = .canceled then t :: w.cancels else w.cancels }
  | .validated t side err => w.book t (onValidate ch w.s t side err)
  | .executed t side err a => w.book t (onExecute ch w.s t side err a)
  | .dup b => { w with s := doDup w.s b, cands := fun i => if i = b then w.cands i + 1 else w.cands i }
  | .dispose b => { w with s := doDispose w.s b, cands := fun i => if i = b then w.cands i - 1 else w.cands i }
  | .finalize b =>
    { w with s := (doFinalize w.s b).1,
             fins := if (doFinalize w.s b).2 = .done then b :: w.fins else w.fins }
  | .term => { w with s := doTerm w.s }

/-- What a user may do: `Dup` and `Dispose` are called on a candidate that is not disposed. -/
def Allowed (w : World) : Ev → Prop
  | .dup b => 0 < w.cands b
  | .dispose b => 0 < w.cands b
  | _ => True

/-- The start. -/
def start (g : Id) : World := ⟨init g, fun _ => 0, [], [], [g]⟩

/-- The worlds that can come up while the process runs: each event happens in a process that has not crashed. -/
inductive Reach (ch : Chain) (g : Id) : World → Prop
  | start : Reach ch g (start g)
  | step {w : World} (e : Ev) : Reach ch g w → w.s.crashed = false → Allowed w e → Reach ch g (step ch w e)

end Verif.BTree
