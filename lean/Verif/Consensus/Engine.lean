import Verif.Consensus.VoteSet

/-!
# The consensus engine at one height

Models the round state machine of `/repo/consensus/consensus.go` for one height: the handlers of votes,
proposals, block parts, timers and import results, the write-ahead logs, and a restart from them.

The engine runs under one mutex, and its handlers call each other down to `sendVote`, which hands the
node's own vote back to `ReceiveVoteMessage`.  Here that recursion is unfolded into single steps: `act`
is the function to run next and `chks` the double checks (`consensus.go:799-805`, `:893-901`) that still
wait for a `sendVote` to return.  A step ends at each point where a crash leaves something different
behind, so a restart may happen between any two steps.  Messages and timers are taken in only when
`act` and `chks` are empty, that is, when the mutex is free.

Abstractions: a block is known by its part set id `P`; a block part set only records whether all parts
are there, whether they decode to a block, and whether the block was validated; a round decision is an
abstract value `D` as in `VoteSet.lean`, and `honest t p` is the decision an honest node puts in its vote of
type `t` for the block `p` (`consensus.go:1257-1277`: block id, part set id with application data, network
type section votes are functions of the block).  Network signatures, syncer, metrics, regulator, patches
and the double-sign log are left out.  WAL writes are assumed not to fail (the code logs an error and goes
on).  `int32` overflow of rounds is not modelled.
-/

namespace Verif.Consensus.Engine

/-- `step.go:5-16`: the steps in order. -/
abbrev stNewHeight : ℕ := 0
abbrev stTransactionWait : ℕ := 1
abbrev stNewRound : ℕ := 2
abbrev stPropose : ℕ := 3
abbrev stPrevote : ℕ := 4
abbrev stPrevoteWait : ℕ := 5
abbrev stPrecommit : ℕ := 6
abbrev stPrecommitWait : ℕ := 7
abbrev stCommit : ℕ := 8

/-- The step of a vote type (`consensus.go:1416-1421`). -/
def stepOf : VoteType → ℕ
  | .prevote => stPrevote
  | .precommit => stPrecommit

/-- What is fixed for the height: the number of validators, the height, the digest and part set id of a
decision, and the decision of an honest vote. -/
structure Cfg (D B P : Type) where
  n : ℕ
  height : ℤ
  dig : D → B
  psid : D → Option P
  honest : VoteType → Option P → D

/-- `blockpartset.go:24-31` `blockPartSet` with a part set (a zero one is `none`). -/
structure Parts (P : Type) where
  id : P
  complete : Bool
  block : Bool
  valid : Bool
  deriving DecidableEq, Repr

/-- A vote with the position of its signer in the validator list. -/
abbrev Signed (D : Type) := ℕ × Vote D

/-- Records of the round WAL: an own proposal, an own vote, a list of votes. -/
inductive RRec (D : Type)
  | proposal (round : ℤ)
  | vote (v : Vote D)
  | list (l : List (Signed D))
  deriving DecidableEq, Repr

/-- Records of the lock WAL: a list of prevotes, and the parts of a block.  The part records of one lock
are taken as one record: an incomplete part set is not used (`consensus.go:1561`), and the next vote
list starts a new one (`:1528`). -/
inductive LRec (D P : Type)
  | list (l : List (Signed D))
  | parts (p : P)
  deriving DecidableEq, Repr

/-- The functions that run next. -/
inductive Act (D P : Type)
  | propose
  | prevote
  | prevoteWait
  | precommit
  | precommitWait
  | newRound
  /-- the lock WAL is written; sync it and send the precommit -/
  | lockVote (p : P)
  /-- `sendVote` -/
  | vote (t : VoteType) (p : Option P)
  /-- the vote is in the round WAL; sync it and send it -/
  | flush (v : Vote D)
  /-- `ReceiveVoteMessage` of the own vote -/
  | recv (v : Vote D)
  /-- the commit WAL is written; sync it -/
  | commit
  deriving DecidableEq, Repr

/-- The double checks after a `sendVote`. -/
inductive Chk
  | prevotes
  | precommits
  deriving DecidableEq, Repr

/-- `voteset.go:218-221` `heightVoteSet`: vote sets by round and type; a missing one is empty. -/
abbrev Hvs (D B P : Type) := List ((ℤ × VoteType) × VoteSet D B P)

/-- The engine (`consensus.go:79-134`) at one height.  `final` is the block finalized at this height,
`sent` the own votes that others may hold and `checked` the blocks that the block manager imported without
error or built for a proposal (records of the execution, not read by the engine); a WAL is the list of
records written, the first `…sync` of which are on disk. -/
structure Node (D B P : Type) where
  round : ℤ
  step : ℕ
  lockedRound : ℤ
  locked : Option (Parts P)
  polRound : ℤ
  current : Option (Parts P)
  hvs : Hvs D B P
  commitRound : ℤ
  imp : Option (ℤ × P)
  final : Option P
  act : Option (Act D P)
  chks : List Chk
  rwal : List (RRec D)
  rsync : ℕ
  lwal : List (LRec D P)
  lsync : ℕ
  cwal : List (List (Signed D))
  csync : ℕ
  sent : List (Vote D)
  checked : List P

section
variable {D B P : Type} [DecidableEq B] [DecidableEq P] (c : Cfg D B P)

/-- `voteset.go:228-236` `votesFor`. -/
def Hvs.get (n : ℕ) (h : Hvs D B P) (r : ℤ) (t : VoteType) : VoteSet D B P :=
  match h.find? (fun e => decide (e.1 = (r, t))) with
  | some e => e.2
  | none => VoteSet.new n

/-- `voteset.go:223-226` `add`: whether the vote was added, and the sets after. -/
def Hvs.add (h : Hvs D B P) (j : ℕ) (v : Vote D) : Hvs D B P × Bool :=
  let r := (h.get c.n v.round v.typ).add c.dig c.psid j v
  (((v.round, v.typ), r.1) :: h.filter (fun e => decide (e.1 ≠ (v.round, v.typ))), r.2)

/-- `voteset.go:273-280` `removeLowerRoundExcept`. -/
def Hvs.removeLower (h : Hvs D B P) (lower except : ℤ) : Hvs D B P :=
  h.filter (fun e => !(decide (e.1.1 < lower) && decide (e.1.1 ≠ except)))

/-- The loops that add the votes of a list (`consensus.go:1432-1441`, `:1505-1519`, `:1634-1645`,
`:2133-2142`). -/
def Hvs.addAll (h : Hvs D B P) (l : List (Signed D)) : Hvs D B P :=
  l.foldl (fun h x => (h.add c x.1 x.2).1) h

/-- `voteset.go:159-167` `voteList`, with the validators' positions. -/
def votesIn (vs : VoteSet D B P) : List (Signed D) :=
  vs.msgs.zipIdx.filterMap (fun x => x.1.map (fun v => (x.2, v)))

/-- `blockpartset.go:97-104` `SetByPartSetID`. -/
def setByID (cur : Option (Parts P)) (p : P) : Option (Parts P) :=
  if cur.map (fun x => x.id) = some p then cur else some ⟨p, false, false, false⟩

namespace Node

/-- The vote set of a round and type. -/
def votes (nd : Node D B P) (r : ℤ) (t : VoteType) : VoteSet D B P := nd.hvs.get c.n r t

/-- `lockedBlockParts.ID()` (`blockpartset.go:39-44`). -/
def lockedID (nd : Node D B P) : Option P := nd.locked.map (fun x => x.id)

/-- The vote set decided for a block. -/
def hasBlock (o : Option (Option P)) : Bool :=
  match o with
  | some (some _) => true
  | _ => false

/-- `consensus.go:1338-1350` `isProposalAndPOLPrevotesComplete`. -/
def proposalComplete (nd : Node D B P) : Bool :=
  match nd.current with
  | none => false
  | some x =>
    x.complete && (if 0 ≤ nd.polRound then hasBlock (nd.votes c nd.polRound .prevote).overPSID else true)

/-- `consensus.go:237-254` `resetForNewRound`.  A cancelled import can still report, but too late
(`imported` below). -/
def resetForNewRound (nd : Node D B P) (r : ℤ) : Node D B P :=
  { nd with
    polRound := -1
    current := none
    round := r
    hvs := nd.hvs.removeLower (r - 1) nd.lockedRound
    step := stNewRound }

/-- `consensus.go:981-1017` `enterCommit` up to the sync of the WAL; every caller has `step <
stepCommit`, so that `beginStep` does not panic. -/
def enterCommit (nd : Node D B P) (r : ℤ) (p : P) : Node D B P :=
  { nd with
    step := stCommit
    commitRound := r
    cwal := nd.cwal ++ [votesIn (nd.votes c r .precommit)]
    current := setByID nd.current p
    act := some .commit }

/-- `consensus.go:550-558`: a decision of prevotes unlocks an older lock of something else and sets the
current block. -/
def seePolka (nd : Node D B P) (mr : ℤ) (q : Option P) : Node D B P :=
  let nd1 := if nd.lockedRound < mr ∧ nd.locked.isSome ∧ nd.lockedID ≠ q then
      { nd with lockedRound := -1, locked := none } else nd
  match q with
  | some p => if nd1.round = mr then { nd1 with current := setByID nd1.current p } else nd1
  | none => nd1

/-- `consensus.go:550-559`: the answer of `getOverTwoThirdsPartSetID` is used if there is a decision. -/
def seePrevotes (nd : Node D B P) (mr : ℤ) : Option (Option P) → Node D B P
  | none => nd
  | some q => nd.seePolka mr q

/-- `consensus.go:545-575` `handlePrevoteMessage` for a vote of round `mr`. -/
def handlePrevote (nd : Node D B P) (mr : ℤ) : Node D B P :=
  if stCommit ≤ nd.step then nd
  else
    let o := (nd.votes c mr .prevote).overPSID
    let nd1 := nd.seePrevotes mr o
    if mr < nd1.round ∧ nd1.step < stPrevote ∧ mr = nd1.polRound ∧ nd1.proposalComplete c = true then
      { nd1 with act := some .prevote }
    else if nd1.round = mr ∧ nd1.step < stPrevote then { nd1 with act := some .prevote }
    else if nd1.round = mr ∧ nd1.step = stPrevote then { nd1 with act := some .prevoteWait }
    else if nd1.round = mr ∧ nd1.step = stPrevoteWait then
      if o.isSome then { nd1 with act := some .precommit } else nd1
    else if nd1.round < mr ∧ nd1.step < stCommit then
      { nd1.resetForNewRound mr with act := some .prevote }
    else nd1

/-- `consensus.go:577-597` `handlePrecommitMessage` for a vote of round `mr`. -/
def handlePrecommit (nd : Node D B P) (mr : ℤ) : Node D B P :=
  let o := (nd.votes c mr .precommit).overPSID
  if mr < nd.round ∧ nd.step < stCommit then
    match o with
    | some (some p) => nd.enterCommit c mr p
    | _ => nd
  else if nd.round = mr ∧ nd.step < stPrecommit then { nd with act := some .precommit }
  else if nd.round = mr ∧ nd.step = stPrecommit then { nd with act := some .precommitWait }
  else if nd.round = mr ∧ nd.step = stPrecommitWait then
    match o with
    | some (some p) => nd.enterCommit c mr p
    | some none => { nd with act := some .newRound }
    | none => nd
  else if nd.round < mr ∧ nd.step < stCommit then
    { nd.resetForNewRound mr with act := some .precommit }
  else nd

/-- `consensus.go:478-531` `ReceiveVoteMessage` for a vote of this height by validator `j` (the address,
signature and proof checks are in the network guard below). -/
def recvVote (nd : Node D B P) (j : ℕ) (v : Vote D) : Node D B P :=
  let r := nd.hvs.add c j v
  let nd1 := { nd with hvs := r.1 }
  if r.2 = false then nd1
  else if (nd1.votes c v.round v.typ).hasOverTwoThirds = false then nd1
  else match v.typ with
    | .prevote => nd1.handlePrevote c v.round
    | .precommit => nd1.handlePrecommit c v.round

/-- What a step does not decide itself. -/
structure Choice where
  /-- the clock, for the vote's time stamp -/
  ts : ℤ
  /-- `doSendVote` builds and signs the message without error -/
  signed : Bool
  /-- the block names the round's proposer (`consensus.go:716-724`) -/
  proposer : Bool
  /-- `ImportBlock` takes the request -/
  importing : Bool
  /-- `nextProposeTime` is in the future (`consensus.go:1024`) -/
  wait : Bool

/-- `consensus.go:288-294` `beginStep` for the steps after `stepNewRound`; `none` is the panic. -/
def begin_ (nd : Node D B P) (s : ℕ) : Option (Node D B P) :=
  if nd.step < s then some { nd with step := s } else none

/-- `consensus.go:1322-1336` `isProposer` of the node at position `i`. -/
def isProposer (i : ℕ) (nd : Node D B P) : Bool :=
  decide (i < c.n) && decide ((c.height + nd.round) % (c.n : ℤ) = (i : ℤ))

/-- Send a vote and come back to a double check. -/
def thenVote (nd : Node D B P) (t : VoteType) (p : Option P) (k : Chk) : Node D B P :=
  { nd with act := some (.vote t p), chks := k :: nd.chks }

/-- `consensus.go:627-706` `enterPropose` after `beginStep`. -/
def doPropose (i : ℕ) (nd : Node D B P) : Node D B P :=
  if nd.isProposer c i = true then
    match nd.locked with
    | some l =>
      { nd with
        rwal := nd.rwal ++ [.proposal nd.round]
        rsync := nd.rwal.length + 1
        current := some l }
    | none => nd
  else if nd.proposalComplete c = true then { nd with act := some .prevote }
  else nd

/-- `consensus.go:727-806` `enterPrevote` after `beginStep`. -/
def doPrevote (ch : Choice) (nd : Node D B P) : Node D B P :=
  match nd.locked with
  | some l => nd.thenVote .prevote (some l.id) .prevotes
  | none =>
    match nd.current with
    | none => nd.thenVote .prevote none .prevotes
    | some x =>
      if x.block = false then nd.thenVote .prevote none .prevotes
      else if x.valid = true then nd.thenVote .prevote (some x.id) .prevotes
      else if (nd.proposalComplete c && (decide (nd.polRound ≠ -1) || ch.proposer)) = false then
        nd.thenVote .prevote none .prevotes
      else if ch.importing = false then { nd with act := some (.vote .prevote none) }
      else { nd with imp := some (nd.round, x.id), chks := .prevotes :: nd.chks }

/-- `consensus.go:808-835` `enterPrevoteWait` after `beginStep`. -/
def doPrevoteWait (nd : Node D B P) : Node D B P :=
  let nd1 := { nd with rwal := nd.rwal ++ [.list (votesIn (nd.votes c nd.round .prevote))] }
  if (nd.votes c nd.round .prevote).overPSID.isSome then { nd1 with act := some .precommit } else nd1

/-- `consensus.go:837-903` `enterPrecommit` after `beginStep`; `none` is the panic of `:880`. -/
def doPrecommit (nd : Node D B P) : Option (Node D B P) :=
  match (nd.votes c nd.round .prevote).overPSID with
  | none => some (nd.thenVote .precommit none .precommits)
  | some none =>
    some ({ nd with lockedRound := -1, locked := none }.thenVote .precommit none .precommits)
  | some (some p) =>
    if nd.lockedID = some p then
      some ({ nd with lockedRound := nd.round }.thenVote .precommit (some p) .precommits)
    else
      match nd.current with
      | some x =>
        if x.id = p ∧ x.block = true then
          some { nd with
            lockedRound := nd.round
            locked := some x
            lwal := nd.lwal ++ [.list (votesIn (nd.votes c nd.round .prevote)), .parts p]
            act := some (.lockVote p)
            chks := .precommits :: nd.chks }
        else if x.id = p ∧ x.complete = true then none
        else some ({ nd with current := setByID nd.current p, lockedRound := -1, locked := none }.thenVote
          .precommit none .precommits)
      | none => some ({ nd with current := setByID nd.current p, lockedRound := -1, locked := none }.thenVote
          .precommit none .precommits)

/-- `consensus.go:905-935` `enterPrecommitWait` after `beginStep`. -/
def doPrecommitWait (nd : Node D B P) : Node D B P :=
  let nd1 := { nd with rwal := nd.rwal ++ [.list (votesIn (nd.votes c nd.round .precommit))] }
  match (nd.votes c nd.round .precommit).overPSID with
  | some (some p) => nd1.enterCommit c nd.round p
  | some none => { nd1 with act := some .newRound }
  | none => nd1

/-- `consensus.go:1019-1038` `enterNewRound`. -/
def doNewRound (ch : Choice) (nd : Node D B P) : Node D B P :=
  let nd1 := nd.resetForNewRound (nd.round + 1)
  if ch.wait = true then nd1 else { nd1 with act := some .propose }

/-- `consensus.go:1251-1290` `doSendVote` up to the write to the round WAL. -/
def doVote (i : ℕ) (ch : Choice) (nd : Node D B P) (t : VoteType) (p : Option P) : Node D B P :=
  if i < c.n ∧ ch.signed = true then
    let v : Vote D := ⟨c.height, nd.round, t, c.honest t p, ch.ts⟩
    { nd with rwal := nd.rwal ++ [.vote v], act := some (.flush v) }
  else nd

/-- `consensus.go:1291-1307`: sync the round WAL, send the vote, take it in. -/
def doFlush (nd : Node D B P) (v : Vote D) : Node D B P :=
  { nd with rsync := nd.rwal.length, sent := v :: nd.sent, act := some (.recv v) }

/-- One pending function of the node at position `i`. -/
def runAct (i : ℕ) (ch : Choice) (nd : Node D B P) : Act D P → Option (Node D B P)
  | .propose => (nd.begin_ stPropose).map (fun x => x.doPropose c i)
  | .prevote => (nd.begin_ stPrevote).map (fun x => x.doPrevote c ch)
  | .prevoteWait => (nd.begin_ stPrevoteWait).map (fun x => x.doPrevoteWait c)
  | .precommit => (nd.begin_ stPrecommit).bind (fun x => x.doPrecommit c)
  | .precommitWait => (nd.begin_ stPrecommitWait).map (fun x => x.doPrecommitWait c)
  | .newRound => some (nd.doNewRound ch)
  | .lockVote p => some { nd with lsync := nd.lwal.length, act := some (.vote .precommit (some p)) }
  | .vote t p => some (nd.doVote c i ch t p)
  | .flush v => some (nd.doFlush v)
  | .recv v => some (nd.recvVote c i v)
  | .commit => some { nd with csync := nd.cwal.length }

/-- `consensus.go:799-805` and `:893-901`, also used at start (`:1867-1876`). -/
def runChk (nd : Node D B P) : Chk → Node D B P
  | .prevotes =>
    if nd.step = stPrevote ∧ (nd.votes c nd.round .prevote).hasOverTwoThirds = true then
      { nd with act := some .prevoteWait } else nd
  | .precommits =>
    if nd.step = stPrecommit ∧ (nd.votes c nd.round .precommit).hasOverTwoThirds = true then
      { nd with act := some .precommitWait } else nd

/-! ### Handlers of timers, messages and callbacks -/

/-- The timers and callbacks that only advance the step: `consensus.go:638-646` (propose), `:824-832`
(prevote wait), `:923-931` (precommit wait), `:1026-1034` (new round), `:1077-1088` (new height) and
`:1050-1059` (transaction wait). -/
def timeout (nd : Node D B P) : Option (Node D B P) :=
  if nd.step = stNewHeight then some { nd with step := stTransactionWait }
  else if nd.step = stTransactionWait ∨ nd.step = stNewRound then some { nd with act := some .propose }
  else if nd.step = stPropose then some { nd with act := some .prevote }
  else if nd.step = stPrevoteWait then some { nd with act := some .precommit }
  else if nd.step = stPrecommitWait then some { nd with act := some .newRound }
  else none

/-- `consensus.go:407-416`, `:466-475`: after the current block changed. -/
def afterParts (nd : Node D B P) : Node D B P :=
  if (nd.step = stTransactionWait ∨ nd.step = stPropose) ∧ nd.proposalComplete c = true then
    { nd with act := some .prevote } else nd

/-- `consensus.go:380-417` `ReceiveProposalMessage` of round `mr`; `got` tells whether the cached parts
complete the block, and if so whether it decodes.  The check of the proposer's position is left out:
more proposals are accepted here than there. -/
def proposal (nd : Node D B P) (mr : ℤ) (p : P) (pol : ℤ) (got : Option Bool) : Node D B P :=
  if mr ≠ nd.round ∨ stCommit ≤ nd.step then nd
  else if nd.current.isSome then nd
  else
    afterParts c { nd with
      polRound := pol
      current := some ⟨p, got.isSome, got = some true, false⟩ }

/-- `consensus.go:454-476` `ReceiveBlockPartMessage` for the part that completes the block, which decodes
to a block if `b`.  Other parts change nothing that is modelled. -/
def parts (nd : Node D B P) (b : Bool) : Node D B P :=
  match nd.current with
  | none => nd
  | some x =>
    if x.complete = true then nd
    else afterParts c { nd with current := some { x with complete := true, block := b } }

/-- `consensus.go:744-786`: the result of the import begun in `enterPrevote`.  `none` is the panic of
`sendVote` without a block (`:1275`). -/
def imported (nd : Node D B P) (ok : Bool) : Option (Node D B P) :=
  match nd.imp with
  | none => none
  | some (r, p) =>
    let nd1 := { nd with imp := none, checked := if ok = true then p :: nd.checked else nd.checked }
    if r ≠ nd.round ∨ stCommit ≤ nd.step then some nd1
    else if ok = true then
      match nd.current with
      | none => if nd.step ≤ stPrevoteWait then none else some nd1
      | some x =>
        let x' := if x.block = true ∧ x.id = p then { x with complete := true, valid := true } else x
        let nd2 := { nd1 with current := some x' }
        if nd.step ≤ stPrevoteWait then
          if x.block = true then some { nd2 with act := some (.vote .prevote (some x.id)) } else none
        else some nd2
    else if nd.step ≤ stPrevoteWait then some { nd1 with act := some (.vote .prevote none) }
    else some nd1

/-- `consensus.go:666-693`: the result of `Propose`, a block `p` or an error. -/
def proposed (i : ℕ) (nd : Node D B P) (p : Option P) : Option (Node D B P) :=
  if nd.step = stPropose ∧ nd.isProposer c i = true ∧ nd.locked = none then
    match p with
    | none => some { nd with act := some .prevote }
    | some p => some { nd with
        rwal := nd.rwal ++ [.proposal nd.round]
        rsync := nd.rwal.length + 1
        current := some ⟨p, true, true, true⟩
        checked := p :: nd.checked
        act := some .prevote }
  else none

/-- Whether the current block is `p` and validated (`blockpartset.go:97-104` keeps it then). -/
def curValid (cur : Option (Parts P)) (p : P) : Bool :=
  match cur with
  | some x => decide (x.id = p) && x.valid
  | none => false

/-- `consensus.go:2112-2170` `processBlock`: the block `p` from fast sync with precommits of round `r`. -/
def syncBlock (nd : Node D B P) (r : ℤ) (p : P) (l : List (Signed D)) : Node D B P :=
  let nd1 := { nd with hvs := nd.hvs.addAll c l }
  if (nd1.votes c r .precommit).overPSID = some (some p) then
    let nd2 := { nd1 with current := some ⟨p, true, true, curValid nd.current p⟩ }
    if nd.step < stCommit then nd2.enterCommit c r p else nd2
  else nd1

/-- `consensus.go:937-979` `commitAndEnterNewHeight`: the complete block is imported and finalized. -/
def finalize (nd : Node D B P) : Option (Node D B P) :=
  match nd.current with
  | none => none
  | some x => if nd.step = stCommit ∧ x.complete = true then some { nd with final := some x.id } else none

/-! ### Restart -/

/-- `consensus.go:1396-1399`, `:1422-1425`: the larger of two positions (round, step). -/
def later (a b : ℤ × ℕ) : ℤ × ℕ := if a.1 < b.1 ∨ (a.1 = b.1 ∧ a.2 ≤ b.2) then b else a

/-- `consensus.go:1446-1458`, `:1532-1544`, `:1651-1663`: a vote list of a round with more than two thirds
moves the position up.  An empty list is skipped. -/
def listPos (h : Hvs D B P) (l : List (Signed D)) (pos : ℤ × ℕ) : ℤ × ℕ :=
  match l.head? with
  | none => pos
  | some x =>
    if (h.get c.n x.2.round x.2.typ).hasOverTwoThirds = true then
      later pos (x.2.round, stepOf x.2.typ) else pos

/-- `consensus.go:1352-1464` `applyRoundWAL`: the vote sets and the position after the records. -/
def applyRound (i : ℕ) : List (RRec D) → Hvs D B P × (ℤ × ℕ) → Hvs D B P × (ℤ × ℕ)
  | [], s => s
  | .proposal r :: l, s => applyRound i l (s.1, later s.2 (r, stPropose))
  | .vote v :: l, s => applyRound i l ((s.1.add c i v).1, later s.2 (v.round, stepOf v.typ))
  | .list x :: l, s => applyRound i l (s.1.addAll c x, listPos c (s.1.addAll c x) x s.2)

/-- What `applyLockWAL` keeps: vote sets, position, the part set being filled and the last complete one,
each with its round. -/
structure LockScan (D B P : Type) where
  hvs : Hvs D B P
  pos : ℤ × ℕ
  bps : Option (P × ℤ)
  last : Option (P × ℤ)

/-- `consensus.go:1524-1530`: the decision of the prevotes of the list's round. -/
def lockCand (h : Hvs D B P) (l : List (Signed D)) (old : Option (P × ℤ)) : Option (P × ℤ) :=
  match l.head? with
  | none => old
  | some x =>
    match (h.get c.n x.2.round .prevote).overPSID with
    | some (some p) => some (p, x.2.round)
    | _ => old

/-- `consensus.go:1466-1570` `applyLockWAL`. -/
def applyLock : List (LRec D P) → LockScan D B P → LockScan D B P
  | [], s => s
  | .list x :: l, s =>
    applyLock l { s with
      hvs := s.hvs.addAll c x
      pos := listPos c (s.hvs.addAll c x) x s.pos
      bps := lockCand c (s.hvs.addAll c x) x s.bps }
  | .parts p :: l, s =>
    applyLock l { s with last := if s.bps.map Prod.fst = some p then s.bps else s.last }

/-- `consensus.go:1580-1668` `applyCommitWAL` for the lists of this height. -/
def applyCommit : List (List (Signed D)) → Hvs D B P × (ℤ × ℕ) → Hvs D B P × (ℤ × ℕ)
  | [], s => s
  | x :: l, s => applyCommit l (s.1.addAll c x, listPos c (s.1.addAll c x) x s.2)

/-- The own votes in a round WAL. -/
def ownVotes (l : List (RRec D)) : List (Vote D) :=
  l.filterMap (fun r => match r with
    | .vote v => some v
    | _ => none)

/-- The engine before `Start` reads the logs (`consensus.go:1812`: `resetForNewHeight`). -/
def init : Node D B P where
  round := 0
  step := stNewHeight
  lockedRound := -1
  locked := none
  polRound := -1
  current := none
  hvs := []
  commitRound := -1
  imp := none
  final := none
  act := none
  chks := []
  rwal := []
  rsync := 0
  lwal := []
  lsync := 0
  cwal := []
  csync := 0
  sent := []
  checked := []

/-- `consensus.go:1670-1681` `applyWAL`: all three logs. -/
def scan (i : ℕ) (rw : List (RRec D)) (lw : List (LRec D P)) (cw : List (List (Signed D))) :
    LockScan D B P × (Hvs D B P × (ℤ × ℕ)) :=
  let a := applyRound c i rw ([], (0, stNewHeight))
  let b := applyLock c lw ⟨a.1, a.2, none, none⟩
  (b, applyCommit c cw (b.hvs, b.pos))

/-- `consensus.go:1861-1877`: what `Start` does at the position read from the logs. -/
def resume (nd : Node D B P) : Node D B P :=
  if nd.step = stNewHeight ∧ nd.round = 0 then { nd with step := stTransactionWait }
  else if nd.step = stNewHeight ∧ 0 < nd.round then { nd with act := some .propose }
  else if nd.step = stPropose then { nd with act := some .prevote }
  else if nd.step = stPrevote then { nd with chks := [.prevotes] }
  else if nd.step = stPrecommit then { nd with chks := [.precommits] }
  else nd

/-- `lockedRound` after `applyLockWAL` (`consensus.go:1576`). -/
def lastRound : Option (P × ℤ) → ℤ
  | some x => x.2
  | none => -1

/-- `consensus.go:1812-1822`: the engine after `resetForNewHeight` and `applyWAL` with the first `kr`,
`kl`, `kc` records of the logs.  The own votes found there count as sent from now on: the syncer hands
them out. -/
def loaded (i : ℕ) (nd : Node D B P) (kr kl kc : ℕ) : Node D B P :=
  { (init : Node D B P) with
    round := (scan c i (nd.rwal.take kr) (nd.lwal.take kl) (nd.cwal.take kc)).2.2.1
    step := (scan c i (nd.rwal.take kr) (nd.lwal.take kl) (nd.cwal.take kc)).2.2.2
    lockedRound := lastRound (scan c i (nd.rwal.take kr) (nd.lwal.take kl) (nd.cwal.take kc)).1.last
    locked := (scan c i (nd.rwal.take kr) (nd.lwal.take kl) (nd.cwal.take kc)).1.last.map
      (fun x => ⟨x.1, true, true, false⟩)
    current := (scan c i (nd.rwal.take kr) (nd.lwal.take kl) (nd.cwal.take kc)).1.last.map
      (fun x => ⟨x.1, true, true, false⟩)
    hvs := (scan c i (nd.rwal.take kr) (nd.lwal.take kl) (nd.cwal.take kc)).2.1
    rwal := nd.rwal.take kr
    rsync := (nd.rwal.take kr).length
    lwal := nd.lwal.take kl
    lsync := (nd.lwal.take kl).length
    cwal := nd.cwal.take kc
    csync := (nd.cwal.take kc).length
    sent := ownVotes (nd.rwal.take kr) ++ nd.sent
    checked := nd.checked }

/-- `consensus.go:1781-1879` `Start`. -/
def restart (i : ℕ) (nd : Node D B P) (kr kl kc : ℕ) : Node D B P := (nd.loaded c i kr kl kc).resume

end Node

/-! ### Executions -/

/-- The events of one node. -/
inductive Ev (D P : Type)
  | run (ch : Node.Choice)
  | recv (j : ℕ) (v : Vote D)
  | timeout
  | proposal (mr : ℤ) (p : P) (pol : ℤ) (got : Option Bool)
  | parts (b : Bool)
  | imported (ok : Bool)
  | proposed (p : Option P)
  | syncBlock (r : ℤ) (p : P) (l : List (Signed D))
  | finalize
  | restart (kr kl kc : ℕ)

/-- The mutex is free. -/
def Node.idle (nd : Node D B P) : Bool := nd.act.isNone && nd.chks.isEmpty

/-- One event at the node at position `i` (a validator if `i < n`).  After the block is finalized the node
is at the next height and nothing more happens here.  `none`: the event cannot happen, or it panics. -/
def nodeStep (i : ℕ) (nd : Node D B P) (e : Ev D P) : Option (Node D B P) :=
  if nd.final.isSome then none
  else match e with
    | .restart kr kl kc =>
      if nd.rsync ≤ kr ∧ nd.lsync ≤ kl ∧ nd.csync ≤ kc then some (nd.restart c i kr kl kc) else none
    | .run ch =>
      match nd.act with
      | some a => { nd with act := none }.runAct c i ch a
      | none =>
        match nd.chks with
        | k :: ks => some ({ nd with chks := ks }.runChk c k)
        | [] => none
    | .recv j v => if nd.idle then some (nd.recvVote c j v) else none
    | .timeout => if nd.idle then nd.timeout else none
    | .proposal mr p pol got => if nd.idle then some (nd.proposal c mr p pol got) else none
    | .parts b => if nd.idle then some (nd.parts c b) else none
    | .imported ok => if nd.idle then nd.imported ok else none
    | .proposed p => if nd.idle then nd.proposed c i p else none
    | .syncBlock r p l => if nd.idle then some (nd.syncBlock c r p l) else none
    | .finalize => if nd.idle then nd.finalize else none

/-- A vote that validator `j` may have signed: any vote of a faulty validator, and the votes sent by a
correct one. -/
def Auth (bad : ℕ → Prop) (s : ℕ → Node D B P) (j : ℕ) (v : Vote D) : Prop :=
  j < c.n ∧ v.height = c.height ∧ 0 ≤ v.round ∧ (bad j ∨ v ∈ (s j).sent)

/-- What the network can deliver: votes of this height whose signer is validator `j`
(`consensus.go:507-518`, `message.go` `Verify`), possibly late, repeated or out of order; from fast sync,
precommits of one round (`consensus.go:2126-2142`). -/
def Deliverable (bad : ℕ → Prop) (s : ℕ → Node D B P) : Ev D P → Prop
  | .recv j v => Auth c bad s j v
  | .syncBlock r _ l => ∀ x ∈ l, Auth c bad s x.1 x.2 ∧ x.2.typ = .precommit ∧ x.2.round = r
  | _ => True

/-- The node holds a lock whose round is not the one read from its lock log: its round was raised by the
branch of `enterPrecommit` that writes nothing (`consensus.go:851-854`). -/
def LockStale (nd : Node D B P) : Prop :=
  nd.locked.isSome ∧
    Node.lastRound (Node.applyLock c nd.lwal ⟨[], (0, stNewHeight), none, none⟩).last ≠ nd.lockedRound

/-- The states of all nodes that can be reached when the nodes not in `bad` run the engine and those in
`bad` send what they like.  With `lossy` false, no node restarts while its lock is stale. -/
inductive Reach (bad : ℕ → Prop) (lossy : Bool) : (ℕ → Node D B P) → Prop
  | init : Reach bad lossy (fun _ => Node.init)
  | step {s : ℕ → Node D B P} (i : ℕ) (e : Ev D P) (nd : Node D B P) :
      Reach bad lossy s → ¬ bad i → Deliverable c bad s e →
      (∀ kr kl kc, e = .restart kr kl kc → lossy = true ∨ ¬ LockStale c (s i)) →
      nodeStep c i (s i) e = some nd → Reach bad lossy (Function.update s i nd)

end
end Verif.Consensus.Engine
