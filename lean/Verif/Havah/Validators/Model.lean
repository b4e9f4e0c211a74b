import Mathlib.Logic.Function.Basic
import Mathlib.Data.List.Perm.Basic
import Verif.Havah.Economy.Model

/-!
# Model of the HAVAH validator registry, block-vote penalties and active set

Function-by-function model of
* `havah/hvh/hvhstate/state.go:800-1437`      (registry, status, votes, round robin),
* `havah/hvh/hvhstate/validatorstatus.go`, `validatorinfo.go`, `networkstatus.go`, `grade.go`,
* `havah/hvh/decentralization.go`             (active set at term start, penalties),
* `havah/hvh/extension.go:595-895`            (extension API),
* `havah/hvh/base.go:317-366`                 (validator part of the base transaction),
* `havah/chainscore_havah.go:364-498`, `havah/chainscore_basic.go:330-391` (entry points),
* `service/state/validatorlist.go:90-365`     (`ValidatorState`: the active validator list).

Simplifications common to the whole file
* a `VarDB` is the value its getter returns, a `DictDB` a function to `Option`, an `ArrayDB` a
  list (C06-C09 is about those containers);
* a public key is represented by the node address derived from it; `Config.parse` stands for
  `crypto.ParsePublicKey` followed by `NewAccountAddressFromPublicKey` and is arbitrary;
* the BTP state is not modelled: `CheckPublicKey` is an arbitrary predicate supplied with each
  block, `SetPublicKey` an arbitrary success flag supplied with each call;
* log lines, events and step charging are dropped; `nil` arguments are not modelled;
* `int64` counters are unbounded; `HexInt.Int64()` of API arguments *is* modelled (`int64`);
* version and flag words of the RLP records are replaced by their decoded fields.
-/
namespace Verif.Havah.Val
open Verif.Havah

/-- Error classes of the modelled functions (`scoreresult`, `hvhmodule.Status*`,
`common/errors`). -/
inductive VErr
  | invalidParameter | duplicate | notFound | accessDenied | illegalArgument | btp | invalidState
deriving DecidableEq, Repr

/-- `Grade` (grade.go:3-9); `GradeNone` is the absence of a grade. -/
inductive Grade
  | sub | main
deriving DecidableEq, Repr

/-- `StringToGrade` (grade.go:26-35). -/
def stringToGrade (name : String) : Option Grade :=
  if name = "sub" then some .sub else if name = "main" then some .main else none

/-- constant.go:131 -/
def maxValidatorCount : ℤ := 1000
/-- constant.go:134 -/
def maxValidatorNameLen : ℕ := 100
/-- constant.go:135 -/
def maxValidatorUrlLen : ℕ := 200
/-- constant.go:136 -/
def maxEnableCount : ℕ := 3
/-- constant.go:132 -/
def defaultBlockVoteCheckPeriod : ℤ := 30
/-- constant.go:133 -/
def defaultNonVoteAllowance : ℤ := 20
/-- revision.go:47 (`Revision4`) -/
def revisionDecentralization : ℕ := 4
/-- `secp256k1.PubKeyBytesLenCompressed` -/
def pubKeyLenCompressed : ℕ := 33

/-- `ValidatorInfo` (validatorinfo.go:12-21), keyed by owner. `node` is `Address()`
(validatorinfo.go:66-71), i.e. the address of the stored public key. -/
structure VInfo where
  node : Addr
  grade : Grade
  name : String
  url : String
deriving DecidableEq, Repr

/-- `ValidatorStatus` (validatorstatus.go:13-19); the flag word is its two bits. -/
structure VStatus where
  disabled : Bool := false
  disqualified : Bool := false
  nonVotes : ℕ := 0
  enabledCount : ℕ := 0
deriving DecidableEq, Repr

/-- `Enabled` (validatorstatus.go:80-82): no flag set. -/
def VStatus.enabled (v : VStatus) : Bool := !v.disabled && !v.disqualified

/-- `NetworkStatus` (networkstatus.go:17-23). -/
structure NetStatus where
  decentralized : Bool := false
  period : ℤ := 0
  allowance : ℤ := 0
  count : ℤ := 0
deriving DecidableEq, Repr

/-- The state read and written by the validator functions. -/
structure St where
  /-- `DictValidatorInfo` -/
  info : Addr → Option VInfo
  /-- `DictValidatorStatus` -/
  status : Addr → Option VStatus
  /-- `DictNodeToOwner` -/
  nodeOwner : Addr → Option Addr
  /-- `ArrayMainValidators` -/
  main : List Addr
  /-- `ArraySubValidators` -/
  sub : List Addr
  /-- `ArrayDisqualifiedValidators` -/
  disq : List Addr
  /-- `VarSubValidatorsIndex` -/
  svIndex : ℕ
  /-- `GetBlockVoteCheckPeriod` (state.go:816-822) -/
  period : ℤ
  /-- `GetNonVoteAllowance` (state.go:824-830) -/
  allowance : ℤ
  /-- `GetActiveValidatorCount` (state.go:1299-1302) -/
  count : ℤ
  /-- `VarNetworkStatus` -/
  net : NetStatus
  /-- `cc.GetValidatorState()`: node addresses of the consensus validators, in order. -/
  active : List Addr

/-- What is fixed for a chain: the governance contract and public-key parsing. -/
structure Config where
  gov : Addr
  /-- `crypto.ParsePublicKey` then `common.NewAccountAddressFromPublicKey`. -/
  parse : List UInt8 → Option Addr

abbrev M := Except VErr

/-! ### `ValidatorState` — service/state/validatorlist.go -/

/-- `IndexOf` (validatorlist.go:102-136); `-1` is `none`. The lazily built address map is
not modelled. -/
def indexOf (l : List Addr) (a : Addr) : Option ℕ :=
  if a ∈ l then some (l.idxOf a) else none

/-- `Set` (validatorlist.go:262-279): fails on duplicates unless the list is unchanged. -/
def vsSet (old new : List Addr) : M (List Addr) :=
  if old = new then .ok old
  else if new.Nodup then .ok new
  else .error .illegalArgument

/-- `SetAt` (validatorlist.go:328-349). -/
def vsSetAt (l : List Addr) (i : ℕ) (a : Addr) : M (List Addr) :=
  match l[i]? with
  | none => .error .illegalArgument
  | some o =>
    if o = a then .ok l
    else if a ∈ l then .error .illegalArgument
    else .ok (l.set i a)

/-- `Add` (validatorlist.go:281-297). -/
def vsAdd (l : List Addr) (a : Addr) : List Addr := if a ∈ l then l else l ++ [a]

/-- `Remove` (validatorlist.go:299-311). -/
def vsRemove (l : List Addr) (a : Addr) : List Addr := l.erase a

/-! ### Status — validatorstatus.go -/

/-- `Enable` with `enableByGov`, `enableByOwner`, `enable` (validatorstatus.go:42-74). -/
def VStatus.enable (v : VStatus) (byGov : Bool) : M VStatus :=
  if v.disqualified then .error .accessDenied
  else if v.enabled then .ok v
  else
    let en : VStatus :=
      if v.disabled then { v with enabledCount := v.enabledCount + 1, disabled := false } else v
    if byGov then .ok { en with enabledCount := 0 }
    else if v.enabledCount ≥ maxEnableCount then .error .accessDenied
    else .ok en

/-! ### Registry — state.go:832-1000 -/

/-- `getValidatorInfo` (state.go:1162-1169). -/
def getInfo (s : St) (o : Addr) : M VInfo :=
  match s.info o with
  | none => .error .notFound
  | some v => .ok v

/-- `getValidatorStatus` (state.go:1176-1183). -/
def getStatus (s : St) (o : Addr) : M VStatus :=
  match s.status o with
  | none => .error .notFound
  | some v => .ok v

/-- `GetOwnerByNode` / `getOwnerByNode` (state.go:900-913). -/
def getOwnerByNode (s : St) (n : Addr) : M Addr :=
  match s.nodeOwner n with
  | none => .error .notFound
  | some v => .ok v

/-- `addNodeToOwnerMap` (state.go:888-898). -/
def addNodeToOwner (s : St) (node owner : Addr) : M St :=
  match s.nodeOwner node with
  | some _ => .error .duplicate
  | none => .ok { s with nodeOwner := Function.update s.nodeOwner node (some owner) }

/-- `addToValidatorList` (state.go:915-925). -/
def addToList (s : St) (g : Grade) (owner : Addr) : St :=
  match g with
  | .main => { s with main := s.main ++ [owner] }
  | .sub => { s with sub := s.sub ++ [owner] }

/-- `registerValidatorInfo` + `registerValidatorStatus` + `State.RegisterValidator`
(state.go:832-886). -/
def stRegister (s : St) (owner node : Addr) (g : Grade) (name url : String) : M St :=
  match s.info owner with
  | some _ => .error .duplicate
  | none =>
    match s.status owner with
    | some _ => .error .duplicate
    | none => do
      let s1 := { s with
        info := Function.update s.info owner (some ⟨node, g, name, url⟩)
        status := Function.update s.status owner (some {}) }
      let s2 ← addNodeToOwner s1 node owner
      .ok (addToList s2 g owner)

/-- The list part of `removeFromValidatorList` (state.go:936-957): pop the last entry; if it
is not the one to remove, overwrite the first entry to remove by it. -/
def removeFromArray (l : List Addr) (owner : Addr) : M (List Addr) :=
  match l.getLast? with
  | none => .error .notFound
  | some last =>
    if owner = last then .ok l.dropLast
    else if owner ∈ l.dropLast then .ok (l.dropLast.set (l.dropLast.idxOf owner) last)
    else .error .notFound

/-- `removeFromValidatorList` (state.go:927-958). -/
def removeFromList (s : St) (g : Grade) (owner : Addr) : M St :=
  match g with
  | .main => do let l ← removeFromArray s.main owner; .ok { s with main := l }
  | .sub => do let l ← removeFromArray s.sub owner; .ok { s with sub := l }

/-- `State.UnregisterValidator` (state.go:977-1017): the node address, or none if the
validator was unregistered before. -/
def stUnregister (s : St) (owner : Addr) : M (St × Option Addr) :=
  if owner.contract then .error .invalidParameter
  else do
    let st ← getStatus s owner
    if st.disqualified then .ok (s, none)
    else
      let s1 := { s with
        status := Function.update s.status owner (some { st with disqualified := true }) }
      let vi ← getInfo s1 owner
      let s2 ← removeFromList s1 vi.grade owner
      .ok ({ s2 with disq := s2.disq ++ [owner] }, some vi.node)

/-- `State.SetNodePublicKey` (state.go:1125-1155); the key is already parsed to `newNode`. -/
def stSetNodePublicKey (s : St) (owner newNode : Addr) : M (St × Addr × Addr) := do
  let vi ← getInfo s owner
  let st ← getStatus s owner
  if st.disqualified then .error .illegalArgument
  else if vi.node = newNode then .ok (s, vi.node, newNode)
  else
    let s1 ← addNodeToOwner s newNode owner
    .ok ({ s1 with info := Function.update s1.info owner (some { vi with node := newNode }) },
      vi.node, newNode)

/-- `State.EnableValidator` (state.go:1186-1197). -/
def stEnable (s : St) (owner : Addr) (byGov : Bool) : M St := do
  let st ← getStatus s owner
  let st1 ← st.enable byGov
  .ok { s with status := Function.update s.status owner (some { st1 with nonVotes := 0 }) }

/-- One entry of `State.SetValidatorInfo` (state.go:1104-1117). -/
def setInfoEntry (vi : VInfo) (kv : String × String) : M VInfo :=
  if kv.1 = "name" then
    if kv.2.utf8ByteSize > maxValidatorNameLen then .error .invalidParameter
    else .ok { vi with name := kv.2 }
  else if kv.1 = "url" then
    if kv.2.utf8ByteSize > maxValidatorUrlLen then .error .invalidParameter
    else .ok { vi with url := kv.2 }
  else .error .invalidParameter

/-- `State.SetValidatorInfo` (state.go:1095-1122). Go iterates a map; all entries have
different keys, so only the choice of the error depends on the order. -/
def stSetInfo (s : St) (owner : Addr) (values : List (String × String)) : M St := do
  let vi ← getInfo s owner
  let vi' ← values.foldlM setInfoEntry vi
  .ok { s with info := Function.update s.info owner (some vi') }

/-- `State.SetBlockVoteCheckParameters` (state.go:800-814). -/
def stSetParams (s : St) (period allowance : ℤ) : M St :=
  if period < 0 then .error .invalidParameter
  else if allowance < 0 then .error .invalidParameter
  else .ok { s with period := period, allowance := allowance }

/-! ### Active set — state.go:1215-1440, decentralization.go -/

/-- `GetMainValidators` loop (state.go:1230-1250); `k` places left. -/
def mainNodes (s : St) (hasKey : Addr → Bool) : List Addr → ℕ → M (List Addr)
  | [], _ => .ok []
  | _, 0 => .ok []
  | o :: rest, k + 1 =>
    match s.info o with
    | none => .error .invalidState
    | some vi =>
      if hasKey vi.node then do
        let r ← mainNodes s hasKey rest k
        .ok (vi.node :: r)
      else mainNodes s hasKey rest (k + 1)

/-- `GetMainValidators` (state.go:1215-1254). -/
def getMainValidators (s : St) (hasKey : Addr → Bool) (count : ℤ) : M (List Addr) :=
  if count < 0 then .error .invalidParameter
  else mainNodes s hasKey s.main count.toNat

/-- Loop of `GetNextActiveValidatorsAndChangeIndex` (state.go:1381-1401). Result: nodes found,
next index, and whether the Go variable `err` is set after the loop. -/
def scan (s : St) (hasKey isActive : Addr → Bool) (count : ℕ) :
    ℕ → ℕ → List Addr → Bool → M (List Addr × ℕ × Bool)
  | 0, idx, acc, err => .ok (acc, idx, err)
  | fuel + 1, idx, acc, err =>
    if acc.length < count then
      match s.sub[idx]? with
      | none => .error .invalidState
      | some o =>
        match s.info o with
        | none => .error .notFound
        | some vi =>
          let next := (idx + 1) % s.sub.length
          if isActive vi.node then scan s hasKey isActive count fuel next acc false
          else
            match s.status o with
            | none => scan s hasKey isActive count fuel next acc true
            | some st =>
              if st.enabled then
                if hasKey vi.node then
                  scan s hasKey isActive count fuel next (acc ++ [vi.node]) false
                else scan s hasKey isActive count fuel next acc true
              else scan s hasKey isActive count fuel next acc false
    else .ok (acc, idx, err)

/-- `GetNextActiveValidatorsAndChangeIndex` (state.go:1345-1409). `isActive` is
`activeValidators.IndexOf(node) >= 0`, constantly false for a nil validator state. When the
index has changed, storing it overwrites the variable `err`. -/
def getNextActive (s : St) (hasKey isActive : Addr → Bool) (count : ℤ) : M (St × List Addr) :=
  if count < 0 then .error .invalidParameter
  else if count = 0 then .ok (s, [])
  else
    let size := s.sub.length
    if size = 0 then .ok (s, [])
    else do
      let start := if s.svIndex ≥ size then 0 else s.svIndex
      let (nodes, idx, err) ← scan s hasKey isActive (min count.toNat size) size start [] false
      if s.svIndex ≠ idx then .ok ({ s with svIndex := idx }, nodes)
      else if err then .error .btp
      else .ok (s, nodes)

/-- The event-log part of `initActiveValidatorSet` (decentralization.go:39-80): every node that
enters or leaves the active set must have an owner. -/
def changedHaveOwner (s : St) (new : List Addr) : Bool :=
  (s.active.all fun n => decide (n ∈ new) || (s.nodeOwner n).isSome) &&
    (new.all fun n => decide (n ∈ s.active) || (s.nodeOwner n).isSome)

/-- `initActiveValidatorSet` (decentralization.go:12-90), not in read-only mode.
`new` has no repetition whenever this is reached, so the `num` counters of the Go map are
`0` exactly for the nodes in both lists. -/
def initActive (s : St) (hasKey : Addr → Bool) : M St := do
  let nodes ← getMainValidators s hasKey s.count
  let (s1, subs) ←
    (if s.count - nodes.length > 0 then
      getNextActive s hasKey (fun _ => false) (s.count - nodes.length)
    else .ok (s, []))
  let new := nodes ++ subs
  if changedHaveOwner s1 new then do
    let a ← vsSet s1.active new
    .ok { s1 with active := a }
  else .error .notFound

/-- The outcome of a vote for one validator (state.go:1322-1341): new status and whether it
is penalised. -/
def voteStatus (st : VStatus) (g : Grade) (allowance : ℤ) (vote : Bool) : VStatus × Bool :=
  let st1 : VStatus :=
    if vote then { st with nonVotes := 0 } else { st with nonVotes := st.nonVotes + 1 }
  if g ≠ .main ∧ (st1.nonVotes : ℤ) > allowance then ({ st1 with disabled := true }, true)
  else (st1, false)

/-- `OnBlockVote` (state.go:1305-1343): `none` when it returns an error; otherwise the new
state, whether the validator is penalised, and its owner. -/
def onBlockVote (s : St) (node : Addr) (vote : Bool) : Option (St × Bool × Addr) :=
  match s.nodeOwner node with
  | none => none
  | some o =>
    match s.info o with
    | none => none
    | some vi =>
      match s.status o with
      | none => none
      | some st =>
        if st.enabled then
          let r := voteStatus st vi.grade s.net.allowance vote
          some ({ s with status := Function.update s.status o (some r.1) }, r.2, o)
        else some (s, false, o)

/-- The vote loop of `handleBlockVote` (decentralization.go:113-124): the state and the
penalised voters (node addresses, in order). -/
def checkVotes (s : St) : List (Addr × Bool) → St × List Addr
  | [] => (s, [])
  | (node, vote) :: rest =>
    match onBlockVote s node vote with
    | none => checkVotes s rest
    | some (s1, pen, _) =>
      let r := checkVotes s1 rest
      (r.1, if pen then node :: r.2 else r.2)

/-- The map `m` built by `replacePenalizedActiveValidators` (decentralization.go:143-150) as
an association list from index to penalised node, in order of insertion. -/
def penalizedMap (active : List Addr) (pen : List Addr) : List (ℕ × Addr) :=
  pen.foldl (fun m n =>
    match indexOf active n with
    | none => m
    | some i => m.filter (fun e => e.1 ≠ i) ++ [(i, n)]) []

/-- The replacement loop (decentralization.go:163-189) over the map entries in iteration
order; `adds` are the validators still to be added. -/
def replaceLoop (s : St) : List (ℕ × Addr) → List Addr → List Addr → M (List Addr)
  | [], _, active => .ok active
  | (i, _) :: rest, a :: adds, active => do
    let _ ← getOwnerByNode s a
    let active1 ← vsSetAt active i a
    replaceLoop s rest adds active1
  | (_, n) :: rest, [], active => replaceLoop s rest [] (vsRemove active n)

/-- An order in which Go may iterate over a map: some permutation of its entries. -/
structure IterOrder where
  ord : List (ℕ × Addr) → List (ℕ × Addr)
  perm : ∀ l, (ord l).Perm l

/-- `replacePenalizedActiveValidators` (decentralization.go:138-195). -/
def replacePenalized (s : St) (hasKey : Addr → Bool) (io : IterOrder) (pen : List Addr) :
    M St :=
  let m := penalizedMap s.active pen
  if m.length = 0 then .ok s
  else do
    let (s1, adds) ← getNextActive s hasKey (fun n => decide (n ∈ s.active)) m.length
    let a ← replaceLoop s1 (io.ord m) adds s1.active
    .ok { s1 with active := a }

/-- `handleBlockVote` (decentralization.go:98-132), with consensus information present. -/
def handleBlockVote (s : St) (hasKey : Addr → Bool) (io : IterOrder)
    (votes : List (Addr × Bool)) : M St :=
  let r := checkVotes s votes
  if r.2.length = 0 then .ok r.1
  else replacePenalized r.1 hasKey io r.2

/-- `IsDecentralizationPossible` (state.go:1416-1428). -/
def isDecentralizationPossible (s : St) (rev : ℕ) : Bool :=
  decide (revisionDecentralization ≤ rev) && decide (1 ≤ s.count) &&
    decide (s.count ≤ (s.main.length + s.sub.length : ℕ))

/-- `RenewNetworkStatusOnTermStart` (state.go:1053-1093). -/
def renewNetworkStatus (s : St) : M St :=
  if !s.net.decentralized then .ok s
  else if s.net.period ≠ s.period ∧ s.period < 0 then .error .illegalArgument
  else if s.net.allowance ≠ s.allowance ∧ s.allowance < 0 then .error .illegalArgument
  else if s.net.count ≠ s.count ∧ s.count < 1 then .error .illegalArgument
  else .ok { s with
    net := { s.net with period := s.period, allowance := s.allowance, count := s.count } }

/-- `IsItTimeToCheckBlockVote` (utils.go:37-39). -/
def timeToCheck (index period : ℤ) : Bool := decide (period > 0) && decide (index % period = 0)

/-- What a block supplies to the validator part of its base transaction. -/
structure Block where
  rev : ℕ
  /-- `blockIndexInTerm` (base.go:307) -/
  index : ℕ
  /-- `ConsensusInfo`: node addresses of the voters with their votes -/
  votes : List (Addr × Bool)
  /-- `BTPState.CheckPublicKey(node) == nil` -/
  hasKey : Addr → Bool
  /-- iteration order of the map in `replacePenalizedActiveValidators` -/
  order : IterOrder

/-- The term-start part of the base transaction (base.go:332-354). -/
def termStart (s : St) (b : Block) : M St := do
  let s1 : St :=
    if !s.net.decentralized && isDecentralizationPossible s b.rev then
      { s with net := { s.net with decentralized := true } }
    else s
  if s1.net.decentralized then do
    let s2 ← renewNetworkStatus s1
    initActive s2 b.hasKey
  else .ok s1

/-- Validator part of `OnBaseTx` (base.go:311-364). The Go variable `ns` is read *before* the
term-start update, so the check period of the vote check at a term start is the old one. -/
def baseTx (s : St) (b : Block) : M St := do
  let s1 ← (if b.index = 0 then termStart s b else .ok s)
  if s1.net.decentralized && timeToCheck b.index s.net.period then
    handleBlockVote s1 b.hasKey b.order b.votes
  else .ok s1

/-! ### Extension API and entry points — extension.go:595-895, chainscore_havah.go -/

/-- `replaceActiveValidatorAddress` (extension.go:806-829) with a new node. -/
def replaceActiveNode (s : St) (old new : Addr) : M St :=
  if old = new then .ok s
  else
    match indexOf s.active old with
    | none => .ok s
    | some i => do
      let a ← vsSetAt s.active i new
      .ok { s with active := a }

/-- `CheckCompressedPublicKeyFormat` (hvhutils/utils.go:50-57) and parsing. -/
def nodeOfKey (c : Config) (pk : List UInt8) : M Addr :=
  if pk.length = pubKeyLenCompressed then
    match c.parse pk with
    | none => .error .invalidParameter
    | some n => .ok n
  else .error .invalidParameter

/-- Result of the BTP call at the end of an API function: `none` if the revision does not call
it, otherwise whether it succeeds. -/
def btpResult (btp : Option Bool) (s : St) : M St :=
  if btp = some false then .error .btp else .ok s

/-- `Ex_registerValidator` (chainscore_havah.go:387-397) and `RegisterValidator`
(extension.go:612-651). -/
def register (c : Config) (s : St) (frm owner : Addr) (pk : List UInt8) (grade name : String)
    (url : Option String) (btp : Option Bool) : M St :=
  if frm ≠ c.gov then .error .accessDenied
  else do
    let node ← nodeOfKey c pk
    match stringToGrade grade with
    | none => .error .invalidParameter
    | some g =>
      if name.utf8ByteSize > maxValidatorNameLen then .error .invalidParameter
      else if (url.getD "").utf8ByteSize > maxValidatorUrlLen then .error .invalidParameter
      else do
        let s1 ← stRegister s owner node g name (url.getD "")
        btpResult btp s1

/-- `UnregisterValidator` (extension.go:653-690). -/
def unregister (c : Config) (s : St) (frm owner : Addr) : M St :=
  if owner.contract then .error .invalidParameter
  else if frm ≠ c.gov ∧ frm ≠ owner then .error .accessDenied
  else do
    let r ← stUnregister s owner
    match r.2 with
    | none => .ok r.1
    | some node => .ok { r.1 with active := vsRemove r.1.active node }

/-- `SetNodePublicKey` (extension.go:745-776). From revision `BTP2` on, the result of the BTP
call replaces the error of the active-set update. -/
def setNodePublicKey (c : Config) (s : St) (frm : Addr) (pk : List UInt8)
    (btp : Option Bool) : M St :=
  if frm.contract then .error .invalidParameter
  else do
    let node ← nodeOfKey c pk
    let r ← stSetNodePublicKey s frm node
    match replaceActiveNode r.1 r.2.1 r.2.2 with
    | .ok s2 => btpResult btp s2
    | .error e => if btp = none then .error e else btpResult btp r.1

/-- `Ex_setValidatorInfo` (chainscore_havah.go:419-444) and `SetValidatorInfo`
(extension.go:725-743). -/
def setValidatorInfo (s : St) (frm : Addr) (values : List (String × String)) : M St :=
  if ¬ (values.map Prod.fst).Nodup then .error .invalidParameter
  else if frm.contract then .error .invalidParameter
  else if values.length = 0 then .ok s
  else stSetInfo s frm values

/-- `EnableValidator` (extension.go:831-851). -/
def enable (c : Config) (s : St) (frm owner : Addr) : M St :=
  if owner.contract then .error .invalidParameter
  else if frm ≠ c.gov ∧ frm ≠ owner then .error .accessDenied
  else stEnable s owner (decide (frm = c.gov))

/-- `Ex_setBlockVoteCheckParameters` (chainscore_havah.go:364-374). -/
def setParams (c : Config) (s : St) (frm : Addr) (period allowance : ℤ) : M St :=
  if frm ≠ c.gov then .error .accessDenied
  else stSetParams s (int64 period) (int64 allowance)

/-- `Ex_setActiveValidatorCount` (chainscore_havah.go:490-499), `SetActiveValidatorCount`
(extension.go:885-896, state.go:1289-1295). -/
def setCount (c : Config) (s : St) (frm : Addr) (count : ℤ) : M St :=
  if frm ≠ c.gov then .error .accessDenied
  else
    let n := int64 count
    if ¬ (n > 0 ∧ n ≤ maxValidatorCount) then .error .invalidParameter
    else .ok { s with count := n }

/-- `Ex_grantValidator` (chainscore_basic.go:330-364); `member` is the membership check. -/
def grant (c : Config) (s : St) (frm a : Addr) (member : Bool) : M St :=
  if frm ≠ c.gov then .error .accessDenied
  else if a.contract then .error .illegalArgument
  else if !member then .error .illegalArgument
  else .ok { s with active := vsAdd s.active a }

/-- `Ex_revokeValidator` (chainscore_basic.go:366-391). -/
def revoke (c : Config) (s : St) (frm a : Addr) : M St :=
  if frm ≠ c.gov then .error .accessDenied
  else if a.contract then .error .illegalArgument
  else if a ∉ s.active then .error .notFound
  else if (vsRemove s.active a).length = 0 then .error .illegalArgument
  else .ok { s with active := vsRemove s.active a }

/-! ### Histories -/

/-- Everything that changes the validator state. -/
inductive Op
  | register (frm owner : Addr) (pk : List UInt8) (grade name : String) (url : Option String)
      (btp : Option Bool)
  | unregister (frm owner : Addr)
  | setNodePublicKey (frm : Addr) (pk : List UInt8) (btp : Option Bool)
  | setValidatorInfo (frm : Addr) (values : List (String × String))
  | enable (frm owner : Addr)
  | setParams (frm : Addr) (period allowance : ℤ)
  | setCount (frm : Addr) (count : ℤ)
  | grant (frm a : Addr) (member : Bool)
  | revoke (frm a : Addr)
  | block (b : Block)

/-- One transaction. -/
def exec (c : Config) (s : St) : Op → M St
  | .register frm owner pk grade name url btp => register c s frm owner pk grade name url btp
  | .unregister frm owner => unregister c s frm owner
  | .setNodePublicKey frm pk btp => setNodePublicKey c s frm pk btp
  | .setValidatorInfo frm values => setValidatorInfo s frm values
  | .enable frm owner => enable c s frm owner
  | .setParams frm p a => setParams c s frm p a
  | .setCount frm n => setCount c s frm n
  | .grant frm a m => grant c s frm a m
  | .revoke frm a => revoke c s frm a
  | .block b => baseTx s b

/-- A failing transaction leaves the state unchanged (the transaction executor restores the
snapshot; a block whose base transaction fails is not produced). -/
def step (c : Config) (s : St) (op : Op) : St :=
  match exec c s op with
  | .ok s' => s'
  | .error _ => s

/-- A history of transactions. -/
def run (c : Config) (s : St) (ops : List Op) : St := ops.foldl (step c) s

/-- The state at genesis: an arbitrary list of distinct consensus validators
(`chainscore.go:762-775` sets it through `Set`), no registered validator, default parameters. -/
def genesis (validators : List Addr) : St where
  info := fun _ => none
  status := fun _ => none
  nodeOwner := fun _ => none
  main := []
  sub := []
  disq := []
  svIndex := 0
  period := defaultBlockVoteCheckPeriod
  allowance := defaultNonVoteAllowance
  count := 0
  net := {}
  active := validators

/-- States after some history from some genesis. -/
def Reachable (c : Config) (s : St) : Prop :=
  ∃ vals ops, vals.Nodup ∧ s = run c (genesis vals) ops

end Verif.Havah.Val
