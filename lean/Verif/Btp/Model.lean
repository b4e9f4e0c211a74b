import Verif.Base.Bytes
import Mathlib.Data.Nat.Bitwise

/-!
# BTP networks (C73)

Models `service/state/btp.go` (`BTPStateImpl`), `btp/builder.go` and `btp/sectionbybuilder.go` (sections of a block), `btp/proofcontextmap.go` (`Update`, `NewProofContextMap`), the calls of
`havah/chainscore_btp.go` and their place in the execution of a block (`service/transition.go:735-815`).  Failed calls are undone (C65); transactions run one after the other (C61).
-/

namespace Verif.Btp

open Verif

/-- Addresses, names, ids of modules and of algorithms: strings of bytes. -/
abbrev Addr := Bytes

/-- The content of a proof context (`secp256k1ProofContext.Validators`): addresses of the network type, `none` where a validator has no key.  Its bytes and its hash are functions of it. -/
abbrev Ctx := List (Option Bytes)

/-- What is hashed as a network section (`sectionbybuilder.go:372-378`). -/
structure Format where
  nid : ℕ
  updateNumber : ℤ
  prev : Option Bytes
  count : ℕ
  root : Option Bytes

/-- The modules of the node (`btp/ntm`).  `dsaOf`: the algorithm of a network type, `none` if the type is not known (`ntm.ForUID`); `known`: `DSAModuleForName`; `typeKey`: `NetworkTypeKeyFromDSAKey`;
`addrOf`: `AddressFromPubKey`; `keyHash`: SHA3-256; `nsHash`: the hash of a network section; `root`: Merkle root of the hashes of messages (C72). -/
structure Env where
  dsaOf : Bytes → Option Bytes
  known : Bytes → Bool
  canon : Bytes → Bytes → Option Bytes
  typeKey : Bytes → Bytes → Option Bytes
  addrOf : Bytes → Bytes → Option Bytes
  keyHash : Bytes → Bytes
  nsHash : Bytes → Format → Bytes
  root : Bytes → List Bytes → Option Bytes

/-- `networkType` (`btp.go:857-862`); `NextProofContextHash` is left out, it is the hash of `ctx`. -/
structure NT where
  uid : Bytes
  ctx : Option Ctx
  opened : List ℕ
deriving DecidableEq

/-- `network` (`btp.go:958-968`). -/
structure NW where
  startHeight : ℕ
  name : Bytes
  owner : Option Addr
  ntid : ℕ
  isOpen : Bool
  sn : ℕ
  changed : Bool
  prev : Option Bytes
  last : Option Bytes
deriving DecidableEq

/-- The variables in the system account (`btp.go:39-51`); 0 is no network type.  Masks are natural numbers, in the code they have 64 bits (one algorithm is known). -/
structure Store where
  ntCount : ℕ
  ntIdOf : Bytes → ℕ
  active : List ℕ
  nts : ℕ → Option NT
  nwCount : ℕ
  nws : ℕ → Option NW
  keys : Addr → Bytes → Option Bytes
  keyOwner : Bytes → Option Addr
  keyMask : Addr → ℕ
  dsas : List Bytes
  dsaMask : ℕ

/-- The state during a block: `BTPStateImpl` (`btp.go:234-253, 320-323`) with the validators at the beginning, the variables, the validators, and the messages that were sent, each with the number that
`BTPMessage` reports (`chainscore_btp.go:100-112`).  `odd` is for the specification only: a network type was made while the validators were not those of the beginning. -/
structure World where
  s : Store
  start : List Addr
  keyChanged : Addr → List ℕ
  pc : ℕ → Bool
  inact : ℕ → Bool
  nwMod : ℕ → Bool
  validators : List Addr
  height : ℕ
  msgs : List (ℕ × ℕ × Bytes)
  odd : Bool

/-- Update of a function. -/
def put {α β : Type} [DecidableEq α] (f : α → β) (k : α) (v : β) : α → β := fun x => if x = k then v else f x

/-- `getPubKeysOfValidators` (`btp.go:420-439`). -/
def keysOf (E : Env) (s : Store) (vs : List Addr) (uid dsa : Bytes) : List (Option Bytes) :=
  vs.map fun v => (s.keys v dsa).bind (E.typeKey uid)

/-- `NewProofContext` (`btp/ntm/secp256k1proof.go:96-118`). -/
def newCtx (E : Env) (uid : Bytes) : List (Option Bytes) → Option Ctx
  | [] => some []
  | none :: r => (newCtx E uid r).map (none :: ·)
  | some k :: r =>
    match E.addrOf uid k with
    | none => none
    | some a => (newCtx E uid r).map (some a :: ·)

/-- `GetDSAIndex` (`btp.go:167-175`). -/
def dsaIdx (s : Store) (dsa : Bytes) : Option ℕ := s.dsas.findIdx? (· == dsa)

/-- `OpenNetwork` once the network type is there (`btp.go:495-519`), with `NewNetwork` (`:1088-1097`). -/
def addNet (w : World) (k : ℕ) (nt : NT) (name : Bytes) (owner : Option Addr) : World :=
  { w with
    s := { w.s with
      nwCount := w.s.nwCount + 1
      nws := put w.s.nws (w.s.nwCount + 1) (some ⟨w.height, name, owner, k, true, 0, true, none, none⟩)
      nts := put w.s.nts k (some { nt with opened := nt.opened ++ [w.s.nwCount + 1] }) }
    nwMod := put w.nwMod (w.s.nwCount + 1) true
    inact := put w.inact k false }

/-- `OpenNetwork` (`btp.go:441-520`); `none`: it fails. -/
def openNet (E : Env) (w : World) (uid name : Bytes) (owner : Option Addr) : Option World :=
  match E.dsaOf uid with
  | none => none
  | some dsa =>
    if w.s.ntIdOf uid = 0 then
      match dsaIdx w.s dsa with
      | none => none
      | some i =>
        if (keysOf E w.s w.validators uid dsa).all Option.isSome then
          match newCtx E uid (keysOf E w.s w.validators uid dsa) with
          | none => none
          | some c =>
            some (addNet { w with
              s := { w.s with
                ntCount := w.s.ntCount + 1
                ntIdOf := put w.s.ntIdOf uid (w.s.ntCount + 1)
                active := w.s.active ++ [w.s.ntCount + 1]
                dsaMask := w.s.dsaMask ||| 2 ^ i }
              odd := w.odd || decide (w.validators ≠ w.start) } (w.s.ntCount + 1) ⟨uid, some c, []⟩ name owner)
        else none
    else
      match w.s.nts (w.s.ntIdOf uid) with
      | none => none
      | some nt =>
        some (addNet (if nt.opened = [] then { w with pc := put w.pc (w.s.ntIdOf uid) true } else w) (w.s.ntIdOf uid) nt name owner)

/-- `CloseNetwork` (`btp.go:522-553`). -/
def closeNet (w : World) (nid : ℕ) : Option World :=
  match w.s.nws nid with
  | none => none
  | some nw =>
    match w.s.nts nw.ntid with
    | none => none
    | some nt =>
      if nid ∈ nt.opened then
        let w1 := { w with
          s := { w.s with
            nws := put w.s.nws nid (some { nw with isOpen := false })
            nts := put w.s.nts nw.ntid (some { nt with opened := nt.opened.erase nid }) } }
        some (if nt.opened.erase nid = [] then { w1 with inact := put w1.inact nw.ntid true } else w1)
      else none

/-- `sendBTPMessage` (`chainscore_btp.go:88-115`), `HandleMessage` (`btp.go:555-577`). -/
def send (w : World) (sender : Addr) (nid : ℕ) (msg : Bytes) : Option World :=
  if msg = [] then none
  else
    match w.s.nws nid with
    | none => none
    | some nw =>
      if nw.isOpen then
        if nw.owner = some sender then
          some { w with
            s := { w.s with nws := put w.s.nws nid (some { nw with sn := nw.sn + 1 }) }
            nwMod := put w.nwMod nid true
            msgs := w.msgs ++ [(nid, nw.sn, msg)] }
        else none
      else none

/-- The loop at the end of `SetPublicKey` (`btp.go:647-664`) over the modules, in the order of the map. -/
def noteKey (E : Env) (a : Addr) (dsa : Bytes) : List Bytes → World → Option World
  | [], w => some w
  | uid :: r, w =>
    if E.dsaOf uid = some dsa then
      if w.s.ntIdOf uid = 0 then noteKey E a dsa r w
      else
        match w.s.nts (w.s.ntIdOf uid) with
        | none => none
        | some nt =>
          if nt.opened = [] then noteKey E a dsa r w
          else noteKey E a dsa r { w with keyChanged := put w.keyChanged a (w.keyChanged a ++ [w.s.ntIdOf uid]) }
    else noteKey E a dsa r w

/-- The part of `SetPublicKey` that deletes the owner of the old key (`btp.go:614-618`). -/
def dropOwner (E : Env) (s : Store) (old : Option Bytes) : Store :=
  match old with
  | none => s
  | some o => { s with keyOwner := put s.keyOwner (E.keyHash o) none }

/-- The bit of a key is cleared (`btp.go:623-627`). -/
def dropBit (mask : Addr → ℕ) (a : Addr) : Option ℕ → Addr → ℕ
  | none => mask
  | some i => put mask a (Nat.ldiff (mask a) (2 ^ i))

/-- The part that removes a key (`btp.go:619-627`). -/
def dropKey (s : Store) (a : Addr) (dsa : Bytes) : Store :=
  { s with
    keys := put s.keys a (put (s.keys a) dsa none)
    keyMask := dropBit s.keyMask a (dsaIdx s dsa) }

/-- The part that stores a key (`btp.go:628-645`). -/
def addKey (E : Env) (s : Store) (a : Addr) (dsa key : Bytes) : Store :=
  { s with
    keys := put s.keys a (put (s.keys a) dsa (some key))
    keyOwner := put s.keyOwner (E.keyHash key) (some a)
    dsas := if (dsaIdx s dsa).isSome then s.dsas else s.dsas ++ [dsa]
    keyMask := put s.keyMask a (s.keyMask a ||| 2 ^ ((dsaIdx s dsa).getD s.dsas.length)) }

/-- `SetPublicKey` (`btp.go:579-667`); an empty key removes the key. -/
def setKey (E : Env) (w : World) (a : Addr) (dsa key : Bytes) (mods : List Bytes) : Option World :=
  if E.known dsa then
    if key = [] then
      noteKey E a dsa mods { w with s := dropKey (dropOwner E w.s (w.s.keys a dsa)) a dsa }
    else
      match E.canon dsa key with
      | none => none
      | some k =>
        if w.s.keyOwner (E.keyHash k) = none ∨ w.s.keyOwner (E.keyHash k) = some a then
          if w.s.keys a dsa = some k then some w
          else noteKey E a dsa mods { w with s := addKey E (dropOwner E w.s (w.s.keys a dsa)) a dsa k }
        else none
  else none

/-- `CheckPublicKey` (`btp.go:669-676`): whether the address may become a validator. -/
def checkKey (s : Store) (a : Addr) : Bool := decide (s.keyMask a &&& s.dsaMask = s.dsaMask)

/-- Calls.  Who may open and close networks and set keys is checked before (governance, the validator); the change of validators is that of the HAVAH extension. -/
inductive Call
  | openNet (uid name : Bytes) (owner : Option Addr)
  | closeNet (nid : ℕ)
  | send (sender : Addr) (nid : ℕ) (msg : Bytes)
  | setKey (a : Addr) (dsa key : Bytes) (mods : List Bytes)
  | setValidators (vs : List Addr)
  /-- a call or a transaction that makes calls; if it fails, all is undone -/
  | frame (ok : Bool) (inner : List Call)

mutual

/-- One call. -/
def exec (E : Env) (w : World) : Call → World
  | .openNet uid name owner => (openNet E w uid name owner).getD w
  | .closeNet nid => (closeNet w nid).getD w
  | .send sender nid msg => (send w sender nid msg).getD w
  | .setKey a dsa key mods => (setKey E w a dsa key mods).getD w
  | .setValidators vs => { w with validators := vs }
  | .frame ok inner => if ok then execs E w inner else w

/-- Calls one after the other. -/
def execs (E : Env) (w : World) : List Call → World
  | [] => w
  | c :: cs => execs E (exec E w c) cs

end

/-! ## The end of a block -/

/-- `checkAndApplyValidatorChange` (`btp.go:769-798`): the network types whose validators or keys have changed. -/
def changedTypes (w : World) : List ℕ :=
  if w.start = w.validators then w.start.flatMap w.keyChanged else w.s.active

/-- The loop over them (`btp.go:787-796`). -/
def markTypes (w : World) : List ℕ → Option World
  | [] => some w
  | k :: r =>
    match w.s.nts k with
    | none => none
    | some nt => markTypes { w with pc := put w.pc k true, nwMod := fun n => if n ∈ nt.opened then true else w.nwMod n } r

/-- `updateNetworkType` (`btp.go:696-720`). -/
def updateNt (E : Env) (w : World) (k : ℕ) : Option World :=
  match w.s.nts k with
  | none => none
  | some nt =>
    if nt.opened = [] then some { w with s := { w.s with nts := put w.s.nts k (some { nt with ctx := none }) } }
    else
      match E.dsaOf nt.uid with
      | none => none
      | some dsa =>
        match newCtx E nt.uid (keysOf E w.s w.validators nt.uid dsa) with
        | none => none
        | some c => some { w with s := { w.s with nts := put w.s.nts k (some { nt with ctx := some c }) } }

/-- The first loop of `update` (`btp.go:679-686`), in the order `l` of the map. -/
def updateNts (E : Env) (w : World) : List ℕ → Option World
  | [] => some w
  | k :: r => if w.pc k || w.inact k then (updateNt E w k).bind fun w1 => updateNts E w1 r else updateNts E w r

/-- `updateNetwork` (`btp.go:722-736`). -/
def updateNw (w : World) (nid : ℕ) : Option World :=
  match w.s.nws nid with
  | none => none
  | some nw =>
    some { w with s := { w.s with nws := put w.s.nws nid (some { nw with changed := decide (nw.last = none) || w.pc nw.ntid || w.inact nw.ntid }) } }

/-- The second loop of `update` (`btp.go:688-693`). -/
def updateNws (w : World) : List ℕ → Option World
  | [] => some w
  | n :: r => (updateNw w n).bind fun w1 => updateNws w1 r

/-- `networkSectionByBuilder` (`sectionbybuilder.go:332-342`). -/
structure NS where
  nid : ℕ
  updateNumber : ℤ
  prev : Option Bytes
  messages : List Bytes
deriving DecidableEq

/-- `FirstMessageSN` (`sectionbybuilder.go:397-399`). -/
def NS.first (n : NS) : ℤ := n.updateNumber / 2

/-- `NextProofContextChanged` (`sectionbybuilder.go:401-403`). -/
def NS.changed (n : NS) : Bool := decide (n.updateNumber % 2 ≠ 0)

/-- The hash of a network section (`sectionbybuilder.go:364-369`). -/
def NS.hash (E : Env) (uid : Bytes) (n : NS) : Bytes := E.nsHash uid ⟨n.nid, n.updateNumber, n.prev, n.messages.length, E.root uid n.messages⟩

/-- `networkTypeSectionByBuilder` (`sectionbybuilder.go:134-145`). -/
structure NTS where
  ntid : ℕ
  uid : Bytes
  ctx : Option Ctx
  sections : List NS
  changed : Bool
deriving DecidableEq

/-- `btpSectionByBuilder` (`sectionbybuilder.go:29-34`). -/
structure Section where
  types : List NTS
  inactivated : List ℕ
deriving DecidableEq

/-- `SortedInsert` (`builder.go:118-130, 152-164`): `sort.Search` finds the first place where the id is not smaller. -/
def sortedInsert {α : Type} (id : α → ℕ) (l : List α) (x : α) : List α :=
  l.takeWhile (fun y => decide (id y < id x)) ++ x :: l.dropWhile (fun y => decide (id y < id x))

/-- The messages for a network (`builder.go:54-61`). -/
def messagesOf (msgs : List (ℕ × ℕ × Bytes)) (nid : ℕ) : List Bytes := (msgs.filter fun m => m.1 == nid).map fun m => m.2.2

/-- `newNetworkSection` (`sectionbybuilder.go:343-370`). -/
def newNS (nid : ℕ) (nw : NW) (ms : List Bytes) : NS :=
  ⟨nid, ((nw.sn : ℤ) - ms.length) * 2 + (if nw.changed then 1 else 0), nw.last, ms⟩

/-- The sections by network type, and whether a proof context changes (`builder.go:75-76`). -/
structure Acc where
  map : ℕ → List NS
  changed : ℕ → Bool

/-- The first loop of `Build` (`builder.go:77-92`). -/
def collect (w : World) : List ℕ → Acc → Option Acc
  | [], a => some a
  | n :: r, a =>
    match w.s.nws n with
    | none => none
    | some nw =>
      match w.s.nts nw.ntid with
      | none => none
      | some _ =>
        collect w r
          ⟨put a.map nw.ntid (sortedInsert NS.nid (a.map nw.ntid) (newNS n nw (messagesOf w.msgs n))),
            if (newNS n nw (messagesOf w.msgs n)).changed then put a.changed nw.ntid true else a.changed⟩

/-- The second loop of `Build` (`builder.go:93-105`). -/
def collectTypes (w : World) (a : Acc) : List ℕ → List NTS → Option (List NTS)
  | [], l => some l
  | k :: r, l =>
    match w.s.nts k with
    | none => none
    | some nt => collectTypes w a r (sortedInsert NTS.ntid l ⟨k, nt.uid, nt.ctx, a.map k, a.changed k⟩)

/-- `NetworkSectionFor` (`sectionbybuilder.go:249-255`), `Search` (`builder.go:166-174`). -/
def sectionFor (nts : NTS) (nid : ℕ) : Option NS := nts.sections.find? fun n => n.nid == nid

/-- `applyNetwork` (`btp.go:757-767`). -/
def applyNw (E : Env) (nts : NTS) (w : World) (nid : ℕ) : World :=
  match sectionFor nts nid with
  | none => w
  | some n =>
    match w.s.nws nid with
    | none => w
    | some nw => { w with s := { w.s with nws := put w.s.nws nid (some { nw with prev := nw.last, last := some (n.hash E nts.uid) }) } }

/-- `applyBTPSection` (`btp.go:738-755`). -/
def applySection (E : Env) (ordApply : ℕ → List ℕ) (w : World) (types : List NTS) : World :=
  types.foldl (fun w nts => (ordApply nts.ntid).foldl (applyNw E nts) w) w

/-- The orders in which the maps are walked. -/
structure Order where
  ntsUpdate : List ℕ
  ntsInact : List ℕ
  nws : List ℕ
  entries : List ℕ
  types : List ℕ
  appl : ℕ → List ℕ

/-- The marks of validators and keys that changed, and what is derived from them in the state; `BuildAndApplySection` up to `Build` (`btp.go:800-822`). -/
def prepare (E : Env) (o : Order) (w : World) : Option World :=
  (markTypes w (changedTypes w)).bind fun w1 => (updateNts E w1 o.ntsUpdate).bind fun w2 => updateNws w2 o.nws

/-- `BuildAndApplySection` (`btp.go:800-834`). -/
def finish (E : Env) (o : Order) (w : World) : Option (World × Section) :=
  (prepare E o w).bind fun w1 =>
    (collect w1 o.entries ⟨fun _ => [], fun _ => false⟩).bind fun a =>
      (collectTypes w1 a o.types []).bind fun l =>
        some (applySection E o.appl w1 l, ⟨l, o.ntsInact.filter w1.inact⟩)

/-! ## Proof contexts -/

/-- `proofContextMap.Update` with the section of the block (`proofcontextmap.go:53-81`). -/
def updateMap (m : ℕ → Option (Option Ctx)) (sec : Section) : ℕ → Option (Option Ctx) :=
  sec.inactivated.foldl (fun m k => put m k none) (sec.types.foldl (fun m nts => if nts.changed then put m nts.ntid (some nts.ctx) else m) m)

/-- One step of `NewProofContextMap` (`proofcontextmap.go:147-162`). -/
def addCtx (s : Store) (m : ℕ → Option (Option Ctx)) (k : ℕ) : ℕ → Option (Option Ctx) :=
  match s.nts k with
  | none => m
  | some nt =>
    match nt.ctx with
    | none => m
    | some c => put m k (some (some c))

/-- `NewProofContextMap` (`proofcontextmap.go:139-165`). -/
def mapOf (s : Store) : ℕ → Option (Option Ctx) := s.active.foldl (addCtx s) (fun _ => none)

/-! ## Chains of blocks -/

/-- What a node has between blocks: the state, the validators, and what it keeps of the past: the map of proof contexts and the sections. -/
structure Chain where
  s : Store
  validators : List Addr
  map : ℕ → Option (Option Ctx)
  sections : List Section
  sent : List (ℕ × ℕ × Bytes)

/-- The beginning of a block (`transition.go:735-748`): the marks are empty (`worldstate.go:352-365`). -/
def begin_ (c : Chain) (height : ℕ) : World := ⟨c.s, c.validators, fun _ => [], fun _ => false, fun _ => false, fun _ => false, c.validators, height, [], false⟩

/-- No network. -/
def genesis (vs : List Addr) : Chain :=
  ⟨⟨0, fun _ => 0, [], fun _ => none, 0, fun _ => none, fun _ _ => none, fun _ => none, fun _ => 0, [], 0⟩, vs, fun _ => none, [], []⟩

/-- A block (`transition.go:735-815`). -/
def block (E : Env) (c : Chain) (height : ℕ) (calls : List Call) (o : Order) : Option Chain :=
  (finish E o (execs E (begin_ c height) calls)).map fun p => ⟨p.1.s, p.1.validators, updateMap c.map p.2, c.sections ++ [p.2], c.sent ++ p.1.msgs⟩

end Verif.Btp
