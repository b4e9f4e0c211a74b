import Mathlib.Data.List.Basic
import Mathlib.Data.List.Nodup
import Mathlib.Data.List.Perm.Subperm
import Mathlib.Tactic.SplitIfs

/-!
# Lists of votes

Models `consensus/votelist.go` and the two conversions of `consensus/commitvotelist.go`.

Simplifications: ids, signatures and hashes are numbers; a part of a proof is the index of the validator and the signature
(decoded); the digest of a decision and the address of a signed vote are functions that are given.
-/

namespace Verif.Votes

/-- What is decided (votebase.go:71-75). -/
structure Decision where
  bid : Nat
  bps : Nat
  nts : List (Nat × Nat)
deriving DecidableEq

/-- A `voteBase` (votebase.go:65-69). -/
structure Base where
  typ : Nat
  height : Nat
  round : Nat
  dec : Decision
deriving DecidableEq

/-- A `VoteMessage` (message.go:272-280). -/
structure Vote where
  base : Base
  ts : Int
  sig : Nat
  parts : List (Nat × Nat)
deriving DecidableEq

/-- `voteBase.Equal` (votebase.go:105-110). -/
def Base.eqv (dig : Decision → Nat) (a b : Base) : Bool :=
  decide (a.height = b.height) && decide (a.round = b.round) && decide (a.typ = b.typ) && decide (dig a.dec = dig b.dec)

/-- A `VoteItem` (votelist.go:10-15). -/
structure Item where
  pi : Int
  ts : Int
  sig : Nat
  parts : List (Nat × Nat)

/-- A `VoteList` (votelist.go:17-20). -/
structure VList where
  protos : List Base
  items : List Item

/-- `NewVoteList` (votelist.go:85-87). -/
def VList.empty : VList := ⟨[], []⟩

/-- The conversion `int16(index)`. -/
def toI16 (i : Nat) : Int := (((i + 32768) % 65536 : Nat) : Int) - 32768

/-- `AddVote` (votelist.go:35-54). -/
def VList.add (dig : Decision → Nat) (vl : VList) (m : Vote) : VList :=
  match vl.protos.findIdx? (fun p => p.eqv dig m.base) with
  | some i => { vl with items := vl.items ++ [⟨toI16 i, m.ts, m.sig, m.parts⟩] }
  | none =>
    let ps := vl.protos ++ [m.base]
    { protos := ps, items := vl.items ++ [⟨toI16 (ps.length - 1), m.ts, m.sig, m.parts⟩] }

/-- `Get` (votelist.go:60-68); none: a panic. -/
def VList.get (vl : VList) (i : Nat) : Option Vote :=
  match vl.items[i]? with
  | none => none
  | some it =>
    if it.pi < 0 then none
    else
      match vl.protos[it.pi.toNat]? with
      | none => none
      | some b => some ⟨b, it.ts, it.sig, it.parts⟩

/-- The second loop of `Verify` (votelist.go:77-82), on the indices; none: a panic. -/
def VList.verifyAll (ctx : Vote → Bool) (vl : VList) : List Nat → Option Bool
  | [] => some true
  | i :: is =>
    match vl.get i with
    | none => none
    | some v => if ctx v then vl.verifyAll ctx is else some false

/-- `Verify` (votelist.go:70-83): no error; none: a panic. `ctx`: `Verify` of a vote. -/
def VList.verify (ctx : Vote → Bool) (vl : VList) : Option Bool :=
  if vl.items.all (fun it => decide (0 ≤ it.pi) && decide (it.pi.toNat < vl.protos.length)) then
    vl.verifyAll ctx (List.range vl.items.length)
  else some false

/-- A proof of a network type: the signature of each validator (if it is there). -/
abbrev Proof := List (Option Nat)

/-- A `CommitVoteList` (commitvotelist.go:27-33, 118-121). -/
structure Commit where
  round : Nat
  bps : Nat
  items : List (Int × Nat)
  proves : List Proof

/-- `pc.NewProof`, and `Add` of all parts (commitvotelist.go:302-309): the proof of `n` validators. -/
def mkProof (n : Nat) (qs : List (Nat × Nat)) : Proof := qs.foldl (fun p q => p.set q.1 (some q.2)) (List.replicate n none)

/-- `newCommitVoteList` (commitvotelist.go:263-314) with a context map (the number of validators of a network type); none: an
error or a panic. For no message the round and the id are zero. -/
def newCommit (dig : Decision → Nat) (pcm : Nat → Option Nat) (msgs : List Vote) : Option Commit :=
  match msgs with
  | [] => some ⟨0, 0, [], []⟩
  | m0 :: _ =>
    if msgs.all (fun m : Vote => decide (dig m0.base.dec = dig m.base.dec)) then
      match (List.range m0.base.dec.nts.length).mapM (fun i =>
        match m0.base.dec.nts[i]? with
        | none => none
        | some e =>
          match pcm e.1 with
          | none => none
          | some n =>
            match msgs.mapM (fun m : Vote => m.parts[i]?) with
            | none => none
            | some qs => if qs.all (fun q : Nat × Nat => decide (q.1 < n)) then some (mkProof n qs) else none) with
      | none => none
      | some ps => some ⟨m0.base.round, m0.base.dec.bps, msgs.map (fun m : Vote => (m.ts, m.sig)), ps⟩
    else none

/-- The loop over the network types of `toVoteList` (commitvotelist.go:208-238): the entries and proofs that are used. `keep`: the
network type is there and has a next proof context. -/
def proofLoop (keep : Nat → Bool) (nv : Nat) : List (Nat × Nat) → List Proof → Option (List (Nat × Nat) × List Proof)
  | [], _ => some ([], [])
  | e :: es, ps =>
    if keep e.1 then
      match ps with
      | [] => none
      | p :: ps =>
        if p.length ≠ nv then none
        else
          match proofLoop keep nv es ps with
          | none => none
          | some (b, u) => some (e :: b, p :: u)
    else proofLoop keep nv es ps

/-- The parts of one validator (commitvotelist.go:228-235). -/
def partsOf (ps : List Proof) (v : Nat) : List (Nat × Nat) := ps.filterMap fun p => (p[v]?.join).map fun s => (v, s)

/-- The last loop of `toVoteList` (commitvotelist.go:248-257). -/
def addItems (dig : Decision → Nat) (addr : Base → Int → Nat → Nat) (vals : List Nat) (b : Base) (ps : List Proof) :
    List (Int × Nat) → VList → Option VList
  | [], vl => some vl
  | it :: its, vl =>
    match vals.findIdx? (fun a => decide (a = addr b it.1 it.2)) with
    | none => none
    | some v => addItems dig addr vals b ps its (vl.add dig ⟨b, it.1, it.2, partsOf ps v⟩)

/-- `toVoteList` (commitvotelist.go:188-259): for the block of a height and an id, the validators and the network type entries;
a precommit is type 1. -/
def Commit.toVotes (dig : Decision → Nat) (addr : Base → Int → Nat → Nat) (keep : Nat → Bool) (c : Commit) (height bid : Nat)
    (vals : List Nat) (entries : List (Nat × Nat)) : Option VList :=
  match proofLoop keep vals.length entries c.proves with
  | none => none
  | some (nts, ps) => addItems dig addr vals ⟨1, height, c.round, ⟨bid, c.bps, nts⟩⟩ ps c.items .empty

end Verif.Votes
