import Verif.Consensus.BitArrayProps

/-!
# Vote sets and commit vote lists

Models `/repo/consensus/voteset.go` and the vote-counting part of
`/repo/consensus/commitvotelist.go`.

A round decision (block id, part set id with application data, network-type-section votes;
`votebase.go:63-67`) is an abstract value `D`; `dig` is its digest (`votebase.go:88-104`, SHA3 of the
encoding) and `psid` the part set id in it (`partset.go:53-61`, `nil` for a nil vote).
-/

namespace Verif.Consensus

/-- `votebase.go:32-38`. -/
inductive VoteType
  | prevote
  | precommit
  deriving DecidableEq, Repr

/-- `message.go:274-279` `VoteMessage`; the signature and the network-type-section proof parts, which the
vote set does not look at, are not kept. -/
structure Vote (D : Type) where
  height : ℤ
  round : ℤ
  typ : VoteType
  dec : D
  ts : ℤ
  deriving DecidableEq, Repr

/-- `voteset.go:15-19` `counter`. -/
structure Counter (B P : Type) where
  digest : B
  ps : Option P
  count : ℤ
  deriving DecidableEq, Repr

/-- `voteset.go:21-29` `voteSet`. -/
structure VoteSet (D B P : Type) where
  msgs : List (Option (Vote D))
  maxIndex : ℤ
  mask : BitArray
  round : ℤ
  counters : List (Counter B P)
  count : ℤ
  deriving Repr

section
variable {D B P : Type} [DecidableEq B] (dig : D → B) (psid : D → Option P)

/-- `votebase.go:105-110` `voteBase.Equal` and `message.go:379-381` `EqualExceptSigs`. -/
def Vote.equalExceptSigs (a b : Vote D) : Bool :=
  a.height == b.height && a.round == b.round && a.typ == b.typ &&
    decide (dig a.dec = dig b.dec) && a.ts == b.ts

namespace VoteSet

/-- `voteset.go:209-216` `newVoteSet`. -/
def new (n : ℕ) : VoteSet D B P where
  msgs := List.replicate n none
  maxIndex := -1
  mask := (BitArray.new n).getD ⟨n, []⟩
  round := -1
  counters := []
  count := 0

/-- The search loop of `voteset.go:94-101`: position and value of the first largest count above `max`. -/
def findMax : List (Counter B P) → ℕ → ℤ → ℤ → ℤ × ℤ
  | [], _, mi, mx => (mi, mx)
  | c :: cs, i, mi, mx =>
    if c.count > mx then findMax cs (i + 1) (i : ℤ) c.count else findMax cs (i + 1) mi mx

/-- `voteset.go:90-111` `getOverTwoThirdsRoundDecisionDigest`: the answer and the set with the position
of the largest counter remembered. -/
def getOver (vs : VoteSet D B P) : VoteSet D B P × Option (B × Option P) :=
  let r : VoteSet D B P × ℤ :=
    if vs.maxIndex < 0 then
      ({ vs with maxIndex := (findMax vs.counters 0 vs.maxIndex 0).1 },
        (findMax vs.counters 0 vs.maxIndex 0).2)
    else (vs, ((vs.counters[vs.maxIndex.toNat]?).map (fun c => c.count)).getD 0)
  if r.2 > ((vs.msgs.length * 2 / 3 : ℕ) : ℤ) then
    (r.1, (r.1.counters[r.1.maxIndex.toNat]?).map (fun c => (c.digest, c.ps)))
  else (r.1, none)

/-- Swap-remove of `voteset.go:45-49`. -/
def swapRemove (cs : List (Counter B P)) (i : ℕ) : List (Counter B P) :=
  match cs.getLast? with
  | none => cs
  | some l => (cs.set i l).dropLast

/-- The loop `voteset.go:42-52`: the counter of the replaced vote goes down, and away at zero. -/
def decLoop (b : B) (full : List (Counter B P)) : List (Counter B P) → ℕ → List (Counter B P)
  | [], _ => full
  | c :: cs, i =>
    if c.digest = b then
      let full' := full.set i { c with count := c.count - 1 }
      if c.count - 1 = 0 then swapRemove full' i else full'
    else decLoop b full cs (i + 1)

/-- The loop `voteset.go:58-64`: the counter of the new vote goes up. -/
def incLoop (b : B) (full : List (Counter B P)) : List (Counter B P) → ℕ → Option (List (Counter B P))
  | [], _ => none
  | c :: cs, i =>
    if c.digest = b then some (full.set i { c with count := c.count + 1 })
    else incLoop b full cs (i + 1)

/-- `voteset.go:56-72`: the new vote is stored and counted. -/
def put (vs : VoteSet D B P) (index : ℕ) (v : Vote D) : VoteSet D B P :=
  { vs with
    msgs := vs.msgs.set index (some v)
    counters := match incLoop (dig v.dec) vs.counters vs.counters 0 with
      | some cs => cs
      | none => vs.counters ++ [⟨dig v.dec, psid v.dec, 1⟩]
    count := vs.count + 1
    maxIndex := -1
    mask := (vs.mask.set index).getD vs.mask
    round := v.round }

/-- `voteset.go:32-73` `add`.  An index outside the set, which panics in Go, changes nothing here; the
callers pass positions found in the validator list the set was made for. -/
def add (vs : VoteSet D B P) (index : ℕ) (v : Vote D) : VoteSet D B P × Bool :=
  match vs.msgs[index]? with
  | none => (vs, false)
  | some none => (put dig psid vs index v, true)
  | some (some o) =>
    if o.equalExceptSigs dig v then (vs, false)
    else
      let r := vs.getOver
      if r.2.map Prod.fst = some (dig o.dec) then (r.1, false)
      else
        (put dig psid { r.1 with
          counters := decLoop (dig o.dec) r.1.counters r.1.counters 0
          count := r.1.count - 1 } index v, true)

/-- `voteset.go:76-78` `hasOverTwoThirds`. -/
def hasOverTwoThirds (vs : VoteSet D B P) : Bool :=
  decide (vs.count > ((vs.msgs.length * 2 / 3 : ℕ) : ℤ))

/-- `voteset.go:85-88` `getOverTwoThirdsPartSetID`: the part set id (or nil) and whether there is a
decision. -/
def overPSID (vs : VoteSet D B P) : Option (Option P) := vs.getOver.2.map Prod.snd

/-- The selection of `voteset.go:122-127,136-141`: the votes for the decision, in validator order. -/
def votesForOver (vs : VoteSet D B P) : Option (List (Vote D)) :=
  match vs.getOver.2 with
  | none => none
  | some r => some (vs.msgs.filterMap (fun m =>
      m.bind (fun v => if r.1 = dig v.dec then some v else none)))

/-- The loop of `voteset.go:151-155` over the messages from position `i`. -/
def overLoop (b : B) : List (Option (Vote D)) → ℕ → VoteSet D B P → VoteSet D B P
  | [], _, rvs => rvs
  | none :: ms, i, rvs => overLoop b ms (i + 1) rvs
  | some v :: ms, i, rvs =>
    overLoop b ms (i + 1) (if b = dig v.dec then (add dig psid rvs i v).1 else rvs)

/-- `voteset.go:145-157` `voteSetForOverTwoThird`. -/
def overSet (vs : VoteSet D B P) : Option (VoteSet D B P) :=
  match vs.getOver.2 with
  | none => none
  | some r => some (overLoop dig psid r.1 vs.msgs 0 (new vs.msgs.length))

/-- `voteset.go:159-167` `voteList`. -/
def voteList (vs : VoteSet D B P) : List (Vote D) := vs.msgs.filterMap id

/-- `voteset.go:197-203` `checkAndAdd` (`Add` for votes that arrive after the block was committed). -/
def checkAndAdd (vs : VoteSet D B P) (index : ℕ) (v : Vote D) : VoteSet D B P × Bool :=
  let r := vs.getOver
  match r.2 with
  | none => (r.1, false)
  | some x =>
    if v.round ≠ vs.round ∨ x.1 ≠ dig v.dec then (r.1, false) else add dig psid r.1 index v

end VoteSet
end

/-! ### Commit vote lists -/

/-- `commitvotelist.go:73-79` `enoughVote`. -/
def enoughVote (voted voters : ℕ) : Bool :=
  if voters = 0 then true else decide (voted > voters * 2 / 3)

/-- The loop of `VerifyBlock` (`commitvotelist.go:55-66`).  `who item` is the address recovered from the
item's signature over the vote for this block, round and part set with the item's time stamp;
`IndexOf` is the position in the validator list (addresses in it are distinct).  `none` is an error. -/
def verifyLoop {A I : Type} [DecidableEq A] (vals : List A) (who : I → A) :
    List I → List Bool → Option (List Bool)
  | [], vset => some vset
  | it :: its, vset =>
    match vals.findIdx? (fun a => decide (a = who it)) with
    | none => none
    | some idx =>
      if vset[idx]? = some true then none
      else verifyLoop vals who its (vset.set idx true)

/-- `commitvotelist.go:41-71` `VerifyBlock` for a block above height 0 with a validator list. -/
def verifyBlock {A I : Type} [DecidableEq A] (vals : List A) (who : I → A) (items : List I) :
    Option (List Bool) :=
  match verifyLoop vals who items (List.replicate vals.length false) with
  | none => none
  | some vset => if enoughVote items.length vals.length then some vset else none

/-- `commitvotelist.go:86-102` `Timestamp`: the median of the votes' time stamps, the mean of the two
middle ones for an even number.  `int64` overflow of the sum (time stamps are microseconds) is not
modelled. -/
def medianTime (ts : List ℤ) : ℤ :=
  let s := ts.mergeSort (fun a b => decide (a ≤ b))
  if ts.length = 0 then 0
  else if ts.length % 2 = 1 then (s[ts.length / 2]?).getD 0
  else Int.tdiv ((s[ts.length / 2 - 1]?).getD 0 + (s[ts.length / 2]?).getD 0) 2

end Verif.Consensus
