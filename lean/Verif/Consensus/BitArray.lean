import Mathlib.Data.Int.Basic
import Mathlib.Data.List.Range
import Mathlib.Tactic.Ring

/-!
# Bit arrays of the consensus engine

Models `/repo/consensus/bitarray.go`.  A bit array says which votes or which block parts a node
has; peers exchange them and pick what to send from them.

`NumBits` and all indices are Go `int`s and are modelled by `ℤ`; words are `BitVec 64`; an
operation that would panic in Go returns `none`.
-/

namespace Verif.Consensus

/-- `bitarray.go:15-18`: `BitArray{NumBits int, Words []word}`. -/
structure BitArray where
  numBits : ℤ
  words : List (BitVec 64)
  deriving DecidableEq, Repr

namespace BitArray

/-- `bitarray.go:20-25` `Verify`: the check made on an array received from a peer. -/
def verify (ba : BitArray) : Bool := !(decide (ba.numBits > (ba.words.length : ℤ) * 64))

/-- `bitarray.go:27-29` `Len`. -/
def len (ba : BitArray) : ℤ := ba.numBits

/-- Go slice indexing `s[i]`: panics outside the slice. -/
def wordAt (ws : List (BitVec 64)) (i : ℤ) : Option (BitVec 64) :=
  if i < 0 then none else ws[i.toNat]?

/-- `1 << uint(idx%wordBits)`: Go's remainder has the sign of `idx`, and a shift by a huge amount
gives zero (`bitarray.go:35,42,60`). -/
def maskOf (idx : ℤ) : BitVec 64 :=
  if Int.tmod idx 64 < 0 then 0#64 else 1#64 <<< (Int.tmod idx 64).toNat

/-- `bitarray.go:31-36` `Set`. -/
def set (ba : BitArray) (idx : ℤ) : Option BitArray :=
  if idx ≥ ba.numBits then some ba
  else match wordAt ba.words (Int.tdiv idx 64) with
    | none => none
    | some w => some { ba with words := ba.words.set (Int.tdiv idx 64).toNat (w ||| maskOf idx) }

/-- `bitarray.go:38-43` `Unset` (`&^` is and-not). -/
def unset (ba : BitArray) (idx : ℤ) : Option BitArray :=
  if idx ≥ ba.numBits then some ba
  else match wordAt ba.words (Int.tdiv idx 64) with
    | none => none
    | some w => some { ba with words := ba.words.set (Int.tdiv idx 64).toNat (w &&& ~~~ maskOf idx) }

/-- `bitarray.go:45-54` `Put`. -/
def put (ba : BitArray) (idx : ℤ) (v : Bool) : Option BitArray :=
  if idx ≥ ba.numBits then some ba
  else if v then ba.set idx else ba.unset idx

/-- `bitarray.go:56-61` `Get`. -/
def get (ba : BitArray) (idx : ℤ) : Option Bool :=
  if idx ≥ ba.numBits then some false
  else match wordAt ba.words (Int.tdiv idx 64) with
    | none => none
    | some w => some (decide (w &&& maskOf idx ≠ 0#64))

/-- `bitarray.go:63-71` `Flip`: every word is complemented, then the last one is and-ed with
`(1 << uint(NumBits%wordBits)) - 1`. -/
def flip (ba : BitArray) : BitArray :=
  let ws := ba.words.map (fun w => ~~~ w)
  match ws.getLast? with
  | none => { ba with words := ws }
  | some w => { ba with words := ws.set (ws.length - 1) (w &&& (maskOf ba.numBits - 1#64)) }

/-- The loop `for i := 0; i < lba; i++ { ba.Words[i] &= ba2.Words[i] }` (`bitarray.go:81-83`): panics
when the second slice is shorter. -/
def andWords : List (BitVec 64) → List (BitVec 64) → Option (List (BitVec 64))
  | [], _ => some []
  | _ :: _, [] => none
  | a :: as, b :: bs => (andWords as bs).map (fun r => (a &&& b) :: r)

/-- `bitarray.go:73-84` `AssignAnd`.  The reslice `ba.Words[:lba2]` panics when `lba2` exceeds the
capacity, which is taken to be the length (arrays come from `make` or from decoding). -/
def assignAnd (ba ba2 : BitArray) : Option BitArray :=
  if ba.numBits > ba2.numBits then
    if ba2.words.length > ba.words.length then none
    else match andWords (ba.words.take ba2.words.length) ba2.words with
      | none => none
      | some ws => some ⟨ba2.numBits, ws⟩
  else match andWords ba.words ba2.words with
    | none => none
    | some ws => some ⟨ba.numBits, ws⟩

/-- `bits.OnesCount64`. -/
def onesCount (w : BitVec 64) : ℕ := ((List.range 64).filter (fun i => w.getLsbD i)).length

/-- The first loop of `PickRandom` (`bitarray.go:88-90`). -/
def countAll (ws : List (BitVec 64)) : ℕ := (ws.map onesCount).sum

/-- The inner loop of `PickRandom` (`bitarray.go:98-105`): either the index found, or what is left of
`pick`; `none` is a panic in `Get`. -/
def pickInner (ba : BitArray) : List ℕ → ℤ → Option (ℤ ⊕ ℤ)
  | [], pick => some (.inr pick)
  | i :: is, pick =>
    match ba.get (i : ℤ) with
    | none => none
    | some true => if pick = 0 then some (.inl (i : ℤ)) else pickInner ba is (pick - 1)
    | some false => pickInner ba is pick

/-- The outer loop of `PickRandom` (`bitarray.go:95-108`), over the words from number `i`; running off
the end is the final `panic`. -/
def pickOuter (ba : BitArray) : List (BitVec 64) → ℕ → ℤ → Option ℤ
  | [], _, _ => none
  | w :: ws, i, pick =>
    if pick < (onesCount w : ℤ) then
      match pickInner ba (List.range' (i * 64) (ba.numBits - (i * 64 : ℕ)).toNat) pick with
      | none => none
      | some (.inl idx) => some idx
      | some (.inr pick') => pickOuter ba ws (i + 1) (pick' - onesCount w)
    else pickOuter ba ws (i + 1) (pick - onesCount w)

/-- `bitarray.go:86-110` `PickRandom`, the value `r` standing for `rand.Intn(count)`. -/
def pickRandom (ba : BitArray) (r : ℕ) : Option ℤ :=
  if countAll ba.words = 0 then some (-1) else pickOuter ba ba.words 0 r

/-- The loop of `Equal` (`bitarray.go:122-126`). -/
def eqWords : List (BitVec 64) → List (BitVec 64) → Option Bool
  | [], _ => some true
  | _ :: _, [] => none
  | a :: as, b :: bs => if a ≠ b then some false else eqWords as bs

/-- `bitarray.go:117-128` `Equal`. -/
def equal (ba ba2 : BitArray) : Option Bool :=
  if ba.numBits ≠ ba2.numBits then some false else eqWords ba.words ba2.words

/-- `bitarray.go:136-138` `NewBitArray`: `make` panics on a negative length (Go division truncates). -/
def new (n : ℤ) : Option BitArray :=
  if Int.tdiv (n + 64 - 1) 64 < 0 then none
  else some ⟨n, List.replicate (Int.tdiv (n + 64 - 1) 64).toNat 0#64⟩

/-- Go `copy(dst, src)`: as many elements as both have. -/
def copyInto (dst src : List (BitVec 64)) : List (BitVec 64) :=
  src.take dst.length ++ dst.drop src.length

/-- `bitarray.go:130-134` `Copy`. -/
def copy (ba : BitArray) : Option BitArray :=
  (new ba.numBits).map (fun b => { b with words := copyInto b.words ba.words })

end BitArray
end Verif.Consensus
