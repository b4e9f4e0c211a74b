import Verif.Consensus.BitArray
import Verif.Trie.Model
import Verif.Rlp.Model

/-!
# Block part sets

Models `/repo/consensus/partset.go`: a block is cut into parts of a fixed size; the parts are put in a
trie, and each is sent with its proof; the receiver knows the number of parts and the root hash.

`H` is the hash function of the trie.  `f` bounds the recursion of checking a proof; Go has no bound.
-/

namespace Verif.Consensus
open Verif Verif.Trie

/-! ### Part set ids -/

/-- `partset.go:67-70` `PartSetID`. -/
structure PartSetID where
  count : BitVec 16
  hash : Bytes
  deriving DecidableEq, Repr

/-- `partset.go:43-48` `PartSetIDAndAppData`. -/
structure PartSetIDAndAppData where
  countWord : BitVec 64
  hash : Bytes
  deriving DecidableEq, Repr

/-- `partset.go:50-58` `ID`; `none` is nil. -/
def PartSetIDAndAppData.id : Option PartSetIDAndAppData → Option PartSetID
  | none => none
  | some ida => some ⟨(ida.countWord &&& 0xffff#64).truncate 16, ida.hash⟩

/-- `partset.go:60-65` `AppData`. -/
def PartSetIDAndAppData.appData : Option PartSetIDAndAppData → BitVec 64
  | none => 0
  | some ida => ida.countWord >>> 16

/-- `partset.go:72-80` `WithAppData`. -/
def PartSetID.withAppData (appData : BitVec 64) : Option PartSetID → Option PartSetIDAndAppData
  | none => none
  | some i => some ⟨(appData <<< 16) ||| i.count.zeroExtend 64, i.hash⟩

/-- `partset.go:82-90` `Equal`. -/
def PartSetID.equal : Option PartSetID → Option PartSetID → Bool
  | none, none => true
  | some a, some b => a.count == b.count && a.hash == b.hash
  | _, _ => false

/-! ### A trie being filled by proofs -/

/-- A node of a trie known by its root hash and by proofs seen so far.  `loaded b n` is a node that was
read from the proof item `b` (its fields `serialized` and `hashValue`). -/
inductive PNode
  | nil
  | leaf (k : List Nib) (v : Bytes)
  | ext (k : List Nib) (next : PNode)
  | branch (c : Nib → PNode) (v : Option Bytes)
  | hash (h : Bytes)
  | loaded (b : Bytes) (n : PNode)

/-- A node as `deserialize` makes it. -/
def PNode.ofNode : Node → PNode
  | .nil => .nil
  | .leaf k v => .leaf k v
  | .ext k n => .ext k (ofNode n)
  | .branch c v => .branch (fun i => ofNode (c i)) v
  | .hash h => .hash h

/-- `leaf.go:232-256`, `extension.go:256-281`, `branch.go:324-365`, `hash.go:92-106` (of
`/repo/common/trie/ompt`) `prove`: the node afterwards, in which nodes read from the proof have been
filled in, and the value.  `own` is the serialization of the node if it has a hash.  All nodes with a
hash begin by comparing the first item with their serialization; for a loaded node this is done here
before its kind is looked at. -/
def proveS (H : Bytes → Bytes) :
    ℕ → Option Bytes → PNode → List Nib → List Bytes → PNode × Except Err (Option Bytes)
  | 0, _, n, _, _ => (n, .error .fuel)
  | _ + 1, _, .nil, _, _ => (.nil, .error .panic)
  | _ + 1, own, .leaf k v, keys, ps =>
    (.leaf k v,
      match own with
      | some s => if ps = [s] then (if (compareKeys k keys).2 then .ok (some v) else .error .notFound)
        else .error .illegal
      | none => if (compareKeys k keys).2 then .ok (some v) else .error .notFound)
  | fuel + 1, own, .ext k next, keys, ps =>
    match strip own ps with
    | none => (.ext k next, .error .illegal)
    | some ps' =>
      let cnt := (compareKeys k keys).1
      if cnt < k.length then (.ext k next, .error .notFound)
      else
        let r := proveS H fuel none next (keys.drop cnt) ps'
        (.ext k r.1, r.2)
  | fuel + 1, own, .branch c v, keys, ps =>
    match strip own ps with
    | none => (.branch c v, .error .illegal)
    | some ps' =>
      match keys with
      | [] => (.branch c v, .ok v)
      | i :: s =>
        match c i with
        | .nil => (.branch c v, .error .notFound)
        | _ =>
          let r := proveS H fuel none (c i) s ps'
          (.branch (fun j => if j = i then r.1 else c j) v, r.2)
  | fuel + 1, _, .hash h, keys, ps =>
    match ps with
    | [] => (.hash h, .error .illegal)
    | b :: _ =>
      if H b = h then
        match deserialize b with
        | .error e => (.hash h, .error e)
        | .ok n =>
          let r := proveS H fuel (some b) (.ofNode n) keys ps
          (.loaded b r.1, r.2)
      else (.hash h, .error .illegal)
  | fuel + 1, _, .loaded b n, keys, ps =>
    match ps with
    | [] => (.loaded b n, .error .illegal)
    | q :: _ =>
      if q = b then
        let r := proveS H fuel (some b) n keys ps
        (.loaded b r.1, r.2)
      else (.loaded b n, .error .illegal)

/-- `mptforbytes.go:59-65` `Prove`: the bytes of the object found; a nil object makes it panic. -/
def objBytes : Except Err (Option Bytes) → Except Err Bytes
  | .error e => .error e
  | .ok none => .error .panic
  | .ok (some v) => .ok v

/-- `mpt.go:485-499` and `mptforbytes.go:59-65` `Prove`: the root afterwards and the value. -/
def proveRoot (H : Bytes → Bytes) (f : ℕ) (root : PNode) (k : Bytes) (ps : List Bytes) :
    PNode × Except Err Bytes :=
  match root with
  | .nil => (.nil, .error .illegal)
  | n =>
    let r := proveS H f none n (bytesToNibs k) ps
    (r.1, objBytes r.2)

/-! ### Part sets -/

/-- `partset.go:271-275` `part`. -/
structure Part where
  idx : ℕ
  proof : List Bytes
  data : Bytes
  deriving DecidableEq, Repr

/-- `partset.go:97-102` `partSet`.  `hash` is what `tree.Hash()` gives: loading nodes does not change it. -/
structure PartSet where
  added : ℕ
  parts : List (Option Part)
  tree : PNode
  hash : Option Bytes
  ba : BitArray

/-- `codec.MarshalToBytes(uint16(i))` (`partset.go:184,236,241`): the key of a part. -/
def partKey (i : ℕ) : Bytes := Rlp.marshalToBytes (.uint (i % 2 ^ 16))

/-- `partset.go:104-109` `ID`, `partset.go:111-116` `Hash`. -/
def PartSet.id (ps : PartSet) : PartSetID := ⟨BitVec.ofNat 16 ps.parts.length, ps.hash.getD []⟩

/-- `partset.go:122-132` `GetPart`. -/
def PartSet.getPart (ps : PartSet) (i : ℤ) : Option Part :=
  if i < 0 ∨ i ≥ ps.parts.length then none else (ps.parts[i.toNat]?).join

/-- `partset.go:134-136` `IsComplete`. -/
def PartSet.isComplete (ps : PartSet) : Bool := ps.added == ps.parts.length

/-- `partset.go:138-143` `GetMask`. -/
def PartSet.getMask : Option PartSet → BitArray
  | none => ⟨0, []⟩
  | some ps => ps.ba

/-- Results of `AddPart`; `panic` is a run-time panic. -/
inductive AddRes
  | added
  | invalidIndex
  | alreadyAdded
  | badProof
  | panic
  deriving DecidableEq, Repr

/-- `partset.go:172-194` `AddPart` of a part object with the given index and proof. -/
def PartSet.addPart (H : Bytes → Bytes) (f : ℕ) (ps : PartSet) (idx : ℤ) (proof : List Bytes) :
    PartSet × AddRes :=
  if idx < 0 ∨ idx ≥ ps.parts.length then (ps, .invalidIndex)
  else match (ps.parts[idx.toNat]?).join with
    | some _ => (ps, .alreadyAdded)
    | none =>
      let r := proveRoot H f ps.tree (partKey idx.toNat) proof
      match r.2 with
      | .error .panic => ({ ps with tree := r.1 }, .panic)
      | .error _ => ({ ps with tree := r.1 }, .badProof)
      | .ok data =>
        ({ ps with
            tree := r.1
            parts := ps.parts.set idx.toNat (some ⟨idx.toNat, proof, data⟩)
            added := ps.added + 1
            ba := (ps.ba.set idx).getD ps.ba }, .added)

/-- `partset.go:258-264` `NewPartSetFromID`; `nodeFromHash` gives nil for an empty hash. -/
def newPartSetFromID (h : PartSetID) : PartSet where
  added := 0
  parts := List.replicate h.count.toNat none
  tree := if h.hash.length = 0 then .nil else .hash h.hash
  hash := if h.hash.length = 0 then none else some h.hash
  ba := (BitArray.new h.count.toNat).getD ⟨0, []⟩

/-! ### Cutting -/

/-- `partset.go:196-201` `partSetBuffer`: the parts finished, the part being filled (a slice of `size`
bytes), how much of it is filled. -/
structure PartSetBuffer where
  parts : List Bytes
  part : Option Bytes
  offset : ℕ
  size : ℕ

/-- `partset.go:254-256` `NewPartSetBuffer`. -/
def newPartSetBuffer (sz : ℕ) : PartSetBuffer := ⟨[], none, 0, sz⟩

/-- `partset.go:206-212`: a new part of `size` zero bytes, its number written over the first two;
`PutUint16` panics on a shorter slice. -/
def PartSetBuffer.fresh (b : PartSetBuffer) : Option Bytes :=
  if b.size < 2 then none
  else some (UInt8.ofNat (b.parts.length / 256) :: UInt8.ofNat b.parts.length ::
    List.replicate (b.size - 2) 0)

/-- `partset.go:206-212`: the part to write to. -/
def PartSetBuffer.current (b : PartSetBuffer) : Option Bytes :=
  match b.part with
  | some d => some d
  | none => b.fresh

/-- The loop of `partset.go:203-225` `Write`, `p` being what is left to write; `none` is a panic. Every
turn writes at least one byte, so that `p.length` turns suffice (first argument). -/
def PartSetBuffer.writeLoop : ℕ → PartSetBuffer → Bytes → Option PartSetBuffer
  | 0, b, _ => some b
  | fuel + 1, b, p =>
    if p.length = 0 then some b
    else match b.current with
      | none => none
      | some d =>
        let n := min (d.length - b.offset) p.length
        let d' := d.take b.offset ++ p.take n ++ d.drop (b.offset + n)
        let b' : PartSetBuffer :=
          if b.offset + n = b.size then ⟨b.parts ++ [d'], none, 0, b.size⟩
          else ⟨b.parts, some d', b.offset + n, b.size⟩
        writeLoop fuel b' (p.drop n)

/-- `partset.go:203-225` `Write`. -/
def PartSetBuffer.write (b : PartSetBuffer) (p : Bytes) : Option PartSetBuffer :=
  writeLoop p.length b p

/-- Several calls of `Write`. -/
def PartSetBuffer.writes : PartSetBuffer → List Bytes → Option PartSetBuffer
  | b, [] => some b
  | b, p :: ps => match b.write p with | none => none | some b' => writes b' ps

/-- `partset.go:234-238`: the trie of the parts, from number `i`. -/
def buildTree : ℕ → List Bytes → Node → Node
  | _, [], n => n
  | i, d :: ds, n => buildTree (i + 1) ds (Trie.Set (fun _ => none) n (partKey i) d).1

/-- `partset.go:240-246`: the proofs of the parts, from number `i`; `none` if one is missing. -/
def makeParts (H : Bytes → Bytes) (n : Node) : ℕ → List Bytes → Option (List (Option Part))
  | _, [] => some []
  | i, d :: ds =>
    match GetProof H (fun _ => none) n (partKey i), makeParts H n (i + 1) ds with
    | some p, some r => some (some ⟨i, p, d⟩ :: r)
    | _, _ => none

/-- `partset.go:249-250`: all bits of the mask set. -/
def fullMask (n : ℕ) : BitArray := ((BitArray.new n).getD ⟨0, []⟩).flip

/-- Parts without proofs, from number `i`. -/
def bareParts : ℕ → List Bytes → List (Option Part)
  | _, [] => []
  | i, d :: ds => some ⟨i, [], d⟩ :: bareParts (i + 1) ds

/-- `partset.go:227-252` `PartSet`.  When the last part is full there is no `b.part`, and no trie and no
proof is made. -/
def PartSetBuffer.partSet (H : Bytes → Bytes) (b : PartSetBuffer) : Option PartSet :=
  match b.part with
  | some d =>
    let ds := b.parts ++ [d.take b.offset]
    let n := buildTree 0 ds .nil
    match makeParts H n 0 ds with
    | none => none
    | some parts => some ⟨ds.length, parts, .ofNode n, rootHash H n, fullMask ds.length⟩
  | none =>
    some ⟨b.parts.length, bareParts 0 b.parts, .nil, none, fullMask b.parts.length⟩

/-! ### Reading -/

/-- `partset.go:145-148` `blockPartsReader`. -/
structure PartsReader where
  parts : List (Option Part)
  idx : ℕ
  offset : ℕ

/-- `partset.go:168-170` `NewReader`. -/
def PartSet.newReader (ps : PartSet) : PartsReader := ⟨ps.parts, 0, 0⟩

/-- The loop of `partset.go:150-166` `Read`: `room` is what is left of the buffer, `acc` what has been
read.  A missing part is a nil dereference (`none`).  Every turn reads something or goes to the next
part (first argument: bound on the number of turns). -/
def PartsReader.readLoop : ℕ → PartsReader → ℕ → Bytes → Option (PartsReader × Bytes)
  | 0, r, _, acc => some (r, acc)
  | fuel + 1, r, room, acc =>
    if room = 0 ∨ r.idx ≥ r.parts.length then some (r, acc)
    else match (r.parts[r.idx]?).join with
      | none => none
      | some p =>
        let got := (p.data.drop r.offset).take room
        let r' : PartsReader :=
          if r.offset + got.length ≥ p.data.length then ⟨r.parts, r.idx + 1, 0⟩
          else ⟨r.parts, r.idx, r.offset + got.length⟩
        readLoop fuel r' (room - got.length) (acc ++ got)

/-- `partset.go:150-166` `Read` into a buffer of `room` bytes: what was read; nothing is `io.EOF`.
`none` is a panic. -/
def PartsReader.read (r : PartsReader) (room : ℕ) : Option (PartsReader × Bytes) :=
  readLoop (r.parts.length + 1) r room []

/-! ### The message -/

/-- `partset.go:281-292` `Bytes`; `partBinary` (`partset.go:266-269`) is a pair.  An empty proof is a nil
slice here (the proof of a part made without a trie). -/
def Part.bytes (p : Part) : Bytes :=
  Rlp.marshalToBytes (.struct [.uint (p.idx % 2 ^ 16),
    if p.proof = [] then .sliceNil else .slice (p.proof.map .bytes)])

/-- Proof items of a decoded `[][]byte`; a nil item is an empty slice. -/
def itemsOf : Rlp.Val → List Bytes
  | .slice vs => vs.map (fun v => match v with | .bytes b => b | _ => [])
  | _ => []

/-- `partset.go:294-303` `NewPart`: the index and the proof, or an error. -/
def newPart (b : Bytes) : Option (ℕ × List Bytes) :=
  match Rlp.unmarshalFromBytes (.struct [.uint 16, .slice .bytes]) none b with
  | some ((.struct [.uint i, v], _), _) => some (i, itemsOf v)
  | _ => none

end Verif.Consensus
