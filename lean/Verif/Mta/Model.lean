import Verif.Base.Bytes

/-!
# The Merkle tree accumulator

Models `/repo/common/trie/mta/accumulator.go`. The hash function is a parameter. Nodes keep their hash once computed; the hash of a
node never changes afterwards, so the model computes it anew each time. Lengths and indices are unbounded (Go: int64). The bucket is a
map for nodes, and one place for the state under `KeyForState`, which is assumed not to be the hash of a node.
-/

namespace Verif.Mta
open Verif

/-- `accumulator.go:14-16`. -/
def hashSize : ℕ := 32

/-- `accumulator.go:26-31`. -/
inductive Dir
  | left
  | right
  deriving DecidableEq, Repr

/-- `accumulator.go:44-47` `Witness`. -/
structure Witness where
  dir : Dir
  hash : Bytes
  deriving DecidableEq, Repr

/-- `hashNode` (`:59-62`), `branchNode` (`:112-118`), `dataNode` (`:175-180`). The flag: `state == stateFlushed`. -/
inductive Node
  | hash (h : Bytes)
  | branch (flushed : Bool) (l r : Node)
  | data (flushed : Bool) (d : Bytes)
  deriving Repr

/-- Go's `copy(dst[off:], src)`. -/
def copyTo (dst : Bytes) (off : ℕ) (src : Bytes) : Bytes :=
  dst.take off ++ src.take (dst.length - off) ++ dst.drop (off + (src.take (dst.length - off)).length)

/-- `:125-135` (`serialized`) of a branch with these hashes. -/
def serialize (l r : Bytes) : Bytes := copyTo (copyTo (List.replicate (2 * hashSize) 0) 0 l) hashSize r

/-- `:64-66`, `:125-135`, `:193-199` `Hash`. -/
def Node.hashOf (H : Bytes → Bytes) : Node → Bytes
  | .hash h => h
  | .branch _ l r => H (serialize (l.hashOf H) (r.hashOf H))
  | .data _ d => H d

/-- The bucket. -/
structure Db where
  kv : Bytes → Option Bytes
  /-- under `KeyForState`: the hashes of the roots (empty for nil) and the length -/
  st : Option (List Bytes × ℤ)

def Db.set (db : Db) (k v : Bytes) : Db := { db with kv := fun a => if a = k then some v else db.kv a }

/-- `:68-70`, `:137-153`, `:201-210` `Flush`: the node and the bucket afterwards. (The bucket does not fail.) -/
def Node.flush (H : Bytes → Bytes) : Node → Db → Node × Db
  | .hash h, db => (.hash h, db)
  | .branch true l r, db => (.branch true l r, db)
  | .branch false l r, db =>
    let a := l.flush H db
    let b := r.flush H a.2
    (.branch true a.1 b.1, b.2.set (H (serialize (l.hashOf H) (r.hashOf H))) (serialize (l.hashOf H) (r.hashOf H)))
  | .data true d, db => (.data true d, db)
  | .data false d, db => (.data true d, db.set (H d) d)

/-- `:76-99` `resolve` of a hash. A missing value is nil, which has the wrong length. -/
def resolve (db : Db) (h : Bytes) : Option Node :=
  match db.kv h with
  | none => none
  | some bs => if bs.length ≠ 2 * hashSize then none else some (.branch true (.hash (bs.take hashSize)) (.hash (bs.drop hashSize)))

/-- `:101-110`, `:155-173`, `:182-187` `WitnessFor`: the node that replaces this one, and the witness or an error. -/
def Node.witnessFor (H : Bytes → Bytes) (db : Db) : ℕ → Node → ℤ → List Witness → Node × Option (List Witness)
  | 0, .hash h, _, w => (.hash h, some w)
  | 0, .branch f l r, _, _ => (.branch f l r, none)
  | 0, .data f d, _, w => (.data f d, some w)
  | _ + 1, .data f d, _, _ => (.data f d, none)
  | depth + 1, .branch f l r, idx, w =>
    if idx < 2 ^ depth then
      let x := Node.witnessFor H db depth l idx w
      (.branch f x.1 r, x.2.map (· ++ [⟨.right, r.hashOf H⟩]))
    else
      let x := Node.witnessFor H db depth r (idx - 2 ^ depth) w
      (.branch f l x.1, x.2.map (· ++ [⟨.left, l.hashOf H⟩]))
  | depth + 1, .hash h, idx, w =>
    match resolve db h with
    | some (.branch f l r) =>
      if idx < 2 ^ depth then
        let x := Node.witnessFor H db depth l idx w
        (.branch f x.1 r, x.2.map (· ++ [⟨.right, r.hashOf H⟩]))
      else
        let x := Node.witnessFor H db depth r (idx - 2 ^ depth) w
        (.branch f l x.1, x.2.map (· ++ [⟨.left, l.hashOf H⟩]))
    | _ => (.hash h, none)

/-- `:212-217` `Accumulator`; a nil root is `none`. -/
structure Acc where
  roots : List (Option Node)
  length : ℤ

def Acc.empty : Acc := ⟨[], 0⟩

/-- `:228-252` `addNode`, on the roots from height `h` on: the roots and the witness. (It always adds 1 to the length.) -/
def addNode (H : Bytes → Bytes) : List (Option Node) → Node → List Witness → List (Option Node) × List Witness
  | [], n, w => ([some n], w)
  | none :: rs, n, w => (some n :: rs, w)
  | some root :: rs, n, w =>
    let x := addNode H rs (.branch false root n) (w ++ [⟨.left, root.hashOf H⟩])
    (none :: x.1, x.2)

/-- What can be added: `:313-319` `AddHash`, `:321-329` `AddData`. -/
inductive Item
  | hash (h : Bytes)
  | data (d : Bytes)

def Item.node : Item → Node
  | .hash h => .hash h
  | .data d => .data false d

/-- `:308-311` `AddNode` of the node of an item. -/
def Acc.add (H : Bytes → Bytes) (a : Acc) (x : Item) : Acc × List Witness :=
  (⟨(addNode H a.roots x.node []).1, a.length + 1⟩, (addNode H a.roots x.node []).2)

/-- What a call gives. -/
inductive Res (α : Type)
  | ok (v : α)
  | err
  | panic
  deriving DecidableEq, Repr

/-- `:259-270` the loop over the roots: nil has no method `Flush`, so this panics (`none`). -/
def flushRoots (H : Bytes → Bytes) : List (Option Node) → Db → Option (List (Option Node) × Db)
  | [], db => some ([], db)
  | none :: _, _ => none
  | some n :: rs, db =>
    match flushRoots H rs (n.flush H db).2 with
    | none => none
    | some (rs', db') => some (some (n.flush H db).1 :: rs', db')

/-- `:254-277` `Flush`: the accumulator and the bucket; `none`: it panics. -/
def Acc.flush (H : Bytes → Bytes) (a : Acc) (db : Db) : Option (Acc × Db) :=
  match flushRoots H a.roots db with
  | none => none
  | some (rs, db') => some (⟨rs, a.length⟩, { db' with st := some (rs.map (fun r => (r.map (Node.hashOf H)).getD []), a.length) })

/-- `:279-306` `Recover`. -/
def recover (db : Db) : Acc :=
  match db.st with
  | none => ⟨[], 0⟩
  | some (hs, n) => ⟨hs.map (fun hv => if hv.length = hashSize then some (.hash hv) else none), n⟩

/-- `:335-347` the loop of `WitnessFor`, from `offset` down: the roots below `offset`, reversed. The result is the position of the
root changed, the root, and the witness. -/
def findWitness (H : Bytes → Bytes) (db : Db) : List (Option Node) → ℤ → Res (ℕ × Node × Option (List Witness))
  | [], _ => .err
  | r :: rs, idx =>
    if idx < 2 ^ rs.length then
      match r with
      | none => .panic
      | some n => .ok (rs.length, n.witnessFor H db rs.length idx [])
    else findWitness H db rs (idx - 2 ^ rs.length)

/-- `:331-348` `WitnessFor`: the accumulator afterwards and the witness. -/
def Acc.witnessFor (H : Bytes → Bytes) (db : Db) (a : Acc) (idx : ℤ) : Acc × Res (List Witness) :=
  if idx ≥ a.length then (a, .err)
  else match findWitness H db a.roots.reverse idx with
    | .err => (a, .err)
    | .panic => (a, .panic)
    | .ok (i, n, none) => (⟨a.roots.set i (some n), a.length⟩, .err)
    | .ok (i, n, some w) => (⟨a.roots.set i (some n), a.length⟩, .ok w)

/-- `:353-363` one turn of the loop of `Verify`: the buffer and the hash. -/
def verifyStep (H : Bytes → Bytes) (s : Bytes × Bytes) (w : Witness) : Bytes × Bytes :=
  let buf := match w.dir with
    | .left => copyTo (copyTo s.1 0 w.hash) hashSize s.2
    | .right => copyTo (copyTo s.1 0 s.2) hashSize w.hash
  (buf, H buf)

/-- `:350-375` `Verify`: whether there is no error. -/
def Acc.verify (H : Bytes → Bytes) (a : Acc) (ws : List Witness) (h : Bytes) : Bool :=
  let r := ws.foldl (verifyStep H) (List.replicate (2 * hashSize) 0, h)
  match a.roots[ws.length]? with
  | some (some root) => decide (root.hashOf H = r.2)
  | _ => false

/-- `:377-383` `WitnessesToHashes`. -/
def witnessesToHashes (w : List Witness) : List Bytes := w.map (·.hash)

/-- `:385-397` `HashesToWitness`, `idx` not negative. -/
def hashesToWitness : List Bytes → ℕ → List Witness
  | [], _ => []
  | hv :: hvs, idx => ⟨if idx % 2 = 0 then .right else .left, hv⟩ :: hashesToWitness hvs (idx / 2)

end Verif.Mta
