import Verif.Base.Hex
import Mathlib.Data.List.FinRange

/-!
# The Merkle Patricia trie of the world state

Model of `common/trie/ompt`: `mpt.go`, `node.go`, `leaf.go`, `extension.go`, `branch.go`, `hash.go`,
`rlp.go`, `mptforbytes.go`.

Simplifications.
* A node is a value here; the sharing of nodes between tries and snapshots, the states of nodes and
  the cached hashes are not modelled.
* The objects stored are byte strings (`mptforbytes.go`, `bytesobject.go`).
* `nibs[depth:]` is passed instead of `nibs` and `depth`.
* The node cache (`common/trie/cache`) is left out: `realize` always reads the database.
* The hash function is a parameter.
* Recursion through the database is bounded by `fuel`; running out of it is an error, and the theorems
  about the API functions show that with the bound given by them this does not happen.
* A run-time panic of Go is the error `panic`.
-/

namespace Verif.Trie
open Verif

/-- A half byte. -/
abbrev Nib := Fin 16

/-- leaf.go:13-17, extension.go:13-17, branch.go:13-17, hash.go:13-15; `nil` is the nil interface. -/
inductive Node
  | nil
  | leaf (keys : List Nib) (v : Bytes)
  | ext (keys : List Nib) (next : Node)
  | branch (c : Nib → Node) (v : Option Bytes)
  | hash (h : Bytes)

/-- Errors. -/
inductive Err
  | missing      -- mpt.go:155 ErrorKeyNotFound
  | malformed    -- a node that cannot be deserialized
  | illegal      -- common.ErrIllegalArgument
  | notFound     -- common.ErrNotFound
  | panic
  | fuel
deriving DecidableEq, Repr

/-! ## Keys -/

/-- mpt.go:87-95 `bytesToNibs`. -/
def bytesToNibs : Bytes → List Nib
  | [] => []
  | b :: bs => Fin.ofNat 16 (b.toNat / 16) :: Fin.ofNat 16 b.toNat :: bytesToNibs bs

/-- node.go:130-136 `keysToBytes`; a last odd nibble is dropped. -/
def keysToBytes : List Nib → Bytes
  | a :: b :: r => UInt8.ofNat (a.val * 16 + b.val) :: keysToBytes r
  | _ => []

/-- node.go:138-152 `encodeKeys`. -/
def encodeKeys (tag : Nat) (k : List Nib) : Bytes :=
  if k.length % 2 = 1 then
    match k with
    | a :: r => UInt8.ofNat (tag + 16 + a.val) :: keysToBytes r
    | [] => []
  else UInt8.ofNat tag :: keysToBytes k

/-- node.go:154-171 `decodeKeys`; `none` is an index out of range. -/
def decodeKeys (b : Bytes) : Option (List Nib) :=
  match b with
  | [] => none
  | h :: r =>
    if h.toNat / 16 % 2 = 1 then some (Fin.ofNat 16 h.toNat :: bytesToNibs r)
    else some (bytesToNibs r)

/-- node.go:173-184 `compareKeys`: the length of the common beginning, and whether all is common. -/
def compareKeys : List Nib → List Nib → Nat × Bool
  | [], [] => (0, true)
  | a :: as, b :: bs =>
    if a = b then ((compareKeys as bs).1 + 1, (compareKeys as bs).2) else (0, false)
  | _, _ => (0, false)

/-! ## RLP -/

/-- rlp.go:127-133 `rlpCountBytesForSize` and the loops writing the size (rlp.go:148-151, 175-178):
the big-endian bytes of a size. -/
def sizeBytes (n : Nat) : Bytes :=
  if n < 256 then [UInt8.ofNat n] else sizeBytes (n / 256) ++ [UInt8.ofNat n]
decreasing_by omega

/-- rlp.go:135-155 `rlpEncodeBytes`. -/
def rlpEncodeBytes (b : Bytes) : Bytes :=
  if b.length = 1 ∧ (∀ x ∈ b, x.toNat < 0x80) then b
  else if b.length ≤ 55 then UInt8.ofNat (0x80 + b.length) :: b
  else UInt8.ofNat (0x80 + 55 + (sizeBytes b.length).length) :: (sizeBytes b.length ++ b)

/-- rlp.go:157-195 `rlpEncodeList`. -/
def rlpEncodeList (l : List Bytes) : Bytes :=
  if l.flatten.length ≤ 55 then UInt8.ofNat (0xC0 + l.flatten.length) :: l.flatten
  else UInt8.ofNat (0xC0 + 55 + (sizeBytes l.flatten.length).length)
    :: (sizeBytes l.flatten.length ++ l.flatten)

/-- rlp.go:15-42 `rlpReadSize`. -/
def rlpReadSize (b : Bytes) (slen : Nat) : Option Nat :=
  if slen > b.length then none
  else
    let s := (b.take slen).foldl (fun a x => a * 256 + x.toNat) 0
    if s < 56 ∨ b.head? = some 0 then none else some s

/-- rlp.go:44-84 `rlpParseHeader`: whether it is a list, the size of the tag, the size of the
content. -/
def rlpParseHeader (buf : Bytes) : Option (Bool × Nat × Nat) :=
  match buf with
  | [] => none
  | x :: r =>
    let b := x.toNat
    let fits (l : Bool) (t c : Nat) : Option (Bool × Nat × Nat) :=
      if c > buf.length - t then none else some (l, t, c)
    if b < 0x80 then fits false 0 1
    else if b < 0xB8 then
      if b - 0x80 = 1 ∧ (∃ y ∈ r.head?, y.toNat < 128) then none else fits false 1 (b - 0x80)
    else if b < 0xC0 then
      match rlpReadSize r (b - 0xB7) with
      | some c => fits false (b - 0xB7 + 1) c
      | none => none
    else if b < 0xF8 then fits true 1 (b - 0xC0)
    else
      match rlpReadSize r (b - 0xF7) with
      | some c => fits true (b - 0xF7 + 1) c
      | none => none

/-- rlp.go:98-109, the loop of `rlpParseList`. Every item has at least one byte, so the length of
the content bounds the iterations. -/
def rlpItems : Nat → Bytes → Option (List Bytes)
  | _, [] => some []
  | 0, _ => none
  | fuel + 1, b =>
    match rlpParseHeader b with
    | none => none
    | some (_, t, c) =>
      if b.length < t + c then none
      else match rlpItems fuel (b.drop (t + c)) with
        | some l => some (b.take (t + c) :: l)
        | none => none

/-- rlp.go:86-111 `rlpParseList`. -/
def rlpParseList (b : Bytes) : Option (List Bytes) :=
  match rlpParseHeader b with
  | some (true, t, c) =>
    if b.length < t + c then none else rlpItems c ((b.drop t).take c)
  | _ => none

/-- rlp.go:113-125 `rlpParseBytes`. -/
def rlpParseBytes (b : Bytes) : Option Bytes :=
  match rlpParseHeader b with
  | some (false, t, c) => if b.length < t + c then none else some ((b.drop t).take c)
  | _ => none

/-! ## Serialization -/

/-- All nibbles in order. -/
def nibs16 : List Nib := List.finRange 16

/-- node.go:84-108 `getLink(false)` of a node with the given serialization, hash.go:17-22; a nil child
is written as an empty string (branch.go:70-72). -/
def linkOf (H : Bytes → Bytes) (n : Node) (s : Bytes) : Bytes :=
  match n with
  | .nil => rlpEncodeBytes []
  | .hash h => rlpEncodeBytes h
  | _ => if s.length > 32 then rlpEncodeBytes (H s) else s

/-- leaf.go:92-100, extension.go:58-64, branch.go:68-82 `RLPListEncode`. -/
def ser (H : Bytes → Bytes) : Node → Bytes
  | .nil => []
  | .hash h => h
  | .leaf k v => rlpEncodeList [rlpEncodeBytes (encodeKeys 0x20 k), rlpEncodeBytes v]
  | .ext k n => rlpEncodeList [rlpEncodeBytes (encodeKeys 0x00 k), linkOf H n (ser H n)]
  | .branch c v =>
    rlpEncodeList (nibs16.map (fun i => linkOf H (c i) (ser H (c i)))
      ++ [rlpEncodeBytes (v.getD [])])

/-- mpt.go:188-196 `Hash`: `getLink(true)` of the root. -/
def rootHash (H : Bytes → Bytes) : Node → Option Bytes
  | .nil => none
  | .hash h => some h
  | n => some (H (ser H n))

mutual
/-- node.go:227-250 `deserialize`, leaf.go:19-41 `newLeaf`, extension.go:19-37 `newExtension`,
branch.go:19-45 `newBranch`. -/
def deser : Nat → Bytes → Except Err Node
  | 0, _ => .error .fuel
  | fuel + 1, s =>
    match rlpParseList s with
    | none => .error .malformed
    | some [k, x] =>
      match rlpParseBytes k with
      | none => .error .malformed
      | some [] => .error .panic
      | some (kh :: kr) =>
        match decodeKeys (kh :: kr) with
        | none => .error .panic
        | some keys =>
          if kh.toNat / 32 % 2 = 0 then
            match fromLink fuel x with
            | .ok n => .ok (.ext keys n)
            | .error e => .error e
          else
            match rlpParseBytes x with
            | some v => .ok (.leaf keys v)
            | none => .error .malformed
    | some l =>
      if l.length = 17 then
        match fromLinks fuel (l.take 16) with
        | .error e => .error e
        | .ok ns =>
          match rlpParseBytes (l.getD 16 []) with
          | none => .error .malformed
          | some v =>
            .ok (.branch (fun i => ns.getD i.val .nil) (if v.length > 0 then some v else none))
      else .error .malformed
/-- node.go:204-225 `nodeFromLink`, `nodeFromHash`. -/
def fromLink : Nat → Bytes → Except Err Node
  | 0, _ => .error .fuel
  | fuel + 1, b =>
    match b with
    | [] => .error .panic
    | x :: _ =>
      if x.toNat ≥ 0xC0 then deser fuel b
      else match rlpParseBytes b with
        | none => .error .malformed
        | some h => .ok (if h.length = 0 then .nil else .hash h)
/-- The loop over the children, branch.go:27-33. -/
def fromLinks : Nat → List Bytes → Except Err (List Node)
  | _, [] => .ok []
  | 0, _ => .error .fuel
  | fuel + 1, b :: bs =>
    match fromLink fuel b with
    | .error e => .error e
    | .ok n =>
      match fromLinks fuel bs with
      | .error e => .error e
      | .ok ns => .ok (n :: ns)
end

/-- `deserialize` with a bound that is never met (see `deser_ser`). -/
def deserialize (s : Bytes) : Except Err Node := deser (19 * s.length + 19) s

/-- The database: the bucket `MerkleTrie`. -/
abbrev DB := Bytes → Option Bytes

/-- mpt.go:146-170 `realize`. -/
def realize (db : DB) (h : Bytes) : Except Err Node :=
  match db h with
  | none => .error .missing
  | some s => if s = [] then .error .missing else deserialize s

/-- `realize` of a node: hash.go:44-46, leaf.go:197-199, extension.go:215-217, branch.go:264-266. -/
def realizeNode (db : DB) : Node → Except Err Node
  | .hash h => realize db h
  | m => .ok m

/-! ## Lookup -/

/-- mpt.go:103-108 `get`, leaf.go:181-195, extension.go:199-213, branch.go:237-262, hash.go:52-58.
The second component is the returned node, in which nodes read from the database have been
filled in. -/
def get (db : DB) : Nat → Node → List Nib → Node × Option Bytes × Option Err
  | 0, n, _ => (n, none, some .fuel)
  | _ + 1, .nil, _ => (.nil, none, none)
  | _ + 1, .leaf k v, keys =>
    (.leaf k v, if (compareKeys keys k).2 then some v else none, none)
  | fuel + 1, .ext k next, keys =>
    let cnt := (compareKeys keys k).1
    if cnt < k.length then (.ext k next, none, none)
    else
      let r := get db fuel next (keys.drop cnt)
      (.ext k r.1, r.2)
  | fuel + 1, .branch c v, keys =>
    match keys with
    | [] => (.branch c v, v, none)
    | i :: r =>
      let x := get db fuel (c i) r
      (.branch (fun j => if j = i then x.1 else c j) v, x.2)
  | fuel + 1, .hash h, keys =>
    match realize db h with
    | .error e => (.hash h, none, some e)
    | .ok n => get db fuel n keys

/-! ## Update -/

/-- What `set` and `delete` return: the new node, whether there was a change, the old value, and
the error. -/
structure Res where
  node : Node
  dirty : Bool
  old : Option Bytes
  err : Option Err

/-- A branch with no children: `&branch{}`. -/
def noChildren : Nib → Node := fun _ => .nil

/-- `br.children[i] = n`. -/
def put (c : Nib → Node) (i : Nib) (n : Node) : Nib → Node := fun j => if j = i then n else c j

/-- leaf.go:112-161 `set`. -/
def setLeaf (k : List Nib) (v : Bytes) (keys : List Nib) (o : Bytes) : Res :=
  let cnt := (compareKeys keys k).1
  let mtch := (compareKeys keys k).2
  if cnt = 0 ∧ mtch = false then
    let c1 : Nib → Node := match keys with
      | [] => noChildren
      | i :: r => put noChildren i (.leaf r o)
    let v1 : Option Bytes := match keys with
      | [] => some o
      | _ => none
    match k with
    | [] => ⟨.branch c1 (some v), true, none, none⟩
    | i :: r => ⟨.branch (put c1 i (.leaf r v)) v1, true, none, none⟩
  else if cnt < k.length then
    let c1 : Nib → Node := match keys.drop cnt with
      | [] => noChildren
      | i :: r => put noChildren i (.leaf r o)
    let v1 : Option Bytes := match keys.drop cnt with
      | [] => some o
      | _ => none
    match k.drop cnt with
    | [] => ⟨.leaf k v, false, none, some .panic⟩
    | i :: r => ⟨.ext (keys.take cnt) (.branch (put c1 i (.leaf r v)) v1), true, none, none⟩
  else if cnt < keys.length then
    match keys.drop cnt with
    | [] => ⟨.leaf k v, false, none, some .panic⟩
    | i :: r => ⟨.ext k (.branch (put noChildren i (.leaf r o)) (some v)), true, none, none⟩
  else if v = o then ⟨.leaf k v, false, some v, none⟩
  else ⟨.leaf k o, true, some v, none⟩

/-- extension.go:108-143 `set`, where the key leaves the extension. -/
def setExtSplit (k : List Nib) (next : Node) (keys : List Nib) (o : Bytes) (cnt : Nat) : Res :=
  let c1 : Nib → Node := match keys.drop cnt with
    | [] => noChildren
    | i :: r => put noChildren i (.leaf r o)
  let v1 : Option Bytes := match keys.drop cnt with
    | [] => some o
    | _ => none
  match k.drop cnt with
  | [] => ⟨.ext k next, false, none, some .panic⟩
  | i :: r =>
    let rest : Node := match r with
      | [] => next
      | _ => .ext r next
    if cnt = 0 then ⟨.branch (put c1 i rest) v1, true, none, none⟩
    else
      let c2 : Nib → Node := match keys.drop cnt with
        | [] => put noChildren i rest
        | j :: s => put (put noChildren i rest) j (.leaf s o)
      ⟨.ext (k.take cnt) (.branch c2 v1), true, none, none⟩

/-- mpt.go:110-118 `set`, leaf.go:112-161, extension.go:108-156, branch.go:136-163, hash.go:60-66. -/
def set (db : DB) : Nat → Node → List Nib → Bytes → Res
  | 0, n, _, _ => ⟨n, false, none, some .fuel⟩
  | _ + 1, .nil, keys, o => ⟨.leaf keys o, true, none, none⟩
  | _ + 1, .leaf k v, keys, o => setLeaf k v keys o
  | fuel + 1, .ext k next, keys, o =>
    let cnt := (compareKeys keys k).1
    if cnt = 0 ∨ cnt < k.length then setExtSplit k next keys o cnt
    else
      let r := set db fuel next (keys.drop cnt) o
      ⟨.ext k r.node, r.dirty, r.old, r.err⟩
  | fuel + 1, .branch c v, keys, o =>
    match keys with
    | [] =>
      if v = some o then ⟨.branch c v, false, v, none⟩
      else ⟨.branch c (some o), true, v, none⟩
    | i :: s =>
      let r := set db fuel (c i) s o
      ⟨.branch (put c i r.node) v, r.dirty, r.old, r.err⟩
  | fuel + 1, .hash h, keys, o =>
    match realize db h with
    | .error e => ⟨.hash h, false, none, some e⟩
    | .ok n => set db fuel n keys o

/-- `getKeyPrepended` of leaf.go:163-171 and extension.go:158-166. -/
def prepended (k : List Nib) : Node → Node
  | .leaf k' v => .leaf (k ++ k') v
  | .ext k' n => .ext (k ++ k') n
  | n => n

/-- The children of a branch that are not nil, in order (branch.go:197-206). -/
def alive (c : Nib → Node) : List Nib :=
  nibs16.filter (fun i => match c i with | .nil => false | _ => true)

/-- branch.go:197-234: what is left of a branch `br` after something was removed from it. `n` is what
is returned if the only child left cannot be read; since `br` and `n` are the same object when `n` is
dirty, that is `br` itself (`inPlace`) or the branch before. -/
def collapse (db : DB) (n : Node) (c : Nib → Node) (v ov : Option Bytes) : Res :=
  match alive c with
  | [] =>
    match v with
    | none => ⟨n, false, none, some .panic⟩
    | some w => ⟨.leaf [] w, true, ov, none⟩
  | [i] =>
    match v with
    | some _ => ⟨.branch c v, true, ov, none⟩
    | none =>
      match realizeNode db (c i) with
      | .error e => ⟨n, false, none, some e⟩
      | .ok m =>
        match m with
        | .ext k x => ⟨prepended [i] (.ext k x), true, ov, none⟩
        | .leaf k x => ⟨prepended [i] (.leaf k x), true, ov, none⟩
        | .branch d x => ⟨.ext [i] (.branch d x), true, ov, none⟩
        | _ => ⟨.branch c v, true, ov, none⟩
  | _ => ⟨.branch c v, true, ov, none⟩

/-- mpt.go:120-125 `delete`, leaf.go:173-179, extension.go:168-197, branch.go:165-235,
hash.go:68-74. `inPlace` says that branches are dirty, so that they are changed in place. An error
below an extension without a change is lost (extension.go:196). -/
def delete (db : DB) (inPlace : Bool) : Nat → Node → List Nib → Res
  | 0, n, _ => ⟨n, false, none, some .fuel⟩
  | _ + 1, .nil, _ => ⟨.nil, false, none, none⟩
  | _ + 1, .leaf k v, keys =>
    if (compareKeys keys k).2 then ⟨.nil, true, some v, none⟩ else ⟨.leaf k v, false, none, none⟩
  | fuel + 1, .ext k next, keys =>
    let cnt := (compareKeys keys k).1
    if cnt < k.length then ⟨.ext k next, false, none, none⟩
    else
      let r := delete db inPlace fuel next (keys.drop cnt)
      if r.dirty then
        match r.node with
        | .nil => ⟨.nil, true, r.old, r.err⟩
        | .ext k' x => ⟨prepended k (.ext k' x), true, r.old, r.err⟩
        | .leaf k' x => ⟨prepended k (.leaf k' x), true, r.old, r.err⟩
        | m => ⟨.ext k m, true, r.old, r.err⟩
      else ⟨.ext k r.node, false, none, none⟩
  | fuel + 1, .branch c v, keys =>
    match keys with
    | [] =>
      match v with
      | none => ⟨.branch c v, false, none, none⟩
      | some w => collapse db (if inPlace then .branch c none else .branch c v) c none (some w)
    | i :: s =>
      match c i with
      | .nil => ⟨.branch c v, false, none, none⟩
      | _ =>
        let r := delete db inPlace fuel (c i) s
        if r.dirty then
          collapse db (if inPlace then .branch (put c i r.node) v else .branch c v)
            (put c i r.node) v r.old
        else ⟨.branch (put c i r.node) v, false, none, r.err⟩
  | fuel + 1, .hash h, keys =>
    match realize db h with
    | .error e => ⟨.hash h, false, none, some e⟩
    | .ok n => delete db inPlace fuel n keys

/-! ## The trie -/

/-- The bound on the recursion given by the functions of the API. -/
def fuelFor (keys : List Nib) : Nat := 2 * keys.length + 3

/-- mpt.go:172-186 `Get`, mptforbytes.go:16-22: the trie afterwards, and the value or the error. -/
def Get (db : DB) (root : Node) (k : Bytes) : Node × Except Err (Option Bytes) :=
  let r := get db (fuelFor (bytesToNibs k)) root (bytesToNibs k)
  (r.1, match r.2.2 with | some e => .error e | none => .ok r.2.1)

/-- mpt.go:256-273 `Set`, mptforbytes.go:24-32: the trie afterwards, and the old value or the error. -/
def Set (db : DB) (root : Node) (k v : Bytes) : Node × Except Err (Option Bytes) :=
  let r := set db (fuelFor (bytesToNibs k)) root (bytesToNibs k) v
  (r.node, match r.err with | some e => .error e | none => .ok r.old)

/-- mpt.go:275-298 `Delete`, mptforbytes.go:34-41. Without a change the root stays the same object;
what was read from the database is kept inside it, unless it is a hash node itself. -/
def Delete (db : DB) (inPlace : Bool) (root : Node) (k : Bytes) : Node × Except Err (Option Bytes) :=
  let r := delete db inPlace (fuelFor (bytesToNibs k)) root (bytesToNibs k)
  (if r.dirty then r.node else (match root with | .hash h => .hash h | _ => r.node),
    match r.err with | some e => .error e | none => .ok r.old)

/-- mpt.go:610-621 `NewMPT`, node.go:219-225. -/
def newMPT (h : Bytes) : Node := if h.length = 0 then .nil else .hash h

/-- mpt.go:533-535 `Empty`. -/
def Empty : Node → Bool
  | .nil => true
  | _ => false

/-! ## Writing to the database -/

/-- leaf.go:67-86, extension.go:81-96, branch.go:101-126 `flush`, node.go:110-124 `flushBaseInLock`:
what is written, in order. Nodes of more than 32 bytes have a hash; `root` says that the hash was
forced (mpt.go:202-205). Nodes that were written before are written again here. -/
def writes (H : Bytes → Bytes) (root : Bool) : Node → List (Bytes × Bytes)
  | .nil => []
  | .hash _ => []
  | .leaf k v =>
    let s := ser H (.leaf k v)
    if s.length > 32 ∨ root then [(H s, s)] else []
  | .ext k n =>
    let s := ser H (.ext k n)
    writes H false n ++ (if s.length > 32 ∨ root then [(H s, s)] else [])
  | .branch c v =>
    let s := ser H (.branch c v)
    (nibs16.map (fun i => writes H false (c i))).flatten
      ++ (if s.length > 32 ∨ root then [(H s, s)] else [])

/-- Writing one entry. -/
def dbSet (db : DB) (e : Bytes × Bytes) : DB := fun h => if h = e.1 then some e.2 else db h

/-- Writing entries in order. -/
def dbSets (db : DB) (l : List (Bytes × Bytes)) : DB := l.foldl dbSet db

/-- mpt.go:198-226 `Flush`. -/
def Flush (H : Bytes → Bytes) (db : DB) (root : Node) : DB := dbSets db (writes H true root)

/-! ## Proofs -/

/-- Whether the node has a hash (node.go:94-96): it is the root, or has more than 32 bytes. -/
def hashed (H : Bytes → Bytes) (root : Bool) (n : Node) : Bool := root || (ser H n).length > 32

/-- leaf.go:216-230, extension.go:234-254, branch.go:299-322, hash.go:84-90 `getProof`: the returned
node and proof. -/
def getProof (H : Bytes → Bytes) (db : DB) :
    Nat → Bool → Node → List Nib → List Bytes → Node × Except Err (Option (List Bytes))
  | 0, _, n, _, _ => (n, .error .fuel)
  | _ + 1, _, .nil, _, _ => (.nil, .ok none)
  | _ + 1, root, .leaf k v, keys, ps =>
    if (compareKeys k keys).2 then
      (.leaf k v, .ok (some (if hashed H root (.leaf k v) then ps ++ [ser H (.leaf k v)] else ps)))
    else (.leaf k v, .ok none)
  | fuel + 1, root, .ext k next, keys, ps =>
    let cnt := (compareKeys k keys).1
    if cnt < k.length then (.ext k next, .ok none)
    else
      let r := getProof H db fuel false next (keys.drop cnt)
        (if hashed H root (.ext k next) then ps ++ [ser H (.ext k next)] else ps)
      (.ext k r.1, r.2)
  | fuel + 1, root, .branch c v, keys, ps =>
    let ps' := if hashed H root (.branch c v) then ps ++ [ser H (.branch c v)] else ps
    match keys with
    | [] => (.branch c v, .ok (some ps'))
    | i :: s =>
      match c i with
      | .nil => (.branch c v, .ok none)
      | _ =>
        let r := getProof H db fuel false (c i) s ps'
        (.branch (put c i r.1) v, r.2)
  | fuel + 1, root, .hash h, keys, ps =>
    match realize db h with
    | .error e => (.hash h, .error e)
    | .ok n => getProof H db fuel root n keys ps

/-- mpt.go:457-483 `GetProof`; `none` is the nil slice. -/
def GetProof (H : Bytes → Bytes) (db : DB) (root : Node) (k : Bytes) : Option (List Bytes) :=
  match root with
  | .nil => none
  | _ =>
    match (getProof H db (fuelFor (bytesToNibs k)) true root (bytesToNibs k) []).2 with
    | .ok r => r
    | .error _ => none

/-- The beginning of `prove` of extension.go:265-270 and branch.go:334-339: a node with a hash must come
first in the proof. -/
def strip (own : Option Bytes) (ps : List Bytes) : Option (List Bytes) :=
  match own with
  | none => some ps
  | some s =>
    match ps with
    | [] => none
    | p :: r => if p = s then some r else none

/-- leaf.go:232-256, extension.go:256-281, branch.go:324-365, hash.go:92-106 `prove`, in a trie of
which only the root hash is known (`mpt.go:610-621` with an empty database). `own` is the
serialization of the node if its hash is known. The result is the value. -/
def prove (H : Bytes → Bytes) :
    Nat → Option Bytes → Node → List Nib → List Bytes → Except Err (Option Bytes)
  | 0, _, _, _, _ => .error .fuel
  | _ + 1, _, .nil, _, _ => .error .panic
  | _ + 1, own, .leaf k v, keys, ps =>
    match own with
    | some s => if ps = [s] then (if (compareKeys k keys).2 then .ok (some v) else .error .notFound)
      else .error .illegal
    | none => if (compareKeys k keys).2 then .ok (some v) else .error .notFound
  | fuel + 1, own, .ext k next, keys, ps =>
    match strip own ps with
    | none => .error .illegal
    | some ps' =>
      let cnt := (compareKeys k keys).1
      if cnt < k.length then .error .notFound
      else prove H fuel none next (keys.drop cnt) ps'
  | fuel + 1, own, .branch c v, keys, ps =>
    match strip own ps with
    | none => .error .illegal
    | some ps' =>
      match keys with
      | [] => .ok v
      | i :: s =>
        match c i with
        | .nil => .error .notFound
        | _ => prove H fuel none (c i) s ps'
  | fuel + 1, _, .hash h, keys, ps =>
    match ps with
    | [] => .error .illegal
    | b :: _ =>
      if H b = h then
        match deserialize b with
        | .error e => .error e
        | .ok n => prove H fuel (some b) n keys ps
      else .error .illegal

/-- mpt.go:485-499 `Prove` and mptforbytes.go:59-65, in a trie of which only the root hash is known.
A nil object makes `mptForBytes.Prove` panic. -/
def Prove (H : Bytes → Bytes) (rootHash : Bytes) (k : Bytes) (ps : List Bytes) : Except Err Bytes :=
  match newMPT rootHash with
  | .nil => .error .illegal
  | n =>
    match prove H (fuelFor (bytesToNibs k)) none n (bytesToNibs k) ps with
    | .error e => .error e
    | .ok none => .error .panic
    | .ok (some v) => .ok v

/-! ## Iteration -/

/-- An item on the stack of an iterator, mpt.go:334-337. -/
abbrev Item := List Nib × Node

/-- leaf.go:201-214, extension.go:219-232, branch.go:268-297 `traverse`: the key and value found at
the node, and the items to be visited next, first one first. (Go pushes them in the reverse order and
pops the last one.) -/
def traverse (k : List Nib) : Node → Option (List Nib × Bytes) × List Item
  | .nil => (none, [])
  | .hash _ => (none, [])
  | .leaf k' v => (some (k ++ k', v), [])
  | .ext k' n => (none, [(k ++ k', n)])
  | .branch c v =>
    (v.map (fun w => (k, w)),
      (nibs16.filter (fun i => match c i with | .nil => false | _ => true)).map
        (fun i => (k ++ [i], c i)))

/-- mpt.go:352-358 `appendItem`: the node is read from the database before it is pushed. -/
def appendItems (db : DB) : List Item → Except Err (List Item)
  | [] => .ok []
  | (k, n) :: r =>
    match realizeNode db n with
    | .error e => .error e
    | .ok m =>
      match appendItems db r with
      | .error e => .error e
      | .ok l => .ok ((k, m) :: l)

/-- mpt.go:360-366 `checkPrefix`. -/
def checkPrefix (prefix' v : List Nib) (short : Bool) : Bool :=
  if short && v.length < prefix'.length then v.isPrefixOf prefix' else prefix'.isPrefixOf v

/-- mpt.go:368-390 `filterItem` and `traverse` of the iterator: what is found, and what is pushed. -/
def iterTraverse (db : DB) (p : List Nib) (ii : Item) :
    Except Err (Option (List Nib × Bytes) × List Item) :=
  let t := traverse ii.1 ii.2
  if p.length > 0 ∧ checkPrefix p ii.1 false = false then
    match appendItems db (t.2.filter (fun e => checkPrefix p e.1 true)) with
    | .error e => .error e
    | .ok l => .ok (t.1.filter (fun kv => checkPrefix p kv.1 false), l)
  else
    match appendItems db t.2 with
    | .error e => .error e
    | .ok l => .ok (t.1, l)

/-- mpt.go:392-420 `Next` called again and again until nothing is left: all that the iterator
delivers. -/
def iterate (db : DB) (p : List Nib) : Nat → List Item → Except Err (List (List Nib × Bytes))
  | _, [] => .ok []
  | 0, _ => .error .fuel
  | fuel + 1, ii :: st =>
    match iterTraverse db p ii with
    | .error e => .error e
    | .ok (f, l) =>
      match iterate db p fuel (l ++ st) with
      | .error e => .error e
      | .ok r => .ok (match f with | some kv => kv :: r | none => r)

/-- mpt.go:430-455 `Filter`, mpt.go:426-428 `Iterator` (an empty prefix), mptforbytes.go:71-89: the
pairs of keys and values delivered. -/
def Filter (db : DB) (fuel : Nat) (root : Node) (p : Bytes) : Except Err (List (Bytes × Bytes)) :=
  match realizeNode db root with
  | .error e => .error e
  | .ok .nil => .ok []
  | .ok n =>
    match iterate db (bytesToNibs p) fuel [([], n)] with
    | .error e => .error e
    | .ok l => .ok (l.map (fun kv => (keysToBytes kv.1, kv.2)))

end Verif.Trie
