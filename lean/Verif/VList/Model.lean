import Verif.Base.Bytes

/-!
# The validator list: copy on write

Models `service/state/validatorlist.go` and `service/state/validator.go` of the Go code: `ValidatorState`
(the list a block execution changes) and `ValidatorSnapshot` (what is kept of it after a block).

The Go code shares memory: a snapshot and the states made from it point to the same `validatorList` object, and
the slices in those objects point to backing arrays which `append` may write in place. The model has that memory:
an array store, a store of `validatorList` objects, of snapshots and of states, all addressed by references
(positions in the store; nothing is freed). Every operation below reads and writes those stores the way the Go
statements do.

Simplifications:
* the locks: every operation runs alone (`lock`, `wLock`);
* one database bucket: the check in `Reset` that the buckets agree (`validatorlist.go:217-219`) is left out, and
  so is the builder (`NewValidatorSnapshotWithBuilder`, `OnData`, `406-433`, `159-165`: see the model of block sync);
* `codec.BC` on a list of validators is a pair of functions `enc`, `dec`, and SHA3-256 a function `sha`;
* database errors and failing conversions of foreign validator types (`validatorFromValidator`, `validator.go:112-125`)
  do not occur; a validator is a value (its fields are not written after it is made).
-/

namespace Verif.VList

/-- A validator: its address and its public key (validator.go:15-18; no key is the empty string). -/
structure Vd where
  addr : Bytes
  pub : Bytes
deriving DecidableEq, Repr

/-- The parts of the environment: `codec.BC` on lists of validators, SHA3-256, and the extra capacity the Go
runtime gives to an array it allocates for `append`. -/
structure Env where
  enc : List Vd → Bytes
  dec : Bytes → Option (List Vd)
  sha : Bytes → Bytes
  slack : Nat → Nat

/-- An `addrMap` (validatorlist.go:39): at most one entry per key. A Go map is a reference, but no statement of the
file puts one map into two objects (`clone` leaves it out, `makeAddrMapFrom` makes a new one), so it is a value here. -/
abbrev AMap := List (Bytes × Nat)

/-- `m[k]` of a Go map. -/
def mget : AMap → Bytes → Option Nat
  | [], _ => none
  | (k', i) :: m, k => if k' = k then some i else mget m k

/-- `delete(m, k)`. -/
def mdel (m : AMap) (k : Bytes) : AMap := m.filter fun e => !(decide (e.1 = k))

/-- `m[k] = i`. -/
def mput (m : AMap) (k : Bytes) (i : Nat) : AMap := (k, i) :: mdel m k

/-- A `validatorList` object (validatorlist.go:35-40): its slice (a backing array and a length; every slice in this
file starts at the start of its array) and its map, if made. -/
structure ListObj where
  arr : Nat
  len : Nat
  amap : Option AMap

/-- A `validatorSnapshot` object (validatorlist.go:131-136): `none` is Go's `nil`. -/
structure Snap where
  lst : Nat
  dirty : Bool
  ser : Option Bytes
  hash : Option Bytes

/-- A `validatorState` object (validatorlist.go:185-189). -/
structure St where
  lst : Nat
  snap : Option Nat

/-- The memory. An array cell is `none` where nothing was written (a `nil` pointer). -/
structure World where
  arrs : List (List (Option Vd))
  lists : List ListObj
  snaps : List Snap
  states : List St
  db : Bytes → Option Bytes

/-- The object a reference points to. -/
def World.obj (w : World) (r : Nat) : ListObj := w.lists.getD r ⟨0, 0, none⟩

/-- The cells of `vl.validators`. -/
def World.cells (w : World) (o : ListObj) : List (Option Vd) := (w.arrs.getD o.arr []).take o.len

/-- The validators in `vl.validators`. -/
def World.vals (w : World) (o : ListObj) : List Vd := (w.cells o).reduceOption

/-- `Len` (validatorlist.go:42-47). -/
def lenOf (w : World) (r : Nat) : Nat := (w.obj r).len

/-- `Get`, `getInLock` (validatorlist.go:49-61). -/
def getOf (w : World) (r : Nat) (i : Int) : Option Vd :=
  if i < 0 ∨ i ≥ ((w.obj r).len : Int) then none
  else ((w.arrs.getD (w.obj r).arr []).getD i.toNat none)

/-- `IsSame` (validatorlist.go:63-76); `Equal` (validator.go:76-78) compares address and key. -/
def isSame (w : World) (r : Nat) (vl : List Vd) : Bool :=
  decide (vl.length = (w.obj r).len ∧ vl.map some = w.cells (w.obj r))

/-- The loop of `makeAddrMapFrom` (validatorlist.go:92-95). -/
def fillMap : AMap → Nat → List Vd → AMap
  | m, _, [] => m
  | m, i, v :: vl => fillMap (mput m v.addr i) (i + 1) vl

/-- `makeAddrMapFrom(vl, false)` (validatorlist.go:91-101). -/
def makeMap (vl : List Vd) : AMap := fillMap [] 0 vl

/-- `makeAddrMapFrom(vl, true)` (validatorlist.go:91-101): `none` is the error for duplicates. -/
def makeMapStrict (vl : List Vd) : Option AMap :=
  if (makeMap vl).length ≠ vl.length then none else some (makeMap vl)

/-- Write an object. -/
def World.putObj (w : World) (r : Nat) (o : ListObj) : World := { w with lists := w.lists.set r o }

/-- The map `indexOfInLock` reads: the one there is, or a new one (validatorlist.go:104-113). -/
def curMap (w : World) (o : ListObj) : AMap :=
  match o.amap with
  | some m => m
  | none => makeMap (w.vals o)

/-- `IndexOf`, `indexOfInLock(addr, true)` (validatorlist.go:84-89, 103-119): the map is made if there is none
(`indexOfInLock` is never called with `false`). `-1` if the address has no entry. -/
def indexOf (w : World) (r : Nat) (a : Bytes) : World × Int :=
  let o := w.obj r
  let m := curMap w o
  let w' := w.putObj r { o with amap := some m }
  match mget m a with
  | some i => (w', (i : Int))
  | none => (w', -1)

/-- A new array for `n` given cells, made by `append` (`extra` cells of spare capacity) or `make` (none). -/
def World.newArr (w : World) (cs : List (Option Vd)) (extra : Nat) : World × Nat :=
  ({ w with arrs := w.arrs ++ [cs ++ List.replicate extra none] }, w.arrs.length)

/-- A new `validatorList` object. -/
def World.newList (w : World) (o : ListObj) : World × Nat :=
  ({ w with lists := w.lists ++ [o] }, w.lists.length)

/-- `clone` (validatorlist.go:121-129): a new object with a copy of the slice and no map. -/
def clone (E : Env) (w : World) (r : Nat) : World × Nat :=
  let o := w.obj r
  let (w1, a) := w.newArr (w.cells o) (E.slack o.len)
  w1.newList ⟨a, o.len, none⟩

/-- Write a state. -/
def World.putSt (w : World) (s : Nat) (st : St) : World := { w with states := w.states.set s st }

/-- `becomeChangeableInLock`: `updateValidatorsInLock(nil, nil)` (validatorlist.go:236-255). -/
def becomeChangeable (E : Env) (w : World) (s : Nat) (st : St) : World × St :=
  match st.snap with
  | some _ =>
    let (w1, r) := clone E w st.lst
    (w1.putSt s ⟨r, none⟩, ⟨r, none⟩)
  | none => (w, st)

/-- `updateValidatorsInLock(validators, addrMap)` with a list (validatorlist.go:240-255). The slice was made by
`ToSliceOfValidatorPtr` (`224-234`), so it is a new array, never `nil`. -/
def updateValidators (w : World) (s : Nat) (st : St) (vl : List Vd) (m : AMap) : World :=
  let (w1, a) := w.newArr (vl.map some) 0
  match st.snap with
  | some _ =>
    let (w2, r) := w1.newList ⟨a, vl.length, none⟩
    w2.putSt s ⟨r, none⟩
  | none => w1.putObj st.lst ⟨a, vl.length, some m⟩

/-- `append(vs.validators, vo)` on the object `r` (validatorlist.go:288): in place if there is room, else into a new
array. -/
def appendTo (E : Env) (w : World) (r : Nat) (v : Vd) : World :=
  let o := w.obj r
  let arr := w.arrs.getD o.arr []
  if o.len < arr.length then
    { w with arrs := w.arrs.set o.arr (arr.set o.len (some v)) }.putObj r { o with len := o.len + 1 }
  else
    let (w1, a) := w.newArr (w.cells o ++ [some v]) (E.slack (o.len + 1))
    w1.putObj r { o with arr := a, len := o.len + 1 }

/-- `append(vs.validators[:i], vs.validators[i+1:]...)` on the object `r` (validatorlist.go:304): the tail moves one
cell down in the same array; the cell behind it keeps its value. -/
def removeAt (w : World) (r : Nat) (i : Nat) : World :=
  let o := w.obj r
  let arr := w.arrs.getD o.arr []
  let tail := (arr.take o.len).drop (i + 1)
  { w with arrs := w.arrs.set o.arr (arr.take i ++ tail ++ arr.drop (i + tail.length)) }.putObj r
    { o with len := i + tail.length, amap := none }

/-- What an operation answers. -/
inductive Out
  | ref (r : Nat)
  | ok
  | fail
  | flag (b : Bool)
  | num (i : Int)
  | val (v : Option Vd)
  | bytes (b : Bytes)
  | bad
deriving DecidableEq, Repr

/-- `setAtInLock` (validatorlist.go:352-364). -/
def setAtInLock (E : Env) (w : World) (s : Nat) (st : St) (i : Nat) (ov nv : Vd) : World × Out :=
  let (w1, st1) := becomeChangeable E w s st
  let o := w1.obj st1.lst
  let arr := w1.arrs.getD o.arr []
  let w2 := { w1 with arrs := w1.arrs.set o.arr (arr.set i (some nv)) }
  match o.amap with
  | some m => (w2.putObj st1.lst { o with amap := some (mput (mdel m ov.addr) nv.addr i) }, .ok)
  | none => (w2, .ok)

/-- `Set` (validatorlist.go:257-274). -/
def doSet (w : World) (s : Nat) (st : St) (vl : List Vd) : World × Out :=
  if isSame w st.lst vl then (w, .ok)
  else match makeMapStrict vl with
    | none => (w, .fail)
    | some m => (updateValidators w s st vl m, .ok)

/-- `Add` (validatorlist.go:276-293). -/
def doAdd (E : Env) (w : World) (s : Nat) (st : St) (v : Vd) : World × Out :=
  let (w1, idx) := indexOf w st.lst v.addr
  if idx ≥ 0 then (w1, .ok)
  else
    let (w2, st2) := becomeChangeable E w1 s st
    let w3 := appendTo E w2 st2.lst v
    let o := w3.obj st2.lst
    match o.amap with
    | some m => (w3.putObj st2.lst { o with amap := some (mput m v.addr (o.len - 1)) }, .ok)
    | none => (w3, .ok)

/-- `Remove` (validatorlist.go:295-307). -/
def doRemove (E : Env) (w : World) (s : Nat) (st : St) (v : Vd) : World × Out :=
  let (w1, idx) := indexOf w st.lst v.addr
  if idx < 0 then (w1, .flag false)
  else
    let (w2, st2) := becomeChangeable E w1 s st
    (removeAt w2 st2.lst idx.toNat, .flag true)

/-- `Replace` (validatorlist.go:309-326). -/
def doReplace (E : Env) (w : World) (s : Nat) (st : St) (ov nv : Vd) : World × Out :=
  let (w1, idx) := indexOf w st.lst ov.addr
  if idx < 0 then (w1, .fail)
  else if ov.addr = nv.addr then (w1, .ok)
  else
    let (w2, idx2) := indexOf w1 st.lst nv.addr
    if idx2 ≥ 0 then (w2, .fail)
    else setAtInLock E w2 s st idx.toNat ov nv

/-- `SetAt` (validatorlist.go:328-349). -/
def doSetAt (E : Env) (w : World) (s : Nat) (st : St) (i : Int) (v : Vd) : World × Out :=
  match getOf w st.lst i with
  | none => (w, .fail)
  | some ov =>
    if ov.addr = v.addr then (w, .ok)
    else
      let (w1, idx) := indexOf w st.lst v.addr
      if idx ≥ 0 then (w1, .fail)
      else setAtInLock E w1 s st i.toNat ov v

/-- `GetSnapshot` (validatorlist.go:191-204). -/
def doGetSnapshot (w : World) (s : Nat) (st : St) : World × Out :=
  match st.snap with
  | some k => (w, .ref k)
  | none =>
    let w1 : World := { w with snaps := w.snaps ++ [⟨st.lst, true, none, none⟩] }
    (w1.putSt s { st with snap := some w.snaps.length }, .ref w.snaps.length)

/-- `Reset` (validatorlist.go:206-222). -/
def doReset (w : World) (s : Nat) (st : St) (k : Nat) (sn : Snap) : World × Out :=
  if st.snap = some k then (w, .ok)
  else (w.putSt s ⟨sn.lst, some k⟩, .ok)

/-- `serializeInLock` (validatorlist.go:152-157): the snapshot as it is afterwards. -/
def serialize (E : Env) (w : World) (sn : Snap) : Snap :=
  match sn.ser with
  | none => if (w.obj sn.lst).len > 0 then { sn with ser := some (E.enc (w.vals (w.obj sn.lst))) } else sn
  | some _ => sn

/-- `hashInLock` (validatorlist.go:138-144). -/
def hashed (E : Env) (w : World) (sn : Snap) : Snap :=
  match sn.hash with
  | none =>
    if (w.obj sn.lst).len > 0 then
      let sn1 := serialize E w sn
      { sn1 with hash := some (E.sha (sn1.ser.getD [])) }
    else sn
  | some _ => sn

/-- Write a snapshot. -/
def World.putSn (w : World) (k : Nat) (sn : Snap) : World := { w with snaps := w.snaps.set k sn }

/-- `bucket.Set(key, value)` (a `nil` key or value is empty). -/
def World.dbSet (w : World) (k v : Bytes) : World :=
  { w with db := fun x => if x = k then some v else w.db x }

/-- `Flush` (validatorlist.go:173-183). -/
def doFlush (E : Env) (w : World) (k : Nat) (sn : Snap) : World × Out :=
  if sn.dirty then
    let sn1 := serialize E w sn
    let sn2 := hashed E w sn1
    ((w.putSn k sn2).dbSet (sn2.hash.getD []) (sn1.ser.getD []), .ok)
  else (w, .ok)

/-- `ValidatorSnapshotFromSlice` (validatorlist.go:435-457). -/
def doFromSlice (w : World) (vl : List Vd) : World × Out :=
  let (w1, a) := w.newArr (vl.map some) 0
  let (w2, r) := w1.newList ⟨a, vl.length, none⟩
  ({ w2 with snaps := w2.snaps ++ [⟨r, true, none, none⟩] }, .ref w2.snaps.length)

/-- `validatorSnapshotFromHash` (validatorlist.go:382-404). A missing value is `nil` in the bucket, so its length
is 0. The slice the decoder makes has the length of the list. -/
def doFromHash (E : Env) (w : World) (h : Bytes) : World × Out :=
  if h = [] then
    let (w1, a) := w.newArr [] 0
    let (w2, r) := w1.newList ⟨a, 0, none⟩
    ({ w2 with snaps := w2.snaps ++ [⟨r, false, none, none⟩] }, .ref w2.snaps.length)
  else
    let value := (w.db h).getD []
    if value = [] then (w, .fail)
    else match E.dec value with
      | none => (w, .fail)
      | some vl =>
        let (w1, a) := w.newArr (vl.map some) (E.slack vl.length)
        let (w2, r) := w1.newList ⟨a, vl.length, none⟩
        ({ w2 with snaps := w2.snaps ++ [⟨r, false, some value, some h⟩] }, .ref w2.snaps.length)

/-- `ValidatorStateFromSnapshot` (validatorlist.go:477-487). -/
def doStateFrom (w : World) (k : Nat) (sn : Snap) : World × Out :=
  ({ w with states := w.states ++ [⟨sn.lst, some k⟩] }, .ref w.states.length)

/-- An operation on a state. -/
inductive StOp
  | len
  | get (i : Int)
  | indexOf (a : Bytes)
  | set (vl : List Vd)
  | add (v : Vd)
  | remove (v : Vd)
  | replace (ov nv : Vd)
  | setAt (i : Int) (v : Vd)
  | getSnapshot
  | reset (k : Nat)

/-- An operation on a snapshot. -/
inductive SnOp
  | len
  | get (i : Int)
  | indexOf (a : Bytes)
  | hash
  | bytes
  | flush

/-- A call of the API. `s` and `k` are the states and snapshots made so far, in the order they were made. -/
inductive Op
  | fromSlice (vl : List Vd)
  | fromHash (h : Bytes)
  | stateFrom (k : Nat)
  | st (s : Nat) (o : StOp)
  | sn (k : Nat) (o : SnOp)

/-- The methods of `ValidatorState` (validatorlist.go:22-33). -/
def execSt (E : Env) (w : World) (s : Nat) (st : St) : StOp → World × Out
  | .len => (w, .num (lenOf w st.lst))
  | .get i => (w, .val (getOf w st.lst i))
  | .indexOf a =>
    let (w1, i) := indexOf w st.lst a
    (w1, .num i)
  | .set vl => doSet w s st vl
  | .add v => doAdd E w s st v
  | .remove v => doRemove E w s st v
  | .replace ov nv => doReplace E w s st ov nv
  | .setAt i v => doSetAt E w s st i v
  | .getSnapshot => doGetSnapshot w s st
  | .reset k =>
    match w.snaps[k]? with
    | none => (w, .bad)
    | some sn => doReset w s st k sn

/-- The methods of `ValidatorSnapshot` (validatorlist.go:17-20 and `module.ValidatorList`). -/
def execSn (E : Env) (w : World) (k : Nat) (sn : Snap) : SnOp → World × Out
  | .len => (w, .num (lenOf w sn.lst))
  | .get i => (w, .val (getOf w sn.lst i))
  | .indexOf a =>
    let (w1, i) := indexOf w sn.lst a
    (w1, .num i)
  | .hash => (w.putSn k (hashed E w sn), .bytes ((hashed E w sn).hash.getD []))
  | .bytes => (w.putSn k (serialize E w sn), .bytes ((serialize E w sn).ser.getD []))
  | .flush => doFlush E w k sn

/-- One call. A call on something that was never made cannot be written in Go; it answers `bad`. -/
def exec (E : Env) (w : World) : Op → World × Out
  | .fromSlice vl => doFromSlice w vl
  | .fromHash h => doFromHash E w h
  | .stateFrom k =>
    match w.snaps[k]? with
    | none => (w, .bad)
    | some sn => doStateFrom w k sn
  | .st s o =>
    match w.states[s]? with
    | none => (w, .bad)
    | some st => execSt E w s st o
  | .sn k o =>
    match w.snaps[k]? with
    | none => (w, .bad)
    | some sn => execSn E w k sn o

/-- A history of calls: the memory after it and the answers. -/
def run (E : Env) : World → List Op → World × List Out
  | w, [] => (w, [])
  | w, op :: ops =>
    let (w1, o) := exec E w op
    let (w2, os) := run E w1 ops
    (w2, o :: os)

/-- Nothing made yet, over a given database. -/
def World.start (db : Bytes → Option Bytes) : World := ⟨[], [], [], [], db⟩

end Verif.VList
