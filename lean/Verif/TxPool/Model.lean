import Mathlib.Data.Int.Order.Basic
import Mathlib.Tactic.Common

/-!
# The transaction pool (C67): model

The doubly linked lists of `service/transactionlist.go`, with pointers, and the pool on top of it (`service/transactionpool.go`), with the Bloom
filters of `service/txshare.go`.  The mutex of the pool makes its operations atomic.
-/

namespace Verif.TxPool

/-- A transaction: its id, sender, timestamp and the length of its bytes. -/
structure Tx (I S : Type) where
  id : I
  src : S
  ts : ℤ
  size : ℕ
deriving DecidableEq, Inhabited

/-! ## Bloom filters -/

/-- `TxBloom` (`txshare.go:48-51`). -/
structure Bloom where
  bits : ℕ := 0
  bloom : ℕ := 0

/-- The filter of an id with this number of bits (`txshare.go:62-69`): `w` are the three 16 bit numbers that the id starts with (of its hash, if it is short). -/
def filterOf (w : ℕ × ℕ × ℕ) (bits : ℕ) : ℕ := 2 ^ (w.1 % 2 ^ bits) ||| 2 ^ (w.2.1 % 2 ^ bits) ||| 2 ^ (w.2.2 % 2 ^ bits)

/-- `TxBloom.Contains` (`txshare.go:53-71`). -/
def Bloom.contains (b : Bloom) (w : ℕ × ℕ × ℕ) : Bool :=
  if b.bits = 0 then false else decide (filterOf w b.bits &&& b.bloom = filterOf w b.bits)

/-- `TxBloom.Add` (`txshare.go:73-86`). -/
def Bloom.add (b : Bloom) (w : ℕ × ℕ × ℕ) : Bloom :=
  let bits := if b.bits = 0 then 12 else b.bits
  ⟨bits, b.bloom ||| filterOf w bits⟩

/-- `TxBloom.Merge` (`txshare.go:88-99`); the panic of filters of different sizes is not modelled (all filters of a pool have twelve bits, `chains_bits`). -/
def Bloom.merge (b b2 : Bloom) : Bloom := if b2.bits = 0 then b else ⟨b2.bits, b.bloom ||| b2.bloom⟩

/-- `TxBloom.ContainsAllOf` (`txshare.go:101-111`). -/
def Bloom.containsAllOf (b b2 : Bloom) : Bool :=
  if b2.bits = 0 then true
  else if b.bits ≠ b2.bits then false
  else decide (b.bloom &&& b2.bloom = b2.bloom)

/-- `txBloomElement` (`transactionlist.go:83-87`).  The elements that are linked with `next` are a list here: `next` is only ever set at the end of a chain,
to a new element. -/
structure BEl where
  count : ℕ
  bloom : Bloom

/-- `maxTxCountForBloomElement` (`txshare.go:44`). -/
def maxInBloom : ℕ := 50

/-- `b.bloom.Add(id); b.count += 1` (`transactionlist.go:102-104`). -/
def BEl.put (b : BEl) (w : ℕ × ℕ × ℕ) : BEl := ⟨b.count + 1, b.bloom.add w⟩

/-- `txBloomElement.Add` on the first element of (the rest of) a chain (`transactionlist.go:89-105`): the index where the id is put, and the new chain. -/
def chainAdd (w : ℕ × ℕ × ℕ) : List BEl → ℕ × List BEl
  | [] => (0, [BEl.put ⟨0, {}⟩ w])
  | b :: r => if b.count ≥ maxInBloom then ((chainAdd w r).1 + 1, b :: (chainAdd w r).2) else (0, b.put w :: r)

/-! ## The list -/

/-- The value `v` at `p`. -/
def upd {A B : Type} [DecidableEq A] (f : A → B) (p : A) (v : B) : A → B := fun x => if x = p then v else f x

variable {I S : Type} [DecidableEq I] [DecidableEq S] [Inhabited I] [Inhabited S]

/-- `transactionList` with the elements it has created (`transactionlist.go:18-37`): each field of `txElement` is a function of the address; `alloc` is the
next free address.  The maps of 256 buckets by the first byte are maps here.  `owned` is `list != nil`, `direct` is `ts != 0`, `err` is `err != nil`.  `bloom` is a chain
and a place in it. -/
structure TL (I S : Type) where
  size : ℤ
  front : Option ℕ
  back : Option ℕ
  idMap : I → Option ℕ
  srcLast : S → Option ℕ
  alloc : ℕ
  val : ℕ → Tx I S
  direct : ℕ → Bool
  err : ℕ → Bool
  owned : ℕ → Bool
  next : ℕ → Option ℕ
  prev : ℕ → Option ℕ
  srcNext : ℕ → Option ℕ
  srcPrev : ℕ → Option ℕ
  bloom : ℕ → ℕ × ℕ
  chains : List (List BEl)

/-- `newTransactionList` (`transactionlist.go:259-269`). -/
def TL.new : TL I S where
  size := 0
  front := none
  back := none
  idMap _ := none
  srcLast _ := none
  alloc := 0
  val _ := default
  direct _ := false
  err _ := false
  owned _ := false
  next _ := none
  prev _ := none
  srcNext _ := none
  srcPrev _ := none
  bloom _ := (0, 0)
  chains := []

/-- The loop of `Add` that looks for the place of a transaction (`transactionlist.go:138-145`).  There are not more elements than `fuel`. -/
def findPos (l : TL I S) (ts : ℤ) : ℕ → ℕ → Option ℕ → ℕ
  | 0, pos, _ => pos
  | _ + 1, pos, none => pos
  | fuel + 1, pos, some t => if (l.val t).ts > ts then findPos l ts fuel t (l.srcPrev t) else pos

/-- A new element (`transactionlist.go:121-129`). -/
def newElem (l : TL I S) (tx : Tx I S) (direct : Bool) : TL I S :=
  { l with
    alloc := l.alloc + 1
    val := upd l.val l.alloc tx
    direct := upd l.direct l.alloc direct
    err := upd l.err l.alloc false
    owned := upd l.owned l.alloc true
    next := upd l.next l.alloc none
    prev := upd l.prev l.alloc none
    srcNext := upd l.srcNext l.alloc none
    srcPrev := upd l.srcPrev l.alloc none
    idMap := upd l.idMap tx.id (some l.alloc) }

/-- `if insertPos.srcPrev != nil {...}` (`transactionlist.go:146-149`). -/
def linkSrcPrev (l : TL I S) (e : ℕ) : Option ℕ → TL I S
  | none => l
  | some q => { l with srcPrev := upd l.srcPrev e (some q), srcNext := upd l.srcNext q (some e) }

/-- The list of the sender (`transactionlist.go:131-159`). -/
def linkSrc (l : TL I S) (e : ℕ) (tx : Tx I S) : Option ℕ → TL I S × Option ℕ
  | none => ({ l with srcLast := upd l.srcLast tx.src (some e) }, none)
  | some t2 =>
    if (l.val t2).ts > tx.ts then
      let pos := findPos l tx.ts l.alloc t2 (l.srcPrev t2)
      let l1 := linkSrcPrev l e (l.srcPrev pos)
      ({ l1 with srcNext := upd l1.srcNext e (some pos), srcPrev := upd l1.srcPrev pos (some e) }, some pos)
    else
      ({ l with
          srcLast := upd l.srcLast tx.src (some e)
          srcPrev := upd l.srcPrev e (some t2)
          srcNext := upd l.srcNext t2 (some e) }, none)

/-- Before an element: `if insertPos.listPrev != nil {...} else {...}` (`transactionlist.go:162-167`). -/
def linkBefore (l : TL I S) (e : ℕ) : Option ℕ → TL I S
  | some q => { l with prev := upd l.prev e (some q), next := upd l.next q (some e) }
  | none => { l with front := some e }

/-- At the end: `if l.listBack != nil {...} else {...}` (`transactionlist.go:171-176`). -/
def linkBack (l : TL I S) (e : ℕ) : Option ℕ → TL I S
  | some q => { l with prev := upd l.prev e (some q), next := upd l.next q (some e) }
  | none => { l with front := some e }

/-- The list of all (`transactionlist.go:161-178`). -/
def linkList (l : TL I S) (e : ℕ) : Option ℕ → TL I S
  | some pos =>
    let l1 := linkBefore l e (l.prev pos)
    { l1 with next := upd l1.next e (some pos), prev := upd l1.prev pos (some e) }
  | none =>
    let l1 := linkBack l e l.back
    { l1 with back := some e }

/-- `updateBloom` (`transactionlist.go:62-73`) of an element after the one given; `w` are the numbers of its id. -/
def updateBloom (w : ℕ × ℕ × ℕ) (l : TL I S) (e : ℕ) : Option ℕ → TL I S
  | some q =>
    let c := (l.bloom q).1
    let i := (l.bloom q).2
    let ch := l.chains.getD c []
    let r := chainAdd w (ch.drop i)
    { l with bloom := upd l.bloom e (c, i + r.1), chains := l.chains.set c (ch.take i ++ r.2) }
  | none =>
    let r := chainAdd w []
    { l with bloom := upd l.bloom e (l.chains.length, r.1), chains := l.chains ++ [r.2] }

/-- `transactionList.Add` (`transactionlist.go:115-182`); `false` is a duplicate. -/
def TL.add (w : I → ℕ × ℕ × ℕ) (l : TL I S) (tx : Tx I S) (direct : Bool) : TL I S × Bool :=
  if (l.idMap tx.id).isSome then (l, false)
  else
    let e := l.alloc
    let l0 := newElem l tx direct
    let r := linkSrc l0 e tx (l0.srcLast tx.src)
    let l2 := linkList r.1 e r.2
    let l3 := updateBloom (w tx.id) l2 e (l2.prev e)
    ({ l3 with size := l3.size + 1 }, true)

/-- `if p != nil { p.f = v }`. -/
def setAt (f : ℕ → Option ℕ) (p : Option ℕ) (v : Option ℕ) : ℕ → Option ℕ :=
  match p with
  | none => f
  | some q => upd f q v

/-- Out of the list of all (`transactionlist.go:197-210`). -/
def unlinkList (l : TL I S) (t : ℕ) : TL I S :=
  let nx := l.next t
  let pv := l.prev t
  { l with
    front := if l.front = some t then nx else l.front
    back := if l.back = some t then pv else l.back
    prev := upd (setAt l.prev nx pv) t none
    next := upd (setAt l.next pv nx) t none }

/-- Out of the list of the sender (`transactionlist.go:212-228`). -/
def unlinkSrc (l : TL I S) (t : ℕ) : TL I S :=
  let nx := l.srcNext t
  let pv := l.srcPrev t
  { l with
    srcLast := if l.srcLast (l.val t).src = some t then upd l.srcLast (l.val t).src pv else l.srcLast
    srcNext := upd (setAt l.srcNext pv nx) t none
    srcPrev := upd (setAt l.srcPrev nx pv) t none }

/-- `transactionList.Remove` (`transactionlist.go:192-236`). -/
def TL.remove (l : TL I S) (t : ℕ) : TL I S × Bool :=
  if !l.owned t then (l, false)
  else
    let l1 := unlinkSrc (unlinkList l t) t
    ({ l1 with idMap := upd l1.idMap (l1.val t).id none, size := l1.size - 1, owned := upd l1.owned t false }, true)

/-- `transactionList.RemoveTx` (`transactionlist.go:184-190`). -/
def TL.removeTx (l : TL I S) (id : I) : TL I S × Bool :=
  match l.idMap id with
  | some e => l.remove e
  | none => (l, false)

/-- The elements from `p` on, by `Next` (`transactionlist.go:39-41`). -/
def walk (l : TL I S) : ℕ → Option ℕ → List ℕ
  | 0, _ => []
  | _ + 1, none => []
  | n + 1, some p => p :: walk l n (l.next p)

/-- What a loop from `Front` by `Next` visits. -/
def TL.elems (l : TL I S) : List ℕ := walk l l.alloc l.front

/-! ## The pool -/

/-- `Add` of the pool (`transactionpool.go:221-238`). -/
inductive AddResult | ok | overflow | duplicate
deriving DecidableEq

/-- See `AddResult`. -/
def poolAdd (w : I → ℕ × ℕ × ℕ) (cap : ℤ) (l : TL I S) (tx : Tx I S) (direct : Bool) : TL I S × AddResult :=
  if l.size ≥ cap then (l, .overflow)
  else if (l.add w tx direct).2 then ((l.add w tx direct).1, .ok) else (l, .duplicate)

/-- The loop of `RemoveList` (`transactionpool.go:254-267`). -/
def removeList (l : TL I S) : List I → TL I S
  | [] => l
  | id :: r => removeList (l.removeTx id).1 r

/-- `RemoveList` (`transactionpool.go:241-275`). -/
def poolRemoveList (l : TL I S) (ids : List I) : TL I S := if l.size = 0 then l else removeList l ids

/-- The loop of `DropOldTXs` (`transactionpool.go:101-117`), with what it drops. -/
def dropOld (bts : ℤ) : ℕ → TL I S → Option ℕ → TL I S × List I
  | 0, l, _ => (l, [])
  | _ + 1, l, none => (l, [])
  | n + 1, l, some p =>
    let nx := l.next p
    if (l.val p).ts ≤ bts then
      let l1 := (l.remove p).1
      let r := dropOld bts n { l1 with err := upd l1.err p true } nx
      (r.1, (l.val p).id :: r.2)
    else dropOld bts n l nx

/-- `DropOldTXs` (`transactionpool.go:94-123`). -/
def poolDropOld (l : TL I S) (bts : ℤ) : TL I S × List I := dropOld bts l.alloc l l.front

/-- `dropTransactions` (`transactionpool.go:317-337`): `none` is the panic. -/
def dropTxs (l : TL I S) : List ℕ → Option (TL I S × List I)
  | [] => some (l, [])
  | e :: r =>
    if (l.remove e).2 then
      if l.err e then (dropTxs (l.remove e).1 r).map (fun x => (x.1, (l.val e).id :: x.2)) else none
    else dropTxs l r

/-- What `CheckTx` of the range says (`tschecker.go:18-28`). -/
inductive Range | fits | expired | future
deriving DecidableEq

/-- What `PreValidate` says: `balance` is `NotEnoughBalanceError`. -/
inductive Pre | ok | balance | invalid
deriving DecidableEq

/-- The parameters of `Candidate`: the range, `HasRecent` (`none` is an error), `PreValidate` with its effect on the world. -/
structure Env (I S W : Type) where
  range : Tx I S → Range
  recent : Tx I S → Option Bool
  pre : W → Tx I S → W × Pre

/-- What the loop of `Candidate` collects: transactions, and elements to be dropped. -/
structure Cand (I S : Type) where
  txs : List (Tx I S)
  size : ℕ
  dropped : List ℕ
  err : ℕ → Bool

variable {W : Type}

/-- The loop of `Candidate` (`transactionpool.go:150-186`), which reads the list and does not change it but for `err`. -/
def candLoop (env : Env I S W) (maxBytes maxCount : ℕ) (l : TL I S) : ℕ → Option ℕ → W → Cand I S → Cand I S
  | 0, _, _, c => c
  | _ + 1, none, _, c => c
  | n + 1, some e, wc, c =>
    if ¬ (c.size < maxBytes ∧ c.txs.length < maxCount) then c
    else
      let tx := l.val e
      match env.range tx with
      | .expired => candLoop env maxBytes maxCount l n (l.next e) wc { c with dropped := c.dropped ++ [e], err := upd c.err e true }
      | .future => candLoop env maxBytes maxCount l n (l.next e) wc c
      | .fits =>
        match env.recent tx with
        | none => candLoop env maxBytes maxCount l n (l.next e) wc c
        | some true => candLoop env maxBytes maxCount l n (l.next e) wc { c with dropped := c.dropped ++ [e], err := upd c.err e true }
        | some false =>
          match env.pre wc tx with
          | (wc', .ok) =>
            if c.size + tx.size > maxBytes then c
            else candLoop env maxBytes maxCount l n (l.next e) wc' { c with txs := c.txs ++ [tx], size := c.size + tx.size }
          | (wc', .invalid) =>
            candLoop env maxBytes maxCount l n (l.next e) wc' { c with dropped := c.dropped ++ [e], err := upd c.err e true }
          | (wc', .balance) =>
            if l.direct e then candLoop env maxBytes maxCount l n (l.next e) wc' { c with err := upd c.err e true }
            else candLoop env maxBytes maxCount l n (l.next e) wc' { c with dropped := c.dropped ++ [e], err := upd c.err e true }

/-- `Candidate` (`transactionpool.go:126-197`): the list (with the errors that are kept in it) and what was collected. -/
def candidate (env : Env I S W) (maxBytes maxCount : ℤ) (l : TL I S) (wc : W) : TL I S × Cand I S :=
  if l.size = 0 then (l, ⟨[], 0, [], l.err⟩)
  else
    let mb := if maxBytes ≤ 0 then 1024 * 1024 else maxBytes.toNat
    let mc := if maxCount ≤ 0 then 1500 else maxCount.toNat
    let c := candLoop env mb mc l l.alloc l.front wc ⟨[], 0, [], l.err⟩
    ({ l with err := c.err }, c)

/-- The Bloom filter of an element. -/
def bloomOf (l : TL I S) (p : ℕ × ℕ) : Bloom := (((l.chains.getD p.1 [])[p.2]?).map BEl.bloom).getD {}

/-- The loop of `FilterTransactions` (`transactionpool.go:346-366`); `recent` is `err == nil && has`. -/
def filterLoop (w : I → ℕ × ℕ × ℕ) (recent : Tx I S → Bool) (b : Bloom) (max : ℕ) (l : TL I S) :
    ℕ → Option ℕ → Option (ℕ × ℕ) → Option (ℕ × ℕ) → List (Tx I S) → List (Tx I S)
  | 0, _, _, _, txs => txs
  | _ + 1, none, _, _, txs => txs
  | n + 1, some e, working, skip, txs =>
    if ¬ txs.length < max then txs
    else
      let tx := l.val e
      let txs' := if !b.contains (w tx.id) then (if recent tx then txs else txs ++ [tx]) else txs
      if working ≠ some (l.bloom e) then
        if some (l.bloom e) = skip then filterLoop w recent b max l n (l.next e) working skip txs
        else if b.containsAllOf (bloomOf l (l.bloom e)) then filterLoop w recent b max l n (l.next e) working (some (l.bloom e)) txs
        else filterLoop w recent b max l n (l.next e) (some (l.bloom e)) skip txs'
      else filterLoop w recent b max l n (l.next e) working skip txs'

/-- `FilterTransactions` (`transactionpool.go:339-368`). -/
def filterTxs (w : I → ℕ × ℕ × ℕ) (recent : Tx I S → Bool) (b : Bloom) (max : ℕ) (l : TL I S) : List (Tx I S) :=
  filterLoop w recent b max l l.alloc l.front none none []

/-- `GetBloom` (`transactionlist.go:107-113, 252-257`). -/
def TL.getBloom (l : TL I S) : Bloom :=
  match l.front with
  | none => {}
  | some p => (((l.chains.getD (l.bloom p).1 []).drop (l.bloom p).2).map BEl.bloom).foldl Bloom.merge {}

end Verif.TxPool
