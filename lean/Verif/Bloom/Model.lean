import Verif.Base.Bytes
import Mathlib.Data.Nat.Bitwise

/-!
# Bloom filters of event logs

* Python `BloomFilter` (pyee/pyexec/utils/bloom.py);
* Go `LogsBloom` (service/txresult/logsbloom.go), receipts adding logs (service/txresult/receipt.go:634-642),
  blocks merging receipts (service/transition.go:631-637, 784);
* event subscriptions (server/wsevent.go, server/wsblock.go).

`H` is SHA3-256: nothing is assumed about it except where stated. Filters are natural numbers (Python
integers, Go `big.Int`); Go's `Bits()` is the list of 64 bit words, least significant first, without
leading zero words.
-/
namespace Verif.Bloom

/-! ### Python -/

/-- `chunk_to_bloom_bits` (bloom.py:21-23): `high, low = bytearray(chunk)` needs two bytes. -/
def chunkBits (chunk : Bytes) : ℕ := 1 <<< (beNat chunk &&& 2047)

/-- `get_chunks_for_bloom` (bloom.py:15-18). -/
def chunks (h : Bytes) : List Bytes := [h.take 2, (h.drop 2).take 2, (h.drop 4).take 2]

/-- `get_bloom_bits` (bloom.py:26-30). -/
def bloomBits (H : Bytes → Bytes) (v : Bytes) : List ℕ := (chunks (H v)).map chunkBits

/-- `BloomFilter.add` (bloom.py:42-46). -/
def pyAdd (H : Bytes → Bytes) (f : ℕ) (v : Bytes) : ℕ := (bloomBits H v).foldl (· ||| ·) f

/-- `extend`, `from_iterable` (bloom.py:48-56). -/
def pyExtend (H : Bytes → Bytes) (f : ℕ) (l : List Bytes) : ℕ := l.foldl (pyAdd H) f

/-- `__contains__` (bloom.py:58-65). -/
def pyContains (H : Bytes → Bytes) (f : ℕ) (v : Bytes) : Bool :=
  (bloomBits H v).all (fun b => f &&& b != 0)

/-- `_combine`, `_icombine` (bloom.py:70-94). -/
def pyCombine (f g : ℕ) : ℕ := f ||| g

/-! ### Go -/

/-- `big.Int.Bits`. -/
def words (n : ℕ) : List ℕ :=
  if h : n = 0 then [] else n % 2 ^ 64 :: words (n / 2 ^ 64)
termination_by n
decreasing_by exact Nat.div_lt_self (Nat.pos_of_ne_zero h) (by norm_num)

/-- The loop of `Contain` (logsbloom.go:106-114). Reading past the end of `words1` would panic; the
length check excludes it. -/
def containLoop : List ℕ → List ℕ → Bool
  | _, [] => true
  | [], _ :: _ => false
  | w1 :: a, w2 :: b => if w2 = 0 then containLoop a b
    else if (w1 &&& w2) ≠ w2 then false else containLoop a b

/-- `Contain` (logsbloom.go:94-116). -/
def contain (n m : ℕ) : Bool :=
  if (words m).length > (words n).length then false else containLoop (words n) (words m)

/-- `Merge` (logsbloom.go:79-91). -/
def merge (n m : ℕ) : ℕ := n ||| m

/-- `addBit` (logsbloom.go:122-124): `SetBit(idx, 1)`. -/
def addBit (n idx : ℕ) : ℕ := n ||| (1 <<< idx)

/-- `addLog` (logsbloom.go:155-166). -/
def addLogBytes (H : Bytes → Bytes) (n : ℕ) (log : Bytes) : ℕ :=
  let h := H log
  [0, 1, 2].foldl (fun n i => addBit n (beNat ((h.drop (i * 2)).take 2) &&& (2048 - 1))) n

/-- `AddAddressOfLog` (logsbloom.go:141-146); `a` is the 21 bytes of the address. -/
def addAddress (H : Bytes → Bytes) (n : ℕ) (a : Bytes) : ℕ := addLogBytes H n (255 :: a)

/-- `AddIndexedOfLog` (logsbloom.go:148-153). -/
def addIndexed (H : Bytes → Bytes) (n i : ℕ) (b : Bytes) : ℕ :=
  addLogBytes H n (UInt8.ofNat i :: b)

/-- Loop of `AddLog` from position `i` (logsbloom.go:133-138). -/
def addAll (H : Bytes → Bytes) (n i : ℕ) : List (Option Bytes) → ℕ
  | [] => n
  | none :: l => addAll H n (i + 1) l
  | some b :: l => addAll H (addIndexed H n i b) (i + 1) l

/-- An event log (receipt.go:40-46): address, indexed (signature first) and data; `none` is nil. -/
structure Log where
  addr : Bytes
  indexed : List (Option Bytes)
  data : List (Option Bytes)
deriving DecidableEq

/-- `LogsBloom.AddLog` (logsbloom.go:126-139). -/
def addLog (H : Bytes → Bytes) (n : ℕ) (g : Log) : ℕ :=
  if g.indexed.length = 0 then n else addAll H (addAddress H n g.addr) 0 g.indexed

/-- A receipt: its logs and its filter. -/
structure Receipt where
  logs : List Log
  bloom : ℕ

def Receipt.empty : Receipt := ⟨[], 0⟩

/-- `receipt.AddLog` (receipt.go:634-642). -/
def Receipt.add (H : Bytes → Bytes) (r : Receipt) (g : Log) : Receipt :=
  ⟨r.logs ++ [g], addLog H r.bloom g⟩

/-- The filter of a block (transition.go:631-637, 784): the receipts merged one by one. -/
def blockBloom (rs : List Receipt) : ℕ := rs.foldl (fun n r => merge n r.bloom) 0

/-- `LogBytes` (logsbloom.go:41-46). -/
def logBytes (n : ℕ) : Bytes := beBytes 256 n

/-! ### Subscriptions -/

/-- A compiled `EventFilter` (wsevent.go:28-38); the conversion of the argument texts to bytes is done. -/
structure Filter where
  addr : Option Bytes
  sig : Bytes
  indexed : List (Option Bytes)
  data : List (Option Bytes)

/-- The loop over the indexed arguments in `Compile` (wsevent.go:217-228), from `i`. -/
def filterArgs (H : Bytes → Bytes) (n i : ℕ) : List (Option Bytes) → ℕ
  | [] => n
  | none :: l => filterArgs H n (i + 1) l
  | some b :: l => filterArgs H (addIndexed H n (i + 1) b) (i + 1) l

/-- `f.lb` (wsevent.go:199-240). -/
def Filter.lb (H : Bytes → Bytes) (f : Filter) : ℕ :=
  let n := match f.addr with
    | some a => addAddress H 0 a
    | none => 0
  filterArgs H (addIndexed H n 0 f.sig) 0 f.indexed

/-- A loop `for i, arg := range args { if arg != nil && !bytesEqual(arg, vals[i]) { return false } }`
(wsevent.go:284-293); lengths are checked before. -/
def argsMatch : List (Option Bytes) → List (Option Bytes) → Bool
  | [], _ => true
  | _ :: _, [] => false
  | a :: l, v :: m => if a ≠ none ∧ a ≠ v then false else argsMatch l m

/-- `MatchLog` (wsevent.go:269-300). -/
def matchLog (f : Filter) (g : Log) : Bool :=
  match g.indexed with
  -- index out of range
  | [] => false
  | s :: ix =>
    if s.getD [] = f.sig then
      if f.addr ≠ none ∧ some g.addr ≠ f.addr then false
      else if f.indexed.length + f.data.length > 0 then
        if (s :: ix).length ≤ f.indexed.length then false
        else if g.data.length < f.data.length then false
        else argsMatch f.indexed ix && argsMatch f.data g.data
      else true
    else false

/-- `FilteredByLogBloom` (wsevent.go:50-64): filters keep their positions. -/
def filtered (H : Bytes → Bytes) (fs : List (Option Filter)) (lb : ℕ) : List (Option Filter) × Bool :=
  (fs.map (fun o => match o with
    | none => none
    | some f => if contain lb (f.lb H) then some f else none),
   fs.any (fun o => match o with
    | none => false
    | some f => contain lb (f.lb H)))

/-- `f != nil && f.MatchLog(el)` (wsevent.go:92-96). -/
def optMatch (o : Option Filter) (g : Log) : Bool :=
  match o with
  | none => false
  | some f => matchLog f g

/-- The loop over the logs in `filterEvents` (wsevent.go:87-100), from position `idx`. -/
def eventLoop (fs : List (Option Filter)) (idx : ℕ) : List Log → List ℕ
  | [] => []
  | g :: l =>
    if fs.any (fun o => optMatch o g)
    then idx :: eventLoop fs (idx + 1) l else eventLoop fs (idx + 1) l

/-- `EventFilters.MatchEvents` (wsevent.go:66-101): the indexes of the events. -/
def matchEvents (H : Bytes → Bytes) (fs : List (Option Filter)) (r : Receipt) : List ℕ :=
  let p := filtered H fs r.bloom
  if p.2 = false then [] else eventLoop p.1 0 r.logs

/-- Notifications for the receipts of a block, from `index` (wsevent.go:158-182). -/
def receiptLoop (H : Bytes → Bytes) (fs : List (Option Filter)) (index : ℕ) :
    List Receipt → List (ℕ × List ℕ)
  | [] => []
  | r :: l =>
    let es := matchEvents H fs r
    if es.length > 0 then (index, es) :: receiptLoop H fs (index + 1) l
    else receiptLoop H fs (index + 1) l

/-- What a session sends for a block (wsevent.go:144-183). -/
def blockNotifications (H : Bytes → Bytes) (fs : List Filter) (rs : List Receipt) :
    List (ℕ × List ℕ) :=
  let p := filtered H (fs.map some) (blockBloom rs)
  if p.2 = false then [] else receiptLoop H p.1 0 rs

/-- `EventFilter.MatchEvents` (wsevent.go:302-315), used by block sessions (wsblock.go:103-140). -/
def matchEvents1 (H : Bytes → Bytes) (f : Filter) (r : Receipt) : List ℕ :=
  if contain r.bloom (f.lb H) then eventLoop [some f] 0 r.logs else []

end Verif.Bloom
