import Verif.TxPool.Model

/-!
# The transaction pool (C67): specification

A pool is a list of entries; there are no pointers here.
-/

namespace Verif.TxPool

variable {I S : Type} [DecidableEq I] [DecidableEq S] {W : Type}

/-- A transaction in the pool: `no` tells apart the times it was added. -/
structure Entry (I S : Type) where
  no : ℕ
  tx : Tx I S
  direct : Bool

/-- A new entry goes before the first one of the same sender with a later time, or else to the end. -/
def insertEntry (e : Entry I S) : List (Entry I S) → List (Entry I S)
  | [] => [e]
  | x :: r => if x.tx.src = e.tx.src ∧ e.tx.ts < x.tx.ts then e :: x :: r else x :: insertEntry e r

/-- What can happen to an entry when the transactions of a block are chosen. -/
inductive Verdict (W : Type)
  | take (wc : W)
  | drop (wc : W)
  | skip (wc : W)

/-- The verdict on an entry in a world. -/
def verdict (env : Env I S W) (wc : W) (e : Entry I S) : Verdict W :=
  if env.range e.tx = .expired then .drop wc
  else if env.range e.tx = .future then .skip wc
  else if env.recent e.tx = none then .skip wc
  else if env.recent e.tx = some true then .drop wc
  else if (env.pre wc e.tx).2 = .ok then .take (env.pre wc e.tx).1
  else if (env.pre wc e.tx).2 = .balance ∧ e.direct = true then .skip (env.pre wc e.tx).1
  else .drop (env.pre wc e.tx).1

/-- The transactions that are chosen from entries, and the entries that are to be dropped, when `bytes` and `count` are left. -/
def choose (env : Env I S W) : ℕ → ℕ → W → List (Entry I S) → List (Tx I S) × List ℕ
  | _, _, _, [] => ([], [])
  | bytes, count, wc, e :: r =>
    if bytes = 0 ∨ count = 0 then ([], [])
    else
      match verdict env wc e with
      | .drop wc' => ((choose env bytes count wc' r).1, e.no :: (choose env bytes count wc' r).2)
      | .skip wc' => choose env bytes count wc' r
      | .take wc' =>
        if bytes < e.tx.size then ([], [])
        else (e.tx :: (choose env (bytes - e.tx.size) (count - 1) wc' r).1, (choose env (bytes - e.tx.size) (count - 1) wc' r).2)

/-- The operations of a pool.  `drop k` is the execution of the `k`-th scheduled `dropTransactions`. -/
inductive Op (I S W : Type)
  | add (tx : Tx I S) (direct : Bool)
  | removeList (ids : List I)
  | dropOld (bts : ℤ)
  | candidate (env : Env I S W) (maxBytes maxCount : ℤ) (wc : W)
  | drop (k : ℕ)
  | filter (recent : Tx I S → Bool) (b : Bloom) (max : ℕ)

/-- What the operations return: the answer to an addition, the ids whose waiters are told, the chosen transactions. -/
inductive Out (I S : Type)
  | added (r : AddResult)
  | done
  | dropped (ids : List I)
  | chosen (txs : List (Tx I S))

/-- A pool: its entries, the number of the next one, and the entries that are to be dropped. -/
structure Pool (I S : Type) where
  es : List (Entry I S)
  no : ℕ
  pend : List (List ℕ)

/-- The limit, if positive, or else the default. -/
def limit (x : ℤ) (d : ℕ) : ℕ := if x ≤ 0 then d else x.toNat

/-- What the operations do. -/
def Pool.step (w : I → ℕ × ℕ × ℕ) (cap : ℤ) (p : Pool I S) : Op I S W → Pool I S × Out I S
  | .add tx d =>
    if cap ≤ p.es.length then (p, .added .overflow)
    else if p.es.any (fun e => e.tx.id = tx.id) then (p, .added .duplicate)
    else ({ p with es := insertEntry ⟨p.no, tx, d⟩ p.es, no := p.no + 1 }, .added .ok)
  | .removeList ids => ({ p with es := p.es.filter (fun e => decide (e.tx.id ∉ ids)) }, .done)
  | .dropOld bts =>
    ({ p with es := p.es.filter (fun e => decide (bts < e.tx.ts)) },
      .dropped ((p.es.filter (fun e => decide (e.tx.ts ≤ bts))).map (fun e => e.tx.id)))
  | .candidate env mb mc wc =>
    ({ p with pend := p.pend ++ [(choose env (limit mb (1024 * 1024)) (limit mc 1500) wc p.es).2] },
      .chosen (choose env (limit mb (1024 * 1024)) (limit mc 1500) wc p.es).1)
  | .drop k =>
    ({ p with es := p.es.filter (fun e => decide (e.no ∉ p.pend.getD k [])), pend := p.pend.set k [] },
      .dropped ((p.pend.getD k []).filterMap (fun n => (p.es.find? (fun e => decide (e.no = n))).map (fun e => e.tx.id))))
  | .filter recent b max =>
    (p, .chosen (((p.es.map Entry.tx).filter (fun t => !b.contains (w t.id) && !recent t)).take max))

/-- What a history returns. -/
def Pool.run (w : I → ℕ × ℕ × ℕ) (cap : ℤ) (p : Pool I S) : List (Op I S W) → Pool I S × List (Out I S)
  | [] => (p, [])
  | o :: r => ((Pool.run w cap (p.step w cap o).1 r).1, (p.step w cap o).2 :: (Pool.run w cap (p.step w cap o).1 r).2)

/-! ## The same operations of the code -/

/-- The list with the drops that are scheduled (`go tp.dropTransactions(dropped)`, `transactionpool.go:189-191`). -/
structure PS (I S : Type) where
  l : TL I S
  pend : List (List ℕ)

variable [Inhabited I] [Inhabited S]

/-- The operations of the code; `none` is a panic. -/
def PS.step (w : I → ℕ × ℕ × ℕ) (cap : ℤ) (s : PS I S) : Op I S W → Option (PS I S × Out I S)
  | .add tx d => some (⟨(poolAdd w cap s.l tx d).1, s.pend⟩, .added (poolAdd w cap s.l tx d).2)
  | .removeList ids => some (⟨poolRemoveList s.l ids, s.pend⟩, .done)
  | .dropOld bts => some (⟨(poolDropOld s.l bts).1, s.pend⟩, .dropped (poolDropOld s.l bts).2)
  | .candidate env mb mc wc =>
    some (⟨(candidate env mb mc s.l wc).1, s.pend ++ [(candidate env mb mc s.l wc).2.dropped]⟩, .chosen (candidate env mb mc s.l wc).2.txs)
  | .drop k => (dropTxs s.l (s.pend.getD k [])).map (fun r => (⟨r.1, s.pend.set k []⟩, .dropped r.2))
  | .filter recent b max => some (s, .chosen (filterTxs w recent b max s.l))

/-- A history of the code. -/
def PS.run (w : I → ℕ × ℕ × ℕ) (cap : ℤ) (s : PS I S) : List (Op I S W) → Option (PS I S × List (Out I S))
  | [] => some (s, [])
  | o :: r => (s.step w cap o).bind (fun x => (PS.run w cap x.1 r).map (fun y => (y.1, x.2 :: y.2)))

end Verif.TxPool
