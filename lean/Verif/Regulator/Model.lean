import Mathlib.Data.List.Basic
import Mathlib.Algebra.BigOperators.Group.List.Basic
import Mathlib.Tactic.SplitIfs
import Mathlib.Tactic.Ring

/-!
# The regulator: how many transactions a block has, and how long to wait

Models `chain/regulator.go`.

Simplifications: times, durations (nanoseconds) and counts are integers without overflow; each operation is atomic (the lock).
-/

namespace Verif.Regulator

/-- A `txExecutionEntry` (regulator.go:18-22). -/
structure Entry where
  count : Int
  execution : Int
  finalize : Int

def Entry.zero : Entry := ⟨0, 0, 0⟩

/-- A `txExecutionSum` (regulator.go:24-27). -/
structure Sum where
  count : Int
  execution : Int
  finalize : Int
  entries : Int

/-- `Sub` (regulator.go:29-36). -/
def Sum.sub (s : Sum) (e : Entry) : Sum :=
  if 0 < e.count then ⟨s.count - e.count, s.execution - e.execution, s.finalize - e.finalize, s.entries - 1⟩ else s

/-- `Add` (regulator.go:38-43). -/
def Sum.add (s : Sum) (e : Entry) : Sum :=
  ⟨s.count + e.count, s.execution + e.execution, s.finalize + e.finalize, s.entries + 1⟩

/-- A `regulator` (regulator.go:45-59). -/
structure Reg where
  proposeTime : Int
  interval : Int
  minTimeout : Int
  history : List Entry
  sum : Sum
  cur : Nat
  maxTx : Int

/-- `addEntryInLock` (regulator.go:120-127). -/
def Reg.addEntry (r : Reg) (e : Entry) : Reg :=
  { r with
    sum := (r.sum.sub (r.history.getD r.cur .zero)).add e
    history := r.history.set r.cur e
    cur := (r.cur + 1) % r.history.length }

/-- `NewRegulator` (regulator.go:148-157). -/
def Reg.new : Reg :=
  Reg.addEntry ⟨0, 1000000000, 200000000, List.replicate 30 .zero, ⟨0, 0, 0, 0⟩, 0, 1000⟩ ⟨1000, 1000000000, 0⟩

/-- `SetBlockInterval` (regulator.go:61-84); none: a panic (a division by zero). -/
def Reg.setInterval (r : Reg) (blockInterval commitTimeout : Int) : Option Reg :=
  let bi := if blockInterval = 0 then commitTimeout else blockInterval
  let ct := if blockInterval = 0 then commitTimeout else if commitTimeout = 0 then 200000000 else commitTimeout
  let ct' := if bi < ct then bi else ct
  if r.minTimeout = ct' ∧ r.interval = bi then some r
  else if r.interval = 0 then none
  else some { r with interval := bi, minTimeout := ct', maxTx := (bi * r.maxTx).tdiv r.interval }

/-- `OnPropose` (regulator.go:86-91). -/
def Reg.onPropose (r : Reg) (now : Int) : Reg := { r with proposeTime := now }

/-- `CommitTimeout` (regulator.go:93-103). -/
def Reg.commitTimeout (r : Reg) (now : Int) : Int :=
  let t := r.interval - (now - r.proposeTime)
  if t < r.minTimeout then r.minTimeout else t

/-- `OnTxExecution` (regulator.go:129-146); none: a panic (a division by zero). -/
def Reg.onExec (r : Reg) (e : Entry) : Option Reg :=
  if e.count ≤ 10 then some r
  else
    let r := r.addEntry e
    if r.sum.entries = 0 ∨ r.sum.execution = 0 then none
    else
      let iv := r.interval - r.sum.finalize.tdiv r.sum.entries
      let n := (r.sum.count * iv).tdiv r.sum.execution
      some { r with maxTx := if n < 10 then 10 else n }

/-- A regulator, and the executions with more than ten transactions, from the first; the intervals that are set are not negative
and not both zero (transition.go:100). -/
inductive Run : Reg → List Entry → Prop
  | new : Run .new []
  | set {r r' : Reg} {es : List Entry} {bi ct : Int} : Run r es → 0 ≤ bi → 0 ≤ ct → 0 < bi ∨ 0 < ct →
      r.setInterval bi ct = some r' → Run r' es
  | propose {r : Reg} {es : List Entry} (now : Int) : Run r es → Run (r.onPropose now) es
  | exec {r r' : Reg} {es : List Entry} {e : Entry} : Run r es → r.onExec e = some r' →
      Run r' (if 10 < e.count then es ++ [e] else es)

end Verif.Regulator
