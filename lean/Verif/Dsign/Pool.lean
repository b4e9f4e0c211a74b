import Verif.Dsign.Chain

/-!
# The reports that wait, and the trackers of a branch

Models `service/dsrmanager.go`, and its use in `service/transition.go:572-608`.

Simplifications: each operation is atomic; the data of a report, whose conflict `Add` has checked, are left out, but whether a
report has them is not (it is in `todo`); a key is the height and the signer, not their string; `Add` gets what it computes from
its arguments: the height, whether the data conflict, and the signer the context gives.
-/

namespace Verif.Dsign.Pool

/-- `keyForDSR` (dsrmanager.go:34-36). -/
structure Key where
  height : Int
  signer : Nat
deriving Repr, DecidableEq

/-- A `dsrManager` (dsrmanager.go:121-128). `reports`: the keys of the map; the element of a key is the one in `todo` (with data)
or in `done` (without). -/
structure Manager where
  todo : List Key
  done : List Key
  reports : Key → Bool
  first : Int

/-- `newDSRManager` (dsrmanager.go:299-306). -/
def Manager.new : Manager := ⟨[], [], fun _ => false, -1⟩

/-- The loop of `addToListInOrder` (dsrmanager.go:131-136), from the back. -/
def insertBack (x : Key) : List Key → List Key
  | [] => [x]
  | r :: t => if r.height ≤ x.height then x :: r :: t else r :: insertBack x t

/-- `addToListInOrder` (dsrmanager.go:130-138). -/
def insert (l : List Key) (x : Key) : List Key := (insertBack x l.reverse).reverse

/-- `Add` (dsrmanager.go:140-180); none: an error. -/
def Manager.add (m : Manager) (height : Int) (conflict : Bool) (signer : Option Nat) : Option Manager :=
  if m.first = -1 ∨ height < m.first then none
  else if !conflict then none
  else match signer with
    | none => none
    | some s =>
      if m.reports ⟨height, s⟩ then some m
      else some { m with
        todo := insert m.todo ⟨height, s⟩
        reports := fun k => k == ⟨height, s⟩ || m.reports k }

/-- `Has` (dsrmanager.go:265-276). -/
def Manager.has (m : Manager) (k : Key) : Bool := m.reports k && !(m.todo.contains k)

/-- `setFirstHeightInLock` (dsrmanager.go:212-239). -/
def Manager.setFirst (m : Manager) (h : Int) : Manager :=
  if h ≤ m.first then m
  else { m with
    first := h
    done := m.done.filter fun k => !(decide (k.height < h))
    todo := m.todo.filter fun k => !(decide (k.height < h))
    reports := fun k => m.reports k && !((m.done.contains k || m.todo.contains k) && decide (k.height < h)) }

/-- The body of the loop of `Commit` (dsrmanager.go:245-262). -/
def Manager.commit1 (m : Manager) (k : Key) : Manager :=
  if m.reports k then
    if m.todo.contains k then { m with todo := m.todo.erase k, done := insert m.done k }
    else m
  else { m with done := insert m.done k, reports := fun x => x == k || m.reports x }

/-- `Commit` (dsrmanager.go:241-263). -/
def Manager.commit (m : Manager) (ks : List Key) : Manager := ks.foldl Manager.commit1 m

/-- A `dsrTracker` (dsrmanager.go:55-60). -/
structure Tracker where
  reports : List Key
  parent : Option Nat

/-- The manager and all trackers. -/
structure Sys where
  man : Manager
  trk : List Tracker

/-- `dsrTracker.Has` (dsrmanager.go:62-77). The first argument bounds the way up. -/
def has (s : Sys) : Nat → Nat → Key → Bool
  | 0, _, _ => false
  | n + 1, i, k =>
    match s.trk[i]? with
    | none => false
    | some t =>
      if t.reports.contains k then true
      else match t.parent with
        | some p => has s n p k
        | none => s.man.has k

/-- `dsrTracker.Commit` (dsrmanager.go:86-102). The first argument bounds the way up. -/
def commit : Nat → Sys → Nat → Sys
  | 0, s, _ => s
  | n + 1, s, i =>
    match s.trk[i]? with
    | none => s
    | some t =>
      let s1 := match t.parent with
        | some p => commit n s p
        | none => s
      ⟨s1.man.commit t.reports, s1.trk.set i ⟨[], none⟩⟩

/-- `Candidate` (dsrmanager.go:182-210): the keys of the transactions. `fh`: the first height of the history of the state, `bh`: the
height of the block. -/
def candidates (s : Sys) (i : Nat) (fh : Option Int) (bh : Int) : List Key :=
  match fh with
  | none => []
  | some fh => s.man.todo.filter fun k =>
      !(decide (k.height < fh) || decide (bh < k.height)) && !(has s (i + 1) i k)

end Verif.Dsign.Pool
