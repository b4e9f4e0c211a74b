import Verif.Trans.Model

/-!
# What the users of transition handles rely on

The vocabulary of the statements: who holds an execution, what arrived from the executor, what a handle was told.
-/

namespace Verif.Trans

/-- Handle `h` is alive, and it is on the execution `p`. -/
def Holds (s : St) (h p : Nat) : Prop := h < s.nHandle ∧ (s.handles h).ti = some p

/-- Somebody holds the execution `p`. -/
def Held (s : St) (p : Nat) : Prop := ∃ h : Nat, Holds s h p

/-- The number of live handles on `p`. -/
def holders (s : St) (p : Nat) : Nat :=
  ((List.range s.nHandle).filter fun h => (s.handles h).ti == some p).length

/-- What the callback of handle `h` was told, in order. -/
def told (s : St) (h : Nat) : List Rep := (s.log.filter fun x => x.1 == h).map (·.2)

/-- The reports say how the execution ended: a result of the execution, or the error of the validation. -/
def ended (l : List Rep) : Bool :=
  l.any fun r => match r with
    | .exe _ => true
    | .val e => e.isSome

/-- A state with the history of the executors: `arrived p` are the reports of the execution `p` that arrived while the
chain ran and somebody held `p`. -/
structure World where
  s : St
  arrived : Nat → List Rep

open Classical in
/-- One event. The history: a report is put down when it arrives; an initial transition counts as validated and
executed from the start. -/
noncomputable def step (eq : Nat → Nat → Bool) (w : World) (e : Ev) : World where
  s := (apply eq w.s e).1
  arrived :=
    match e with
    | .deliver p =>
      match (w.s.execs p).flight with
      | some r =>
        if w.s.running = true ∧ Held w.s p then
          fun q => if q = p then w.arrived q ++ [r] else w.arrived q
        else w.arrived
      | none => w.arrived
    | .initial _ => fun q => if q = w.s.nImpl then [.val none, .exe none] else w.arrived q
    | _ => w.arrived

/-- The worlds that can come up: events that can happen, in a process that has not crashed. -/
inductive Reach (eq : Nat → Nat → Bool) : World → Prop
  | init : Reach eq ⟨St.empty, fun _ => []⟩
  | step {w : World} (e : Ev) : Reach eq w → w.s.crashed = false → Allowed w.s e → Reach eq (step eq w e)

/-- `c` is a running or finished execution which somebody holds, it was made on top of `p`, and it is for a
transition that equals `m`. -/
def Fits (eq : Nat → Nat → Bool) (s : St) (p m c : Nat) : Prop :=
  Held s c ∧ (s.impls c).made = some p ∧ ∃ k : Nat, (s.impls c).mtr = some k ∧ eq m k = true

/-- How a request for an execution of `m` on top of `p` is served, with or without callback `cb`; `ok`: the
executor can be started. -/
def Served (eq : Nat → Nat → Bool) (s : St) (p m : Nat) (cb ok : Bool) (s' : St) (r : Option Nat) : Prop :=
  ((∃ c : Nat, Fits eq s p m c) →
    ∃ h c : Nat, r = some h ∧ h = s.nHandle ∧ Holds s' h c ∧ (s'.handles h).wants = cb ∧ Fits eq s p m c ∧
      s'.nImpl = s.nImpl ∧
      ((∃ d : Nat, Fits eq s p m d ∧ (s.impls d).sync = true) → (s.impls c).sync = true)) ∧
  ((∀ c : Nat, ¬ Fits eq s p m c) → ok = true →
    ∃ h : Nat, r = some h ∧ h = s.nHandle ∧ Holds s' h s.nImpl ∧ (s'.handles h).wants = cb ∧
      s'.nImpl = s.nImpl + 1 ∧ (s'.impls s.nImpl).made = some p ∧ (s'.impls s.nImpl).mtr = some m ∧
      (s'.impls s.nImpl).sync = false) ∧
  ((∀ c : Nat, ¬ Fits eq s p m c) → ok = false → r = none ∧ s' = s) ∧
  ∀ h < s.nHandle, s'.handles h = s.handles h ∧ told s' h = told s h

end Verif.Trans
