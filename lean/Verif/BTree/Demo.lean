import Verif.BTree.Main

/-! # A run of the block manager -/

namespace Verif.BTree

/-- Block 0, blocks 1 and 2 on top of it, and block 3 on top of 1. -/
def demoChain : Chain where
  prev
    | 1 => some 0
    | 2 => some 0
    | 3 => some 1
    | _ => none

theorem demo_lt {a b : Id} (h : demoChain.prev b = some a) : a < b := by
  unfold demoChain at h
  dsimp only at h
  split at h
  all_goals first | cases h | (obtain rfl := Option.some.inj h)
  all_goals decide

theorem demo_le {a b : Id} (h : Below demoChain a b) : a ≤ b := by
  induction h with
  | refl => exact Nat.le_refl a
  | up e _ ih => exact Nat.le_trans ih (Nat.le_of_lt (demo_lt e))

theorem demo_noLoop : NoLoop demoChain := fun _ _ h hb =>
  Nat.lt_irrefl _ (Nat.lt_of_lt_of_le (demo_lt h) (demo_le hb))

/-- All went well. -/
def good : Answers := ⟨true, true, true, 0⟩

/-- Blocks 1 and 3 are imported; block 2 is executed but not validated yet. -/
def demoEvents : List Ev :=
  [.importBlock 1 false true, .executed 0 .inn false good, .validated 0 .out false,
   .importBlock 3 false true, .executed 1 .inn false good, .validated 1 .out false,
   .importBlock 2 false true, .executed 2 .inn false good]

def run (ch : Chain) (w : World) (es : List Ev) : World := es.foldl (step ch) w

theorem run_reach {ch : Chain} {g : Id} : ∀ (es : List Ev) (w : World), Reach ch g w →
    (∀ pre e post, es = pre ++ e :: post → (run ch w pre).s.crashed = false ∧ Allowed (run ch w pre) e) →
    Reach ch g (run ch w es)
  | [], _, h, _ => h
  | e :: es, w, h, hk => by
    have h0 := hk [] e es rfl
    refine run_reach es (step ch w e) (.step e h h0.1 h0.2) ?_
    intro pre e' post he
    have := hk (e :: pre) e' post (by rw [he]; rfl)
    exact this

def demoWorld : World := run demoChain (start 0) demoEvents

theorem demo_reach : Reach demoChain 0 demoWorld := by
  unfold demoWorld run demoEvents
  simp only [List.foldl]
  repeat (first | exact .start | refine .step _ ?_ (by decide +kernel) trivial)

/-- The candidate of block 1 is disposed: block 3 still needs block 1. Then block 1 is finalized, and the candidate of
block 3 disposed as well. -/
def demoNext : World := run demoChain demoWorld [.dispose 1, .finalize 1, .cancel 2, .dispose 3]

theorem demo_next_reach : Reach demoChain 0 demoNext := by
  unfold demoNext run
  simp only [List.foldl]
  refine .step _ (.step _ (.step _ (.step _ demo_reach ?_ ?_) ?_ ?_) ?_ ?_) ?_ ?_
  all_goals first | trivial | (simp only [Allowed]; decide +kernel) | decide +kernel

/-- The callbacks, the candidates and the finalized blocks after both parts. -/
example : demoWorld.log = [(1, some 3), (0, some 1)] ∧ demoWorld.cands 1 = 1 ∧ demoWorld.cands 3 = 1 ∧
    demoWorld.fins = [0] ∧ demoNext.fins = [1, 0] ∧ demoNext.cands 1 = 0 ∧ demoNext.cancels = [2] := by
  decide +kernel

/-- The hypotheses of the theorems hold in these worlds: there are open tasks, needed blocks and blocks that are not. -/
example : demoWorld.s.running = true ∧ demoWorld.s.crashed = false ∧ demoWorld.open 2 ∧ ¬ demoWorld.open 0 := by
  refine ⟨by decide +kernel, by decide +kernel, ⟨by decide +kernel, by decide +kernel, by decide +kernel⟩, ?_⟩
  intro h
  exact absurd h.2.1 (by decide +kernel)

example : Needed demoChain demoWorld 1 ∧ Needed demoChain demoWorld 3 ∧ ¬ Needed demoChain demoWorld 2 := by
  refine ⟨?_, ?_, ?_⟩
  · exact (known_iff demo_noLoop demo_reach (by decide +kernel) 1).1 ⟨1, by decide +kernel⟩
  · exact (known_iff demo_noLoop demo_reach (by decide +kernel) 3).1 ⟨2, by decide +kernel⟩
  · intro h
    obtain ⟨p, hp⟩ := (known_iff demo_noLoop demo_reach (by decide +kernel) 2).2 h
    rw [show demoWorld.s.nmap 2 = none by decide +kernel] at hp
    cases hp

/-- With the candidate of block 1 gone, block 1 can be finalized still, and block 2 is refused as a parent after that. -/
example : (doFinalize demoWorld.s 1).2 = .done ∧ (doFinalize demoWorld.s 3).2 = .invalid ∧
    (doImport demoChain demoNext.s 3 false true).2 = .task 3 ∧
    (doImport demoChain demoNext.s 2 false true).2 = .badParent ∧ (doCancel demoWorld.s 2).2 = .canceled ∧
    (doCancel demoNext.s 2).2 = .ignored := by
  decide +kernel

/-- Nothing but the last finalized block is left when all candidates are disposed. -/
example : (List.range 4).filter (fun x => (demoNext.s.heap x).held) = [1] := by decide +kernel

/-- What the theorem on crashes is about: block 1 is finalized while the import of block 2 is open; when the executor
reports that block 2 is valid, its parent is gone and a nil pointer is dereferenced. -/
example : (run demoChain demoWorld [.finalize 1, .validated 2 .out false]).s.crashed = true ∧
    (run demoChain demoWorld [.validated 2 .out false]).s.crashed = false := by decide +kernel

/-- And the same when the user disposes the only candidate of the parent while an import is open. -/
example : (run demoChain demoWorld [.dispose 3, .importBlock 3 false true, .dispose 1, .executed 3 .inn false good,
    .validated 3 .out false]).s.crashed = true := by decide +kernel

end Verif.BTree
