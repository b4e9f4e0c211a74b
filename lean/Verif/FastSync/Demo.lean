import Verif.FastSync.Ends

/-!
# Runs
-/

namespace Verif.FastSync

/-- A block is its height and the rest. -/
def parse1 : List Nat → Option Blk
  | h :: t => some ⟨h, t⟩
  | [] => none

def allOk : Nat → Send := fun _ => .ok

/-- The state after events. -/
def play (c : Client) (g : G) : List Ev → Client × G
  | [] => (c, g)
  | e :: es => play (step parse1 c e allOk).1 (g.next c e (step parse1 c e allOk).2) es

def g0 : G := ⟨[], [], [], 0, []⟩

/-- The peer 1 gets the height 5, the peer 2 the height 6. -/
def asked : List Ev := [.fetch 5 7 [1, 2]]

def res5 : Res := ⟨1, ⟨5, [9]⟩, [3], 0⟩
def res6 : Res := ⟨2, ⟨6, []⟩, [4], 0⟩
def res7 : Res := ⟨2, ⟨7, []⟩, [4], 0⟩

/-- All three blocks come, the second one first. -/
def good : List Ev :=
  asked ++ [.recv 2 (.info 65536 1 [4]), .recv 2 (.data 65536 [6]), .recv 1 (.info 65536 2 [3]), .recv 1 (.data 65536 [5]),
    .recv 1 (.data 65536 [9]), .consume res5, .consume res6, .recv 2 (.info 65537 1 [4]), .recv 2 (.data 65537 [7]), .consume res7]

example : (play Client.new g0 good).1.fr = none ∧ (play Client.new g0 good).2.log =
    [.onBlock res5, .onBlock res6, .onBlock res7, .onEnd 0 true] := by decide +kernel

/-- The block of the peer 1 is rejected while that peer fetches the height 7. -/
def bad : List Ev :=
  asked ++ [.recv 1 (.info 65536 2 [3]), .recv 1 (.data 65536 [5, 9]), .reject res5]

theorem play_run {c : Client} {g : G} (h : Run parse1 c g) (es : List Ev)
    (ha : ∀ (c' : Client) (g' : G) (e : Ev) (l l' : List Ev), es = l ++ e :: l' → (c', g') = play c g l → Allowed g' e) :
    Run parse1 (play c g es).1 (play c g es).2 := by
  induction es generalizing c g with
  | nil => exact h
  | cons e t ih =>
    refine ih (h.step e allOk (ha c g e [] t rfl rfl)) ?_
    intro c' g' e' l l' he hp
    exact ha c' g' e' (e :: l) l' (by rw [he]; rfl) hp

/-- It is a run. -/
theorem bad_run : Run parse1 (play Client.new g0 bad).1 (play Client.new g0 bad).2 := by
  have r0 : Run parse1 Client.new g0 := .init
  have r1 := r0.step (.fetch 5 7 [1, 2]) allOk (by simp [Allowed])
  have r2 := r1.step (.recv 1 (.info 65536 2 [3])) allOk trivial
  have r3 := r2.step (.recv 1 (.data 65536 [5, 9])) allOk trivial
  exact r3.step (.reject res5) allOk (by
    show res5 ∈ _
    decide +kernel)

/-- Found in the Go code: `Reject` (client.go:88-101) cancels what the rejected peer was fetching and does not put its height
back, as `onLeave` does. The height 7 is nowhere then. -/
theorem found_lost : (play Client.new g0 bad).2.lost = [7] := by decide +kernel

/-- With the other blocks consumed nobody is asked for anything, though the peer 2 and a new peer 3 are idle. -/
def stuck : List Ev :=
  bad ++ [.recv 2 (.info 65536 1 [4]), .recv 2 (.data 65536 [6]), .recv 2 (.info 65537 1 [4]), .recv 2 (.data 65537 [5]),
    .consume ⟨2, ⟨5, []⟩, [4], 0⟩, .consume res6, .join 3]

example : ((play Client.new g0 stuck).1.fr.map fun r => (r.offset, r.stop, r.peers.map fun p => (p.id, p.f.isSome))) =
    some (7, 7, [(2, false), (3, false)]) ∧ (play Client.new g0 stuck).2.given = [] ∧
    (play Client.new g0 stuck).1.crash = false := by decide +kernel

/-- The hypotheses of `no_stall` in the run without a rejection. -/
example : ∃ r, (play Client.new g0 asked).1.fr = some r ∧ (play Client.new g0 asked).2.lost = [] ∧ r.peers ≠ [] ∧
    r.offset ≤ r.stop ∧ (play Client.new g0 asked).2.given = [] := by
  refine ⟨_, rfl, ?_, ?_, ?_, ?_⟩ <;> decide +kernel

/-- A send that fails for good: the peer keeps a fetcher that does nothing. -/
example : ((step parse1 Client.new (.fetch 5 7 [1]) fun _ => .perm).1.fr.map fun r => r.peers) =
    some [⟨1, 1, some ⟨5, 65536, .fin, none, 0, [], []⟩⟩] := by decide +kernel

/-- The last peer fails: the end. -/
example : (step parse1 (step parse1 Client.new (.fetch 5 7 [1]) allOk).1 (.timer 1) allOk).2 = [.onEnd 0 false] := by
  decide +kernel

end Verif.FastSync
