import Verif.Havah.Validators.PropsTerm

/-!
# Concrete histories for C32-C34

Every theorem of the validator part is accompanied by a reachable state that meets its
hypotheses; the findings (negative results) are stated as theorems about such histories.
-/
namespace Verif.Havah.Val.Demo
open Verif.Havah Verif.Havah.Val Spec

/-- Governance is a contract; the first byte of a key determines the node. -/
def cfg : Config where
  gov := ⟨true, 1⟩
  parse := fun pk => pk.head?.map fun b => ⟨false, 100 + b.toNat⟩

def gov : Addr := ⟨true, 1⟩
def own (i : ℕ) : Addr := ⟨false, i⟩
def node (i : ℕ) : Addr := ⟨false, 100 + i⟩
def key (i : ℕ) : List UInt8 := UInt8.ofNat i :: List.replicate 32 0

/-- Iteration in the order of insertion. -/
def fwd : IterOrder := ⟨id, fun _ => List.Perm.refl _⟩
/-- Iteration in the opposite order. -/
def bwd : IterOrder := ⟨List.reverse, fun l => l.reverse_perm⟩

def blk (i : ℕ) (votes : List (Addr × Bool)) (io : IterOrder := fwd)
    (hasKey : Addr → Bool := fun _ => true) : Block := ⟨4, i, votes, hasKey, io⟩

def reg (i : ℕ) (g : String) : Op := .register gov (own i) (key i) g "v" none (some true)

/-- One main and four sub validators, three active places, votes checked at every block,
one miss allowed. -/
def setup : List Op :=
  [reg 1 "main", reg 2 "sub", reg 3 "sub", reg 4 "sub", reg 5 "sub", .setCount gov 3,
   .setParams gov 1 1, .block (blk 0 [])]

def s0 : St := run cfg (genesis [node 1]) setup

theorem s0_reachable : Reachable cfg s0 := ⟨[node 1], setup, by decide, rfl⟩

example : s0.active = [node 1, node 2, node 3] ∧ s0.net.decentralized = true ∧
    s0.net.period = 1 ∧ s0.net.allowance = 1 ∧ s0.svIndex = 2 := by decide +kernel

/-- The term start that produced `s0` meets the hypotheses of `C34_term_start`. -/
example : ∃ s t, Reachable cfg s ∧ (blk 0 []).index = 0 ∧ exec cfg s (.block (blk 0 [])) = .ok t ∧
    t.net.decentralized = true ∧ t.active = [node 1, node 2, node 3] :=
  ⟨run cfg (genesis [node 1]) setup.dropLast, s0, ⟨[node 1], _, by decide, rfl⟩, rfl, rfl,
    by decide +kernel, by decide +kernel⟩

/-- Both active sub validators miss a block. -/
def s1 : St := run cfg s0 [.block (blk 1 [(node 1, true), (node 2, false), (node 3, false)])]
/-- The block in which they exceed the allowance. -/
def b2 (io : IterOrder) : Block := blk 2 [(node 1, true), (node 2, false), (node 3, false)] io

theorem s1_reachable : Reachable cfg s1 := s0_reachable.run _

/-- The validators are disabled and replaced. -/
theorem s1_block : ∃ t, exec cfg s1 (.block (b2 fwd)) = .ok t ∧
    t.active = [node 1, node 4, node 5] ∧ Disabled t (own 2) ∧ Disabled t (own 3) ∧
    Enabled s1 (own 2) ∧ Enabled s1 (own 3) := by
  refine ⟨_, rfl, by decide +kernel, by decide +kernel, by decide +kernel, ?_, ?_⟩
  · exact ⟨⟨false, false, 1, 0⟩, by decide +kernel, rfl, rfl⟩
  · exact ⟨⟨false, false, 1, 0⟩, by decide +kernel, rfl, rfl⟩

/-- **C34 (negative: iteration order).** The *positions* in the active set are not determined
by the block: two executions that differ only in the iteration order of the Go map produce
different validator lists (and hence different validator-list hashes). -/
theorem C34_order_not_deterministic : ∃ (c : Config) (s : St) (b : Block) (io : IterOrder)
    (t t' : St), Reachable c s ∧ exec c s (.block b) = .ok t ∧
      exec c s (.block { b with order := io }) = .ok t' ∧ t.active ≠ t'.active :=
  ⟨cfg, s1, b2 fwd, bwd, _, _, s1_reachable, rfl, rfl, by decide +kernel⟩

/-! ### Key changes and penalties -/

/-- Validator 2 changes its key to key 12; validator votes still name the old node. -/
def s2 : St := run cfg s1 [.setNodePublicKey (own 2) (key 12) (some true)]

example : s2.active = [node 1, node 12, node 3] := by decide +kernel

/-- **C34 (negative: key change).** If the voter list still contains a validator's previous
node, its validator is disabled but its new node stays in the active set. -/
theorem C34_disabled_stays_active : ∃ (c : Config) (s : St) (b : Block) (t : St) (o n : Addr),
    Reachable c s ∧ b.index ≠ 0 ∧ exec c s (.block b) = .ok t ∧ Enabled s o ∧ Disabled t o ∧
      (∃ vi, t.info o = some vi ∧ vi.node = n) ∧ n ∈ t.active :=
  ⟨cfg, s2, blk 2 [(node 1, true), (node 2, false), (node 3, true)], _, own 2, node 12,
    s1_reachable.run _, by decide, rfl, ⟨⟨false, false, 1, 0⟩, by decide +kernel, rfl, rfl⟩,
    by decide +kernel, ⟨⟨node 12, .sub, "v", ""⟩, by decide +kernel, rfl⟩, by decide +kernel⟩

/-! ### Blocks that cannot be produced -/

/-- **C34 (negative: missing key).** One enabled sub validator without its BTP key can make
the first block of a term fail although the main validators are in order. -/
theorem C34_missing_key_blocks_term : ∃ (c : Config) (s : St) (b : Block), Reachable c s ∧
    b.index = 0 ∧ (∃ o ∈ s.main, ∃ vi, s.info o = some vi ∧ b.hasKey vi.node = true) ∧
    (∀ n ∈ s.active, (s.nodeOwner n).isSome) ∧ exec c s (.block b) = .error .btp :=
  ⟨cfg, run cfg (genesis [node 1]) [reg 1 "main", reg 2 "sub", .setCount gov 2],
    blk 0 [] fwd (fun n => n.id != 102), ⟨_, _, by decide, rfl⟩, rfl,
    ⟨own 1, by decide +kernel, ⟨node 1, .main, "v", ""⟩, by decide +kernel, rfl⟩,
    by decide +kernel, rfl⟩

/-- Governance grants a node that no validator owns: the hypotheses of
`C34_unowned_validator_blocks_term`. -/
example : ∃ s, Reachable cfg s ∧ s.net.decentralized = true ∧ node 50 ∈ s.active ∧
    s.nodeOwner (node 50) = none :=
  ⟨run cfg s0 [.grant gov (node 50) true], s0_reachable.run _, by decide +kernel,
    by decide +kernel, by decide +kernel⟩

/-- **C34 (negative: empty set).** An owner can empty the active set by unregistering:
unlike `revokeValidator`, `unregisterValidator` does not keep a last validator. -/
theorem C34_unregister_empties : ∃ (c : Config) (s : St) (o : Addr) (t : St), Reachable c s ∧
    s.net.decentralized = true ∧ s.active ≠ [] ∧ exec c s (.unregister o o) = .ok t ∧
      t.active = [] :=
  ⟨cfg, run cfg (genesis [node 1]) [reg 1 "main", .setCount gov 1, .block (blk 0 [])], own 1, _,
    ⟨_, _, by decide, rfl⟩, by decide +kernel, by decide +kernel, rfl, by decide +kernel⟩

/-! ### Registry -/

/-- A validator that was unregistered: the hypotheses of `C32_disqualified_forever`. -/
example : Disqualified (run cfg s0 [.unregister (own 4) (own 4)]) (own 4) ∧
    (run cfg s0 [.unregister (own 4) (own 4)]).sub = [own 2, own 3, own 5] ∧
    (run cfg s0 [.unregister (own 4) (own 4)]).disq = [own 4] :=
  ⟨⟨⟨false, true, 0, 0⟩, by decide +kernel, rfl⟩, by decide +kernel, by decide +kernel⟩

/-- Penalty, re-enabling by the owner, and a second penalty. -/
def penalise : List Op :=
  [.block (blk 1 [(node 2, false)]), .block (blk 2 [(node 2, false)])]

example : Disabled (run cfg s0 penalise) (own 2) ∧
    ¬ Disabled (run cfg s0 (penalise ++ [.enable (own 2) (own 2)])) (own 2) ∧
    reenabled cfg (own 2) s0 (penalise ++ [.enable (own 2) (own 2)]) = 1 := by
  decide +kernel

/-- After three self-enablings the fourth fails, while governance still can. -/
def four : List Op :=
  let once := penalise ++ [.enable (own 2) (own 2)]
  once ++ once ++ once ++ penalise

example : Disabled (run cfg s0 (four ++ [.enable (own 2) (own 2)])) (own 2) ∧
    ¬ Disabled (run cfg s0 (four ++ [.enable gov (own 2)])) (own 2) ∧
    reenabled cfg (own 2) s0 (four ++ [.enable (own 2) (own 2)]) = 3 := by
  decide +kernel

/-- A node changes hands nowhere: the old node still belongs to its first owner. -/
example : s2.nodeOwner (node 2) = some (own 2) ∧ s2.nodeOwner (node 12) = some (own 2) ∧
    (∃ e, exec cfg s2 (.setNodePublicKey (own 3) (key 2) (some true)) = .error e) :=
  ⟨by decide +kernel, by decide +kernel, .duplicate, rfl⟩

/-! ### Choice of replacements -/

/-- The hypotheses of `C34_choice` and `C34_replacement`. -/
example : getNextActive s0 (fun _ => true) (fun x => decide (x ∈ s0.active)) 2 =
    .ok ({ s0 with svIndex := 0 }, [node 4, node 5]) := rfl

example : (∃ n ∈ [node 2], n ∈ s0.active) ∧
    (replacePenalized s0 (fun _ => true) fwd [node 2]).toOption.map (·.active) =
      some [node 1, node 4, node 3] := by decide +kernel

end Verif.Havah.Val.Demo
