import Verif.Havah.Validators.Model

/-!
# Vocabulary of the validator properties C32-C34

Everything here is defined from what a client can see: the results of `getValidatorInfo`,
`getValidatorStatus`, the list of consensus validators, and the transactions of a history.
-/
namespace Verif.Havah.Val.Spec
open Verif.Havah Verif.Havah.Val

/-- The validator of this owner is disabled (`getValidatorStatus`). -/
def Disabled (s : St) (o : Addr) : Prop := ∃ st, s.status o = some st ∧ st.disabled = true

/-- The validator of this owner has been unregistered. -/
def Disqualified (s : St) (o : Addr) : Prop :=
  ∃ st, s.status o = some st ∧ st.disqualified = true

/-- Registered, not disabled, not unregistered. -/
def Enabled (s : St) (o : Addr) : Prop :=
  ∃ st, s.status o = some st ∧ st.disabled = false ∧ st.disqualified = false

instance (s : St) (o : Addr) : Decidable (Disabled s o) :=
  decidable_of_iff ((s.status o).any (·.disabled) = true) (by
    unfold Disabled; cases s.status o <;> simp)

/-- How often the validator goes from disabled to not disabled in a history. -/
def reenabled (c : Config) (o : Addr) : St → List Op → ℕ
  | _, [] => 0
  | s, op :: ops =>
    (if Disabled s o ∧ ¬ Disabled (step c s op) o then 1 else 0) +
      reenabled c o (step c s op) ops

/-- What happens to a validator at a vote check, or by a call of `enableValidator`. -/
inductive Ballot
  | voted | missed | pardoned
deriving DecidableEq, Repr

/-- The votes of a block that concern the owner, given which owner a node belongs to. -/
def ballotsOfVotes (s : St) (o : Addr) (votes : List (Addr × Bool)) : List Ballot :=
  votes.filterMap fun nv =>
    if s.nodeOwner nv.1 = some o then some (if nv.2 then .voted else .missed) else none

/-- The block checks votes: the network is decentralised after the term-start part and the
block index is a multiple of the period that was in force before the block. -/
def Checks (c : Config) (s : St) (b : Block) : Prop :=
  (∃ t, exec c s (.block b) = .ok t) ∧ (step c s (.block b)).net.decentralized = true ∧
    0 < s.net.period ∧ (b.index : ℤ) % s.net.period = 0

/-- The ballots of one transaction. -/
noncomputable def ballotsOf (c : Config) (o : Addr) (s : St) : Op → List Ballot
  | .block b =>
    open Classical in if Checks c s b then ballotsOfVotes s o b.votes else []
  | .enable frm o' =>
    open Classical in
    if o' = o ∧ ∃ t, exec c s (.enable frm o') = .ok t then [.pardoned] else []
  | _ => []

/-- The ballots of a history. -/
noncomputable def ballots (c : Config) (o : Addr) : St → List Op → List Ballot
  | _, [] => []
  | s, op :: ops => ballotsOf c o s op ++ ballots c o (step c s op) ops

/-- Number of misses at the end of a list of ballots. -/
def trailingMisses (l : List Ballot) : ℕ := (l.reverse.takeWhile (· == .missed)).length

/-- A sub validator that may take a place in the active set: enabled, with the BTP keys it
needs, its node not active yet. -/
def Eligible (s : St) (hasKey : Addr → Bool) (active : List Addr) (n : Addr) : Prop :=
  ∃ o vi, s.info o = some vi ∧ vi.node = n ∧ vi.grade = .sub ∧ Enabled s o ∧
    hasKey n = true ∧ n ∉ active

/-- `n` is the node currently used by a validator that has not been unregistered. -/
def CurrentNode (s : St) (n : Addr) : Prop :=
  ∃ o vi, s.info o = some vi ∧ vi.node = n ∧ ¬ Disqualified s o

end Verif.Havah.Val.Spec
