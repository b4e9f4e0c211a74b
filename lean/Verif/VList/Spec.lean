import Verif.VList.Model

/-!
# Validator lists as plain values

The specification: a state has a list of validators, a snapshot has a list of validators, and there is no memory
that could be shared. Nothing here refers to the stores, arrays and maps of the model.
-/

namespace Verif.VList

/-- No two validators have the same address. -/
def Distinct (l : List Vd) : Prop := (l.map (·.addr)).Nodup

instance (l : List Vd) : Decidable (Distinct l) := by unfold Distinct; infer_instance

/-- The position of the first validator with the address; -1 if there is none. -/
def position (l : List Vd) (a : Bytes) : Int :=
  match l.findIdx? (fun v => decide (v.addr = a)) with
  | some i => (i : Int)
  | none => -1

/-- There is a validator with the address. -/
def Present (l : List Vd) (a : Bytes) : Prop := ∃ v ∈ l, v.addr = a

instance (l : List Vd) (a : Bytes) : Decidable (Present l a) := by unfold Present; infer_instance

/-- The bytes of a list: nothing if it is empty. -/
def bytesOf (E : Env) (l : List Vd) : Bytes := if l = [] then [] else E.enc l

/-- The hash of a list: nothing if it is empty. -/
def hashOf (E : Env) (l : List Vd) : Bytes := if l = [] then [] else E.sha (E.enc l)

/-- What is to be known: per snapshot its list and whether it was made here (and not read from the database); per
state its list and the snapshot it has, if nothing changed since; and which lists are stored. -/
structure Plain where
  snaps : List (List Vd × Bool)
  states : List (List Vd × Option Nat)
  db : Bytes → Option (List Vd)

/-- The state gets a list; only a different list is a change. -/
def Plain.update (p : Plain) (s : Nat) (old : List Vd × Option Nat) (l : List Vd) : Plain :=
  if l = old.1 then p else { p with states := p.states.set s (l, none) }

/-- The element at a position. -/
def elementAt (l : List Vd) (i : Int) : Option Vd := if i < 0 then none else l[i.toNat]?

/-- The methods of a state. -/
def specSt (p : Plain) (s : Nat) (x : List Vd × Option Nat) : StOp → Plain × Out
  | .len => (p, .num x.1.length)
  | .get i => (p, .val (elementAt x.1 i))
  | .indexOf a => (p, .num (position x.1 a))
  | .set vl => if Distinct vl then (p.update s x vl, .ok) else (p, .fail)
  | .add v => if Present x.1 v.addr then (p, .ok) else (p.update s x (x.1 ++ [v]), .ok)
  | .remove v => (p.update s x (x.1.filter fun u => !(decide (u.addr = v.addr))), .flag (decide (Present x.1 v.addr)))
  | .replace ov nv =>
    if ¬ Present x.1 ov.addr then (p, .fail)
    else if ov.addr = nv.addr then (p, .ok)
    else if Present x.1 nv.addr then (p, .fail)
    else (p.update s x (x.1.map fun u => if u.addr = ov.addr then nv else u), .ok)
  | .setAt i v =>
    match elementAt x.1 i with
    | none => (p, .fail)
    | some ov =>
      if ov.addr = v.addr then (p, .ok)
      else if Present x.1 v.addr then (p, .fail)
      else (p.update s x (x.1.set i.toNat v), .ok)
  | .getSnapshot =>
    match x.2 with
    | some k => (p, .ref k)
    | none =>
      ({ p with snaps := p.snaps ++ [(x.1, true)], states := p.states.set s (x.1, some p.snaps.length) },
        .ref p.snaps.length)
  | .reset k =>
    match p.snaps[k]? with
    | none => (p, .bad)
    | some y => ({ p with states := p.states.set s (y.1, some k) }, .ok)

/-- The methods of a snapshot. -/
def specSn (E : Env) (p : Plain) (y : List Vd × Bool) : SnOp → Plain × Out
  | .len => (p, .num y.1.length)
  | .get i => (p, .val (elementAt y.1 i))
  | .indexOf a => (p, .num (position y.1 a))
  | .hash => (p, .bytes (hashOf E y.1))
  | .bytes => (p, .bytes (bytesOf E y.1))
  | .flush =>
    if y.2 ∧ y.1 ≠ [] then ({ p with db := fun h => if h = hashOf E y.1 then some y.1 else p.db h }, .ok)
    else (p, .ok)

/-- One call. -/
def specExec (E : Env) (p : Plain) : Op → Plain × Out
  | .fromSlice vl => ({ p with snaps := p.snaps ++ [(vl, true)] }, .ref p.snaps.length)
  | .fromHash h =>
    if h = [] then ({ p with snaps := p.snaps ++ [([], false)] }, .ref p.snaps.length)
    else match p.db h with
      | none => (p, .fail)
      | some l => ({ p with snaps := p.snaps ++ [(l, false)] }, .ref p.snaps.length)
  | .stateFrom k =>
    match p.snaps[k]? with
    | none => (p, .bad)
    | some y => ({ p with states := p.states ++ [(y.1, some k)] }, .ref p.states.length)
  | .st s o =>
    match p.states[s]? with
    | none => (p, .bad)
    | some x => specSt p s x o
  | .sn k o =>
    match p.snaps[k]? with
    | none => (p, .bad)
    | some y => specSn E p y o

/-- A history of calls. -/
def specRun (E : Env) : Plain → List Op → Plain × List Out
  | p, [] => (p, [])
  | p, op :: ops => ((specRun E (specExec E p op).1 ops).1, (specExec E p op).2 :: (specRun E (specExec E p op).1 ops).2)

/-- Nothing made yet, over given stored lists. -/
def Plain.start (db : Bytes → Option (List Vd)) : Plain := ⟨[], [], db⟩

/-- What is assumed of the environment: lists come back from their bytes, and bytes and hashes are not empty. -/
structure Env.Good (E : Env) : Prop where
  dec_enc : ∀ l, E.dec (E.enc l) = some l
  enc_ne : ∀ l, E.enc l ≠ []
  sha_ne : ∀ b, E.sha b ≠ []

/-- What a database of earlier runs may hold: under the hash of a non-empty list without duplicates, its bytes. -/
structure Stored (E : Env) (db : Bytes → Option Bytes) (pdb : Bytes → Option (List Vd)) : Prop where
  agree : ∀ h, h ≠ [] → db h = (pdb h).map E.enc
  good : ∀ h l, pdb h = some l → l ≠ [] ∧ Distinct l ∧ h = hashOf E l

/-- A list handed to `ValidatorSnapshotFromSlice` has no duplicates. (`Set` checks this itself.) -/
def Op.Fine : Op → Prop
  | .fromSlice vl => Distinct vl
  | _ => True

end Verif.VList
