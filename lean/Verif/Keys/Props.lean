import Verif.Keys.Lemmas

/-! # C05: database slots of containers never collide before hashing -/

namespace Verif.Keys

/-- The three container kinds and their tag bytes (pyee/pyexec/iconscore/icon_container_db.py:27-29). -/
inductive Kind | array | dict | var
deriving DecidableEq, Repr

def Kind.tag : Kind → Bytes
  | .array => [0x00]
  | .dict => [0x01]
  | .var => [0x02]

/-- **Specification** of a container access: the container kind, the path `sub` of `get_sub_db` prefixes
used to reach the database it lives in, its name, the keys of nested dictionaries, and the last key
(absent for the value of a VarDB and the length of an ArrayDB). All keys are encoded byte strings. -/
structure Access where
  kind : Kind
  sub : List Bytes
  name : Bytes
  nested : List Bytes
  key : Option Bytes

/-- the sequence of key components of an access -/
def Access.components (a : Access) : List Bytes := a.name :: (a.sub ++ a.nested ++ a.key.toList)

/-- every component is a byte string that fits in an address space (2^53 bytes) -/
def Access.Sane (a : Access) : Prop := ∀ x ∈ a.components, Keys.Sane x

/-- the slot (pre-image of the hashed key) the code uses for the access -/
def Access.slot (a : Access) : Bytes :=
  (nest ((descend Db.root a.sub).subDb a.name (some a.kind.tag)) a.kind.tag a.nested).slot a.key

theorem access_slot_eq (a : Access) : a.slot = a.kind.tag ++ flat a.components := by
  unfold Access.slot
  have h0 := descend_eq Db.root a.sub rfl
  have h1 := subDb_first (descend Db.root a.sub) a.name a.kind.tag h0.1
  have h2 := nest_eq _ a.kind.tag _ a.nested h1.1
  rw [slot_eq, h2.1, h2.2, h1.2, h0.2]
  simp [Access.components, flat, Db.pfxBytes, Db.root]

/-- **C05.** Two container accesses use the same slot exactly when they have the same kind and the same
sequence of encoded key components. -/
theorem C05_slot_injective (a b : Access) (ha : a.Sane) (hb : b.Sane) :
    a.slot = b.slot ↔ a.kind = b.kind ∧ a.components = b.components := by
  rw [access_slot_eq, access_slot_eq]
  constructor
  · intro h
    have hk : a.kind = b.kind := by
      cases ha : a.kind <;> cases hb : b.kind <;> rw [ha, hb] at h <;> simp [Kind.tag] at h ⊢
    refine ⟨hk, ?_⟩
    rw [hk] at h
    exact rlp_list_inj ha hb (List.append_cancel_left h)
  · rintro ⟨h1, h2⟩
    rw [h1, h2]

/-- **C05.** In particular containers created directly on the SCORE's database: different kinds, names,
nesting paths or final keys give different slots. -/
theorem C05_root_containers (k k' : Kind) (n n' : Bytes) (p p' : List Bytes) (o o' : Option Bytes)
    (hs : (Access.mk k [] n p o).Sane) (hs' : (Access.mk k' [] n' p' o').Sane)
    (h : (Access.mk k [] n p o).slot = (Access.mk k' [] n' p' o').slot) :
    k = k' ∧ n = n' ∧ p ++ o.toList = p' ++ o'.toList := by
  have := (C05_slot_injective _ _ hs hs').1 h
  simpa [Access.components] using this

example : (Access.mk .dict [] [0x61] [[0x62]] (some (List.replicate 60 7))).Sane := by
  intro x hx
  simp [Access.components] at hx
  rcases hx with rfl | rfl | rfl <;> simp [Sane]

/-- **C05** (limits of the claim). A raw sub database of the SCORE is not kept apart from containers:
`db.get_sub_db(b'\x02').put(k, ...)` writes the slot of `VarDB(k, db)`. -/
theorem C05_raw_subdb_alias (k : Bytes) :
    (Db.root.subDb [0x02] none).slot (some k) = (Access.mk .var [] k [] none).slot := by
  rw [access_slot_eq, slot_eq]
  have h := subDb_untagged Db.root [0x02] rfl
  rw [h.1, h.2]
  have h2 : rlpEncode [0x02] = [0x02] := by decide
  simp [h2, Db.pfxBytes, Db.root, flat, Access.components, Kind.tag]

/-- **C05.** Go's key builder writes the same bytes as the Python executor for every list of components,
and `SplitKeys` recovers the components from any key it builds. -/
theorem C05_go_agrees (key : Bytes) (ks : List Bytes) (h : ∀ k ∈ ks, Sane k) :
    goAppendKeys key ks = key ++ (ks.map rlpEncode).flatten ∧
    goSplitKeys (goAppendKeys [] ks) = some ks := by
  have e : ks.map goRlpEncode = ks.map rlpEncode := by
    apply List.map_congr_left; intro x _; exact goRlpEncode_eq x
  unfold goAppendKeys
  rw [e]
  refine ⟨rfl, ?_⟩
  simpa using goSplitKeys_append ks h

end Verif.Keys
