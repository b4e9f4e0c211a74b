import Verif.Container.Model
import Verif.Keys.Props
import Verif.IntCodec.Props
import Verif.Address.Props

namespace Verif.Container
open Verif.Keys Verif.IntCodec

@[simp] theorem ok_bind {ε α β : Type} (a : α) (f : α → Except ε β) : (Except.ok a >>= f) = f a := rfl
@[simp] theorem error_bind {ε α β : Type} (e : ε) (f : α → Except ε β) :
    ((Except.error e : Except ε α) >>= f) = Except.error e := rfl

/-- the bytes of an integer -/
def ib (i : Int) : Bytes := enc i (pyByteLength i)

theorem intBytes_eq (i : Int) : intBytes i = .ok (ib i) := by
  unfold intBytes; rw [pyIntToBytes_eq]; rfl

theorem ib_ne_nil (i : Int) : ib i ≠ [] := by
  intro h
  have := congrArg List.length h
  unfold ib at this
  rw [enc_length] at this
  have := pyByteLength_pos i
  simp at *; omega

theorem ib_decode (i : Int) : pyBytesToInt (ib i) = i := decode_enc (fits_pyByteLength i)

theorem ib_inj {i j : Int} (h : ib i = ib j) : i = j := by
  rw [← ib_decode i, ← ib_decode j, h]

theorem ib_sane {i : Int} (h0 : 0 ≤ i) (h : i < 2 ^ 64) : Sane (ib i) := by
  unfold Sane ib
  rw [enc_length]
  have : pyByteLength i ≤ 9 := by
    rw [pyByteLength_le_iff _ _ (by omega)]
    unfold Fits; norm_num; omega
  omega

theorem utf8_decode (s : String) : utf8Decode (utf8 s) = some s := by
  unfold utf8Decode utf8 String.fromUTF8?
  have e : (⟨s.toUTF8.data.toList.toArray⟩ : ByteArray) = s.toByteArray := by
    apply ByteArray.ext; simp [String.toUTF8]
  have hv : (⟨s.toUTF8.data.toList.toArray⟩ : ByteArray).IsValidUTF8 := by rw [e]; exact s.isValidUTF8
  rw [dif_pos hv]
  congr 1

theorem utf8_inj {s t : String} (h : utf8 s = utf8 t) : s = t := by
  have := utf8_decode s
  rw [h, utf8_decode] at this
  exact (Option.some.inj this).symm

theorem utf8_nil {s : String} (h : utf8 s = []) : s = "" := by
  apply utf8_inj; rw [h]; rfl

/-- `x` is a value of type `ty` (addresses have a 20-byte body) -/
def WellTyped (x : PyVal) (ty : VType) : Prop :=
  hasType x ty = true ∧ ∀ a, x = .addr a → a.body.length = 20

/-- what is stored for an encoded value -/
def rep (b : Bytes) : Option Bytes := if b = [] then none else some b

/-- what a later read sees: the empty byte string is not distinguished from "no value" -/
def seen (x : PyVal) : PyVal := if x = .bytes [] then .none else x

theorem encodeValue_ok {x : PyVal} {ty : VType} (h : WellTyped x ty) : ∃ b, encodeValue x = .ok b := by
  rcases h with ⟨h, _⟩
  cases x <;> cases ty <;> simp [hasType] at h <;> simp [encodeValue, intBytes_eq]

theorem decode_rep {x : PyVal} {ty : VType} {b : Bytes} (h : WellTyped x ty)
    (hb : encodeValue x = .ok b) : decodeObject (rep b) ty = .ok (seen x) := by
  obtain ⟨h1, h2⟩ := h
  unfold rep
  cases x with
  | none => simp [hasType] at h1
  | int i =>
    cases ty <;> simp [hasType] at h1
    simp only [encodeValue, intBytes_eq, Except.ok.injEq] at hb
    subst hb
    rw [if_neg (ib_ne_nil i)]
    simp [decodeObject, ib_decode, seen]
  | str s =>
    cases ty <;> simp [hasType] at h1
    simp only [encodeValue, Except.ok.injEq] at hb
    subst hb
    split
    · rename_i hn
      have := utf8_nil hn
      subst this
      simp [decodeObject, defaultValue, seen]
    · simp [decodeObject, utf8_decode, seen]
  | addr a =>
    cases ty <;> simp [hasType] at h1
    simp only [encodeValue, Except.ok.injEq] at hb
    subst hb
    have := Address.C04_bytes_roundtrip a (h2 a rfl)
    rw [if_neg (by simp [Address.toBytes])]
    simp [decodeObject, this, seen]
  | bool v =>
    cases ty <;> simp [hasType] at h1
    simp only [encodeValue, intBytes_eq, Except.ok.injEq] at hb
    subst hb
    rw [if_neg (ib_ne_nil _)]
    simp only [decodeObject, ib_decode, seen]
    cases v <;> simp
  | bytes v =>
    cases ty <;> simp [hasType] at h1
    simp only [encodeValue, Except.ok.injEq] at hb
    subst hb
    split
    · rename_i hn; subst hn; simp [decodeObject, defaultValue, seen]
    · rename_i hn; simp [decodeObject, seen, hn]

@[simp] theorem put_same (s : Store) (k v : Bytes) : s.put k v k = rep v := by simp [Store.put, rep]

theorem put_other (s : Store) {k x : Bytes} (v : Bytes) (h : x ≠ k) : s.put k v x = s x := by
  simp [Store.put, h]

@[simp] theorem del_same (s : Store) (k : Bytes) : s.del k k = none := by simp [Store.del]

theorem del_other (s : Store) {k x : Bytes} (h : x ≠ k) : s.del k x = s x := by simp [Store.del, h]

/-- key types are injective -/
theorem encodeKey_inj {k k' : PyVal} {t : VType} (h : hasType k t = true) (h' : hasType k' t = true)
    (e : encodeKey k = encodeKey k') : k = k' := by
  cases k <;> cases k' <;> cases t <;> simp [hasType] at h h' <;>
    simp only [encodeKey, intBytes_eq, Except.ok.injEq] at e
  · rw [ib_inj e]
  · rw [utf8_inj e]
  · rw [(Address.C04_bytes_injective _ _).1 e]
  · rename_i a b
    have := ib_inj e
    cases a <;> cases b <;> simp at this ⊢
  · rw [e]

theorem encodeKey_ok {k : PyVal} {t : VType} (h : hasType k t = true) : ∃ b, encodeKey k = .ok b := by
  cases k <;> cases t <;> simp [hasType] at h <;> simp [encodeKey, intBytes_eq]

/-- a container database is tagged -/
theorem mk_db_tag (d : Db) (n t : Bytes) : ∃ t0, (d.subDb n (some t)).tag = some t0 := by
  cases h : d.tag with
  | none => exact ⟨_, (subDb_first d n t h).1⟩
  | some t0 => exact ⟨_, (subDb_tagged d n t t0 h).1⟩

/-- base of the slots of a database -/
def base (d : Db) : Bytes := d.tag.getD [] ++ d.pfxBytes

theorem slot_base (d : Db) (k : Option Bytes) : d.slot k = base d ++ flat k.toList := slot_eq d k

theorem slot_none (d : Db) : d.slot none = base d := by simp [slot_base, flat]

theorem slot_some_ne_none (d : Db) (k : Bytes) : d.slot (some k) ≠ d.slot none := by
  rw [slot_base, slot_base]
  intro h
  have h := List.append_cancel_left h
  simp [flat] at h
  exact rlpEncode_ne_nil k h

theorem slot_some_inj (d : Db) {a b : Bytes} (ha : Sane a) (hb : Sane b)
    (h : d.slot (some a) = d.slot (some b)) : a = b := by
  rw [slot_base, slot_base] at h
  have h := List.append_cancel_left h
  have := rlp_list_inj (a := [a]) (b := [b]) (by simpa using ha) (by simpa using hb) h
  simpa using this

end Verif.Container
