import Verif.Keys.Model
import Verif.IntCodec.Lemmas

namespace Verif.Keys

/-- the byte strings the claims range over: anything that fits in an address space (below this size the
floating-point division in `rlp_get_bytes` is exact) -/
def Sane (b : Bytes) : Prop := b.length < 2 ^ 53

theorem rlpGetBytes_zero : rlpGetBytes 0 = [] := by rw [rlpGetBytes]; simp

theorem rlpGetBytes_pos {x : Nat} (h : x ≠ 0) :
    rlpGetBytes x = rlpGetBytes (x / 256) ++ [UInt8.ofNat (x % 256)] := by
  rw [rlpGetBytes]; simp [h]

theorem beNat_snoc (a : Bytes) (b : UInt8) : beNat (a ++ [b]) = beNat a * 256 + b.toNat := by
  rw [beNat_append]; simp [beNat]

theorem beNat_rlpGetBytes (x : Nat) : beNat (rlpGetBytes x) = x := by
  induction x using Nat.strongRecOn with
  | ind x ih =>
    by_cases h : x = 0
    · subst h; rw [rlpGetBytes_zero]; rfl
    · rw [rlpGetBytes_pos h, beNat_snoc, ih (x / 256) (by omega)]
      simp; omega

theorem rlpGetBytes_length_le {x k : Nat} (h : x < 256 ^ k) : (rlpGetBytes x).length ≤ k := by
  induction k generalizing x with
  | zero => have : x = 0 := by simpa using h
            subst this; rw [rlpGetBytes_zero]; simp
  | succ k ih =>
    by_cases h0 : x = 0
    · subst h0; rw [rlpGetBytes_zero]; simp
    · rw [rlpGetBytes_pos h0]
      have := ih (x := x / 256) (by rw [pow_succ] at h; omega)
      simp; omega

theorem rlpGetBytes_head (x : Nat) (h : x ≠ 0) : (rlpGetBytes x).headD 0 ≠ 0 ∧ 0 < (rlpGetBytes x).length := by
  induction x using Nat.strongRecOn with
  | ind x ih =>
    rw [rlpGetBytes_pos h]
    by_cases h1 : x / 256 = 0
    · rw [h1, rlpGetBytes_zero]
      have : x % 256 = x := by omega
      rw [this]
      constructor
      · simp only [List.nil_append, List.headD_cons]
        intro hc
        have := congrArg UInt8.toNat hc
        simp at this; omega
      · simp
    · have := ih (x / 256) (by omega) h1
      constructor
      · cases hl : rlpGetBytes (x / 256) with
        | nil => rw [hl] at this; simp at this
        | cons a l => rw [hl] at this; simpa using this.1
      · simp

theorem headD_append {α} (a b : List α) (d : α) (h : 0 < a.length) : (a ++ b).headD d = a.headD d := by
  cases a with
  | nil => simp at h
  | cons => rfl

/-- **parse after encode**: the Go parser recovers the string and the rest -/
theorem goParse_rlpEncode (b rest : Bytes) (hs : Sane b) :
    goParse (rlpEncode b ++ rest) = some (b, rest) := by
  unfold Sane at hs
  unfold rlpEncode
  split
  · rename_i h
    match b with
    | [] => simp at h
    | [x] =>
      have hx : x.toNat < 0x80 := by simpa using h
      simp only [List.cons_append, List.nil_append, goParse]
      rw [if_pos hx]
    | _ :: _ :: _ => simp at h
  · split
    · rename_i h1 h2
      have ht : (UInt8.ofNat (b.length + 0x80)).toNat = b.length + 0x80 := by simp; omega
      simp only [List.cons_append, goParse, ht]
      rw [if_neg (by omega), if_pos (by omega)]
      simp
    · rename_i h1 h2
      have hlen := rlpGetBytes_length_le (x := b.length) (k := 8) (by norm_num; omega)
      have hhead := rlpGetBytes_head b.length (by omega)
      generalize hlb : rlpGetBytes b.length = lb at *
      have hval : beNat lb = b.length := by rw [← hlb, beNat_rlpGetBytes]
      have ht : (UInt8.ofNat (lb.length + 0x80 + 55)).toNat = lb.length + 0x80 + 55 := by simp; omega
      simp only [List.cons_append, goParse, ht]
      rw [if_neg (by omega), if_neg (by omega), if_pos (by omega)]
      have hsz : goReadSize (lb ++ b ++ rest) (lb.length + 0x80 + 55 - 0xb7) = some b.length := by
        unfold goReadSize
        rw [show lb.length + 0x80 + 55 - 0xb7 = lb.length by omega]
        rw [if_neg (by simp)]
        simp only [List.append_assoc, List.take_left', hval]
        rw [if_neg]
        rw [headD_append _ _ _ hhead.2]
        push Not
        refine ⟨by omega, hhead.1, by omega⟩
      rw [hsz]
      simp only [show lb.length + 0x80 + 55 - 0xb7 = lb.length by omega, List.append_assoc, List.drop_left']
      simp

theorem rlpEncode_ne_nil (b : Bytes) : rlpEncode b ≠ [] := by
  unfold rlpEncode
  split
  · rename_i h; intro hc; rw [hc] at h; simp at h
  · split <;> simp

/-- RLP strings are self-delimiting -/
theorem rlpEncode_prefix_free {a b x y : Bytes} (ha : Sane a) (hb : Sane b)
    (h : rlpEncode a ++ x = rlpEncode b ++ y) : a = b ∧ x = y := by
  have h1 := goParse_rlpEncode a x ha
  rw [h, goParse_rlpEncode b y hb] at h1
  simp only [Option.some.injEq, Prod.mk.injEq] at h1
  exact ⟨h1.1.symm, h1.2.symm⟩

/-- concatenations of RLP strings are equal only if the lists are -/
theorem rlp_list_inj : ∀ {a b : List Bytes}, (∀ x ∈ a, Sane x) → (∀ x ∈ b, Sane x) →
    (a.map rlpEncode).flatten = (b.map rlpEncode).flatten → a = b
  | [], [], _, _, _ => rfl
  | [], b :: bs, _, _, h => by
    exfalso
    have := rlpEncode_ne_nil b
    simp at h; exact this h.1
  | a :: as, [], _, _, h => by
    exfalso
    have := rlpEncode_ne_nil a
    simp at h; exact this h.1
  | a :: as, b :: bs, ha, hb, h => by
    simp only [List.map_cons, List.flatten_cons] at h
    have := rlpEncode_prefix_free (ha a (by simp)) (hb b (by simp)) h
    rw [this.1, rlp_list_inj (fun x hx => ha x (by simp [hx])) (fun x hx => hb x (by simp [hx])) this.2]

theorem goCountBytes_eq (x : Nat) (h : x ≠ 0) : goCountBytes x = (rlpGetBytes x).length := by
  induction x using Nat.strongRecOn with
  | ind x ih =>
    rw [goCountBytes, rlpGetBytes_pos h]
    by_cases h1 : x / 256 = 0
    · rw [if_pos h1, h1, rlpGetBytes_zero]; simp
    · rw [if_neg h1, ih (x / 256) (by omega) h1]; simp

theorem goRlpEncode_eq (b : Bytes) : goRlpEncode b = rlpEncode b := by
  unfold goRlpEncode rlpEncode
  split
  · rfl
  · split
    · rw [Nat.add_comm]
    · rename_i h1 h2
      simp only
      rw [goCountBytes_eq _ (by omega)]
      have : beBytes (rlpGetBytes b.length).length b.length = rlpGetBytes b.length := by
        conv => lhs; rw [← beNat_rlpGetBytes b.length]
        rw [beNat_rlpGetBytes]
        have := beBytes_beNat (rlpGetBytes b.length)
        rwa [beNat_rlpGetBytes] at this
      rw [this]
      congr 2
      omega

theorem goSplitKeys_append (keys : List Bytes) (h : ∀ k ∈ keys, Sane k) :
    goSplitKeys (keys.map rlpEncode).flatten = some keys := by
  induction keys with
  | nil => rw [List.map_nil, List.flatten_nil, goSplitKeys]; simp
  | cons k ks ih =>
    simp only [List.map_cons, List.flatten_cons]
    have hp := goParse_rlpEncode k (ks.map rlpEncode).flatten (h k (by simp))
    rw [goSplitKeys]
    have hne : rlpEncode k ++ (ks.map rlpEncode).flatten ≠ [] := by
      have := rlpEncode_ne_nil k; simp [this]
    rw [if_neg hne]
    split
    · rename_i h2; rw [hp] at h2; simp at h2
    · rename_i part remain h2
      rw [hp] at h2
      simp only [Option.some.injEq, Prod.mk.injEq] at h2
      obtain ⟨rfl, rfl⟩ := h2
      rw [ih (fun x hx => h x (by simp [hx]))]

/-- descending through untagged sub databases -/
def descend (d : Db) (ps : List Bytes) : Db := ps.foldl (fun d p => d.subDb p none) d

/-- descending inside a tagged container (nested DictDB) -/
def nest (d : Db) (t : Bytes) (ks : List Bytes) : Db := ks.foldl (fun d k => d.subDb k (some t)) d

def flat (ks : List Bytes) : Bytes := (ks.map rlpEncode).flatten

/-- prefix of a database as bytes -/
def Db.pfxBytes (d : Db) : Bytes := d.pfx.getD []

theorem subDb_untagged (d : Db) (p : Bytes) (h : d.tag = none) :
    (d.subDb p none).tag = none ∧ (d.subDb p none).pfxBytes = d.pfxBytes ++ rlpEncode p := by
  rcases d with ⟨t, q⟩
  simp only at h
  subst h
  cases q <;> simp [Db.subDb, Db.pfxBytes, concatEncoded]

theorem descend_eq (d : Db) (ps : List Bytes) (h : d.tag = none) :
    (descend d ps).tag = none ∧ (descend d ps).pfxBytes = d.pfxBytes ++ flat ps := by
  induction ps generalizing d with
  | nil => simp [descend, flat, h]
  | cons p ps ih =>
    have h1 := subDb_untagged d p h
    have := ih (d.subDb p none) h1.1
    simp only [descend, List.foldl_cons] at this ⊢
    rw [this.1, this.2, h1.2]
    simp [flat]

theorem subDb_first (d : Db) (p t : Bytes) (h : d.tag = none) :
    (d.subDb p (some t)).tag = some (t ++ rlpEncode p) ∧ (d.subDb p (some t)).pfxBytes = d.pfxBytes := by
  rcases d with ⟨t, q⟩
  simp only at h
  subst h
  cases q <;> simp [Db.subDb, Db.pfxBytes, concatEncoded]

theorem subDb_tagged (d : Db) (p t t0 : Bytes) (h : d.tag = some t0) :
    (d.subDb p (some t)).tag = some t0 ∧
      (d.subDb p (some t)).pfxBytes = d.pfxBytes ++ rlpEncode p := by
  rcases d with ⟨t, q⟩
  simp only at h
  subst h
  cases q <;> simp [Db.subDb, Db.pfxBytes, concatEncoded]

theorem nest_eq (d : Db) (t t0 : Bytes) (ks : List Bytes) (h : d.tag = some t0) :
    (nest d t ks).tag = some t0 ∧ (nest d t ks).pfxBytes = d.pfxBytes ++ flat ks := by
  induction ks generalizing d with
  | nil => simp [nest, flat, h]
  | cons p ps ih =>
    have h1 := subDb_tagged d p t t0 h
    have := ih (d.subDb p (some t)) h1.1
    simp only [nest, List.foldl_cons] at this ⊢
    rw [this.1, this.2, h1.2]
    simp [flat]

theorem slot_eq (d : Db) (key : Option Bytes) :
    d.slot key = d.tag.getD [] ++ d.pfxBytes ++ flat key.toList := by
  rcases d with ⟨t, q⟩
  cases t <;> cases q <;> cases key <;> simp [Db.slot, Db.pfxBytes, concatEncoded, flat]

end Verif.Keys
