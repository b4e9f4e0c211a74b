import Verif.Trie.Lemmas

/-!
# Serialization of nodes
-/

namespace Verif.Trie
open Verif

theorem u8n {n : Nat} (h : n < 256) : (UInt8.ofNat n).toNat = n := by
  simp [UInt8.toNat_ofNat', Nat.mod_eq_of_lt h]

/-! ## Sizes -/

/-- The number written by big-endian bytes. -/
def beNat (b : Bytes) : Nat := b.foldl (fun a x => a * 256 + x.toNat) 0

theorem beNat_snoc (b : Bytes) (x : UInt8) : beNat (b ++ [x]) = beNat b * 256 + x.toNat := by
  simp [beNat, List.foldl_append]

theorem sizeBytes_spec (n : Nat) : beNat (sizeBytes n) = n ∧ (sizeBytes n) ≠ [] ∧
    (0 < n → (sizeBytes n).head? ≠ some 0) := by
  induction n using Nat.strong_induction_on with
  | _ n ih =>
    rw [sizeBytes]
    by_cases h : n < 256
    · rw [if_pos h]
      refine ⟨by simp [beNat, u8n h], by simp, ?_⟩
      intro hn he
      simp only [List.head?_cons, Option.some.injEq] at he
      have := congrArg UInt8.toNat he
      rw [u8n h] at this
      simp at this
      omega
    · rw [if_neg h]
      obtain ⟨h1, h2, h3⟩ := ih (n / 256) (by omega)
      refine ⟨?_, by simp, ?_⟩
      · rw [beNat_snoc, h1]
        simp [UInt8.toNat_ofNat']
        omega
      · intro _
        rw [List.head?_append]
        have := h3 (by omega)
        cases hh : (sizeBytes (n / 256)).head? with
        | none => exact absurd (List.head?_eq_none_iff.1 hh) h2
        | some y => rw [hh] at this; simpa using this

theorem sizeBytes_length (n k : Nat) (h : n < 256 ^ (k + 1)) : (sizeBytes n).length ≤ k + 1 := by
  induction k generalizing n with
  | zero => rw [sizeBytes, if_pos (by simpa using h)]; simp
  | succ k ih =>
    rw [sizeBytes]
    by_cases hn : n < 256
    · rw [if_pos hn]; simp
    · rw [if_neg hn]
      have := ih (n / 256) (by
        rw [Nat.div_lt_iff_lt_mul (by norm_num)]
        calc n < 256 ^ (k + 1 + 1) := h
          _ = 256 ^ (k + 1) * 256 := by ring)
      simp only [List.length_append, List.length_cons, List.length_nil]
      omega

theorem readSize_sizeBytes (n : Nat) (r : Bytes) (h : 56 ≤ n) :
    rlpReadSize (sizeBytes n ++ r) (sizeBytes n).length = some n := by
  obtain ⟨h1, h2, h3⟩ := sizeBytes_spec n
  unfold rlpReadSize
  rw [if_neg (by simp), List.take_left]
  have h1' : (sizeBytes n).foldl (fun a x => a * 256 + x.toNat) 0 = n := h1
  simp only [h1']
  rw [if_neg]
  rintro (h' | h')
  · omega
  · have := h3 (by omega)
    rw [List.head?_append] at h'
    cases hh : (sizeBytes n).head? with
    | none => exact absurd (List.head?_eq_none_iff.1 hh) h2
    | some y => rw [hh] at this h'; exact this (by simpa using h')

/-! ## Items -/

/-- `x` is one RLP item: whatever follows, its header is read, with content `c`. -/
def IsItem (l : Bool) (x c : Bytes) : Prop :=
  ∃ t, x.drop t = c ∧ t + c.length = x.length ∧ 0 < x.length ∧
    ∀ r, rlpParseHeader (x ++ r) = some (l, t, c.length)

theorem item_bytes (b : Bytes) (h : b.length < 2 ^ 64) : IsItem false (rlpEncodeBytes b) b := by
  unfold rlpEncodeBytes
  by_cases h1 : b.length = 1 ∧ (∀ x ∈ b, x.toNat < 0x80)
  · rw [if_pos h1]
    obtain ⟨x, rfl⟩ := List.length_eq_one_iff.1 h1.1
    refine ⟨0, rfl, rfl, by simp, fun r => ?_⟩
    have hx : x.toNat < 128 := h1.2 x (by simp)
    simp only [rlpParseHeader, List.cons_append, List.nil_append]
    rw [if_pos hx]
    simp
  rw [if_neg h1]
  by_cases h2 : b.length ≤ 55
  · rw [if_pos h2]
    refine ⟨1, rfl, by simp; omega, by simp, fun r => ?_⟩
    simp only [rlpParseHeader, List.cons_append]
    rw [u8n (by omega), if_neg (by omega), if_pos (by omega), if_neg, if_neg]
    · rw [show 128 + b.length - 128 = b.length by omega]
    · simp
    · rintro ⟨h3, y, hy, hy'⟩
      have h3' : b.length = 1 := by omega
      obtain ⟨x, rfl⟩ := List.length_eq_one_iff.1 h3'
      apply h1
      simp only [List.cons_append, List.head?_cons, Option.mem_def, Option.some.injEq] at hy
      subst hy
      exact ⟨rfl, by simpa using hy'⟩
  · rw [if_neg h2]
    have hl := sizeBytes_length b.length 7 (by rw [show (256 : Nat) ^ (7 + 1) = 2 ^ 64 by norm_num]; exact h)
    obtain ⟨_, hne, _⟩ := sizeBytes_spec b.length
    have hp := List.length_pos_iff.2 hne
    refine ⟨(sizeBytes b.length).length + 1, ?_, by simp; omega, by simp, fun r => ?_⟩
    · simp
    · simp only [rlpParseHeader, List.cons_append, List.append_assoc]
      rw [u8n (by omega), if_neg (by omega), if_neg (by omega), if_pos (by omega),
        show 128 + 55 + (sizeBytes b.length).length - 183 = (sizeBytes b.length).length by omega,
        readSize_sizeBytes _ _ (by omega)]
      simp only
      rw [if_neg (by simp)]

theorem item_list (l : List Bytes) (h : l.flatten.length < 2 ^ 64) :
    IsItem true (rlpEncodeList l) l.flatten := by
  unfold rlpEncodeList
  generalize l.flatten = b at *
  by_cases h2 : b.length ≤ 55
  · rw [if_pos h2]
    refine ⟨1, rfl, by simp; omega, by simp, fun r => ?_⟩
    simp only [rlpParseHeader, List.cons_append]
    rw [u8n (by omega), if_neg (by omega), if_neg (by omega), if_neg (by omega), if_pos (by omega),
      if_neg]
    · rw [show 192 + b.length - 192 = b.length by omega]
    · simp
  · rw [if_neg h2]
    have hl := sizeBytes_length b.length 7 (by rw [show (256 : Nat) ^ (7 + 1) = 2 ^ 64 by norm_num]; exact h)
    obtain ⟨_, hne, _⟩ := sizeBytes_spec b.length
    have hp := List.length_pos_iff.2 hne
    refine ⟨(sizeBytes b.length).length + 1, ?_, by simp; omega, by simp, fun r => ?_⟩
    · simp
    · simp only [rlpParseHeader, List.cons_append, List.append_assoc]
      rw [u8n (by omega), if_neg (by omega), if_neg (by omega), if_neg (by omega),
        if_neg (by omega),
        show 192 + 55 + (sizeBytes b.length).length - 247 = (sizeBytes b.length).length by omega,
        readSize_sizeBytes _ _ (by omega)]
      simp only
      rw [if_neg (by simp)]

theorem items_flatten (l : List Bytes) (h : ∀ x ∈ l, ∃ b c, IsItem b x c) (fuel : Nat)
    (hf : l.length ≤ fuel) : rlpItems fuel l.flatten = some l := by
  induction l generalizing fuel with
  | nil => cases fuel <;> rfl
  | cons x l ih =>
    obtain ⟨b, c, t, h1, h2, h3, h4⟩ := h x (by simp)
    cases fuel with
    | zero => simp at hf
    | succ fuel =>
      simp only [List.flatten_cons]
      cases x with
      | nil => simp at h3
      | cons y x =>
        simp only [List.length_cons] at hf
        rw [List.cons_append, rlpItems]
        · rw [← List.cons_append, h4]
          simp only
          rw [h2, if_neg (by simp), List.drop_left, List.take_left,
            ih (fun z hz => h z (by simp [hz])) fuel (by omega)]
        · intro hh; cases hh

theorem length_le_flatten (l : List Bytes) (h : ∀ x ∈ l, ∃ b c, IsItem b x c) :
    l.length ≤ l.flatten.length := by
  induction l with
  | nil => simp
  | cons x l ih =>
    obtain ⟨b, c, t, h1, h2, h3, h4⟩ := h x (by simp)
    have := ih (fun z hz => h z (by simp [hz]))
    simp only [List.length_cons, List.flatten_cons, List.length_append]
    omega

theorem parseList_encode (l : List Bytes) (h : ∀ x ∈ l, ∃ b c, IsItem b x c)
    (hl : l.flatten.length < 2 ^ 64) : rlpParseList (rlpEncodeList l) = some l := by
  obtain ⟨t, h1, h2, h3, h4⟩ := item_list l hl
  have h4 := h4 []
  rw [List.append_nil] at h4
  unfold rlpParseList
  rw [h4]
  simp only
  rw [if_neg (by omega), h1, List.take_length, items_flatten l h _ (length_le_flatten l h)]

theorem parseBytes_encode (b : Bytes) (h : b.length < 2 ^ 64) :
    rlpParseBytes (rlpEncodeBytes b) = some b := by
  obtain ⟨t, h1, h2, h3, h4⟩ := item_bytes b h
  have h4 := h4 []
  rw [List.append_nil] at h4
  unfold rlpParseBytes
  rw [h4]
  simp only
  rw [if_neg (by omega), h1, List.take_length]

/-! ## Keys -/

theorem nibsLow (b : UInt8) : (Fin.ofNat 16 b.toNat : Nib).val = b.toNat % 16 := rfl

theorem nibs_keys (k : List Nib) (h : k.length % 2 = 0) : bytesToNibs (keysToBytes k) = k := by
  induction k using keysToBytes.induct with
  | case1 a b r ih =>
    simp only [List.length_cons] at h
    have hb : a.val * 16 + b.val < 256 := by have := a.isLt; have := b.isLt; omega
    simp only [keysToBytes, bytesToNibs, ih (by omega)]
    congr 1
    · apply Fin.ext
      simp only [u8n hb, Fin.val_ofNat]
      omega
    · congr 1
      apply Fin.ext
      simp only [u8n hb, Fin.val_ofNat]
      omega
  | case2 k hk =>
    match k, hk with
    | [], _ => rfl
    | [a], _ => simp at h
    | a :: b :: r, hk => exact absurd rfl (hk a b r)

theorem keys_nibs (b : Bytes) : keysToBytes (bytesToNibs b) = b := by
  induction b with
  | nil => rfl
  | cons x b ih =>
    simp only [bytesToNibs, keysToBytes, ih]
    congr 1
    apply UInt8.toNat_inj.1
    have := x.toNat_lt
    rw [u8n (by simp only [Fin.val_ofNat]; omega)]
    simp only [Fin.val_ofNat]
    omega

theorem nibs_length (b : Bytes) : (bytesToNibs b).length = 2 * b.length := by
  induction b with
  | nil => rfl
  | cons x b ih => simp only [bytesToNibs, List.length_cons, ih]; omega

theorem keys_length (k : List Nib) : (keysToBytes k).length = k.length / 2 := by
  induction k using keysToBytes.induct with
  | case1 a b r ih => simp only [keysToBytes, List.length_cons, ih]; omega
  | case2 k hk =>
    match k, hk with
    | [], _ => rfl
    | [a], _ => simp [keysToBytes]
    | a :: b :: r, hk => exact absurd rfl (hk a b r)

theorem nibs_inj (a b : Bytes) (h : bytesToNibs a = bytesToNibs b) : a = b := by
  rw [← keys_nibs a, h, keys_nibs]

theorem encodeKeys_spec (tag : Nat) (k : List Nib) (ht : tag = 0 ∨ tag = 32) :
    ∃ h r, encodeKeys tag k = h :: r ∧ h.toNat / 32 % 2 = tag / 32 ∧ decodeKeys (h :: r) = some k ∧
      (h :: r).length = k.length / 2 + 1 := by
  unfold encodeKeys
  by_cases hk : k.length % 2 = 1
  · rw [if_pos hk]
    cases k with
    | nil => simp at hk
    | cons a k =>
      have ha := a.isLt
      have hb : tag + 16 + a.val < 256 := by omega
      simp only [List.length_cons] at hk
      refine ⟨_, _, rfl, ?_, ?_, ?_⟩
      · rw [u8n hb]; omega
      · simp only [decodeKeys, u8n hb]
        rw [if_pos (by omega), nibs_keys k (by omega)]
        congr 2
        apply Fin.ext
        simp only [Fin.val_ofNat]
        omega
      · simp only [List.length_cons, keys_length]; omega
  · rw [if_neg hk]
    refine ⟨_, _, rfl, ?_, ?_, ?_⟩
    · rw [u8n (by omega)]; omega
    · simp only [decodeKeys, u8n (show tag < 256 by omega)]
      rw [if_neg (by omega), nibs_keys k (by omega)]
    · simp only [List.length_cons, keys_length]

/-! ## Nodes -/

/-- Bounds on the parts of a node. -/
def Bounded : Node → Prop
  | .nil => True
  | .hash h => h.length = 32
  | .leaf k v => k.length < 2 ^ 62 ∧ v.length < 2 ^ 62
  | .ext k n => k.length < 2 ^ 62 ∧ Bounded n
  | .branch c v => (∀ i, Bounded (c i)) ∧ ∀ w, v = some w → w ≠ [] ∧ w.length < 2 ^ 62

theorem fits_sub {f g : List Nib → Option Bytes} (p : List Nib) (h : Fits f)
    (hg : ∀ q v, g q = some v → f (p ++ q) = some v) : Fits g := by
  intro q v hq
  obtain ⟨h1, h2, h3⟩ := h _ _ (hg q v hq)
  simp only [List.length_append] at h1
  exact ⟨by omega, h2, h3⟩

theorem bounded_of_fits (t : Node) : Canon t → Fits (find t) → Bounded t := by
  induction t with
  | nil => intros; trivial
  | hash _ => intro h; exact h.elim
  | leaf k v =>
    intro _ h
    obtain ⟨h1, _, h3⟩ := h k v (by simp [find])
    exact ⟨h1, h3⟩
  | ext k n ih =>
    intro hc h
    have hs : Fits (find n) := fits_sub k h (by intro q v hq; simpa [find] using hq)
    obtain ⟨q, v, hq⟩ := canon_find n hc.2.2
    obtain ⟨h1, _, _⟩ := h (k ++ q) v (by simpa [find] using hq)
    simp only [List.length_append] at h1
    exact ⟨by omega, ih hc.2.2 hs⟩
  | branch c v ih =>
    intro hc h
    refine ⟨fun i => ?_, fun w hw => ?_⟩
    · rcases hc.1 i with h0 | h0
      · rw [h0]; trivial
      · exact ih i h0 (fits_sub [i] h (by intro q v hq; simpa [find] using hq))
    · obtain ⟨_, h2, h3⟩ := h [] w hw
      exact ⟨h2, h3⟩

theorem encodeBytes_length (b : Bytes) (h : b.length < 2 ^ 64) :
    (rlpEncodeBytes b).length ≤ b.length + 9 ∧ (b.length ≤ 55 → (rlpEncodeBytes b).length ≤ b.length + 1) := by
  unfold rlpEncodeBytes
  have hl := sizeBytes_length b.length 7 (by rw [show (256 : Nat) ^ (7 + 1) = 2 ^ 64 by norm_num]; exact h)
  split_ifs <;> simp <;> omega

/-- The hash function gives 32 bytes. -/
def Hash32 (H : Bytes → Bytes) : Prop := ∀ x, (H x).length = 32

theorem link_length (H : Bytes → Bytes) (hH : Hash32 H) (n : Node) (hb : Bounded n) (s : Bytes) :
    (linkOf H n s).length ≤ 33 := by
  unfold linkOf
  cases n with
  | nil => simp [rlpEncodeBytes]
  | hash h =>
    have : h.length = 32 := hb
    have := (encodeBytes_length h (by omega)).2 (by omega)
    simp only
    omega
  | _ =>
    all_goals
      simp only
      split_ifs
      · have h1 := hH s
        have := (encodeBytes_length (H s) (by omega)).2 (by omega)
        omega
      · omega

theorem serList_lt (H : Bytes → Bytes) (hH : Hash32 H) (n : Node) (hb : Bounded n) :
    ∀ l, ser H n = rlpEncodeList l → l = (match n with
      | .leaf k v => [rlpEncodeBytes (encodeKeys 0x20 k), rlpEncodeBytes v]
      | .ext k m => [rlpEncodeBytes (encodeKeys 0x00 k), linkOf H m (ser H m)]
      | .branch c v => nibs16.map (fun i => linkOf H (c i) (ser H (c i))) ++ [rlpEncodeBytes (v.getD [])]
      | _ => []) → l.flatten.length < 2 ^ 64 := by
  intro l _ hl
  subst hl
  cases n with
  | nil => simp
  | hash h => simp
  | leaf k v =>
    obtain ⟨h, r, h1, _, _, h4⟩ := encodeKeys_spec 32 k (Or.inr rfl)
    obtain ⟨hk, hv⟩ := hb
    have e1 := (encodeBytes_length (encodeKeys 32 k) (by rw [h1, h4]; omega)).1
    have e2 := (encodeBytes_length v (by omega)).1
    rw [h1, h4] at e1
    simp only [List.flatten_cons, List.flatten_nil, List.length_append, List.length_nil, h1]
    omega
  | ext k m =>
    obtain ⟨h, r, h1, _, _, h4⟩ := encodeKeys_spec 0 k (Or.inl rfl)
    obtain ⟨hk, hv⟩ := hb
    have e1 := (encodeBytes_length (encodeKeys 0 k) (by rw [h1, h4]; omega)).1
    have e2 := link_length H hH m hv (ser H m)
    rw [h1, h4] at e1
    simp only [List.flatten_cons, List.flatten_nil, List.length_append, List.length_nil, h1]
    omega
  | branch c v =>
    obtain ⟨hc, hv⟩ := hb
    have e1 : ∀ l : List Nib, ((l.map (fun i => linkOf H (c i) (ser H (c i)))).flatten).length
        ≤ 33 * l.length := by
      intro l
      induction l with
      | nil => simp
      | cons i l ih =>
        have := link_length H hH (c i) (hc i) (ser H (c i))
        simp only [List.map_cons, List.flatten_cons, List.length_append, List.length_cons]
        omega
    have e1 := e1 nibs16
    have e2 : (rlpEncodeBytes (v.getD [])).length < 2 ^ 62 + 9 := by
      cases v with
      | none => simp [rlpEncodeBytes]
      | some w =>
        have := hv w rfl
        have := (encodeBytes_length w (by omega)).1
        simp only [Option.getD_some]
        omega
    have e3 : nibs16.length = 16 := by simp [nibs16]
    simp only [List.flatten_append, List.length_append, List.flatten_cons, List.flatten_nil,
      List.length_nil]
    omega

theorem item_link (H : Bytes → Bytes) (hH : Hash32 H) (n : Node) (hb : Bounded n) :
    ∃ b c, IsItem b (linkOf H n (ser H n)) c := by
  have hs := serList_lt H hH n hb
  cases n with
  | nil => exact ⟨_, _, item_bytes [] (by simp)⟩
  | hash h =>
    have : h.length = 32 := hb
    exact ⟨_, _, item_bytes h (by omega)⟩
  | _ =>
    all_goals
      simp only [linkOf]
      split_ifs
      · exact ⟨_, _, item_bytes _ (by rw [hH]; omega)⟩
      · exact ⟨_, _, item_list _ (hs _ rfl rfl)⟩

/-- What reading the serialization of a node gives: children of more than 32 bytes are hash nodes. -/
def stub (H : Bytes → Bytes) (n : Node) (s : Bytes) (sh : Node) : Node :=
  match n with
  | .nil => .nil
  | .hash h => .hash h
  | _ => if s.length > 32 then .hash (H s) else sh

/-- See `stub`. -/
def shallow (H : Bytes → Bytes) : Node → Node
  | .nil => .nil
  | .hash h => .hash h
  | .leaf k v => .leaf k v
  | .ext k n => .ext k (stub H n (ser H n) (shallow H n))
  | .branch c v => .branch (fun i => stub H (c i) (ser H (c i)) (shallow H (c i))) v

theorem ser_pos (H : Bytes → Bytes) (l : List Bytes) : ∃ x r, rlpEncodeList l = x :: r := by
  unfold rlpEncodeList
  split_ifs <;> exact ⟨_, _, rfl⟩

theorem encodeList_head (l : List Bytes) (h : l.flatten.length < 2 ^ 64) :
    ∃ x r, rlpEncodeList l = x :: r ∧ 0xC0 ≤ x.toNat := by
  unfold rlpEncodeList
  have hl := sizeBytes_length l.flatten.length 7
    (by rw [show (256 : Nat) ^ (7 + 1) = 2 ^ 64 by norm_num]; exact h)
  split_ifs
  · exact ⟨_, _, rfl, by rw [u8n (by omega)]; omega⟩
  · exact ⟨_, _, rfl, by rw [u8n (by omega)]; omega⟩

theorem encodeList_length (l : List Bytes) : l.flatten.length < (rlpEncodeList l).length := by
  unfold rlpEncodeList
  split_ifs <;> simp; omega

theorem encodeBytes_head (b : Bytes) (h : b.length < 2 ^ 64) :
    ∃ x r, rlpEncodeBytes b = x :: r ∧ x.toNat < 0xC0 := by
  unfold rlpEncodeBytes
  have hl := sizeBytes_length b.length 7
    (by rw [show (256 : Nat) ^ (7 + 1) = 2 ^ 64 by norm_num]; exact h)
  split_ifs with h1 h2
  · obtain ⟨x, rfl⟩ := List.length_eq_one_iff.1 h1.1
    exact ⟨x, [], rfl, by have := h1.2 x (by simp); omega⟩
  · exact ⟨_, _, rfl, by rw [u8n (by omega)]; omega⟩
  · exact ⟨_, _, rfl, by rw [u8n (by omega)]; omega⟩

theorem fromLink_hash (h : Bytes) (hl : h.length = 32) (f : Nat) :
    fromLink (f + 1) (rlpEncodeBytes h) = .ok (.hash h) := by
  obtain ⟨x, r, h1, h2⟩ := encodeBytes_head h (by omega)
  have := parseBytes_encode h (by omega)
  rw [h1] at this ⊢
  simp only [fromLink]
  rw [if_neg (by omega), this]
  simp only
  rw [if_neg (by omega)]

theorem fromLink_nil (f : Nat) : fromLink (f + 1) (rlpEncodeBytes []) = .ok .nil := by
  have := parseBytes_encode [] (by simp)
  have e : rlpEncodeBytes [] = [0x80] := by simp [rlpEncodeBytes]
  rw [e] at this ⊢
  simp only [fromLink]
  rw [if_neg (by decide), this]
  simp

theorem fromLinks_map (c : Nib → Bytes) (d : Nib → Node) (l : List Nib) (G f : Nat)
    (h : ∀ i ∈ l, ∀ g, G ≤ g → fromLink g (c i) = .ok (d i)) (hf : G + l.length ≤ f) :
    fromLinks f (l.map c) = .ok (l.map d) := by
  induction l generalizing f with
  | nil => cases f <;> rfl
  | cons i l ih =>
    cases f with
    | zero => simp at hf
    | succ f =>
      simp only [List.length_cons] at hf
      simp only [List.map_cons, fromLinks]
      rw [h i (by simp) f (by omega), ih f (fun j hj => h j (by simp [hj])) (by omega)]

theorem map_nibs_getD (d : Nib → Node) (i : Nib) : (nibs16.map d).getD i.val .nil = d i := by
  unfold nibs16
  rw [List.getD_eq_getElem?_getD, List.getElem?_map]
  have : (List.finRange 16)[i.val]? = some i := by
    rw [List.getElem?_eq_getElem (by simp)]
    simp
  rw [this]
  rfl

/-- Reading back the serialization of a node. -/
theorem deser_ser (H : Bytes → Bytes) (hH : Hash32 H) (t : Node) : Bounded t → t ≠ .nil → ¬ IsHash t →
    ∀ f, 19 * (ser H t).length ≤ f → deser f (ser H t) = .ok (shallow H t) := by
  have child : ∀ t : Node, (Bounded t → t ≠ .nil → ¬ IsHash t →
      ∀ f, 19 * (ser H t).length ≤ f → deser f (ser H t) = .ok (shallow H t)) → Bounded t →
      ∀ g, 19 * (linkOf H t (ser H t)).length + 1 ≤ g →
      fromLink g (linkOf H t (ser H t)) = .ok (stub H t (ser H t) (shallow H t)) := by
    intro t ih hb g hg
    obtain ⟨g, rfl⟩ : ∃ g', g = g' + 1 := ⟨g - 1, by omega⟩
    have hs := serList_lt H hH t hb
    have big : ∀ l, ser H t = rlpEncodeList l → l.flatten.length < 2 ^ 64 → t ≠ .nil → ¬ IsHash t →
        (linkOf H t (ser H t) = if (ser H t).length > 32 then rlpEncodeBytes (H (ser H t)) else ser H t) →
        (stub H t (ser H t) (shallow H t) = if (ser H t).length > 32 then .hash (H (ser H t)) else shallow H t) →
        fromLink (g + 1) (linkOf H t (ser H t)) = .ok (stub H t (ser H t) (shallow H t)) := by
      intro l hl hlt h0 h1 e1 e2
      by_cases h32 : (ser H t).length > 32
      · rw [e1, e2, if_pos h32, if_pos h32]
        exact fromLink_hash _ (hH _) _
      · rw [e1, if_neg h32] at hg
        rw [e1, e2, if_neg h32, if_neg h32]
        have := ih hb h0 h1 g (by omega)
        obtain ⟨x, r, hx, hx'⟩ := encodeList_head l hlt
        rw [hl, hx] at this ⊢
        simp only [fromLink]
        rw [if_pos (by omega), this]
    cases t with
    | nil => exact fromLink_nil g
    | hash h => exact fromLink_hash h hb g
    | leaf k v => exact big _ rfl (hs _ rfl rfl) (by simp) (by simp [IsHash]) rfl rfl
    | ext k n => exact big _ rfl (hs _ rfl rfl) (by simp) (by simp [IsHash]) rfl rfl
    | branch c v => exact big _ rfl (hs _ rfl rfl) (by simp) (by simp [IsHash]) rfl rfl
  induction t with
  | nil => intro _ h; exact absurd rfl h
  | hash h => intro _ _ h; exact absurd trivial h
  | leaf k v =>
    intro hb _ _ f hf
    have hlt := serList_lt H hH (.leaf k v) hb _ rfl rfl
    obtain ⟨h, r, h1, h2, h3, h4⟩ := encodeKeys_spec 32 k (Or.inr rfl)
    obtain ⟨x, y, hx, _⟩ := encodeList_head _ hlt
    obtain ⟨f, rfl⟩ : ∃ f', f = f' + 1 := ⟨f - 1, by simp only [ser, hx, List.length_cons] at hf; omega⟩
    have hk : (encodeKeys 32 k).length < 2 ^ 64 := by rw [h1, h4]; have := hb.1; omega
    have hv : v.length < 2 ^ 64 := by have := hb.2; omega
    simp only [ser, deser, shallow]
    rw [parseList_encode _ _ hlt]
    · simp only
      rw [parseBytes_encode _ hk, h1]
      simp only [h3]
      rw [if_neg (by omega), parseBytes_encode _ hv]
    · intro z hz
      simp only [List.mem_cons, List.not_mem_nil, or_false] at hz
      rcases hz with rfl | rfl
      · exact ⟨_, _, item_bytes _ hk⟩
      · exact ⟨_, _, item_bytes _ hv⟩
  | ext k n ih =>
    intro hb _ _ f hf
    have hlt := serList_lt H hH (.ext k n) hb _ rfl rfl
    have hlen := encodeList_length [rlpEncodeBytes (encodeKeys 0 k), linkOf H n (ser H n)]
    obtain ⟨h, r, h1, h2, h3, h4⟩ := encodeKeys_spec 0 k (Or.inl rfl)
    obtain ⟨x, y, hx, _⟩ := encodeList_head _ hlt
    obtain ⟨f, rfl⟩ : ∃ f', f = f' + 1 := ⟨f - 1, by simp only [ser, hx, List.length_cons] at hf; omega⟩
    have hk : (encodeKeys 0 k).length < 2 ^ 64 := by rw [h1, h4]; have := hb.1; omega
    simp only [ser, deser, shallow] at hf ⊢
    rw [parseList_encode _ _ hlt]
    · simp only
      rw [parseBytes_encode _ hk, h1]
      simp only [h3]
      simp only [List.flatten_cons, List.flatten_nil, List.length_append, List.length_nil] at hlen
      rw [if_pos (by omega), child n ih hb.2 f (by omega)]
    · intro z hz
      simp only [List.mem_cons, List.not_mem_nil, or_false] at hz
      rcases hz with rfl | rfl
      · exact ⟨_, _, item_bytes _ hk⟩
      · exact item_link H hH n hb.2
  | branch c v ih =>
    intro hb _ _ f hf
    have hlt := serList_lt H hH (.branch c v) hb _ rfl rfl
    have hlen := encodeList_length (nibs16.map (fun i => linkOf H (c i) (ser H (c i))) ++ [rlpEncodeBytes (v.getD [])])
    have hv : (v.getD []).length < 2 ^ 64 := by
      cases v with
      | none => simp
      | some w => have := hb.2 w rfl; simp only [Option.getD_some]; omega
    obtain ⟨x, y, hx, _⟩ := encodeList_head _ hlt
    have e16 : nibs16.length = 16 := by simp [nibs16]
    have hsub : ∀ i : Nib, (linkOf H (c i) (ser H (c i))).length
        ≤ ((nibs16.map (fun i => linkOf H (c i) (ser H (c i)))).flatten).length := by
      intro i
      have hm : linkOf H (c i) (ser H (c i)) ∈ nibs16.map (fun i => linkOf H (c i) (ser H (c i))) :=
        List.mem_map.2 ⟨i, List.mem_finRange i, rfl⟩
      exact (List.sublist_flatten_of_mem hm).length_le
    obtain ⟨f, rfl⟩ : ∃ f', f = f' + 1 := ⟨f - 1, by simp only [ser, hx, List.length_cons] at hf; omega⟩
    simp only [ser, deser, shallow] at hf ⊢
    rw [parseList_encode _ _ hlt]
    · have hl2 : ∀ l : List Nib, ∀ z : Bytes, 2 ≤ l.length → ∀ (g : Nib → Bytes),
          ∀ a b, l.map g ++ [z] ≠ [a, b] := by
        intro l z hl g a b he
        have := congrArg List.length he
        simp at this
        omega
      split
      · rename_i he; cases he
      · rename_i k' x' he
        exact absurd (by simpa using he) (hl2 nibs16 _ (by omega) _ _ _)
      · rename_i l' _ he
        simp only [Option.some.injEq] at he
        subst he
        rw [if_pos (by simp [e16])]
        have et : (nibs16.map (fun i => linkOf H (c i) (ser H (c i))) ++ [rlpEncodeBytes (v.getD [])]).take 16
            = nibs16.map (fun i => linkOf H (c i) (ser H (c i))) := by
          rw [List.take_append_of_le_length (by simp [e16]), List.take_of_length_le (by simp [e16])]
        have eg : (nibs16.map (fun i => linkOf H (c i) (ser H (c i))) ++ [rlpEncodeBytes (v.getD [])]).getD 16 []
            = rlpEncodeBytes (v.getD []) := by
          rw [List.getD_eq_getElem?_getD, List.getElem?_append_right (by simp [e16])]
          simp [e16]
        rw [et, eg]
        simp only [List.flatten_append, List.length_append] at hlen
        rw [fromLinks_map _ (fun i => stub H (c i) (ser H (c i)) (shallow H (c i))) nibs16 (f - 16) f
          (fun i _ g hg => child (c i) (ih i) (hb.1 i) g (by have := hsub i; omega)) (by omega)]
        simp only
        rw [parseBytes_encode _ hv]
        simp only
        congr 1
        have ev : (if (v.getD []).length > 0 then some (v.getD []) else none) = v := by
          cases v with
          | none => simp
          | some w =>
            have := List.length_pos_iff.2 (hb.2 w rfl).1
            simp only [Option.getD_some]
            rw [if_pos this]
        rw [ev]
        congr 1
        funext i
        exact map_nibs_getD _ i
    · intro z hz
      rw [List.mem_append] at hz
      rcases hz with hz | hz
      · obtain ⟨i, _, rfl⟩ := List.mem_map.1 hz
        exact item_link H hH (c i) (hb.1 i)
      · simp only [List.mem_cons, List.not_mem_nil, or_false] at hz
        subst hz
        exact ⟨_, _, item_bytes _ hv⟩

end Verif.Trie
