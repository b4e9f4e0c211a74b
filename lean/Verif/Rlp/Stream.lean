import Verif.Rlp.RoundTrip

/-! # How decoding depends on its input -/

namespace Verif.Rlp
open Verif Verif.IntCodec

/-- If the first result is a value or `ErrNilValue`, the second is the same with more left to read. -/
def Ext {α : Type} (x : Bytes) (a b : Res α) : Prop :=
  match a with
  | .ok v r => b = .ok v (r ++ x)
  | .nil r => b = .nil (r ++ x)
  | _ => True

theorem Ext.bind {α β : Type} {x : Bytes} {a b : Res α} (f : α → Option β) (h : Ext x a b) :
    Ext x (a.bind f) (b.bind f) := by
  cases a with
  | ok v r =>
    simp only [Ext] at h
    subst h
    simp only [Res.bind]
    cases f v <;> simp [Ext]
  | nil r => simp only [Ext] at h; subst h; simp [Res.bind, Ext]
  | eof => simp [Res.bind, Ext]
  | err => simp [Res.bind, Ext]

theorem Ext.nilIs {x : Bytes} {a b : Res Val} (z : Val) (h : Ext x a b) :
    Ext x (nilIs z a) (nilIs z b) := by
  cases a with
  | ok v r => simp only [Ext] at h; subst h; simp [Rlp.nilIs, Ext]
  | nil r => simp only [Ext] at h; subst h; simp [Rlp.nilIs, Ext]
  | eof => simp [Rlp.nilIs, Ext]
  | err => simp [Rlp.nilIs, Ext]

theorem readAll_ext {n : Nat} {b s r : Bytes} (h : readAll n b = some (s, r)) (x : Bytes) :
    readAll n (b ++ x) = some (s, r ++ x) := by
  unfold readAll at h ⊢
  split_ifs at h with hl
  simp only [Option.some.injEq, Prod.mk.injEq] at h
  rw [if_pos (by simp; omega), List.take_append_of_le_length hl, List.drop_append_of_le_length hl,
    h.1, h.2]

theorem readSize_ext {n v : Nat} {b r : Bytes} (h : readSize n b = some (v, r)) (x : Bytes) :
    readSize n (b ++ x) = some (v, r ++ x) := by
  unfold readSize at h ⊢
  cases hr : readAll n b with
  | none => simp [hr] at h
  | some p =>
    obtain ⟨s, r'⟩ := p
    rw [readAll_ext hr]
    simp only [hr] at h ⊢
    cases hs : bytesToSize s with
    | none => simp [hs] at h
    | some w =>
      simp only [hs, Option.some.injEq, Prod.mk.injEq] at h ⊢
      simp [h.1, h.2]

theorem readBytes_ext (max max' : Nat) (hm : max ≤ max') (b x : Bytes) (tr tr' : Bool) :
    Ext x (readBytes max b tr) (readBytes max' (b ++ x) tr') := by
  cases b with
  | nil => cases tr <;> simp [readBytes, Ext]
  | cons h r =>
    simp only [readBytes, List.cons_append]
    by_cases h1 : h.toNat < 128
    · simp only [if_pos h1, Ext]
    simp only [if_neg h1]
    by_cases h2 : h.toNat ≤ 183
    · simp only [if_pos h2]
      cases hr : readAll (h.toNat - 128) r with
      | none => simp [Ext]
      | some p => simp only [readAll_ext hr, Ext]
    simp only [if_neg h2]
    by_cases h3 : h.toNat < 192
    · simp only [if_pos h3]
      cases hr : readSize (h.toNat - 183) r with
      | none => simp [Ext]
      | some p =>
        simp only [readSize_ext hr]
        by_cases h4 : p.1 > max
        · simp only [if_pos h4, Ext]
        · rw [if_neg h4, if_neg (show ¬ p.1 > max' by omega)]
          cases hr2 : readAll p.1 p.2 with
          | none => simp [Ext]
          | some q => simp only [readAll_ext hr2, Ext]
    simp only [if_neg h3]
    by_cases h4 : h.toNat = 248
    · simp only [if_pos h4]
      cases hr : readSize 1 r with
      | none => simp [Ext]
      | some p =>
        simp only [readSize_ext hr]
        by_cases h5 : p.1 = 0
        · simp only [if_pos h5, Ext]
        · simp only [if_neg h5, Ext]
    · simp only [if_neg h4, Ext]

theorem readListHeader_ext (b x : Bytes) (tr tr' : Bool) :
    Ext x (readListHeader b tr) (readListHeader (b ++ x) tr') := by
  cases b with
  | nil => cases tr <;> simp [readListHeader, Ext]
  | cons h r =>
    simp only [readListHeader, List.cons_append]
    by_cases h1 : h.toNat < 192
    · simp only [if_pos h1, Ext]
    simp only [if_neg h1]
    by_cases h2 : h.toNat ≤ 247
    · simp only [if_pos h2, Ext]
    simp only [if_neg h2]
    generalize h.toNat - 247 = q
    cases hr : readSize q r with
    | none => simp [Ext]
    | some p =>
      simp only [readSize_ext hr]
      by_cases h3 : q = 1 ∧ p.1 = 0
      · rw [if_pos h3, if_pos h3]; rfl
      · rw [if_neg h3, if_neg h3]; rfl

theorem inList_ext {α : Type} (max max' : Nat) (hm : max ≤ max') (b x : Bytes) (tr tr' : Bool)
    (body : Nat → Bytes → Bool → Res α)
    (h1 : ∀ m m' s, m ≤ m' → Ext [] (body m s false) (body m' s false))
    (h2 : ∀ m m' s y r t', m ≤ m' → body m s true = .nil r → body m' (s ++ y) t' = .nil (r ++ y)) :
    Ext x (inList max b tr body) (inList max' (b ++ x) tr' body) := by
  have hh := readListHeader_ext b x tr tr'
  unfold inList
  cases hb : readListHeader b tr with
  | eof => simp [Ext]
  | err => simp [Ext]
  | nil r => rw [hb] at hh; simp only [Ext] at hh; simp only [hh, Ext]
  | ok n r =>
    rw [hb] at hh; simp only [Ext] at hh; simp only [hh]
    by_cases hn : r.length < n
    · have hd : decide (r.length < n) = true := by simpa using hn
      rw [hd, List.take_of_length_le (by omega : r.length ≤ n),
        List.drop_of_length_le (by omega : r.length ≤ n)]
      cases hbo : body (min max n) r true with
      | eof => simp [Ext]
      | err => simp [Ext]
      | ok v r' => simp [hn, Ext]
      | nil r' =>
        rw [List.take_append, List.take_of_length_le (by omega : r.length ≤ n)]
        rw [h2 (min max n) (min max' n) r (x.take (n - r.length)) r' _ (by omega) hbo]
        simp only [Ext, List.drop_append, List.drop_of_length_le (by omega : r.length ≤ n),
          List.append_assoc, List.append_nil, List.nil_append, List.take_append_drop]
    · have hd : decide (r.length < n) = false := by simpa using hn
      have hd' : decide ((r ++ x).length < n) = false := by simp; omega
      have hn' : ¬ (r ++ x).length < n := by simp; omega
      rw [hd, hd', List.take_append_of_le_length (by omega), List.drop_append_of_le_length (by omega)]
      have := h1 (min max n) (min max' n) (r.take n) (by omega)
      cases hbo : body (min max n) (r.take n) false with
      | eof => simp [Ext]
      | err => simp [Ext]
      | ok v r' =>
        rw [hbo] at this
        simp only [Ext, List.append_nil] at this
        rw [this]
        simp only [if_neg hn, if_neg hn', Ext]
      | nil r' =>
        rw [hbo] at this
        simp only [Ext, List.append_nil] at this
        rw [this]
        simp only [Ext, List.append_assoc]

theorem nilHeader_inList_ext (z : Val) (max max' : Nat) (b x : Bytes) (tr tr' : Bool)
    (body : Nat → Bytes → Bool → Res Val)
    (h : Ext x (inList max b tr body) (inList max' (b ++ x) tr' body)) :
    Ext x (nilHeader z b tr (inList max b tr body))
      (nilHeader z (b ++ x) tr' (inList max' (b ++ x) tr' body)) := by
  have hh := readListHeader_ext b x tr tr'
  cases hb : readListHeader b tr with
  | eof => simp only [nilHeader, inList, hb, Ext]
  | err => simp only [nilHeader, inList, hb, Ext]
  | nil r => rw [hb] at hh; simp only [Ext] at hh; simp only [nilHeader, hb, hh, Ext]
  | ok n r => rw [hb] at hh; simp only [Ext] at hh; simp only [nilHeader, hb, hh]; exact h

theorem sliceLoop_ne_eof : ∀ f max fuel b tr, sliceLoop f max fuel b tr ≠ .eof := by
  intro f max fuel
  induction fuel with
  | zero => intros; simp [sliceLoop]
  | succ n ih =>
    intro b tr
    simp only [sliceLoop]
    cases f max b tr with
    | ok v r =>
      simp only
      have := ih r tr
      cases hs : sliceLoop f max n r tr <;> simp_all
    | nil r => simp
    | eof => simp
    | err => simp

theorem arrayLoop_ne_eof : ∀ f z max n b tr, arrayLoop f z max n b tr ≠ .eof := by
  intro f z max n
  induction n with
  | zero => intros; simp [arrayLoop]
  | succ n ih =>
    intro b tr
    simp only [arrayLoop]
    cases f max b tr with
    | ok v r =>
      simp only
      have := ih r tr
      cases hs : arrayLoop f z max n r tr <;> simp_all
    | nil r => simp
    | eof => simp
    | err => simp

theorem mapLoop_ne_eof : ∀ k f max fuel acc b tr, mapLoop k f max fuel acc b tr ≠ .eof := by
  intro k f max fuel
  induction fuel with
  | zero => intros; simp [mapLoop]
  | succ n ih =>
    intro acc b tr
    simp only [mapLoop]
    cases decodeKey k max b tr with
    | ok key r =>
      simp only
      cases f max r tr with
      | ok v r' => exact ih _ _ _
      | nil r => simp
      | eof => simp
      | err => simp
    | nil r => simp
    | eof => simp
    | err => simp

theorem decodeFields_ne_eof : ∀ ts max b tr, decodeFields ts max b tr ≠ .eof := by
  intro ts max
  induction ts with
  | nil => intros; simp [decodeFields]
  | cons t ts ih =>
    intro b tr
    simp only [decodeFields]
    cases decode t max b tr with
    | ok v r =>
      simp only
      have := ih r tr
      cases hs : decodeFields ts max r tr <;> simp_all
    | nil r => simp
    | eof =>
      simp only
      have := ih b tr
      cases hs : decodeFields ts max b tr <;> simp_all
    | err => simp

theorem decode_not_eof : ∀ (t : Ty) (max : Nat) (b : Bytes), decode t max b true = .eof → False := by
  have hrb : ∀ max b, readBytes max b true ≠ .eof := by
    intro max b
    cases b with
    | nil => simp [readBytes]
    | cons h r =>
      simp only [readBytes]
      split_ifs <;> try simp
      · cases readAll (h.toNat - 128) r <;> simp
      · cases hr : readSize (h.toNat - 183) r with
        | none => simp
        | some p =>
          simp only
          split_ifs
          · simp
          · cases readAll p.1 p.2 <;> simp
      · cases hr : readSize 1 r with
        | none => simp
        | some p => simp only; split_ifs <;> simp
  have hbind : ∀ {α : Type} max b (f : Bytes → Option α), (readBytes max b true).bind f ≠ .eof := by
    intro α max b f
    have := hrb max b
    cases hr : readBytes max b true with
    | ok v r => simp only [Res.bind]; cases f v <;> simp
    | nil r => simp [Res.bind]
    | eof => exact absurd hr this
    | err => simp [Res.bind]
  have hh : ∀ b, readListHeader b true ≠ .eof := by
    intro b
    cases b with
    | nil => simp [readListHeader]
    | cons h r =>
      simp only [readListHeader]
      split_ifs <;> try simp
      cases hr : readSize (h.toNat - 247) r with
      | none => simp
      | some p => simp only; split_ifs <;> simp
  have hin : ∀ max b (body : Nat → Bytes → Bool → Res Val), (∀ m s t, body m s t ≠ .eof) →
      inList max b true body ≠ .eof := by
    intro max b body hbody
    unfold inList
    cases hr : readListHeader b true with
    | ok n r =>
      simp only
      cases hbo : body (min max n) (r.take n) (decide (r.length < n)) with
      | ok v r' => simp only; split_ifs <;> simp
      | nil r' => simp
      | eof => exact absurd hbo (hbody _ _ _)
      | err => simp
    | nil r => simp
    | eof => exact absurd hr (hh b)
    | err => simp
  have hnh : ∀ z b u, u ≠ .eof → nilHeader z b true u ≠ .eof := by
    intro z b u hu
    unfold nilHeader
    cases readListHeader b true <;> simp [hu]
  have hb2 : ∀ {α : Type} (u : Res α) (f : α → Option Val), u ≠ .eof → u.bind f ≠ .eof := by
    intro α u f hu
    cases u with
    | ok v r => simp only [Res.bind]; cases f v <;> simp
    | nil r => simp [Res.bind]
    | eof => exact absurd rfl hu
    | err => simp [Res.bind]
  intro t
  induction t using Ty.rec (motive_2 := fun _ => True) with
  | bool => intro max b h; rw [decode] at h; exact hbind _ _ _ h
  | uint w => intro max b h; rw [decode] at h; exact hbind _ _ _ h
  | int w => intro max b h; rw [decode] at h; exact hbind _ _ _ h
  | str => intro max b h; rw [decode] at h; exact hbind _ _ _ h
  | big => intro max b h; rw [decode] at h; exact hbind _ _ _ h
  | bytes =>
    intro max b h
    simp only [decode] at h
    cases hr : (readBytes max b true).bind (fun s => some (Val.bytes s)) with
    | eof => exact hbind _ _ _ hr
    | ok v r => rw [hr] at h; simp [nilIs] at h
    | nil r => rw [hr] at h; simp [nilIs] at h
    | err => rw [hr] at h; simp [nilIs] at h
  | bytesN n => intro max b h; rw [decode] at h; exact hbind _ _ _ h
  | slice t _ =>
    intro max b h
    rw [decode] at h
    exact hnh _ _ _ (hin _ _ _ (fun m s t => hb2 _ _ (sliceLoop_ne_eof _ _ _ _ _))) h
  | array n t _ =>
    intro max b h
    rw [decode] at h
    exact hin _ _ _ (fun m s t => hb2 _ _ (arrayLoop_ne_eof _ _ _ _ _ _)) h
  | ptr t ih =>
    intro max b h
    rw [decode] at h
    have := ih max b
    cases hr : decode t max b true <;> simp_all [Res.bind, nilIs]
  | struct ts _ =>
    intro max b h
    rw [decode] at h
    exact hin _ _ _ (fun m s t => hb2 _ _ (decodeFields_ne_eof _ _ _ _)) h
  | map k t _ =>
    intro max b h
    rw [decode] at h
    exact hnh _ _ _ (hin _ _ _ (fun m s t => hb2 _ _ (mapLoop_ne_eof _ _ _ _ _ _ _))) h
  | nil => trivial
  | cons => trivial

/-! ## The loops -/

/-- `f` gives the same value or `ErrNilValue` when more input follows. -/
def DecExt {α : Type} (f : Dec α) : Prop :=
  ∀ max max' b x tr tr', max ≤ max' → Ext x (f max b tr) (f max' (b ++ x) tr')

theorem DecExt.nullable {f : Dec Val} (z : Val) (h : DecExt f) : DecExt (nullable f z) := by
  intro max max' b x tr tr' hm
  have := h max max' b x tr tr' hm
  simp only [Rlp.nullable]
  cases hf : f max b tr <;> rw [hf] at this <;> simp only [Ext] at this ⊢ <;> rw [this]

theorem readBytes_eof (max max' : Nat) (b : Bytes) (h : readBytes max b false = .eof) :
    b = [] ∧ readBytes max' b false = .eof := by
  cases b with
  | nil => exact ⟨rfl, rfl⟩
  | cons x r =>
    exfalso
    simp only [readBytes] at h
    split_ifs at h
    · cases hr : readAll (x.toNat - 128) r <;> rw [hr] at h <;> cases h
    · cases hr : readSize (x.toNat - 183) r with
      | none => rw [hr] at h; cases h
      | some p =>
        rw [hr] at h
        simp only at h
        split_ifs at h
        cases hr2 : readAll p.1 p.2 <;> rw [hr2] at h <;> cases h
    · cases hr : readSize 1 r with
      | none => rw [hr] at h; cases h
      | some p =>
        rw [hr] at h
        simp only at h
        split_ifs at h

theorem bind_eof {α β : Type} (u : Res α) (f : α → Option β) (h : u.bind f = .eof) : u = .eof := by
  cases u with
  | ok v r => simp only [Res.bind] at h; cases hf : f v <;> rw [hf] at h <;> cases h
  | nil r => cases h
  | eof => rfl
  | err => cases h

theorem readListHeader_eof (b : Bytes) (h : readListHeader b false = .eof) : b = [] := by
  cases b with
  | nil => rfl
  | cons x r =>
    exfalso
    simp only [readListHeader] at h
    split_ifs at h
    cases hr : readSize (x.toNat - 247) r with
    | none => rw [hr] at h; cases h
    | some p => rw [hr] at h; simp only at h; split_ifs at h

theorem inList_eof {α : Type} (max : Nat) (b : Bytes) (body : Nat → Bytes → Bool → Res α)
    (hb : ∀ m s t, body m s t ≠ .eof) (h : inList max b false body = .eof) : b = [] := by
  unfold inList at h
  cases hr : readListHeader b false with
  | ok n r =>
    rw [hr] at h
    simp only at h
    cases hbo : body (min max n) (r.take n) (decide (r.length < n)) with
    | ok v r' => rw [hbo] at h; simp only at h; split_ifs at h
    | nil r' => rw [hbo] at h; cases h
    | eof => exact absurd hbo (hb _ _ _)
    | err => rw [hbo] at h; cases h
  | nil r => rw [hr] at h; cases h
  | eof => exact readListHeader_eof b hr
  | err => rw [hr] at h; cases h

theorem bind_ne_eof {α β : Type} (u : Res α) (f : α → Option β) (hu : u ≠ .eof) : u.bind f ≠ .eof :=
  fun h => hu (bind_eof u f h)

theorem nilHeader_eof (z : Val) (b : Bytes) (u : Res Val) (h : nilHeader z b false u = .eof) :
    u = .eof ∨ b = [] := by
  unfold nilHeader at h
  cases hr : readListHeader b false with
  | nil r => rw [hr] at h; cases h
  | ok n r => rw [hr] at h; exact Or.inl h
  | eof => exact Or.inr (readListHeader_eof b hr)
  | err => rw [hr] at h; exact Or.inl h

theorem decode_eof (t : Ty) (max : Nat) (b : Bytes) (h : decode t max b false = .eof) : b = [] := by
  induction t using Ty.rec (motive_2 := fun _ => True) with
  | bool => rw [decode] at h; exact (readBytes_eof max max b (bind_eof _ _ h)).1
  | uint w => rw [decode] at h; exact (readBytes_eof max max b (bind_eof _ _ h)).1
  | int w => rw [decode] at h; exact (readBytes_eof max max b (bind_eof _ _ h)).1
  | str => rw [decode] at h; exact (readBytes_eof max max b (bind_eof _ _ h)).1
  | big => rw [decode] at h; exact (readBytes_eof max max b (bind_eof _ _ h)).1
  | bytes =>
    rw [decode] at h
    cases hr : (readBytes max b false).bind (fun s => some (Val.bytes s)) with
    | eof => exact (readBytes_eof max max b (bind_eof _ _ hr)).1
    | ok v r => rw [hr] at h; cases h
    | nil r => rw [hr] at h; cases h
    | err => rw [hr] at h; cases h
  | bytesN n => rw [decode] at h; exact (readBytes_eof max max b (bind_eof _ _ h)).1
  | slice t _ =>
    rw [decode] at h
    rcases nilHeader_eof _ _ _ h with h | h
    · exact inList_eof _ _ _ (fun m s t => bind_ne_eof _ _ (sliceLoop_ne_eof _ _ _ _ _)) h
    · exact h
  | array n t _ =>
    rw [decode] at h
    exact inList_eof _ _ _ (fun m s t => bind_ne_eof _ _ (arrayLoop_ne_eof _ _ _ _ _ _)) h
  | ptr t ih =>
    rw [decode] at h
    cases hr : decode t max b false with
    | eof => exact ih hr
    | ok v r => rw [hr] at h; cases h
    | nil r => rw [hr] at h; cases h
    | err => rw [hr] at h; cases h
  | struct ts _ =>
    rw [decode] at h
    exact inList_eof _ _ _ (fun m s t => bind_ne_eof _ _ (decodeFields_ne_eof _ _ _ _)) h
  | map k t _ =>
    rw [decode] at h
    rcases nilHeader_eof _ _ _ h with h | h
    · exact inList_eof _ _ _ (fun m s t => bind_ne_eof _ _ (mapLoop_ne_eof _ _ _ _ _ _ _)) h
    · exact h
  | nil => trivial
  | cons => trivial

theorem nullable_ne_nil (f : Dec Val) (z : Val) (max : Nat) (b : Bytes) (tr : Bool) (r : Bytes) :
    nullable f z max b tr ≠ .nil r := by
  simp only [nullable]
  cases f max b tr <;> simp

theorem nullable_eof' (f : Dec Val) (z : Val) (max : Nat) (b : Bytes) (tr : Bool)
    (h : nullable f z max b tr = .eof) : f max b tr = .eof := by
  simp only [nullable] at h
  cases hf : f max b tr <;> rw [hf] at h <;> simp_all

/-- What the loops need of the function that reads an element. -/
structure Elem (f : Dec Val) : Prop where
  ext : DecExt f
  noNil : ∀ max b tr r, f max b tr ≠ .nil r
  eof : ∀ max b, f max b false = .eof → b = []
  empty : ∀ max, f max [] false = .eof

theorem elem_nullable (t : Ty) (z : Val) (h : DecExt (decode t)) : Elem (nullable (decode t) z) where
  ext := h.nullable z
  noNil := nullable_ne_nil _ _
  eof := fun max b hb => decode_eof t max b (nullable_eof' _ _ _ _ _ hb)
  empty := fun max => nullable_eof (decode_nil t max)

theorem sliceLoop_ne_nil (f : Dec Val) (hf : Elem f) (max fuel : Nat) (b : Bytes) (tr : Bool)
    (r : Bytes) : sliceLoop f max fuel b tr ≠ .nil r := by
  induction fuel generalizing b with
  | zero => simp [sliceLoop]
  | succ n ih =>
    simp only [sliceLoop]
    cases hr : f max b tr with
    | ok v r' =>
      simp only
      have := ih r'
      cases hs : sliceLoop f max n r' tr <;> simp_all
    | nil r' => exact absurd hr (hf.noNil _ _ _ _)
    | eof => simp
    | err => simp

theorem arrayLoop_ne_nil (f : Dec Val) (hf : Elem f) (z : Val) (max n : Nat) (b : Bytes) (tr : Bool)
    (r : Bytes) : arrayLoop f z max n b tr ≠ .nil r := by
  induction n generalizing b with
  | zero => simp [arrayLoop]
  | succ n ih =>
    simp only [arrayLoop]
    cases hr : f max b tr with
    | ok v r' =>
      simp only
      have := ih r'
      cases hs : arrayLoop f z max n r' tr <;> simp_all
    | nil r' => exact absurd hr (hf.noNil _ _ _ _)
    | eof => simp
    | err => simp

theorem mapLoop_ne_nil (k : KeyTy) (f : Dec Val) (hf : Elem f) (max fuel : Nat)
    (acc : List (Key × Val)) (b : Bytes) (tr : Bool) (r : Bytes) :
    mapLoop k f max fuel acc b tr ≠ .nil r := by
  induction fuel generalizing b acc with
  | zero => simp [mapLoop]
  | succ n ih =>
    simp only [mapLoop]
    cases hk : decodeKey k max b tr with
    | ok key r' =>
      simp only
      cases hr : f max r' tr with
      | ok v r'' => exact ih _ _
      | nil r' => exact absurd hr (hf.noNil _ _ _ _)
      | eof => simp
      | err => simp
    | nil r' => simp
    | eof => simp
    | err => simp

theorem elem_ok_max {f : Dec Val} (hf : Elem f) {max max' : Nat} {b : Bytes} (hm : max ≤ max')
    {v : Val} {r : Bytes} (h : f max b false = .ok v r) : f max' b false = .ok v r := by
  have := hf.ext max max' b [] false false hm
  rw [h] at this
  simpa [Ext] using this

theorem sliceLoop_max (f : Dec Val) (hf : Elem f) (max max' : Nat) (hm : max ≤ max') (fuel : Nat)
    (b : Bytes) (vs : List Val) (r : Bytes) (h : sliceLoop f max fuel b false = .ok vs r) :
    sliceLoop f max' fuel b false = .ok vs r := by
  induction fuel generalizing b vs with
  | zero => simp [sliceLoop] at h
  | succ n ih =>
    simp only [sliceLoop] at h ⊢
    cases hr : f max b false with
    | ok v r' =>
      rw [hr] at h
      rw [elem_ok_max hf hm hr]
      simp only at h ⊢
      cases hs : sliceLoop f max n r' false with
      | ok ws r'' => rw [hs] at h; rw [ih _ _ (by rw [hs]; simp at h; rw [h.2])]; simp at h; simp [h.1]
      | nil r'' => rw [hs] at h; cases h
      | eof => rw [hs] at h; cases h
      | err => rw [hs] at h; cases h
    | nil r' => rw [hr] at h; cases h
    | eof =>
      rw [hr] at h
      have hb := hf.eof _ _ hr
      subst hb
      rw [hf.empty]
      exact h
    | err => rw [hr] at h; cases h

theorem arrayLoop_max (f : Dec Val) (hf : Elem f) (z : Val) (max max' : Nat) (hm : max ≤ max') (n : Nat)
    (b : Bytes) (vs : List Val) (r : Bytes) (h : arrayLoop f z max n b false = .ok vs r) :
    arrayLoop f z max' n b false = .ok vs r := by
  induction n generalizing b vs with
  | zero => simpa [arrayLoop] using h
  | succ n ih =>
    simp only [arrayLoop] at h ⊢
    cases hr : f max b false with
    | ok v r' =>
      rw [hr] at h
      rw [elem_ok_max hf hm hr]
      simp only at h ⊢
      cases hs : arrayLoop f z max n r' false with
      | ok ws r'' => rw [hs] at h; rw [ih _ _ (by rw [hs]; simp at h; rw [h.2])]; simp at h; simp [h.1]
      | nil r'' => rw [hs] at h; cases h
      | eof => rw [hs] at h; cases h
      | err => rw [hs] at h; cases h
    | nil r' => rw [hr] at h; cases h
    | eof =>
      rw [hr] at h
      have hb := hf.eof _ _ hr
      subst hb
      rw [hf.empty]
      exact h
    | err => rw [hr] at h; cases h

theorem decodeKey_ext (k : KeyTy) : DecExt (decodeKey k) := by
  intro max max' b x tr tr' hm
  cases k <;> simp only [decodeKey] <;> exact (readBytes_ext max max' hm b x tr tr').bind _

theorem decodeKey_eof (k : KeyTy) (max : Nat) (b : Bytes) (h : decodeKey k max b false = .eof) :
    b = [] := by
  cases k <;> simp only [decodeKey] at h <;> exact (readBytes_eof max max b (bind_eof _ _ h)).1

theorem mapLoop_max (k : KeyTy) (f : Dec Val) (hf : Elem f) (max max' : Nat) (hm : max ≤ max')
    (fuel : Nat) (acc : List (Key × Val)) (b : Bytes) (es : List (Key × Val)) (r : Bytes)
    (h : mapLoop k f max fuel acc b false = .ok es r) :
    mapLoop k f max' fuel acc b false = .ok es r := by
  induction fuel generalizing b acc with
  | zero => simp [mapLoop] at h
  | succ n ih =>
    simp only [mapLoop] at h ⊢
    cases hk : decodeKey k max b false with
    | ok key r' =>
      rw [hk] at h
      have hk' := decodeKey_ext k max max' b [] false false hm
      rw [hk] at hk'
      simp only [Ext, List.append_nil] at hk'
      rw [hk']
      simp only at h ⊢
      cases hr : f max r' false with
      | ok v r'' =>
        rw [hr] at h
        rw [elem_ok_max hf hm hr]
        exact ih _ _ h
      | nil r'' => rw [hr] at h; cases h
      | eof => rw [hr] at h; cases h
      | err => rw [hr] at h; cases h
    | nil r' => rw [hk] at h; cases h
    | eof =>
      rw [hk] at h
      have hb := decodeKey_eof _ _ _ hk
      subst hb
      rw [decodeKey_nil]
      exact h
    | err => rw [hk] at h; cases h

/-- Fields read with a larger limit. -/
theorem decodeFields_max (ts : List Ty) (hts : ∀ t ∈ ts, DecExt (decode t)) (max max' : Nat)
    (hm : max ≤ max') (b : Bytes) :
    Ext [] (decodeFields ts max b false) (decodeFields ts max' b false) := by
  induction ts generalizing b with
  | nil => simp [decodeFields, Ext]
  | cons t ts ih =>
    simp only [decodeFields]
    have ht := hts t List.mem_cons_self max max' b [] false false hm
    have hih := ih (fun u hu => hts u (List.mem_cons_of_mem _ hu))
    simp only [List.append_nil] at ht
    cases hr : decode t max b false with
    | ok v r =>
      rw [hr] at ht; simp only [Ext, List.append_nil] at ht; rw [ht]
      simp only
      have := hih r
      cases hs : decodeFields ts max r false <;> rw [hs] at this <;>
        simp only [Ext, List.append_nil] at this ⊢ <;> rw [this]
    | nil r => rw [hr] at ht; simp only [Ext, List.append_nil] at ht; rw [ht]; simp [Ext]
    | eof =>
      have hb := decode_eof t max b hr
      subst hb
      rw [decode_nil]
      simp only
      have := hih []
      cases hs : decodeFields ts max [] false <;> rw [hs] at this <;>
        simp only [Ext, List.append_nil] at this ⊢ <;> rw [this]
    | err => simp [Ext]

/-- Fields of a list whose end the input does not reach. -/
theorem decodeFields_trunc (ts : List Ty) (hts : ∀ t ∈ ts, DecExt (decode t)) (max max' : Nat)
    (hm : max ≤ max') (b x : Bytes) (tr' : Bool) :
    Ext x (decodeFields ts max b true) (decodeFields ts max' (b ++ x) tr') := by
  induction ts generalizing b with
  | nil => simp [decodeFields, Ext]
  | cons t ts ih =>
    simp only [decodeFields]
    have ht := hts t List.mem_cons_self max max' b x true tr' hm
    have hih := ih (fun u hu => hts u (List.mem_cons_of_mem _ hu))
    cases hr : decode t max b true with
    | ok v r =>
      rw [hr] at ht; simp only [Ext] at ht; rw [ht]
      simp only
      have := hih r
      cases hs : decodeFields ts max r true <;> rw [hs] at this <;>
        simp only [Ext] at this ⊢ <;> rw [this]
    | nil r => rw [hr] at ht; simp only [Ext] at ht; rw [ht]; simp [Ext]
    | eof => exact absurd hr (decode_not_eof t max b)
    | err => simp [Ext]

theorem bind_nil {α β : Type} (u : Res α) (f : α → Option β) (r : Bytes) (h : u.bind f = .nil r) :
    u = .nil r := by
  cases u with
  | ok v r => simp only [Res.bind] at h; cases hf : f v <;> rw [hf] at h <;> cases h
  | nil r => simp only [Res.bind] at h; cases h; rfl
  | eof => cases h
  | err => cases h

theorem ext_of_ok {u w : Res Val} (h : ∀ v r, u = .ok v r → w = .ok v r) (hn : ∀ r, u ≠ .nil r) :
    Ext [] u w := by
  cases u with
  | ok v r => simp only [Ext, List.append_nil]; exact h v r rfl
  | nil r => exact absurd rfl (hn r)
  | eof => trivial
  | err => trivial

theorem bind_ok {α β : Type} (u : Res α) (f : α → Option β) (v : β) (r : Bytes)
    (h : u.bind f = .ok v r) : ∃ a, u = .ok a r ∧ f a = some v := by
  cases u with
  | ok a r' =>
    simp only [Res.bind] at h
    cases hf : f a with
    | none => rw [hf] at h; cases h
    | some w => rw [hf] at h; simp only [Res.ok.injEq] at h; exact ⟨a, by rw [h.2], by rw [← h.1, hf]⟩
  | nil r => cases h
  | eof => cases h
  | err => cases h

/-- A value or `ErrNilValue` does not depend on what follows, nor on a larger limit. -/
theorem decode_ext (t : Ty) : DecExt (decode t) := by
  induction t using Ty.rec (motive_2 := fun ts => ∀ t ∈ ts, DecExt (decode t)) with
  | bool => intro max max' b x tr tr' hm; simp only [decode]; exact (readBytes_ext _ _ hm _ _ _ _).bind _
  | uint w => intro max max' b x tr tr' hm; simp only [decode]; exact (readBytes_ext _ _ hm _ _ _ _).bind _
  | int w => intro max max' b x tr tr' hm; simp only [decode]; exact (readBytes_ext _ _ hm _ _ _ _).bind _
  | str => intro max max' b x tr tr' hm; simp only [decode]; exact (readBytes_ext _ _ hm _ _ _ _).bind _
  | big => intro max max' b x tr tr' hm; simp only [decode]; exact (readBytes_ext _ _ hm _ _ _ _).bind _
  | bytes =>
    intro max max' b x tr tr' hm; simp only [decode]
    exact ((readBytes_ext _ _ hm _ _ _ _).bind _).nilIs _
  | bytesN n => intro max max' b x tr tr' hm; simp only [decode]; exact (readBytes_ext _ _ hm _ _ _ _).bind _
  | slice t ih =>
    intro max max' b x tr tr' hm
    simp only [decode]
    have he := elem_nullable t (zero t) ih
    apply nilHeader_inList_ext
    apply inList_ext _ _ hm
    · intro m m' s hmm
      apply ext_of_ok
      · intro v r h
        obtain ⟨a, ha, hv⟩ := bind_ok _ _ _ _ h
        rw [sliceLoop_max _ he m m' hmm _ _ _ _ ha]
        simp only [Res.bind]; cases hv; rfl
      · intro r h
        exact sliceLoop_ne_nil _ he _ _ _ _ _ (bind_nil _ _ _ h)
    · intro m m' s y r t' _ h
      exact absurd (bind_nil _ _ _ h) (sliceLoop_ne_nil _ he _ _ _ _ _)
  | array n t ih =>
    intro max max' b x tr tr' hm
    simp only [decode]
    have he := elem_nullable t (zero t) ih
    apply inList_ext _ _ hm
    · intro m m' s hmm
      apply ext_of_ok
      · intro v r h
        obtain ⟨a, ha, hv⟩ := bind_ok _ _ _ _ h
        rw [arrayLoop_max _ he _ m m' hmm _ _ _ _ ha]
        simp only [Res.bind]; cases hv; rfl
      · intro r h
        exact arrayLoop_ne_nil _ he _ _ _ _ _ _ (bind_nil _ _ _ h)
    · intro m m' s y r t' _ h
      exact absurd (bind_nil _ _ _ h) (arrayLoop_ne_nil _ he _ _ _ _ _ _)
  | ptr t ih =>
    intro max max' b x tr tr' hm
    simp only [decode]
    exact ((ih max max' b x tr tr' hm).bind _).nilIs _
  | struct ts ih =>
    intro max max' b x tr tr' hm
    simp only [decode]
    apply inList_ext _ _ hm
    · intro m m' s hmm
      exact (decodeFields_max ts ih m m' hmm s).bind _
    · intro m m' s y r t' hmm h
      have h1 := bind_nil _ _ _ h
      have := decodeFields_trunc ts ih m m' hmm s y t'
      rw [h1] at this
      simp only [Ext] at this
      rw [this]; rfl
  | map k t ih =>
    intro max max' b x tr tr' hm
    simp only [decode]
    have he := elem_nullable t (zero t) ih
    apply nilHeader_inList_ext
    apply inList_ext _ _ hm
    · intro m m' s hmm
      apply ext_of_ok
      · intro v r h
        obtain ⟨a, ha, hv⟩ := bind_ok _ _ _ _ h
        rw [mapLoop_max k _ he m m' hmm _ _ _ _ _ ha]
        simp only [Res.bind]; cases hv; rfl
      · intro r h
        exact mapLoop_ne_nil k _ he _ _ _ _ _ _ (bind_nil _ _ _ h)
    · intro m m' s y r t' _ h
      exact absurd (bind_nil _ _ _ h) (mapLoop_ne_nil k _ he _ _ _ _ _ _)
  | nil => rename_i t ht; cases ht
  | cons t ts ih1 ih2 =>
    rename_i u hu
    rcases List.mem_cons.1 hu with rfl | hu
    · exact ih1
    · exact ih2 u hu

end Verif.Rlp
