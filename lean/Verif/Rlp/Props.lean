import Verif.Rlp.Wire

/-!
# C39: the RLP codec

`marshalToBytes`, `unmarshalFromBytes`, `unmarshal` (stream), `skipOne` and `readRaw` of the model.
-/

namespace Verif.Rlp
open Verif Verif.IntCodec

theorem fields_of_encode (ts : List Ty) (vs : List Val) (max : Nat) (r : Bytes) (tr : Bool)
    (hw : WfTys ts) (h : HasTys ts vs) (hs : StrLes max vs)
    (hl : ((vs.map encode).flatten).length < 2 ^ 63) :
    decodeFields ts max ((vs.map encode).flatten ++ r) tr = .ok vs r := by
  induction ts generalizing vs with
  | nil => cases vs with
    | nil => rfl
    | cons _ _ => simp [HasTys] at h
  | cons t ts ih =>
    cases vs with
    | nil => simp [HasTys] at h
    | cons v vs =>
      simp only [HasTys] at h
      simp only [WfTys] at hw
      simp only [StrLes] at hs
      simp only [List.map_cons, List.flatten_cons, List.length_append] at hl
      simp only [List.map_cons, List.flatten_cons, decodeFields, List.append_assoc,
        decode_encode t v max _ tr hw.1 h.1 hs.1 (by omega), ih vs hw.2 h.2 hs.2 (by omega)]

theorem fields_missing (ts : List Ty) (max : Nat) : decodeFields ts max [] false = .ok (zeros ts) [] := by
  induction ts with
  | nil => rfl
  | cons t ts ih => simp only [decodeFields, decode_nil, ih, zeros]

theorem staleChild_encode (t : Ty) : ∀ (v : Val) (max : Nat) (r : Bytes), WfTy t → HasTy t v →
    (encode v).length < 2 ^ 63 → StrLe max v → staleChild t max (encode v ++ r) = none := by
  induction t using Ty.rec (motive_2 := fun _ => True) with
  | ptr t ih =>
    intro v max r hw h hl hs
    simp only [WfTy] at hw
    simp only [staleChild]
    cases v <;> simp only [HasTy] at h
    · simp only [encode]
      cases t <;> simp only [staleChild] <;> try rfl
      all_goals first
        | exact absurd trivial hw.1
        | rw [readListHeader_null]
    · rename_i v
      simp only [encode] at hl ⊢
      simp only [StrLe] at hs
      exact ih v max r hw.2 h hl hs
  | struct ts _ =>
    intro v max r hw h hl hs
    simp only [WfTy] at hw
    cases v <;> simp only [HasTy] at h
    rename_i vs
    simp only [encode, encodeAll_eq] at hl ⊢
    simp only [StrLe] at hs
    have hwl := writeList_length (vs.map encode).flatten
    simp only [staleChild]
    rw [readListHeader_writeList _ _ _ (by omega)]
    simp only [List.take_left, List.length_append]
    rw [show (decide (((vs.map encode).flatten).length + r.length < ((vs.map encode).flatten).length))
      = false by simp]
    have := fields_of_encode ts vs (min max ((vs.map encode).flatten).length) [] false hw h (by
      rcases Nat.le_total max ((vs.map encode).flatten).length with hm | hm
      · rw [Nat.min_eq_left hm]; exact hs
      · rw [Nat.min_eq_right hm]; exact strLes_encode ts vs h) (by omega)
    rw [List.append_nil] at this
    rw [this]
  | nil => trivial
  | cons => trivial
  | _ => intros; simp only [staleChild]

/-- **C39.** Unmarshalling what was marshalled, followed by any other bytes, gives back the value and
exactly the other bytes, and the pooled decoder is returned clean. -/
theorem C39_roundtrip (t : Ty) (v : Val) (rest : Bytes) (hw : WfTy t) (h : HasTy t v)
    (hl : (marshalToBytes v ++ rest).length < 2 ^ 63) :
    unmarshalFromBytes t none (marshalToBytes v ++ rest) = some ((v, rest), none) := by
  unfold marshalToBytes at *
  have hl' : (encode v).length < 2 ^ 63 := by simp only [List.length_append] at hl; omega
  have hs : StrLe (encode v ++ rest).length v :=
    strLe_mono (by simp) v (strLe_encode t v h)
  simp only [unmarshalFromBytes]
  rw [decode_encode t v _ rest false hw h hs hl', staleChild_encode t v _ rest hw h hl' hs]

/-- **C39.** The same for a stream, for values whose byte strings have at most a million bytes. -/
theorem C39_roundtrip_stream (t : Ty) (v : Val) (rest : Bytes) (hw : WfTy t) (h : HasTy t v)
    (hs : StrLe 1000000 v) (hl : (marshalToBytes v).length < 2 ^ 63) :
    unmarshal t (marshalToBytes v ++ rest) = some (v, rest) := by
  unfold marshalToBytes at *
  simp only [unmarshal, decode_encode t v _ rest false hw h hs hl]

/-- **C39, finding.** A byte slice of more than a million bytes is written to a stream but cannot be
read back from it. -/
theorem C39_long_string_not_read_back (b rest : Bytes) (h : 1000000 < b.length)
    (hl : b.length < 2 ^ 63) : unmarshal .bytes (marshalToBytes (.bytes b) ++ rest) = none := by
  have e : readBytes 1000000 (writeBytes b ++ rest) false = .err := by
    unfold writeBytes
    rw [if_neg (by omega), if_neg (by rintro ⟨h1, _⟩; omega), if_neg (by omega)]
    obtain ⟨e1, e2, e3⟩ := sizeToBytes_spec b.length hl (by omega)
    simp only [readBytes, List.cons_append, List.append_assoc]
    rw [u8_toNat_ofNat (by omega), if_neg (by omega), if_neg (by omega), if_pos (by omega),
      show 128 + 55 + (sizeToBytes b.length).length - 183 = (sizeToBytes b.length).length by omega,
      readSize_sizeToBytes _ hl (by omega)]
    simp only
    rw [if_pos (by omega)]
  simp only [unmarshal, marshalToBytes, encode, decode, e, Res.bind, nilIs]

/-- **C39.** Marshalled values never begin one another: equal bytes, even with something after them,
mean equal values of the type. -/
theorem C39_injective (t : Ty) (v w : Val) (r r' : Bytes) (hw : WfTy t) (hv : HasTy t v)
    (hw' : HasTy t w) (hl : (marshalToBytes v).length < 2 ^ 63) (hl' : (marshalToBytes w).length < 2 ^ 63)
    (h : marshalToBytes v ++ r = marshalToBytes w ++ r') : v = w ∧ r = r' := by
  unfold marshalToBytes at *
  have h1 := decode_encode t v ((encode v).length + (encode w).length) r false hw hv
    (strLe_mono (by omega) v (strLe_encode t v hv)) hl
  have h2 := decode_encode t w ((encode v).length + (encode w).length) r' false hw hw'
    (strLe_mono (by omega) w (strLe_encode t w hw')) hl'
  rw [h, h2] at h1
  cases h1
  exact ⟨rfl, rfl⟩

/-- **C39.** The bytes are the recursive length prefix form of the value. -/
theorem C39_wire_format (t : Ty) (v : Val) (hw : WfTy t) (h : HasTy t v)
    (hl : (marshalToBytes v).length < 2 ^ 63) : marshalToBytes v = rlp (item v) :=
  encode_rlp t hw v h hl

/-- **C39.** A truncated message is never accepted: no proper prefix of the encoding of a value of the
type can be unmarshalled into that type. -/
theorem C39_truncated (t : Ty) (v : Val) (p x : Bytes) (hw : WfTy t) (h : HasTy t v)
    (hl : (marshalToBytes v).length < 2 ^ 63) (hp : p ++ x = marshalToBytes v) (hx : x ≠ []) :
    unmarshalFromBytes t none p = none ∧ unmarshal t p = none := by
  have key : ∀ max w r, decode t max p false = .ok w r → False := by
    intro max w r hd
    have h1 := decode_ext t max (max + (encode v).length) p x false false (by omega)
    rw [hd] at h1
    simp only [Ext] at h1
    have h2 := decode_encode t v (max + (encode v).length) [] false hw h
      (strLe_mono (by omega) v (strLe_encode t v h)) hl
    rw [List.append_nil] at h2
    have hp' : p ++ x = encode v := hp
    rw [hp', h2] at h1
    have h2 := h1.symm
    simp only [Res.ok.injEq, List.append_eq_nil_iff] at h2
    exact hx h2.2.2
  constructor
  · simp only [unmarshalFromBytes]
    cases hd : decode t p.length p false with
    | ok w r => exact (key _ _ _ hd).elim
    | nil r => rfl
    | eof => rfl
    | err => rfl
  · simp only [unmarshal]
    cases hd : decode t 1000000 p false with
    | ok w r => exact (key _ _ _ hd).elim
    | nil r => rfl
    | eof => rfl
    | err => rfl

/-- **C39.** Reading a value from a stream does not look past it: whatever follows is left. -/
theorem C39_stream (t : Ty) (b x : Bytes) (v : Val) (r : Bytes) (h : unmarshal t b = some (v, r)) :
    unmarshal t (b ++ x) = some (v, r ++ x) ∧ ∃ c, c ≠ [] ∧ b = c ++ r := by
  simp only [unmarshal] at h ⊢
  have h1 := decode_ext t 1000000 1000000 b x false false (le_refl _)
  have h2 := decode_used t 1000000 b false
  cases hd : decode t 1000000 b false with
  | ok w r' =>
    rw [hd] at h h1 h2
    cases h
    simp only [Ext] at h1
    rw [h1]
    exact ⟨rfl, h2⟩
  | nil r' => rw [hd] at h; cases h
  | eof => rw [hd] at h; cases h
  | err => rw [hd] at h; cases h

/-- **C39.** Whatever the bytes, and whatever the pooled decoder was used for, an unmarshalled value
belongs to the type: integers are in range, arrays have their length, map keys are distinct. -/
theorem C39_decoded_is_typed (t : Ty) (hw : WfTy t) (s : Option Nat) (b : Bytes) (v : Val) (r : Bytes)
    (s' : Option Nat) (h : unmarshalFromBytes t s b = some ((v, r), s')) : HasTy t v := by
  simp only [unmarshalFromBytes] at h
  split at h
  · cases h
  · rename_i b' _
    cases hd : decode t b.length b' false with
    | ok w r' => rw [hd] at h; cases h; exact decode_hasTy t hw _ _ _ _ _ hd
    | nil r' => rw [hd] at h; cases h
    | eof => rw [hd] at h; cases h
    | err => rw [hd] at h; cases h

/-- **C39.** The iteration bounds in the model never end a loop: with any larger bound the loops over
the elements of a slice or the entries of a map give the same result. -/
theorem C39_loops_finish (t : Ty) (z : Val) (k : KeyTy) (max n m : Nat) (acc : List (Key × Val))
    (b : Bytes) (tr : Bool) (hn : b.length < n) (hm : b.length < m) :
    sliceLoop (nullable (decode t) z) max n b tr = sliceLoop (nullable (decode t) z) max m b tr ∧
    mapLoop k (nullable (decode t) z) max n acc b tr = mapLoop k (nullable (decode t) z) max m acc b tr :=
  ⟨sliceLoop_fuel _ _ (fun b tr => nullable_used _ _ _ _ _ (decode_used t max b tr)) _ _ _ _ hn hm,
   mapLoop_fuel k _ _ (fun b tr => nullable_used _ _ _ _ _ (decode_used t max b tr)) _ _ _ _ _ hn hm⟩

theorem staleChild_struct (ts : List Ty) (max : Nat) (b : Bytes) (v : Val) (r : Bytes)
    (hd : decode (.struct ts) max b false = .ok v r) : staleChild (.struct ts) max b = none := by
  simp only [decode, inList] at hd
  simp only [staleChild]
  cases hr : readListHeader b false with
  | ok n r' =>
    rw [hr] at hd
    simp only at hd ⊢
    cases hf : decodeFields ts (min max n) (r'.take n) (decide (r'.length < n)) with
    | ok ws r'' => rfl
    | nil r'' => rw [hf] at hd; cases hd
    | eof => rfl
    | err => rfl
  | nil r' => rfl
  | eof => rfl
  | err => rfl

/-- **C39.** A reader whose struct has more fields than the writer's gets zero values for them. -/
theorem C39_added_fields (ts us : List Ty) (vs : List Val) (rest : Bytes) (hw : WfTys ts)
    (h : HasTys ts vs) (hl : (marshalToBytes (.struct vs) ++ rest).length < 2 ^ 63) :
    unmarshalFromBytes (.struct (ts ++ us)) none (marshalToBytes (.struct vs) ++ rest)
      = some ((.struct (vs ++ zeros us), rest), none) := by
  have key : ∀ (ts : List Ty) (vs : List Val) max, WfTys ts → HasTys ts vs → StrLes max vs →
      ((vs.map encode).flatten).length < 2 ^ 63 →
      decodeFields (ts ++ us) max (vs.map encode).flatten false = .ok (vs ++ zeros us) [] := by
    intro ts
    induction ts with
    | nil =>
      intro vs max _ h _ _
      cases vs with
      | nil => simpa using fields_missing us max
      | cons _ _ => simp [HasTys] at h
    | cons t ts ih =>
      intro vs max hw h hs hl
      cases vs with
      | nil => simp [HasTys] at h
      | cons v vs =>
        simp only [HasTys] at h
        simp only [WfTys] at hw
        simp only [StrLes] at hs
        simp only [List.map_cons, List.flatten_cons, List.length_append] at hl
        simp only [List.map_cons, List.flatten_cons, List.cons_append, decodeFields,
          decode_encode t v max _ false hw.1 h.1 hs.1 (by omega), ih vs max hw.2 h.2 hs.2 (by omega)]
  have hl' : (encode (.struct vs)).length < 2 ^ 63 := by
    simp only [marshalToBytes, List.length_append] at hl; omega
  simp only [encode, encodeAll_eq] at hl'
  have hwl := writeList_length (vs.map encode).flatten
  have hd : decode (.struct (ts ++ us)) (marshalToBytes (.struct vs) ++ rest).length
    (marshalToBytes (.struct vs) ++ rest) false = .ok (.struct (vs ++ zeros us)) rest := by
      simp only [marshalToBytes, encode, encodeAll_eq, decode]
      apply inList_writeList _ _ _ _ (by omega) _ _ []
      rw [key ts vs _ hw h _ (by omega)]
      · rfl
      · apply strLes_mono _ vs (strLes_encode ts vs h)
        simp only [List.length_append]; omega
  simp only [unmarshalFromBytes, hd, staleChild_struct _ _ _ _ _ hd]

/-- **C39.** A reader whose struct has fewer fields than the writer's ignores the others. -/
theorem C39_removed_fields (ts : List Ty) (vs ws : List Val) (rest : Bytes) (hw : WfTys ts)
    (h : HasTys ts vs)
    (hl : (marshalToBytes (.struct (vs ++ ws)) ++ rest).length < 2 ^ 63) :
    unmarshalFromBytes (.struct ts) none (marshalToBytes (.struct (vs ++ ws)) ++ rest)
      = some ((.struct vs, rest), none) := by
  have hl' : (encode (.struct (vs ++ ws))).length < 2 ^ 63 := by
    simp only [marshalToBytes, List.length_append] at hl; omega
  simp only [encode, encodeAll_eq] at hl'
  have hwl := writeList_length ((vs ++ ws).map encode).flatten
  have hap : ((vs ++ ws).map encode).flatten = (vs.map encode).flatten ++ (ws.map encode).flatten := by
    simp
  have hlen : ((vs.map encode).flatten).length ≤ (((vs ++ ws).map encode).flatten).length := by
    rw [hap]; simp
  have hd : decode (.struct ts) (marshalToBytes (.struct (vs ++ ws)) ++ rest).length
    (marshalToBytes (.struct (vs ++ ws)) ++ rest) false = .ok (.struct vs) rest := by
      simp only [marshalToBytes, encode, encodeAll_eq, decode]
      apply inList_writeList _ _ _ _ (by omega) _ _ ((ws.map encode).flatten)
      rw [hap] at hwl hl' hlen ⊢
      rw [fields_of_encode ts vs _ _ false hw h _ (by omega)]
      · rfl
      · apply strLes_mono _ vs (strLes_encode ts vs h)
        simp only [List.length_append] at *; omega
  simp only [unmarshalFromBytes, hd, staleChild_struct _ _ _ _ _ hd]

theorem insertKey_comm {α : Type} (a b : Key) (x y : α) (acc : List (Key × α)) (hab : a ≠ b) :
    insertKey b y (insertKey a x acc) = insertKey a x (insertKey b y acc) := by
  have hba : b ≠ a := fun h => hab h.symm
  have htot : (keyLt a b = true ∧ keyLt b a = false) ∨ (keyLt a b = false ∧ keyLt b a = true) := by
    cases h : keyLt a b with
    | true => exact Or.inl ⟨rfl, keyLt_asymm _ _ h⟩
    | false =>
      cases h' : keyLt b a with
      | true => exact Or.inr ⟨rfl, rfl⟩
      | false => exact absurd (keyLt_tri a b h h') hab
  induction acc with
  | nil => rcases htot with ⟨h, h'⟩ | ⟨h, h'⟩ <;> simp [insertKey, h, h', hab, hba]
  | cons c acc ih =>
    obtain ⟨k, v⟩ := c
    have i1 := keyLt_irrefl k
    by_cases ha : a = k
    · subst ha
      rcases htot with ⟨h, h'⟩ | ⟨h, h'⟩ <;> simp [insertKey, h, h', hab, hba, i1]
    by_cases hb : b = k
    · subst hb
      rcases htot with ⟨h, h'⟩ | ⟨h, h'⟩ <;> simp [insertKey, h, h', hab, hba, i1]
    have t1 := keyLt_trans a b k
    have t2 := keyLt_trans b a k
    rcases htot with ⟨h, h'⟩ | ⟨h, h'⟩ <;> cases hx : keyLt a k <;> cases hy : keyLt b k <;>
      first
      | (simp [insertKey, h, h', hab, hba, ha, hb, hx, hy]; done)
      | (simp [insertKey, h, h', hab, hba, ha, hb, hx, hy, ih]; done)
      | (rw [t1 h hy] at hx; cases hx)
      | (rw [t2 h' hx] at hy; cases hy)

/-- **C39.** The encoding of a map does not depend on the order in which its entries are listed. -/
theorem C39_map_order (l l' : List (Key × Val)) (hp : l.Perm l') (hd : (l.map Prod.fst).Nodup) :
    marshalToBytes (.map (l.map Prod.fst) (l.map Prod.snd))
      = marshalToBytes (.map (l'.map Prod.fst) (l'.map Prod.snd)) := by
  have hz : ∀ l : List (Key × Val), (l.map Prod.fst).zip ((l.map Prod.snd).map encode)
      = l.map (fun e => (e.1, encode e.2)) := by
    intro l
    induction l with
    | nil => rfl
    | cons e l ih => simpa using ih
  have hsort : ∀ l l' : List (Key × Bytes), l.Perm l' → (l.map Prod.fst).Nodup →
      ∀ acc, l.foldl (fun acc e => insertKey e.1 e.2 acc) acc
        = l'.foldl (fun acc e => insertKey e.1 e.2 acc) acc := by
    intro l l' hp
    induction hp with
    | nil => intros; rfl
    | cons x _ ih =>
      intro hd acc
      simp only [List.map_cons, List.nodup_cons] at hd
      simp only [List.foldl_cons]
      exact ih hd.2 _
    | swap x y l =>
      intro hd acc
      simp only [List.map_cons, List.nodup_cons, List.mem_cons, not_or] at hd
      simp only [List.foldl_cons]
      rw [insertKey_comm y.1 x.1 y.2 x.2 acc (fun h => hd.1.1 h)]
    | trans p _ ih1 ih2 =>
      intro hd acc
      rw [ih1 hd, ih2 ((p.map Prod.fst).nodup_iff.1 hd)]
  simp only [marshalToBytes, encode, encodeAll_eq, hz]
  have := hsort (l.map (fun e => (e.1, encode e.2))) (l'.map (fun e => (e.1, encode e.2)))
    (hp.map _) (by simpa [List.map_map, Function.comp_def] using hd) []
  simp only [sortKeys, this]

/-! ## Skipping and raw values -/

theorem skip_writeBytes (b r : Bytes) (h : b.length < 2 ^ 63) : skipOne (writeBytes b ++ r) = some r := by
  unfold writeBytes
  by_cases h0 : b.length = 0
  · have : b = [] := by simpa using h0
    subst this
    simp [skipOne]
  rw [if_neg h0]
  by_cases h1 : b.length = 1 ∧ ∀ x ∈ b, x < 0x80
  · rw [if_pos h1]
    obtain ⟨x, rfl⟩ := List.length_eq_one_iff.1 h1.1
    have hx : x.toNat < 0x80 := h1.2 x (by simp)
    simp only [skipOne, List.cons_append, List.nil_append]
    rw [if_pos hx]
  rw [if_neg h1]
  by_cases h2 : b.length ≤ 55
  · rw [if_pos h2]
    simp only [skipOne, List.cons_append]
    rw [u8_toNat_ofNat (by omega), if_neg (by omega), if_pos (by omega),
      show 128 + b.length - 128 = b.length by omega, if_pos (by simp), List.drop_left]
  · rw [if_neg h2]
    obtain ⟨e1, e2, e3⟩ := sizeToBytes_spec b.length h (by omega)
    simp only [skipOne, List.cons_append, List.append_assoc]
    rw [u8_toNat_ofNat (by omega), if_neg (by omega), if_neg (by omega), if_pos (by omega),
      show 128 + 55 + (sizeToBytes b.length).length - 183 = (sizeToBytes b.length).length by omega,
      readSize_sizeToBytes _ h (by omega)]
    simp only
    rw [if_pos (by simp), List.drop_left]

theorem skip_writeList (b r : Bytes) (h : b.length < 2 ^ 63) : skipOne (writeList b ++ r) = some r := by
  unfold writeList
  by_cases h0 : b.length = 0
  · have : b = [] := by simpa using h0
    subst this
    simp [skipOne]
  rw [if_neg h0]
  by_cases h2 : b.length ≤ 55
  · rw [if_pos h2]
    simp only [skipOne, List.cons_append]
    rw [u8_toNat_ofNat (by omega), if_neg (by omega), if_neg (by omega), if_neg (by omega),
      if_pos (by omega), show 192 + b.length - 192 = b.length by omega, if_pos (by simp),
      List.drop_left]
  · rw [if_neg h2]
    obtain ⟨e1, e2, e3⟩ := sizeToBytes_spec b.length h (by omega)
    simp only [skipOne, List.cons_append, List.append_assoc]
    rw [u8_toNat_ofNat (by omega), if_neg (by omega), if_neg (by omega), if_neg (by omega),
      if_neg (by omega),
      show 192 + 55 + (sizeToBytes b.length).length - 247 = (sizeToBytes b.length).length by omega,
      readSize_sizeToBytes _ h (by omega)]
    simp only
    rw [if_pos (by simp), List.drop_left]

theorem skip_null (r : Bytes) : skipOne (nullSequence ++ r) = some r := by
  have : readSize 1 (0 :: r) = some (0, r) := by
    simp [readSize, readAll, bytesToSize, goSafeBytesToSize64, accBytes]
  simp only [skipOne, nullSequence, List.cons_append, List.nil_append]
  rw [if_neg (by decide), if_neg (by decide), if_neg (by decide), if_neg (by decide),
    show (248 : UInt8).toNat - 247 = 1 from rfl, this]
  simp

theorem skip_encode : ∀ (t : Ty) (v : Val) (r : Bytes), HasTy t v → (encode v).length < 2 ^ 63 →
    skipOne (encode v ++ r) = some r := by
  intro t
  induction t using Ty.rec (motive_2 := fun _ => True) with
  | ptr t ih =>
    intro v r h hl
    cases v <;> simp only [HasTy] at h
    · simp only [encode]; exact skip_null r
    · simp only [encode] at hl ⊢; exact ih _ r h hl
  | nil => trivial
  | cons => trivial
  | _ =>
    intro v r h hl
    cases v <;> simp only [HasTy] at h <;> simp only [encode] at hl ⊢ <;>
      first
      | (with_reducible exact skip_null r)
      | (with_reducible apply skip_writeBytes; exact lt_of_le_of_lt (writeBytes_length _) hl)
      | (with_reducible apply skip_writeList; exact lt_trans (writeList_length _) hl)

/-- **C39.** `Skip` passes over exactly one marshalled value of any type. -/
theorem C39_skip (t : Ty) (v : Val) (rest : Bytes) (h : HasTy t v)
    (hl : (marshalToBytes v).length < 2 ^ 63) : skipOne (marshalToBytes v ++ rest) = some rest :=
  skip_encode t v rest h hl

/-- `readRaw` reads what `skipOne` skips. -/
theorem readRaw_skip (max : Nat) (b r : Bytes) (h : skipOne b = some r) (hm : b.length ≤ r.length + max) : ∃ c, readRaw max b = some (c, r) ∧ b = c ++ r := by
  cases b with
  | nil => cases h
  | cons x b =>
    simp only [skipOne] at h
    simp only [readRaw]
    have more : ∀ (org : Bytes) (n : Nat) (b' : Bytes), (x :: b) = org ++ b' →
        (if n ≤ b'.length then some (b'.drop n) else none) = some r →
        ∃ c, readMore max org n b' = some (c, r) ∧ (x :: b) = c ++ r := by
      intro org n b' he hn
      by_cases hle : n ≤ b'.length
      · rw [if_pos hle] at hn
        cases hn
        have hlen := congrArg List.length he
        simp only [List.length_append, List.length_cons, List.length_drop] at hlen hm
        refine ⟨org ++ b'.take n, ?_, ?_⟩
        · unfold readMore readAll
          rw [if_neg (by omega), if_pos hle]
        · rw [he, List.append_assoc, List.take_append_drop]
      · rw [if_neg hle] at hn; cases hn
    have sz : ∀ n v b', readSize n b = some (v, b') → (x :: b) = (x :: b.take n) ++ b' := by
      intro n v b' hr
      unfold readSize at hr
      cases hra : readAll n b with
      | none => rw [hra] at hr; cases hr
      | some p =>
        rw [hra] at hr
        simp only at hr
        unfold readAll at hra
        split_ifs at hra with hle
        cases hra
        simp only at hr
        cases hs : bytesToSize (b.take n) with
        | none => rw [hs] at hr; cases hr
        | some w => rw [hs] at hr; cases hr; simp
    by_cases h1 : x.toNat < 128
    · rw [if_pos h1] at h ⊢
      cases h
      exact ⟨[x], rfl, rfl⟩
    rw [if_neg h1] at h ⊢
    by_cases h2 : x.toNat ≤ 183
    · rw [if_pos h2] at h ⊢; exact more [x] _ b rfl h
    rw [if_neg h2] at h ⊢
    by_cases h3 : x.toNat < 192
    · rw [if_pos h3] at h ⊢
      cases hr : readSize (x.toNat - 183) b with
      | none => rw [hr] at h; cases h
      | some p => rw [hr] at h; exact more _ _ _ (sz _ _ _ hr) h
    rw [if_neg h3] at h ⊢
    by_cases h4 : x.toNat ≤ 247
    · rw [if_pos h4] at h ⊢; exact more [x] _ b rfl h
    rw [if_neg h4] at h ⊢
    cases hr : readSize (x.toNat - 247) b with
    | none => rw [hr] at h; cases h
    | some p => rw [hr] at h; exact more _ _ _ (sz _ _ _ hr) h

/-- **C39.** Reading a value raw gives its very bytes, if there are at most `max` of them. -/
theorem C39_raw (t : Ty) (v : Val) (rest : Bytes) (max : Nat) (h : HasTy t v)
    (hl : (marshalToBytes v).length < 2 ^ 63) (hm : (marshalToBytes v).length ≤ max) :
    readRaw max (marshalToBytes v ++ rest) = some (marshalToBytes v, rest) := by
  obtain ⟨c, h1, h2⟩ := readRaw_skip max (marshalToBytes v ++ rest) rest (C39_skip t v rest h hl)
    (by simp only [List.length_append]; omega)
  rw [h1, List.append_cancel_right h2]

/-- **C39.** Whatever the input, a raw value is a prefix of it and, unless it is a single byte, has at
most `max` bytes. -/
theorem C39_raw_limit (max : Nat) (b c r : Bytes) (h : readRaw max b = some (c, r)) :
    b = c ++ r ∧ (c.length ≤ max ∨ c.length = 1) := by
  have more : ∀ (org : Bytes) (n : Nat) (rr : Bytes), readMore max org n rr = some (c, r) →
      org ++ rr = c ++ r ∧ c.length ≤ max := by
    intro org n rr hm
    unfold readMore readAll at hm
    by_cases h1 : n + org.length > max
    · rw [if_pos h1] at hm; cases hm
    rw [if_neg h1] at hm
    by_cases h2 : n ≤ rr.length
    · rw [if_pos h2] at hm
      cases hm
      refine ⟨by simp, ?_⟩
      simp only [List.length_append, List.length_take]
      omega
    · rw [if_neg h2] at hm; cases hm
  have sz : ∀ (n m : Nat) (rr r' : Bytes), readSize n rr = some (m, r') → rr = rr.take n ++ r' := by
    intro n m rr r' hs
    unfold readSize readAll at hs
    by_cases h2 : n ≤ rr.length
    · rw [if_pos h2] at hs
      simp only at hs
      split at hs
      · cases hs; simp
      · cases hs
    · rw [if_neg h2] at hs; cases hs
  cases b with
  | nil => cases h
  | cons x b =>
    simp only [readRaw] at h
    split_ifs at h with h1 h2 h3 h4
    · cases h; simp
    · have := more _ _ _ h; exact ⟨by simpa using this.1, .inl this.2⟩
    · cases hr : readSize (x.toNat - 0xB7) b with
      | none => rw [hr] at h; cases h
      | some p =>
        rw [hr] at h
        have := more _ _ _ h
        rw [List.cons_append, ← sz _ _ _ _ hr] at this
        exact ⟨this.1, .inl this.2⟩
    · have := more _ _ _ h; exact ⟨by simpa using this.1, .inl this.2⟩
    · cases hr : readSize (x.toNat - 0xF7) b with
      | none => rw [hr] at h; cases h
      | some p =>
        rw [hr] at h
        have := more _ _ _ h
        rw [List.cons_append, ← sz _ _ _ _ hr] at this
        exact ⟨this.1, .inl this.2⟩

/-- **C39.** A number that was written is read into a narrower type only if it fits there: nothing is
cut off, and only 0 and 1 are truth values. -/
theorem C39_scalars_exact (rest : Bytes) (n : Nat) (hn : n < 2 ^ 64) (z : Int)
    (hz : -2 ^ 63 ≤ z ∧ z < 2 ^ 63) (w : Nat) (h1 : 1 ≤ w) (hw : w ≤ 64) :
    unmarshal (.uint w) (marshalToBytes (.uint n) ++ rest)
      = (if n < 2 ^ w then some (.uint n, rest) else none) ∧
    unmarshal (.int w) (marshalToBytes (.int z) ++ rest)
      = (if -2 ^ (w - 1) ≤ z ∧ z < 2 ^ (w - 1) then some (.int z, rest) else none) ∧
    unmarshal .bool (marshalToBytes (.uint n) ++ rest)
      = (if n = 0 then some (.bool false, rest)
         else if n = 1 then some (.bool true, rest) else none) := by
  have hv : (BitVec.ofNat 64 n).toNat = n := by
    rw [BitVec.toNat_ofNat]; exact Nat.mod_eq_of_lt hn
  have eu : readBytes 1000000 (writeBytes (goUint64ToBytes (BitVec.ofNat 64 n)) ++ rest) false
      = .ok (goUint64ToBytes (BitVec.ofNat 64 n)) rest := by
    have := goUint64_length (BitVec.ofNat 64 n)
    exact readBytes_writeBytes _ _ _ _ (.inl (by omega)) (by omega)
  have ei : readBytes 1000000 (writeBytes (goInt64ToBytes (BitVec.ofInt 64 z)) ++ rest) false
      = .ok (goInt64ToBytes (BitVec.ofInt 64 z)) rest := by
    have := goInt64_length (BitVec.ofInt 64 z)
    exact readBytes_writeBytes _ _ _ _ (.inl (by omega)) (by omega)
  refine ⟨?_, ?_, ?_⟩
  · simp only [unmarshal, marshalToBytes, encode, decode, eu, Res.bind]
    unfold toUint
    rw [C38_go_uint64_decoder.2]
    simp only [hv]
    by_cases hf : n < 2 ^ w
    · rw [if_pos hf, if_pos (Nat.mod_eq_of_lt hf).symm]; rfl
    · rw [if_neg hf, if_neg (by
        intro e
        have := Nat.mod_lt n (Nat.two_pow_pos w)
        omega)]
      rfl
  · simp only [unmarshal, marshalToBytes, encode, decode, ei, Res.bind]
    by_cases hf : -2 ^ (w - 1) ≤ z ∧ z < 2 ^ (w - 1)
    · rw [if_pos hf, toInt_enc w z h1 hw hf.1 hf.2]; rfl
    · rw [if_neg hf]
      have e64 := toInt_enc 64 z (by omega) (by omega) hz.1 hz.2
      unfold toInt at e64 ⊢
      cases hg : goSafeBytesToInt64 (goInt64ToBytes (BitVec.ofInt 64 z)) with
      | none => rfl
      | some v =>
        rw [hg] at e64
        simp only at e64 ⊢
        split_ifs at e64
        have ev : v.toInt = z := by injection e64
        rw [ev]
        by_cases hc : z = (BitVec.ofInt w z).toInt
        · exfalso
          apply hf
          obtain ⟨k, rfl⟩ : ∃ k, w = k + 1 := ⟨w - 1, by omega⟩
          have a := BitVec.two_mul_toInt_lt (x := BitVec.ofInt (k + 1) z)
          have b := BitVec.le_two_mul_toInt (x := BitVec.ofInt (k + 1) z)
          rw [← hc] at a b
          have e : (2 : Int) ^ (k + 1) = 2 * 2 ^ k := by ring
          simp only [Nat.add_sub_cancel]
          omega
        · rw [if_neg hc]; rfl
  · simp only [unmarshal, marshalToBytes, encode, decode, eu, Res.bind]
    unfold toBool
    rw [C38_go_uint64_decoder.2]
    simp only [hv]
    by_cases h0 : n = 0
    · rw [if_pos h0, if_pos h0]; rfl
    rw [if_neg h0, if_neg h0]
    by_cases h2 : n = 1
    · rw [if_pos h2, if_pos h2]; rfl
    · rw [if_neg h2, if_neg h2]; rfl

example : unmarshal (.uint 8) (marshalToBytes (.uint 300)) = none ∧
    unmarshal (.uint 16) (marshalToBytes (.uint 300)) = some (.uint 300, []) := by
  refine ⟨by rfl, by rfl⟩

/-! ## Findings -/

/-- **C39, finding.** Different messages are accepted for the same value: a small byte may come with a
length, a length may have leading zeros, and so on. -/
theorem C39_not_canonical :
    unmarshal (.uint 64) [0x05] = some (.uint 5, []) ∧
    unmarshal (.uint 64) [0x81, 0x05] = some (.uint 5, []) ∧
    unmarshal (.uint 64) [0xb8, 0x01, 0x05] = some (.uint 5, []) ∧
    unmarshal (.uint 64) [0x82, 0x00, 0x05] = some (.uint 5, []) ∧
    unmarshal (.uint 64) [0x80] = some (.uint 0, []) ∧
    unmarshal (.slice (.uint 64)) [0xc1, 0x05] = unmarshal (.slice (.uint 64)) [0xf8, 0x01, 0x05] := by
  refine ⟨rfl, rfl, rfl, rfl, rfl, rfl⟩

/-- **C39, finding.** A null inside the struct a field points to makes that field nil, and the fields
after it are then read from inside the abandoned list: here the 7 written for the last field is never
looked at, and the 5 belonging to the inner struct is taken instead. -/
theorem C39_null_shifts_fields :
    unmarshal (.struct [.ptr (.struct [.uint 8, .uint 8]), .uint 8])
      [0xc5, 0xc3, 0xf8, 0x00, 0x05, 0x07] = some (.struct [.ptrNil, .uint 5], []) := rfl

/-- **C39, finding.** A decoder goes back to the pool with the list abandoned in this way still open,
and the next message unmarshalled with it, of any type, is refused although it may be valid. -/
theorem C39_poisoned_decoder :
    ∃ b : Bytes, b.length = 11 ∧ ∃ n : Nat,
      unmarshalFromBytes (.ptr (.struct [.uint 8])) none b = some ((.ptrNil, []), some n) ∧
      (∀ t v, (marshalToBytes v).length < 2 ^ 63 - 3 → unmarshalFromBytes t (some n) (marshalToBytes v) = none) := by
  refine ⟨[0xff, 0x7f, 0xff, 0xff, 0xff, 0xff, 0xff, 0xff, 0xff, 0xf8, 0x00], rfl, 2 ^ 63 - 3,
    by rfl, ?_⟩
  intro t v hl
  simp only [unmarshalFromBytes]
  rw [if_neg (by omega)]

/-- **C39.** Types for which that cannot happen: unmarshalling directly into a value of them always
returns the decoder clean, whatever the bytes. -/
theorem C39_clean_decoder (t : Ty) (h : (∀ u, t ≠ .ptr u) ∧ ∀ ts, t ≠ .struct ts) (s : Option Nat)
    (b : Bytes) (v : Val × Bytes) (s' : Option Nat) (hu : unmarshalFromBytes t s b = some (v, s')) :
    s' = none := by
  have hn : ∀ max b, staleChild t max b = none := by
    intro max b
    cases t <;> simp only [staleChild]
    · exact absurd rfl (h.1 _)
    · exact absurd rfl (h.2 _)
  simp only [unmarshalFromBytes] at hu
  split at hu
  · cases hu
  · split at hu
    · cases hu; exact hn _ _
    · cases hu

/-- **C39.** So is unmarshalling into a struct, which fails instead. -/
theorem C39_clean_decoder_struct (ts : List Ty) (s : Option Nat) (b : Bytes) (v : Val × Bytes)
    (s' : Option Nat) (hu : unmarshalFromBytes (.struct ts) s b = some (v, s')) : s' = none := by
  simp only [unmarshalFromBytes] at hu
  split at hu
  · cases hu
  · rename_i b' _
    cases hd : decode (.struct ts) b.length b' false with
    | ok w r => rw [hd] at hu; cases hu; exact staleChild_struct ts _ _ _ _ hd
    | nil r => rw [hd] at hu; cases hu
    | eof => rw [hd] at hu; cases hu
    | err => rw [hd] at hu; cases hu

/-! ## A concrete case -/

/-- A struct like a transaction header: version, sender, optional value, a map and nested slices. -/
def demoTy : Ty :=
  .struct [.uint 16, .bytesN 3, .ptr .big, .map .str (.int 32), .slice (.slice .bytes), .str]

/-- A value of it. -/
def demoVal : Val :=
  .struct [.uint 300, .bytesN [1, 2, 3], .ptr (.big (-129)),
    .map [.str [97], .str [97, 98]] [.int (-5), .int 70000],
    .slice [.sliceNil, .slice [.bytesNil, .bytes [], .bytes [200]]], .str [104, 105]]

example : WfTy demoTy ∧ HasTy demoTy demoVal := by
  simp [demoTy, demoVal, WfTy, WfTys, KeyWf, Nilable, HasTy, HasTys, KeyOk, keyLt, bytesLt]

example : unmarshalFromBytes demoTy none (marshalToBytes demoVal ++ [9, 9])
    = some ((demoVal, [9, 9]), none) :=
  C39_roundtrip demoTy demoVal [9, 9]
    (by simp [demoTy, WfTy, WfTys, KeyWf, Nilable])
    (by simp [demoTy, demoVal, HasTy, HasTys, KeyOk, keyLt, bytesLt]) (by decide +kernel)

end Verif.Rlp
