import Verif.Rlp.Lemmas

/-! # Decoding what was encoded -/

namespace Verif.Rlp
open Verif Verif.IntCodec

/-! ## Keys -/

theorem bytesLt_irrefl (a : Bytes) : bytesLt a a = false := by
  induction a with
  | nil => rfl
  | cons x a ih => simp [bytesLt, ih]

theorem bytesLt_asymm (a b : Bytes) (h : bytesLt a b = true) : bytesLt b a = false := by
  induction a generalizing b with
  | nil => cases b <;> simp_all [bytesLt]
  | cons x a ih =>
    cases b with
    | nil => simp [bytesLt] at h
    | cons y b =>
      simp only [bytesLt, Bool.or_eq_true, decide_eq_true_eq, Bool.and_eq_true, beq_iff_eq] at h
      simp only [bytesLt, Bool.or_eq_false_iff, decide_eq_false_iff_not, Bool.and_eq_false_iff,
        beq_eq_false_iff_ne]
      rcases h with h | ⟨rfl, h⟩
      · exact ⟨by omega, Or.inl (by rintro rfl; omega)⟩
      · exact ⟨by omega, Or.inr (ih b h)⟩

theorem bytesLt_trans (a b c : Bytes) (h : bytesLt a b = true) (h' : bytesLt b c = true) :
    bytesLt a c = true := by
  induction a generalizing b c with
  | nil => cases b <;> cases c <;> simp_all [bytesLt]
  | cons x a ih =>
    cases b with
    | nil => simp [bytesLt] at h
    | cons y b =>
      cases c with
      | nil => simp [bytesLt] at h'
      | cons z c =>
        simp only [bytesLt, Bool.or_eq_true, decide_eq_true_eq, Bool.and_eq_true, beq_iff_eq] at h h' ⊢
        rcases h with h | ⟨rfl, h⟩ <;> rcases h' with h' | ⟨rfl, h'⟩
        · exact Or.inl (by omega)
        · exact Or.inl h
        · exact Or.inl h'
        · exact Or.inr ⟨rfl, ih b c h h'⟩

theorem bytesLt_tri (a b : Bytes) (h : bytesLt a b = false) (h' : bytesLt b a = false) : a = b := by
  induction a generalizing b with
  | nil => cases b <;> simp_all [bytesLt]
  | cons x a ih =>
    cases b with
    | nil => simp [bytesLt] at h'
    | cons y b =>
      simp only [bytesLt, Bool.or_eq_false_iff, decide_eq_false_iff_not, Bool.and_eq_false_iff,
        beq_eq_false_iff_ne] at h h'
      have hxy : x = y := UInt8.toNat_inj.1 (by omega)
      subst hxy
      rw [ih b (by simpa using h.2) (by simpa using h'.2)]

theorem keyLt_asymm (a b : Key) (h : keyLt a b = true) : keyLt b a = false := by
  cases a <;> cases b <;> simp only [keyLt, decide_eq_true_eq, decide_eq_false_iff_not] at h ⊢ <;>
    first
    | exact bytesLt_asymm _ _ h
    | (exact Bool.noConfusion h)
    | omega
    | trivial

theorem keyLt_trans (a b c : Key) (h : keyLt a b = true) (h' : keyLt b c = true) :
    keyLt a c = true := by
  cases a <;> cases b <;> cases c <;> simp only [keyLt, decide_eq_true_eq] at h h' ⊢ <;>
    first
    | exact bytesLt_trans _ _ _ h h'
    | (exact Bool.noConfusion h)
    | (exact Bool.noConfusion h')
    | omega
    | trivial

theorem keyLt_tri (a b : Key) (h : keyLt a b = false) (h' : keyLt b a = false) : a = b := by
  cases a <;> cases b <;> simp only [keyLt, decide_eq_false_iff_not] at h h' <;>
    first
    | (rw [bytesLt_tri _ _ h h'])
    | (exact Bool.noConfusion h)
    | (exact Bool.noConfusion h')
    | (congr 1; omega)

theorem keyLt_irrefl (a : Key) : keyLt a a = false := by
  cases h : keyLt a a with
  | false => rfl
  | true => exact absurd h (by rw [keyLt_asymm a a h]; simp)

theorem insertKey_append {α : Type} (k : Key) (v : α) (acc : List (Key × α))
    (h : ∀ e ∈ acc, keyLt e.1 k = true) : insertKey k v acc = acc ++ [(k, v)] := by
  induction acc with
  | nil => rfl
  | cons e acc ih =>
    obtain ⟨k', v'⟩ := e
    have h1 := h _ List.mem_cons_self
    simp only [insertKey]
    rw [if_neg (by rw [keyLt_asymm _ _ h1]; simp),
      if_neg (by rintro rfl; rw [keyLt_irrefl] at h1; exact absurd h1 (by simp)),
      ih (fun e he => h e (List.mem_cons_of_mem _ he))]
    rfl

theorem sortKeys_sorted {α : Type} (l acc : List (Key × α))
    (h : (acc ++ l).Pairwise (fun a b => keyLt a.1 b.1 = true)) :
    l.foldl (fun acc e => insertKey e.1 e.2 acc) acc = acc ++ l := by
  induction l generalizing acc with
  | nil => simp
  | cons e l ih =>
    have he : insertKey e.1 e.2 acc = acc ++ [e] :=
      insertKey_append _ _ _ (fun x hx => (List.pairwise_append.1 h).2.2 x hx e List.mem_cons_self)
    rw [List.foldl_cons, he, ih _ (by simpa using h)]
    simp

theorem zip_pairwise {α : Type} (ks : List Key) (l : List α)
    (h : ks.Pairwise (fun a b => keyLt a b = true)) :
    (ks.zip l).Pairwise (fun a b => keyLt a.1 b.1 = true) := by
  induction ks generalizing l with
  | nil => simp
  | cons k ks ih =>
    cases l with
    | nil => simp
    | cons x l =>
      rw [List.zip_cons_cons, List.pairwise_cons]
      rw [List.pairwise_cons] at h
      exact ⟨fun e he => h.1 _ (List.of_mem_zip he).1, ih l h.2⟩

theorem sortKeys_zip {α : Type} (ks : List Key) (l : List α)
    (h : ks.Pairwise (fun a b => keyLt a b = true)) : sortKeys (ks.zip l) = ks.zip l := by
  have := sortKeys_sorted (ks.zip l) [] (by simpa using zip_pairwise ks l h)
  simpa [sortKeys] using this

theorem encodeKey_ne (k : Key) : encodeKey k ≠ [] := by
  cases k <;> exact writeBytes_ne _

theorem decodeKey_encodeKey (k : KeyTy) (key : Key) (max : Nat) (r : Bytes) (tr : Bool)
    (hw : KeyWf k) (hk : KeyOk k key) (hm : KeyStrLe max key) (hl : (encodeKey key).length < 2 ^ 63) :
    decodeKey k max (encodeKey key ++ r) tr = .ok key r := by
  cases k <;> cases key <;> simp only [KeyOk] at hk
  · rename_i b
    simp only [encodeKey] at hl
    have := writeBytes_length b
    simp only [decodeKey, encodeKey]
    rw [readBytes_writeBytes _ _ _ _ (Or.inl hm) (by omega)]
    rfl
  · rename_i w n
    simp only [decodeKey, encodeKey]
    have := goUint64_length (BitVec.ofNat 64 n)
    rw [readBytes_writeBytes _ _ _ _ (Or.inr (by omega)) (by omega)]
    simp only [Res.bind, toUint_enc w n hw.2 hk]
    rfl
  · rename_i w z
    simp only [decodeKey, encodeKey]
    have := goInt64_length (BitVec.ofInt 64 z)
    rw [readBytes_writeBytes _ _ _ _ (Or.inr (by omega)) (by omega)]
    simp only [Res.bind, toInt_enc w z hw.1 hw.2 hk.1 hk.2]
    rfl

/-! ## Values -/

theorem encodeAll_eq (vs : List Val) : encodeAll vs = vs.map encode := by
  induction vs with
  | nil => rfl
  | cons v vs ih => simp [encodeAll, ih]

theorem encode_ne : ∀ v, encode v ≠ []
  | .bool _ => by rw [encode]; exact writeBytes_ne _
  | .uint _ => by rw [encode]; exact writeBytes_ne _
  | .int _ => by rw [encode]; exact writeBytes_ne _
  | .str _ => by rw [encode]; exact writeBytes_ne _
  | .big _ => by rw [encode]; exact writeBytes_ne _
  | .bytesNil => by rw [encode]; simp [nullSequence]
  | .bytes _ => by rw [encode]; exact writeBytes_ne _
  | .bytesN _ => by rw [encode]; exact writeBytes_ne _
  | .sliceNil => by rw [encode]; simp [nullSequence]
  | .slice _ => by rw [encode]; exact writeList_ne _
  | .array _ => by rw [encode]; exact writeList_ne _
  | .ptrNil => by rw [encode]; simp [nullSequence]
  | .ptr v => by rw [encode]; exact encode_ne v
  | .struct _ => by rw [encode]; exact writeList_ne _
  | .mapNil => by rw [encode]; simp [nullSequence]
  | .map _ _ => by rw [encode]; exact writeList_ne _

theorem decode_nil (t : Ty) (max : Nat) : decode t max [] false = .eof := by
  induction t using Ty.rec (motive_2 := fun _ => True) <;> try trivial
  all_goals first
    | (simp only [decode, readBytes, Res.bind, nilIs]; rfl)
    | (simp only [decode, nilHeader, inList, readListHeader]; rfl)
    | skip
  rename_i t ih
  simp only [decode, ih, Res.bind, nilIs]

theorem decodeKey_nil (k : KeyTy) (max : Nat) : decodeKey k max [] false = .eof := by
  cases k <;> rfl

theorem decode_null (t : Ty) (max : Nat) (r : Bytes) (tr : Bool) (h : ¬ Nilable t) :
    decode t max (nullSequence ++ r) tr = .nil r := by
  cases t <;> simp only [Nilable, not_true_eq_false] at h <;>
    first
    | (simp only [decode, inList, readListHeader_null]; done)
    | (simp only [decode, readBytes_null, Res.bind]; done)

theorem nullable_ok {f : Dec Val} {z v : Val} {max : Nat} {b r : Bytes} {tr : Bool}
    (h : f max b tr = .ok v r) : nullable f z max b tr = .ok v r := by
  simp only [nullable, h]

theorem nullable_eof {f : Dec Val} {z : Val} {max : Nat} {b : Bytes} {tr : Bool}
    (h : f max b tr = .eof) : nullable f z max b tr = .eof := by
  simp only [nullable, h]

theorem sliceLoop_enc (f : Dec Val) (max : Nat) (vs : List Val) (fuel : Nat)
    (hf : ∀ v ∈ vs, ∀ r, f max (encode v ++ r) false = .ok v r)
    (he : f max [] false = .eof) (hn : vs.length < fuel) :
    sliceLoop f max fuel (vs.map encode).flatten false = .ok vs [] := by
  induction vs generalizing fuel with
  | nil =>
    obtain ⟨n, rfl⟩ : ∃ n, fuel = n + 1 := ⟨fuel - 1, by simp at hn; omega⟩
    simp [sliceLoop, he]
  | cons v vs ih =>
    obtain ⟨n, rfl⟩ : ∃ n, fuel = n + 1 := ⟨fuel - 1, by simp at hn; omega⟩
    simp only [List.map_cons, List.flatten_cons, sliceLoop, hf v List.mem_cons_self]
    rw [ih n (fun w hw => hf w (List.mem_cons_of_mem _ hw)) (by simp at hn; omega)]

theorem arrayLoop_enc (f : Dec Val) (z : Val) (max : Nat) (vs : List Val)
    (hf : ∀ v ∈ vs, ∀ r, f max (encode v ++ r) false = .ok v r) (r : Bytes) :
    arrayLoop f z max vs.length ((vs.map encode).flatten ++ r) false = .ok vs r := by
  induction vs with
  | nil => simp [arrayLoop]
  | cons v vs ih =>
    simp only [List.map_cons, List.flatten_cons, List.length_cons, arrayLoop, List.append_assoc,
      hf v List.mem_cons_self]
    rw [ih (fun w hw => hf w (List.mem_cons_of_mem _ hw))]

theorem mapLoop_enc (k : KeyTy) (f : Dec Val) (max : Nat) (es acc : List (Key × Val)) (fuel : Nat)
    (hk : ∀ e ∈ es, ∀ r, decodeKey k max (encodeKey e.1 ++ r) false = .ok e.1 r)
    (hf : ∀ e ∈ es, ∀ r, f max (encode e.2 ++ r) false = .ok e.2 r)
    (hs : (acc ++ es).Pairwise (fun a b => keyLt a.1 b.1 = true)) (hn : es.length < fuel) :
    mapLoop k f max fuel acc (es.map (fun e => encodeKey e.1 ++ encode e.2)).flatten false
      = .ok (acc ++ es) [] := by
  induction es generalizing fuel acc with
  | nil =>
    obtain ⟨n, rfl⟩ : ∃ n, fuel = n + 1 := ⟨fuel - 1, by simp at hn; omega⟩
    simp [mapLoop, decodeKey_nil]
  | cons e es ih =>
    obtain ⟨n, rfl⟩ : ∃ n, fuel = n + 1 := ⟨fuel - 1, by simp at hn; omega⟩
    simp only [List.map_cons, List.flatten_cons, mapLoop, List.append_assoc,
      hk e List.mem_cons_self, hf e List.mem_cons_self]
    have he : insertKey e.1 e.2 acc = acc ++ [e] :=
      insertKey_append _ _ _ (fun x hx => (List.pairwise_append.1 hs).2.2 x hx e List.mem_cons_self)
    rw [he, ih (acc ++ [e]) n (fun w hw => hk w (List.mem_cons_of_mem _ hw))
      (fun w hw => hf w (List.mem_cons_of_mem _ hw)) (by simpa using hs) (by simp at hn; omega)]
    simp

theorem inList_writeList {α : Type} (max : Nat) (c r : Bytes) (tr : Bool) (hl : c.length < 2 ^ 63)
    (body : Nat → Bytes → Bool → Res α) (v : α) (x : Bytes)
    (hb : body (min max c.length) c false = .ok v x) :
    inList max (writeList c ++ r) tr body = .ok v r := by
  unfold inList
  rw [readListHeader_writeList c r tr hl]
  simp only [List.take_left, List.drop_left, List.length_append]
  rw [show (decide (c.length + r.length < c.length)) = false by simp, hb]
  simp only
  rw [if_neg (by omega)]

theorem inList_null {α : Type} (max : Nat) (r : Bytes) (tr : Bool)
    (body : Nat → Bytes → Bool → Res α) : inList max (nullSequence ++ r) tr body = .nil r := by
  unfold inList
  rw [readListHeader_null]

theorem nilHeader_writeList (z : Val) (c r : Bytes) (tr : Bool) (hl : c.length < 2 ^ 63) (x : Res Val) :
    nilHeader z (writeList c ++ r) tr x = x := by
  unfold nilHeader
  rw [readListHeader_writeList c r tr hl]

theorem strLes_iff (m : Nat) (vs : List Val) : StrLes m vs ↔ ∀ v ∈ vs, StrLe m v := by
  induction vs with
  | nil => simp [StrLes]
  | cons v vs ih => simp [StrLes, ih]

theorem keyStrLe_mono {m n : Nat} (h : m ≤ n) (k : Key) (hk : KeyStrLe m k) : KeyStrLe n k := by
  cases k <;> simp only [KeyStrLe] at hk ⊢
  exact le_trans hk h

mutual
theorem strLe_mono {m n : Nat} (h : m ≤ n) : ∀ v, StrLe m v → StrLe n v
  | .bool _, _ => by simp only [StrLe]
  | .uint _, _ => by simp only [StrLe]
  | .int _, _ => by simp only [StrLe]
  | .str _, hv => by simp only [StrLe] at hv ⊢; omega
  | .big _, hv => by simp only [StrLe] at hv ⊢; omega
  | .bytesNil, _ => by simp only [StrLe]
  | .bytes _, hv => by simp only [StrLe] at hv ⊢; omega
  | .bytesN _, hv => by simp only [StrLe] at hv ⊢; omega
  | .sliceNil, _ => by simp only [StrLe]
  | .slice vs, hv => by simp only [StrLe] at hv ⊢; exact strLes_mono h vs hv
  | .array vs, hv => by simp only [StrLe] at hv ⊢; exact strLes_mono h vs hv
  | .ptrNil, _ => by simp only [StrLe]
  | .ptr v, hv => by simp only [StrLe] at hv ⊢; exact strLe_mono h v hv
  | .struct vs, hv => by simp only [StrLe] at hv ⊢; exact strLes_mono h vs hv
  | .mapNil, _ => by simp only [StrLe]
  | .map ks vs, hv => by
    simp only [StrLe] at hv ⊢
    exact ⟨fun k hk => keyStrLe_mono h k (hv.1 k hk), strLes_mono h vs hv.2⟩
theorem strLes_mono {m n : Nat} (h : m ≤ n) : ∀ vs, StrLes m vs → StrLes n vs
  | [], _ => trivial
  | v :: vs, hv => by
    simp only [StrLes] at hv ⊢
    exact ⟨strLe_mono h v hv.1, strLes_mono h vs hv.2⟩
end

theorem foldl_insert_length {α : Type} (k : Key) (v : α) (l : List (Key × α)) :
    ∀ e, e ∈ insertKey k v l → e = (k, v) ∨ e ∈ l := by
  induction l with
  | nil => intro e he; simpa [insertKey] using he
  | cons x l ih =>
    obtain ⟨k', v'⟩ := x
    intro e he
    simp only [insertKey] at he
    split_ifs at he with h1 h2
    · simpa using he
    · rcases List.mem_cons.1 he with h | h
      · exact Or.inl h
      · exact Or.inr (List.mem_cons_of_mem _ h)
    · rcases List.mem_cons.1 he with h | h
      · exact Or.inr (by rw [h]; exact List.mem_cons_self)
      · rcases ih e h with h | h
        · exact Or.inl h
        · exact Or.inr (List.mem_cons_of_mem _ h)

theorem encode_mem_length (vs : List Val) (v : Val) (h : v ∈ vs) :
    (encode v).length ≤ ((vs.map encode).flatten).length := by
  induction vs with
  | nil => simp at h
  | cons w vs ih =>
    simp only [List.map_cons, List.flatten_cons, List.length_append]
    rcases List.mem_cons.1 h with rfl | h
    · omega
    · have := ih h; omega

theorem length_le_flatten (vs : List Val) : vs.length ≤ ((vs.map encode).flatten).length := by
  induction vs with
  | nil => simp
  | cons v vs ih =>
    simp only [List.map_cons, List.flatten_cons, List.length_append, List.length_cons]
    have : 0 < (encode v).length := List.length_pos_iff.2 (encode_ne v)
    omega

theorem zip_encode (ks : List Key) (vs : List Val) :
    (ks.zip (vs.map encode)).map (fun e => encodeKey e.1 ++ e.2)
      = (ks.zip vs).map (fun e => encodeKey e.1 ++ encode e.2) := by
  rw [List.zip_map_right, List.map_map]
  rfl

theorem zip_flatten_length (es : List (Key × Val)) :
    es.length ≤ ((es.map (fun e => encodeKey e.1 ++ encode e.2)).flatten).length ∧
    ∀ e ∈ es, (encodeKey e.1).length + (encode e.2).length
      ≤ ((es.map (fun e => encodeKey e.1 ++ encode e.2)).flatten).length := by
  induction es with
  | nil => simp
  | cons e es ih =>
    simp only [List.map_cons, List.flatten_cons, List.length_append, List.length_cons]
    have : 0 < (encode e.2).length := List.length_pos_iff.2 (encode_ne e.2)
    refine ⟨by omega, fun x hx => ?_⟩
    rcases List.mem_cons.1 hx with rfl | hx
    · omega
    · have := ih.2 x hx; omega

theorem encode_map_sorted (ks : List Key) (vs : List Val)
    (h : ks.Pairwise (fun a b => keyLt a b = true)) :
    encode (.map ks vs)
      = writeList ((ks.zip vs).map (fun e => encodeKey e.1 ++ encode e.2)).flatten := by
  rw [encode, encodeAll_eq, sortKeys_zip _ _ h, zip_encode]

/-- The byte strings of a value are no longer than its encoding. -/
theorem strLe_encode : ∀ (t : Ty) (v : Val), HasTy t v → StrLe (encode v).length v := by
  intro t
  induction t using Ty.rec
    (motive_2 := fun ts => ∀ vs, HasTys ts vs → StrLes ((vs.map encode).flatten).length vs) with
  | bool => intro v h; cases v <;> simp_all [HasTy, StrLe]
  | uint w => intro v h; cases v <;> simp_all [HasTy, StrLe]
  | int w => intro v h; cases v <;> simp_all [HasTy, StrLe]
  | str => intro v h; cases v <;> simp_all [HasTy, StrLe, encode, writeBytes_length]
  | big => intro v h; cases v <;> simp_all [HasTy, StrLe, encode, writeBytes_length]
  | bytes => intro v h; cases v <;> simp_all [HasTy, StrLe, encode, writeBytes_length]
  | bytesN n =>
    intro v h
    cases v <;> simp only [HasTy] at h
    simp only [StrLe, encode]; exact writeBytes_length _
  | slice t ih =>
    intro v h
    cases v <;> simp only [HasTy] at h
    · simp only [StrLe]
    · rename_i vs
      simp only [StrLe, encode, encodeAll_eq]
      rw [strLes_iff]
      intro v hv
      have h1 := encode_mem_length vs v hv
      have h2 := writeList_length (vs.map encode).flatten
      exact strLe_mono (by omega) v (ih v (h v hv))
  | array n t ih =>
    intro v h
    cases v <;> simp only [HasTy] at h
    rename_i vs
    simp only [StrLe, encode, encodeAll_eq]
    rw [strLes_iff]
    intro v hv
    have h1 := encode_mem_length vs v hv
    have h2 := writeList_length (vs.map encode).flatten
    exact strLe_mono (by omega) v (ih v (h.2 v hv))
  | ptr t ih =>
    intro v h
    cases v <;> simp only [HasTy] at h
    · simp only [StrLe]
    · simp only [StrLe, encode]; exact ih _ h
  | struct ts ih =>
    intro v h
    cases v <;> simp only [HasTy] at h
    rename_i vs
    simp only [StrLe, encode, encodeAll_eq]
    have h2 := writeList_length (vs.map encode).flatten
    exact strLes_mono (by omega) vs (ih vs h)
  | map k t ih =>
    intro v h
    cases v <;> simp only [HasTy] at h
    · simp only [StrLe]
    · rename_i ks vs
      obtain ⟨hl, hk, hs, hv⟩ := h
      rw [encode_map_sorted ks vs hs]
      have h2 := writeList_length ((ks.zip vs).map (fun e => encodeKey e.1 ++ encode e.2)).flatten
      have h3 := (zip_flatten_length (ks.zip vs)).2
      simp only [StrLe]
      rw [strLes_iff]
      constructor
      · intro key hkey
        obtain ⟨i, hi, rfl⟩ := List.mem_iff_getElem.1 hkey
        have := h3 (ks[i], vs[i]) (by
          rw [List.mem_iff_getElem]
          exact ⟨i, by simp; omega, by simp⟩)
        cases hkk : ks[i] <;> simp only [KeyStrLe]
        rename_i b
        have e5 : encodeKey ks[i] = writeBytes b := by rw [hkk]; rfl
        simp only [e5] at this
        have h5 := writeBytes_length b
        omega
      · intro v hv'
        obtain ⟨i, hi, rfl⟩ := List.mem_iff_getElem.1 hv'
        have := h3 (ks[i], vs[i]) (by
          rw [List.mem_iff_getElem]
          exact ⟨i, by simp; omega, by simp⟩)
        simp only at this
        exact strLe_mono (by omega) _ (ih _ (hv _ hv'))
  | nil => rename_i vs h; cases vs <;> simp_all [HasTys, StrLes]
  | cons t ts iht ihts =>
    rename_i vs h
    cases vs with
    | nil => simp [HasTys] at h
    | cons v vs =>
      simp only [HasTys] at h
      simp only [StrLes, List.map_cons, List.flatten_cons, List.length_append]
      exact ⟨strLe_mono (by omega) v (iht v h.1), strLes_mono (by omega) vs (ihts vs h.2)⟩

theorem strLes_encode : ∀ (ts : List Ty) (vs : List Val), HasTys ts vs →
    StrLes ((vs.map encode).flatten).length vs := by
  intro ts vs h
  induction ts generalizing vs with
  | nil => cases vs <;> simp_all [HasTys, StrLes]
  | cons t ts ih =>
    cases vs with
    | nil => simp [HasTys] at h
    | cons v vs =>
      simp only [HasTys] at h
      simp only [StrLes, List.map_cons, List.flatten_cons, List.length_append]
      exact ⟨strLe_mono (by omega) v (strLe_encode t v h.1), strLes_mono (by omega) vs (ih vs h.2)⟩

/-- Decoding an encoding followed by anything. -/
theorem decode_encode : ∀ (t : Ty) (v : Val) (max : Nat) (r : Bytes) (tr : Bool), WfTy t → HasTy t v →
    StrLe max v → (encode v).length < 2 ^ 63 → decode t max (encode v ++ r) tr = .ok v r := by
  intro t
  induction t using Ty.rec
    (motive_2 := fun ts => ∀ vs max, WfTys ts → HasTys ts vs → StrLes max vs →
      ((vs.map encode).flatten).length < 2 ^ 63 →
      decodeFields ts max (vs.map encode).flatten false = .ok vs []) with
  | bool =>
    intro v max r tr _ h _ _
    cases v <;> simp only [HasTy] at h
    rename_i b
    simp only [decode, encode]
    rw [readBytes_writeBytes _ _ _ _ (Or.inr (by simp)) (by simp)]
    simp only [Res.bind, toBool_enc]
    rfl
  | uint w =>
    intro v max r tr hw h hs0 hl0
    clear hs0 hl0
    cases v <;> simp only [HasTy] at h
    rename_i n
    simp only [WfTy] at hw
    simp only [decode, encode]
    have := goUint64_length (BitVec.ofNat 64 n)
    rw [readBytes_writeBytes _ _ _ _ (Or.inr (by omega)) (by omega)]
    simp only [Res.bind, toUint_enc w n hw.2 h]
    rfl
  | int w =>
    intro v max r tr hw h hs0 hl0
    clear hs0 hl0
    cases v <;> simp only [HasTy] at h
    rename_i z
    simp only [WfTy] at hw
    simp only [decode, encode]
    have := goInt64_length (BitVec.ofInt 64 z)
    rw [readBytes_writeBytes _ _ _ _ (Or.inr (by omega)) (by omega)]
    simp only [Res.bind, toInt_enc w z hw.1 hw.2 h.1 h.2]
    rfl
  | str =>
    intro v max r tr _ h hs hl
    cases v <;> simp only [HasTy] at h
    rename_i b
    simp only [StrLe] at hs
    simp only [encode] at hl
    have := writeBytes_length b
    simp only [decode, encode]
    rw [readBytes_writeBytes _ _ _ _ (Or.inl hs) (by omega)]
    rfl
  | big =>
    intro v max r tr _ h hs hl
    cases v <;> simp only [HasTy] at h
    rename_i z
    simp only [StrLe] at hs
    simp only [encode] at hl
    have := writeBytes_length (goBigIntToBytes z)
    simp only [decode, encode]
    rw [readBytes_writeBytes _ _ _ _ (Or.inl hs) (by omega)]
    simp only [Res.bind, C38_go_roundtrip]
  | bytes =>
    intro v max r tr _ h hs hl
    cases v <;> simp only [HasTy] at h
    · simp only [decode, encode, readBytes_null, Res.bind, nilIs]
    · rename_i b
      simp only [StrLe] at hs
      simp only [encode] at hl
      have := writeBytes_length b
      simp only [decode, encode]
      rw [readBytes_writeBytes _ _ _ _ (Or.inl hs) (by omega)]
      rfl
  | bytesN n =>
    intro v max r tr _ h hs hl
    cases v <;> simp only [HasTy] at h
    rename_i b
    simp only [StrLe] at hs
    simp only [encode] at hl
    have := writeBytes_length b
    simp only [decode, encode]
    rw [readBytes_writeBytes _ _ _ _ (Or.inl hs) (by omega)]
    simp only [Res.bind]
    subst h
    simp
  | slice t ih =>
    intro v max r tr hw h hs hl
    cases v <;> simp only [HasTy] at h
    · simp only [decode, encode, nilHeader, readListHeader_null]
    · rename_i vs
      simp only [StrLe] at hs
      rw [strLes_iff] at hs
      simp only [encode, encodeAll_eq] at hl
      simp only [WfTy] at hw
      have h2 := writeList_length (vs.map encode).flatten
      simp only [decode, encode, encodeAll_eq]
      rw [nilHeader_writeList _ _ _ _ (by omega)]
      apply inList_writeList _ _ _ _ (by omega) _ _ []
      rw [sliceLoop_enc _ _ vs _ _ (nullable_eof (decode_nil _ _))
        (by have := length_le_flatten vs; omega)]
      · rfl
      · intro v hv r
        have h1 := encode_mem_length vs v hv
        exact nullable_ok (ih v _ r false hw (h v hv)
          (by
            rcases Nat.le_total max ((vs.map encode).flatten).length with hm | hm
            · rw [Nat.min_eq_left hm]; exact hs v hv
            · rw [Nat.min_eq_right hm]; exact strLe_mono h1 v (strLe_encode t v (h v hv)))
          (by omega))
  | array n t ih =>
    intro v max r tr hw h hs hl
    cases v <;> simp only [HasTy] at h
    rename_i vs
    simp only [StrLe] at hs
    rw [strLes_iff] at hs
    simp only [encode, encodeAll_eq] at hl
    simp only [WfTy] at hw
    have h2 := writeList_length (vs.map encode).flatten
    simp only [decode, encode, encodeAll_eq]
    apply inList_writeList _ _ _ _ (by omega) _ _ []
    have := arrayLoop_enc (nullable (decode t) (zero t)) (zero t)
      (min max ((vs.map encode).flatten).length) vs (by
        intro v hv r
        have h1 := encode_mem_length vs v hv
        exact nullable_ok (ih v _ r false hw (h.2 v hv)
          (by
            rcases Nat.le_total max ((vs.map encode).flatten).length with hm | hm
            · rw [Nat.min_eq_left hm]; exact hs v hv
            · rw [Nat.min_eq_right hm]; exact strLe_mono h1 v (strLe_encode t v (h.2 v hv)))
          (by omega))) []
    rw [List.append_nil] at this
    rw [← h.1, this]
    rfl
  | ptr t ih =>
    intro v max r tr hw h hs hl
    simp only [WfTy] at hw
    cases v <;> simp only [HasTy] at h
    · simp only [decode, encode, decode_null t max r tr hw.1, Res.bind, nilIs]
    · rename_i v
      simp only [StrLe] at hs
      simp only [encode] at hl
      simp only [decode, encode, ih v max r tr hw.2 h hs hl, Res.bind, nilIs]
  | struct ts ih =>
    intro v max r tr hw h hs hl
    cases v <;> simp only [HasTy] at h
    rename_i vs
    simp only [StrLe] at hs
    simp only [encode, encodeAll_eq] at hl
    simp only [WfTy] at hw
    have h2 := writeList_length (vs.map encode).flatten
    simp only [decode, encode, encodeAll_eq]
    apply inList_writeList _ _ _ _ (by omega) _ _ []
    rw [ih vs _ hw h _ (by omega)]
    · rfl
    · rcases Nat.le_total max ((vs.map encode).flatten).length with hm | hm
      · rw [Nat.min_eq_left hm]; exact hs
      · rw [Nat.min_eq_right hm]
        exact strLes_encode ts vs h
  | map k t ih =>
    intro v max r tr hw h hs hl
    cases v <;> simp only [HasTy] at h
    · simp only [decode, encode, nilHeader, readListHeader_null]
    · rename_i ks vs
      have hty : HasTy (.map k t) (.map ks vs) := by simp only [HasTy]; exact h
      obtain ⟨hlen, hk, hso, hv⟩ := h
      rw [encode_map_sorted ks vs hso] at hl ⊢
      simp only [StrLe] at hs
      rw [strLes_iff] at hs
      simp only [WfTy] at hw
      have h2 := writeList_length ((ks.zip vs).map (fun e => encodeKey e.1 ++ encode e.2)).flatten
      have h3 := zip_flatten_length (ks.zip vs)
      generalize hC : ((ks.zip vs).map (fun e => encodeKey e.1 ++ encode e.2)).flatten = C at *
      simp only [decode]
      rw [nilHeader_writeList _ _ _ _ (by omega)]
      apply inList_writeList _ _ _ _ (by omega) _ _ []
      rw [← hC, mapLoop_enc k _ _ (ks.zip vs) [] _ _ _ (by simpa using zip_pairwise ks vs hso)
        (by rw [hC]; omega)]
      · simp only [Res.bind, List.nil_append]
        rw [List.map_fst_zip (by omega), List.map_snd_zip (by omega)]
      · intro e he r
        rw [hC]
        have h4 := h3.2 e he
        have hmem := List.of_mem_zip (show (e.1, e.2) ∈ ks.zip vs from he)
        apply decodeKey_encodeKey k e.1 _ r false hw.1 (hk _ hmem.1) _ (by omega)
        rcases Nat.le_total max C.length with hm | hm
        · rw [Nat.min_eq_left hm]; exact hs.1 _ hmem.1
        · rw [Nat.min_eq_right hm]
          cases hkk : e.1 <;> simp only [KeyStrLe]
          rename_i b
          simp only [hkk, encodeKey] at h4
          have := writeBytes_length b
          omega
      · intro e he r
        rw [hC]
        have h4 := h3.2 e he
        have hmem := List.of_mem_zip (show (e.1, e.2) ∈ ks.zip vs from he)
        apply nullable_ok
        apply ih e.2 _ r false hw.2 (hv _ hmem.2) _ (by omega)
        rcases Nat.le_total max C.length with hm | hm
        · rw [Nat.min_eq_left hm]; exact hs.2 _ hmem.2
        · rw [Nat.min_eq_right hm]
          exact strLe_mono (by omega) _ (strLe_encode t _ (hv _ hmem.2))
  | nil =>
    rename_i vs max hw h hs hl
    cases vs with
    | nil => rfl
    | cons _ _ => simp [HasTys] at h
  | cons t ts iht ihts =>
    rename_i vs max hw h hs hl
    cases vs with
    | nil => simp [HasTys] at h
    | cons v vs =>
      simp only [HasTys] at h
      simp only [WfTys] at hw
      simp only [StrLes] at hs
      simp only [List.map_cons, List.flatten_cons, List.length_append] at hl
      simp only [List.map_cons, List.flatten_cons, decodeFields,
        iht v max _ false hw.1 h.1 hs.1 (by omega), ihts vs max hw.2 h.2 hs.2 (by omega)]

end Verif.Rlp
