import Verif.Rlp.Stream

/-! # What decoding arbitrary bytes can give -/

namespace Verif.Rlp
open Verif Verif.IntCodec

/-! ## Types -/

theorem toUint_lt (w : Nat) (b : Bytes) (n : Nat) (h : toUint w b = some n) : n < 2 ^ w := by
  unfold toUint at h
  cases hg : goSafeBytesToUint64 b with
  | none => rw [hg] at h; cases h
  | some v =>
    rw [hg] at h
    simp only at h
    split_ifs at h with hv
    cases h
    rw [hv]
    exact Nat.mod_lt _ (by positivity)

theorem bv_range {w : Nat} (h1 : 1 ≤ w) (x : BitVec w) :
    -(2 ^ (w - 1)) ≤ x.toInt ∧ x.toInt < 2 ^ (w - 1) := by
  have ha := BitVec.le_two_mul_toInt (x := x)
  have hb := BitVec.two_mul_toInt_lt (x := x)
  obtain ⟨k, rfl⟩ : ∃ k, w = k + 1 := ⟨w - 1, by omega⟩
  simp only [Nat.add_sub_cancel]
  have e : (2 : Int) ^ (k + 1) = 2 * 2 ^ k := by ring
  rw [e] at ha hb
  omega

theorem toInt_range (w : Nat) (h1 : 1 ≤ w) (b : Bytes) (z : Int) (h : toInt w b = some z) :
    -(2 ^ (w - 1)) ≤ z ∧ z < 2 ^ (w - 1) := by
  unfold toInt at h
  cases hg : goSafeBytesToInt64 b with
  | none => rw [hg] at h; cases h
  | some v =>
    rw [hg] at h
    simp only at h
    split_ifs at h with hv
    simp only [Option.some.injEq] at h
    rw [← h, hv]
    exact bv_range h1 _

theorem zero_hasTy (t : Ty) (hw : WfTy t) : HasTy t (zero t) := by
  induction t using Ty.rec (motive_2 := fun ts => WfTys ts → HasTys ts (zeros ts)) with
  | bool => simp only [zero, HasTy]
  | uint w => simp only [zero, HasTy]; positivity
  | int w =>
    simp only [zero, HasTy]
    have : (0 : Int) < 2 ^ (w - 1) := by positivity
    omega
  | str => simp only [zero, HasTy]
  | big => simp only [zero, HasTy]
  | bytes => simp only [zero, HasTy]
  | bytesN n => simp only [zero, HasTy, List.length_replicate]
  | slice t _ => simp only [zero, HasTy]
  | array n t ih =>
    simp only [WfTy] at hw
    simp only [zero, HasTy, List.length_replicate, true_and]
    intro v hv
    rw [List.eq_of_mem_replicate hv]
    exact ih hw
  | ptr t _ => simp only [zero, HasTy]
  | struct ts ih => simp only [WfTy] at hw; simp only [zero, HasTy]; exact ih hw
  | map k t _ => simp only [zero, HasTy]
  | nil => simp only [zeros, HasTys]
  | cons t ts ih1 ih2 =>
    rename_i hw
    simp only [WfTys] at hw
    simp only [zeros, HasTys]
    exact ⟨ih1 hw.1, ih2 hw.2⟩

theorem sliceLoop_ok {P : Val → Prop} (f : Dec Val) (max : Nat)
    (hf : ∀ b tr v r, f max b tr = .ok v r → P v) (fuel : Nat) (b : Bytes) (tr : Bool)
    (vs : List Val) (r : Bytes) (h : sliceLoop f max fuel b tr = .ok vs r) : ∀ v ∈ vs, P v := by
  induction fuel generalizing b vs with
  | zero => cases h
  | succ n ih =>
    simp only [sliceLoop] at h
    cases hr : f max b tr with
    | ok v r' =>
      rw [hr] at h
      simp only at h
      cases hs : sliceLoop f max n r' tr with
      | ok ws r'' =>
        rw [hs] at h
        simp only [Res.ok.injEq] at h
        rw [← h.1]
        intro w hw
        rcases List.mem_cons.1 hw with rfl | hw
        · exact hf _ _ _ _ hr
        · exact ih r' ws (by rw [hs, h.2]) w hw
      | nil r'' => rw [hs] at h; cases h
      | eof => rw [hs] at h; cases h
      | err => rw [hs] at h; cases h
    | nil r' => rw [hr] at h; cases h
    | eof => rw [hr] at h; cases h; simp
    | err => rw [hr] at h; cases h

theorem arrayLoop_ok {P : Val → Prop} (f : Dec Val) (z : Val) (hz : P z) (max : Nat)
    (hf : ∀ b tr v r, f max b tr = .ok v r → P v) (n : Nat) (b : Bytes) (tr : Bool)
    (vs : List Val) (r : Bytes) (h : arrayLoop f z max n b tr = .ok vs r) :
    vs.length = n ∧ ∀ v ∈ vs, P v := by
  induction n generalizing b vs with
  | zero => simp only [arrayLoop, Res.ok.injEq] at h; rw [← h.1]; simp
  | succ n ih =>
    simp only [arrayLoop] at h
    cases hr : f max b tr with
    | ok v r' =>
      rw [hr] at h
      simp only at h
      cases hs : arrayLoop f z max n r' tr with
      | ok ws r'' =>
        rw [hs] at h
        simp only [Res.ok.injEq] at h
        rw [← h.1]
        obtain ⟨h1, h2⟩ := ih r' ws (by rw [hs, h.2])
        refine ⟨by simp [h1], ?_⟩
        intro w hw
        rcases List.mem_cons.1 hw with rfl | hw
        · exact hf _ _ _ _ hr
        · exact h2 w hw
      | nil r'' => rw [hs] at h; cases h
      | eof => rw [hs] at h; cases h
      | err => rw [hs] at h; cases h
    | nil r' => rw [hr] at h; cases h
    | eof =>
      rw [hr] at h
      simp only [Res.ok.injEq] at h
      rw [← h.1]
      refine ⟨by simp, fun v hv => ?_⟩
      rw [List.eq_of_mem_replicate hv]; exact hz
    | err => rw [hr] at h; cases h

theorem insertKey_sorted {α : Type} (k : Key) (v : α) (l : List (Key × α))
    (h : l.Pairwise (fun a b => keyLt a.1 b.1 = true)) :
    (insertKey k v l).Pairwise (fun a b => keyLt a.1 b.1 = true) := by
  induction l with
  | nil => simp [insertKey]
  | cons e l ih =>
    obtain ⟨k', v'⟩ := e
    rw [List.pairwise_cons] at h
    simp only [insertKey]
    split_ifs with h1 h2
    · rw [List.pairwise_cons]
      refine ⟨fun e he => ?_, List.pairwise_cons.2 h⟩
      rcases List.mem_cons.1 he with rfl | he
      · exact h1
      · exact keyLt_trans _ _ _ h1 (h.1 e he)
    · subst h2
      exact List.pairwise_cons.2 ⟨h.1, h.2⟩
    · rw [List.pairwise_cons]
      refine ⟨fun e he => ?_, ih h.2⟩
      rcases foldl_insert_length k v l e he with rfl | he
      · cases hk : keyLt k' k with
        | true => rfl
        | false => exact absurd (keyLt_tri k k' (by simpa using h1) hk) h2
      · exact h.1 e he

theorem mapLoop_ok {P : Key → Prop} {Q : Val → Prop} (k : KeyTy) (f : Dec Val) (max : Nat)
    (hk : ∀ b tr v r, decodeKey k max b tr = .ok v r → P v)
    (hf : ∀ b tr v r, f max b tr = .ok v r → Q v) (fuel : Nat) (acc : List (Key × Val)) (b : Bytes)
    (tr : Bool) (es : List (Key × Val)) (r : Bytes) (h : mapLoop k f max fuel acc b tr = .ok es r)
    (hacc : acc.Pairwise (fun a b => keyLt a.1 b.1 = true)) (hacc2 : ∀ e ∈ acc, P e.1 ∧ Q e.2) :
    es.Pairwise (fun a b => keyLt a.1 b.1 = true) ∧ ∀ e ∈ es, P e.1 ∧ Q e.2 := by
  induction fuel generalizing b acc with
  | zero => cases h
  | succ n ih =>
    simp only [mapLoop] at h
    cases hr : decodeKey k max b tr with
    | ok key r' =>
      rw [hr] at h
      simp only at h
      cases hs : f max r' tr with
      | ok v r'' =>
        rw [hs] at h
        refine ih _ _ h (insertKey_sorted _ _ _ hacc) (fun e he => ?_)
        rcases foldl_insert_length _ _ _ e he with rfl | he
        · exact ⟨hk _ _ _ _ hr, hf _ _ _ _ hs⟩
        · exact hacc2 e he
      | nil r'' => rw [hs] at h; cases h
      | eof => rw [hs] at h; cases h
      | err => rw [hs] at h; cases h
    | nil r' => rw [hr] at h; cases h
    | eof => rw [hr] at h; cases h; exact ⟨hacc, hacc2⟩
    | err => rw [hr] at h; cases h

theorem decodeKey_ok (k : KeyTy) (hw : KeyWf k) (max : Nat) (b : Bytes) (tr : Bool) (v : Key)
    (r : Bytes) (h : decodeKey k max b tr = .ok v r) : KeyOk k v := by
  cases k <;> simp only [decodeKey] at h <;> obtain ⟨a, _, ha⟩ := bind_ok _ _ _ _ h
  · cases ha; trivial
  · simp only [Option.map_eq_some_iff] at ha
    obtain ⟨n, hn, rfl⟩ := ha
    exact toUint_lt _ a n hn
  · simp only [Option.map_eq_some_iff] at ha
    obtain ⟨n, hn, rfl⟩ := ha
    exact toInt_range _ hw.1 a n hn

theorem nullable_ok' {P : Val → Prop} (f : Dec Val) (z : Val) (hz : P z) (max : Nat)
    (hf : ∀ b tr v r, f max b tr = .ok v r → P v) (b : Bytes) (tr : Bool) (v : Val) (r : Bytes)
    (h : nullable f z max b tr = .ok v r) : P v := by
  simp only [nullable] at h
  cases hr : f max b tr with
  | ok w r' => rw [hr] at h; cases h; exact hf _ _ _ _ hr
  | nil r' => rw [hr] at h; cases h; exact hz
  | eof => rw [hr] at h; cases h
  | err => rw [hr] at h; cases h

theorem inList_ok {α : Type} {P : α → Prop} (max : Nat) (b : Bytes) (tr : Bool)
    (body : Nat → Bytes → Bool → Res α) (hb : ∀ m s t v r, body m s t = .ok v r → P v)
    (v : α) (r : Bytes) (h : inList max b tr body = .ok v r) : P v := by
  unfold inList at h
  cases hr : readListHeader b tr with
  | ok n r' =>
    rw [hr] at h
    simp only at h
    cases hbo : body (min max n) (r'.take n) (decide (r'.length < n)) with
    | ok w r'' =>
      rw [hbo] at h
      simp only at h
      split_ifs at h
      cases h
      exact hb _ _ _ _ _ hbo
    | nil r'' => rw [hbo] at h; cases h
    | eof => rw [hbo] at h; cases h
    | err => rw [hbo] at h; cases h
  | nil r' => rw [hr] at h; cases h
  | eof => rw [hr] at h; cases h
  | err => rw [hr] at h; cases h

theorem nilHeader_ok {P : Val → Prop} (z : Val) (hz : P z) (b : Bytes) (tr : Bool) (u : Res Val)
    (hu : ∀ v r, u = .ok v r → P v) (v : Val) (r : Bytes) (h : nilHeader z b tr u = .ok v r) : P v := by
  unfold nilHeader at h
  cases hr : readListHeader b tr with
  | nil r' => rw [hr] at h; cases h; exact hz
  | ok n r' => rw [hr] at h; exact hu _ _ h
  | eof => rw [hr] at h; exact hu _ _ h
  | err => rw [hr] at h; exact hu _ _ h

/-- Whatever the bytes, a decoded value belongs to its type. -/
theorem decode_hasTy (t : Ty) (hw : WfTy t) :
    ∀ max b tr v r, decode t max b tr = .ok v r → HasTy t v := by
  induction t using Ty.rec (motive_2 := fun ts => WfTys ts → ∀ max b tr vs r,
      decodeFields ts max b tr = .ok vs r → HasTys ts vs) with
  | bool =>
    intro max b tr v r h
    simp only [decode] at h
    obtain ⟨a, _, ha⟩ := bind_ok _ _ _ _ h
    simp only [Option.map_eq_some_iff] at ha
    obtain ⟨n, hn, rfl⟩ := ha
    simp only [HasTy]
  | uint w =>
    intro max b tr v r h
    simp only [decode] at h
    obtain ⟨a, _, ha⟩ := bind_ok _ _ _ _ h
    simp only [Option.map_eq_some_iff] at ha
    obtain ⟨n, hn, rfl⟩ := ha
    simp only [HasTy]
    exact toUint_lt w a n hn
  | int w =>
    intro max b tr v r h
    simp only [decode] at h
    simp only [WfTy] at hw
    obtain ⟨a, _, ha⟩ := bind_ok _ _ _ _ h
    simp only [Option.map_eq_some_iff] at ha
    obtain ⟨n, hn, rfl⟩ := ha
    simp only [HasTy]
    exact toInt_range w hw.1 a n hn
  | str =>
    intro max b tr v r h
    simp only [decode] at h
    obtain ⟨a, _, ha⟩ := bind_ok _ _ _ _ h
    cases ha; simp only [HasTy]
  | big =>
    intro max b tr v r h
    simp only [decode] at h
    obtain ⟨a, _, ha⟩ := bind_ok _ _ _ _ h
    cases ha; simp only [HasTy]
  | bytes =>
    intro max b tr v r h
    simp only [decode] at h
    cases hr : (readBytes max b tr).bind (fun s => some (Val.bytes s)) with
    | ok w r' =>
      rw [hr] at h; cases h
      obtain ⟨a, _, ha⟩ := bind_ok _ _ _ _ hr
      cases ha; simp only [HasTy]
    | nil r' => rw [hr] at h; cases h; simp only [HasTy]
    | eof => rw [hr] at h; cases h
    | err => rw [hr] at h; cases h
  | bytesN n =>
    intro max b tr v r h
    simp only [decode] at h
    obtain ⟨a, _, ha⟩ := bind_ok _ _ _ _ h
    cases ha; simp only [HasTy, List.length_append, List.length_take, List.length_replicate]
    omega
  | slice t ih =>
    intro max b tr v r h
    simp only [WfTy] at hw
    simp only [decode] at h
    refine nilHeader_ok (P := HasTy (.slice t)) _ (by simp only [HasTy]) _ _ _ ?_ _ _ h
    intro v r h
    refine inList_ok (P := HasTy (.slice t)) _ _ _ _ ?_ _ _ h
    intro m s t' v r h
    obtain ⟨a, h1, ha⟩ := bind_ok _ _ _ _ h
    cases ha
    simp only [HasTy]
    exact sliceLoop_ok _ m (nullable_ok' _ _ (zero_hasTy t hw) m (fun b tr v r => ih hw m b tr v r))
      _ _ _ _ _ h1
  | array n t ih =>
    intro max b tr v r h
    simp only [WfTy] at hw
    simp only [decode] at h
    refine inList_ok (P := HasTy (.array n t)) _ _ _ _ ?_ _ _ h
    intro m s t' v r h
    obtain ⟨a, h1, ha⟩ := bind_ok _ _ _ _ h
    cases ha
    simp only [HasTy]
    exact arrayLoop_ok _ _ (zero_hasTy t hw) m
      (nullable_ok' _ _ (zero_hasTy t hw) m (fun b tr v r => ih hw m b tr v r)) _ _ _ _ _ h1
  | ptr t ih =>
    intro max b tr v r h
    simp only [WfTy] at hw
    simp only [decode] at h
    cases hr : decode t max b tr with
    | ok w r' => rw [hr] at h; cases h; simp only [HasTy]; exact ih hw.2 _ _ _ _ _ hr
    | nil r' => rw [hr] at h; cases h; simp only [HasTy]
    | eof => rw [hr] at h; cases h
    | err => rw [hr] at h; cases h
  | struct ts ih =>
    intro max b tr v r h
    simp only [WfTy] at hw
    simp only [decode] at h
    refine inList_ok (P := HasTy (.struct ts)) _ _ _ _ ?_ _ _ h
    intro m s t' v r h
    obtain ⟨a, h1, ha⟩ := bind_ok _ _ _ _ h
    cases ha
    simp only [HasTy]
    exact ih hw _ _ _ _ _ h1
  | map k t ih =>
    intro max b tr v r h
    simp only [WfTy] at hw
    simp only [decode] at h
    refine nilHeader_ok (P := HasTy (.map k t)) _ (by simp only [HasTy]) _ _ _ ?_ _ _ h
    intro v r h
    refine inList_ok (P := HasTy (.map k t)) _ _ _ _ ?_ _ _ h
    intro m s t' v r h
    obtain ⟨a, h1, ha⟩ := bind_ok _ _ _ _ h
    cases ha
    simp only [HasTy]
    obtain ⟨h2, h3⟩ := mapLoop_ok k _ m (fun b tr v r => decodeKey_ok k hw.1 m b tr v r)
      (nullable_ok' _ _ (zero_hasTy t hw.2) m (fun b tr v r => ih hw.2 m b tr v r)) _ _ _ _ _ _ h1
      (by simp) (by simp)
    refine ⟨by simp, ?_, ?_, ?_⟩
    · intro key hkey
      obtain ⟨e, he, rfl⟩ := List.mem_map.1 hkey
      exact (h3 e he).1
    · rw [List.pairwise_map]; exact h2
    · intro v hv
      obtain ⟨e, he, rfl⟩ := List.mem_map.1 hv
      exact (h3 e he).2
  | nil =>
    rename_i hw max b tr vs r h
    simp only [decodeFields, Res.ok.injEq] at h
    rw [← h.1]; simp only [HasTys]
  | cons t ts ih1 ih2 =>
    rename_i hw max b tr vs r h
    simp only [WfTys] at hw
    simp only [decodeFields] at h
    cases hr : decode t max b tr with
    | ok v r' =>
      rw [hr] at h
      simp only at h
      cases hs : decodeFields ts max r' tr with
      | ok ws r'' =>
        rw [hs] at h
        cases h
        simp only [HasTys]
        exact ⟨ih1 hw.1 _ _ _ _ _ hr, ih2 hw.2 _ _ _ _ _ hs⟩
      | nil r'' => rw [hs] at h; cases h
      | eof => rw [hs] at h; cases h
      | err => rw [hs] at h; cases h
    | nil r' => rw [hr] at h; cases h
    | eof =>
      rw [hr] at h
      simp only at h
      cases hs : decodeFields ts max b tr with
      | ok ws r'' =>
        rw [hs] at h
        cases h
        simp only [HasTys]
        exact ⟨zero_hasTy t hw.1, ih2 hw.2 _ _ _ _ _ hs⟩
      | nil r'' => rw [hs] at h; cases h
      | eof => rw [hs] at h; cases h
      | err => rw [hs] at h; cases h
    | err => rw [hr] at h; cases h

/-! ## Consumption -/

/-- What is left is a proper suffix of the input. -/
def Used {α : Type} (b : Bytes) (u : Res α) : Prop :=
  match u with
  | .ok _ r => ∃ c, c ≠ [] ∧ b = c ++ r
  | .nil r => ∃ c, c ≠ [] ∧ b = c ++ r
  | _ => True

/-- What is left is a suffix of the input. -/
def Left {α : Type} (b : Bytes) (u : Res α) : Prop :=
  match u with
  | .ok _ r => ∃ c, b = c ++ r
  | .nil r => ∃ c, b = c ++ r
  | _ => True

theorem readAll_left {n : Nat} {b s r : Bytes} (h : readAll n b = some (s, r)) : b = s ++ r := by
  unfold readAll at h
  split_ifs at h
  cases h
  simp

theorem readSize_left {n v : Nat} {b r : Bytes} (h : readSize n b = some (v, r)) : ∃ c, b = c ++ r := by
  unfold readSize at h
  cases hr : readAll n b with
  | none => rw [hr] at h; cases h
  | some p =>
    rw [hr] at h
    simp only at h
    cases hs : bytesToSize p.1 with
    | none => rw [hs] at h; cases h
    | some w => rw [hs] at h; cases h; exact ⟨p.1, readAll_left hr⟩

theorem readBytes_used (max : Nat) (b : Bytes) (tr : Bool) : Used b (readBytes max b tr) := by
  cases b with
  | nil => cases tr <;> simp [readBytes, Used]
  | cons h r =>
    simp only [readBytes]
    by_cases h1 : h.toNat < 128
    · rw [if_pos h1]; exact ⟨[h], by simp, rfl⟩
    rw [if_neg h1]
    by_cases h2 : h.toNat ≤ 183
    · rw [if_pos h2]
      cases hr : readAll (h.toNat - 128) r with
      | none => trivial
      | some p => exact ⟨h :: p.1, by simp, by rw [readAll_left hr]; rfl⟩
    rw [if_neg h2]
    by_cases h3 : h.toNat < 192
    · rw [if_pos h3]
      cases hr : readSize (h.toNat - 183) r with
      | none => trivial
      | some p =>
        simp only
        by_cases h4 : p.1 > max
        · rw [if_pos h4]; trivial
        · rw [if_neg h4]
          cases hr2 : readAll p.1 p.2 with
          | none => trivial
          | some q =>
            obtain ⟨c, hc⟩ := readSize_left hr
            exact ⟨h :: (c ++ q.1), by simp, by rw [hc, readAll_left hr2]; simp⟩
    rw [if_neg h3]
    by_cases h4 : h.toNat = 248
    · rw [if_pos h4]
      cases hr : readSize 1 r with
      | none => trivial
      | some p =>
        simp only
        by_cases h5 : p.1 = 0
        · rw [if_pos h5]
          obtain ⟨c, hc⟩ := readSize_left hr
          exact ⟨h :: c, by simp, by rw [hc]; rfl⟩
        · rw [if_neg h5]; trivial
    · rw [if_neg h4]; trivial

theorem readListHeader_used (b : Bytes) (tr : Bool) : Used b (readListHeader b tr) := by
  cases b with
  | nil => cases tr <;> simp [readListHeader, Used]
  | cons h r =>
    simp only [readListHeader]
    by_cases h1 : h.toNat < 192
    · rw [if_pos h1]; trivial
    rw [if_neg h1]
    by_cases h2 : h.toNat ≤ 247
    · rw [if_pos h2]; exact ⟨[h], by simp, rfl⟩
    rw [if_neg h2]
    generalize h.toNat - 247 = q
    cases hr : readSize q r with
    | none => trivial
    | some p =>
      obtain ⟨c, hc⟩ := readSize_left hr
      simp only
      by_cases h5 : q = 1 ∧ p.1 = 0
      · rw [if_pos h5]; exact ⟨h :: c, by simp, by rw [hc]; rfl⟩
      · rw [if_neg h5]; exact ⟨h :: c, by simp, by rw [hc]; rfl⟩

theorem Used.bind {α β : Type} {b : Bytes} {u : Res α} (f : α → Option β) (h : Used b u) :
    Used b (u.bind f) := by
  cases u with
  | ok v r => simp only [Res.bind]; cases f v <;> simp_all [Used]
  | nil r => exact h
  | eof => trivial
  | err => trivial

theorem Left.bind {α β : Type} {b : Bytes} {u : Res α} (f : α → Option β) (h : Left b u) :
    Left b (u.bind f) := by
  cases u with
  | ok v r => simp only [Res.bind]; cases f v <;> simp_all [Left]
  | nil r => exact h
  | eof => trivial
  | err => trivial

theorem Used.nilIs {b : Bytes} {u : Res Val} (z : Val) (h : Used b u) : Used b (nilIs z u) := by
  cases u <;> exact h

theorem inList_used {α : Type} (max : Nat) (b : Bytes) (tr : Bool) (body : Nat → Bytes → Bool → Res α)
    (hb : ∀ m s t, Left s (body m s t)) : Used b (inList max b tr body) := by
  have hh := readListHeader_used b tr
  unfold inList
  cases hr : readListHeader b tr with
  | ok n r =>
    rw [hr] at hh
    obtain ⟨c, hc, rfl⟩ := hh
    simp only
    have := hb (min max n) (r.take n) (decide (r.length < n))
    cases hbo : body (min max n) (r.take n) (decide (r.length < n)) with
    | ok v r' =>
      simp only
      split_ifs
      · trivial
      · exact ⟨c ++ r.take n, by simp [hc], by simp⟩
    | nil r' =>
      rw [hbo] at this
      obtain ⟨d, hd⟩ := this
      refine ⟨c ++ d, by simp [hc], ?_⟩
      rw [List.append_assoc, ← List.append_assoc d, ← hd, List.take_append_drop]
    | eof => trivial
    | err => trivial
  | nil r => rw [hr] at hh; exact hh
  | eof => trivial
  | err => trivial

theorem nilHeader_used (z : Val) (b : Bytes) (tr : Bool) (u : Res Val) (h : Used b u) :
    Used b (nilHeader z b tr u) := by
  have hh := readListHeader_used b tr
  unfold nilHeader
  cases hr : readListHeader b tr with
  | nil r => rw [hr] at hh; exact hh
  | ok n r => exact h
  | eof => exact h
  | err => exact h

theorem sliceLoop_left (f : Dec Val) (max : Nat) (hf : ∀ b tr, Used b (f max b tr)) (fuel : Nat)
    (b : Bytes) (tr : Bool) : Left b (sliceLoop f max fuel b tr) := by
  induction fuel generalizing b with
  | zero => trivial
  | succ n ih =>
    simp only [sliceLoop]
    have h := hf b tr
    cases hr : f max b tr with
    | ok v r =>
      rw [hr] at h
      obtain ⟨c, _, rfl⟩ := h
      have := ih r
      simp only
      cases hs : sliceLoop f max n r tr with
      | ok vs r' => rw [hs] at this; obtain ⟨d, rfl⟩ := this; exact ⟨c ++ d, by simp⟩
      | nil r' => rw [hs] at this; obtain ⟨d, rfl⟩ := this; exact ⟨c ++ d, by simp⟩
      | eof => trivial
      | err => trivial
    | nil r => rw [hr] at h; obtain ⟨c, _, rfl⟩ := h; exact ⟨c, rfl⟩
    | eof => exact ⟨[], rfl⟩
    | err => trivial

theorem arrayLoop_left (f : Dec Val) (z : Val) (max : Nat) (hf : ∀ b tr, Used b (f max b tr)) (n : Nat)
    (b : Bytes) (tr : Bool) : Left b (arrayLoop f z max n b tr) := by
  induction n generalizing b with
  | zero => exact ⟨[], rfl⟩
  | succ n ih =>
    simp only [arrayLoop]
    have h := hf b tr
    cases hr : f max b tr with
    | ok v r =>
      rw [hr] at h
      obtain ⟨c, _, rfl⟩ := h
      have := ih r
      simp only
      cases hs : arrayLoop f z max n r tr with
      | ok vs r' => rw [hs] at this; obtain ⟨d, rfl⟩ := this; exact ⟨c ++ d, by simp⟩
      | nil r' => rw [hs] at this; obtain ⟨d, rfl⟩ := this; exact ⟨c ++ d, by simp⟩
      | eof => trivial
      | err => trivial
    | nil r => rw [hr] at h; obtain ⟨c, _, rfl⟩ := h; exact ⟨c, rfl⟩
    | eof => exact ⟨[], rfl⟩
    | err => trivial

theorem decodeKey_used (k : KeyTy) (max : Nat) (b : Bytes) (tr : Bool) :
    Used b (decodeKey k max b tr) := by
  cases k <;> simp only [decodeKey] <;> exact (readBytes_used _ _ _).bind _

theorem mapLoop_left (k : KeyTy) (f : Dec Val) (max : Nat) (hf : ∀ b tr, Used b (f max b tr))
    (fuel : Nat) (acc : List (Key × Val)) (b : Bytes) (tr : Bool) :
    Left b (mapLoop k f max fuel acc b tr) := by
  induction fuel generalizing b acc with
  | zero => trivial
  | succ n ih =>
    simp only [mapLoop]
    have hk := decodeKey_used k max b tr
    cases hkr : decodeKey k max b tr with
    | ok key r0 =>
      rw [hkr] at hk
      obtain ⟨c0, _, rfl⟩ := hk
      have h := hf r0 tr
      simp only
      cases hr : f max r0 tr with
      | ok v r =>
        rw [hr] at h
        obtain ⟨c, _, rfl⟩ := h
        have := ih (insertKey key v acc) r
        simp only
        cases hs : mapLoop k f max n (insertKey key v acc) r tr with
        | ok vs r' => rw [hs] at this; obtain ⟨d, rfl⟩ := this; exact ⟨c0 ++ c ++ d, by simp⟩
        | nil r' => rw [hs] at this; obtain ⟨d, rfl⟩ := this; exact ⟨c0 ++ c ++ d, by simp⟩
        | eof => trivial
        | err => trivial
      | nil r => rw [hr] at h; obtain ⟨c, _, rfl⟩ := h; exact ⟨c0 ++ c, by simp⟩
      | eof => trivial
      | err => trivial
    | nil r => trivial
    | eof => exact ⟨[], rfl⟩
    | err => trivial

theorem decodeFields_left (ts : List Ty) (h : ∀ t ∈ ts, ∀ max b tr, Used b (decode t max b tr))
    (max : Nat) (b : Bytes) (tr : Bool) : Left b (decodeFields ts max b tr) := by
  induction ts generalizing b with
  | nil => exact ⟨[], rfl⟩
  | cons t ts ih =>
    simp only [decodeFields]
    have h1 := h t List.mem_cons_self max b tr
    have ih' := ih (fun u hu => h u (List.mem_cons_of_mem _ hu))
    cases hr : decode t max b tr with
    | ok v r =>
      rw [hr] at h1
      obtain ⟨c, _, rfl⟩ := h1
      have := ih' r
      simp only
      cases hs : decodeFields ts max r tr with
      | ok vs r' => rw [hs] at this; obtain ⟨d, rfl⟩ := this; exact ⟨c ++ d, by simp⟩
      | nil r' => rw [hs] at this; obtain ⟨d, rfl⟩ := this; exact ⟨c ++ d, by simp⟩
      | eof => trivial
      | err => trivial
    | nil r => rw [hr] at h1; obtain ⟨c, _, rfl⟩ := h1; exact ⟨c, rfl⟩
    | eof =>
      have := ih' b
      simp only
      cases hs : decodeFields ts max b tr with
      | ok vs r' => rw [hs] at this; exact this
      | nil r' => rw [hs] at this; exact this
      | eof => trivial
      | err => trivial
    | err => trivial

theorem nullable_used (f : Dec Val) (z : Val) (max : Nat) (b : Bytes) (tr : Bool)
    (h : Used b (f max b tr)) : Used b (nullable f z max b tr) := by
  simp only [nullable]
  cases hr : f max b tr <;> rw [hr] at h <;> exact h

/-- Decoding reads at least one byte and leaves a suffix of the input. -/
theorem decode_used (t : Ty) : ∀ max b tr, Used b (decode t max b tr) := by
  induction t using Ty.rec (motive_2 := fun ts => ∀ t ∈ ts, ∀ max b tr, Used b (decode t max b tr)) with
  | bool => intro max b tr; simp only [decode]; exact (readBytes_used _ _ _).bind _
  | uint w => intro max b tr; simp only [decode]; exact (readBytes_used _ _ _).bind _
  | int w => intro max b tr; simp only [decode]; exact (readBytes_used _ _ _).bind _
  | str => intro max b tr; simp only [decode]; exact (readBytes_used _ _ _).bind _
  | big => intro max b tr; simp only [decode]; exact (readBytes_used _ _ _).bind _
  | bytes => intro max b tr; simp only [decode]; exact ((readBytes_used _ _ _).bind _).nilIs _
  | bytesN n => intro max b tr; simp only [decode]; exact (readBytes_used _ _ _).bind _
  | slice t ih =>
    intro max b tr; simp only [decode]
    exact nilHeader_used _ _ _ _ (inList_used _ _ _ _ (fun m s t' => (sliceLoop_left _ m
      (fun b tr => nullable_used _ _ _ _ _ (ih m b tr)) _ _ _).bind _))
  | array n t ih =>
    intro max b tr; simp only [decode]
    exact inList_used _ _ _ _ (fun m s t' => (arrayLoop_left _ _ m
      (fun b tr => nullable_used _ _ _ _ _ (ih m b tr)) _ _ _).bind _)
  | ptr t ih => intro max b tr; simp only [decode]; exact ((ih max b tr).bind _).nilIs _
  | struct ts ih =>
    intro max b tr; simp only [decode]
    exact inList_used _ _ _ _ (fun m s t' => (decodeFields_left ts ih m s t').bind _)
  | map k t ih =>
    intro max b tr; simp only [decode]
    exact nilHeader_used _ _ _ _ (inList_used _ _ _ _ (fun m s t' => (mapLoop_left k _ m
      (fun b tr => nullable_used _ _ _ _ _ (ih m b tr)) _ _ _ _).bind _))
  | nil => rename_i t ht _ _ _; cases ht
  | cons t ts ih1 ih2 =>
    rename_i u hu m b tr
    revert m b tr
    rcases List.mem_cons.1 hu with rfl | hu
    · exact ih1
    · exact ih2 u hu

/-- More fuel than bytes changes nothing: the bound on the iterations is never what ends a loop. -/
theorem sliceLoop_fuel (f : Dec Val) (max : Nat) (hf : ∀ b tr, Used b (f max b tr)) (n m : Nat)
    (b : Bytes) (tr : Bool) (hn : b.length < n) (hm : b.length < m) :
    sliceLoop f max n b tr = sliceLoop f max m b tr := by
  induction n generalizing b m with
  | zero => omega
  | succ n ih =>
    obtain ⟨m, rfl⟩ : ∃ k, m = k + 1 := ⟨m - 1, by omega⟩
    simp only [sliceLoop]
    have h := hf b tr
    cases hr : f max b tr with
    | ok v r =>
      rw [hr] at h
      obtain ⟨c, hc, rfl⟩ := h
      have : 0 < c.length := List.length_pos_iff.2 hc
      simp only [List.length_append] at hn hm
      simp only
      rw [ih m r (by omega) (by omega)]
    | nil r => rfl
    | eof => rfl
    | err => rfl

theorem mapLoop_fuel (k : KeyTy) (f : Dec Val) (max : Nat) (hf : ∀ b tr, Used b (f max b tr))
    (n m : Nat) (acc : List (Key × Val)) (b : Bytes) (tr : Bool) (hn : b.length < n)
    (hm : b.length < m) : mapLoop k f max n acc b tr = mapLoop k f max m acc b tr := by
  induction n generalizing b m acc with
  | zero => omega
  | succ n ih =>
    obtain ⟨m, rfl⟩ : ∃ k, m = k + 1 := ⟨m - 1, by omega⟩
    simp only [mapLoop]
    have hk := decodeKey_used k max b tr
    cases hkr : decodeKey k max b tr with
    | ok key r0 =>
      rw [hkr] at hk
      obtain ⟨c0, hc0, rfl⟩ := hk
      have : 0 < c0.length := List.length_pos_iff.2 hc0
      have h := hf r0 tr
      simp only
      cases hr : f max r0 tr with
      | ok v r =>
        rw [hr] at h
        obtain ⟨c, hc, rfl⟩ := h
        simp only [List.length_append] at hn hm
        simp only
        exact ih m _ r (by omega) (by omega)
      | nil r => rfl
      | eof => rfl
      | err => rfl
    | nil r => rfl
    | eof => rfl
    | err => rfl

end Verif.Rlp
