import Verif.Tx.SerializeLemmas
import Verif.IntCodec.TextProps
import Verif.Address.Props

/-!
# What the hash of a transaction binds (C63)

Two transactions have the same text, and so the same hash and the same valid signatures, exactly if their fields are the same and their data has
the same normal form.
-/

namespace Verif.Tx

open Verif.IntCodec Verif.Address

section
variable {F : Type} (conv : F → ℤ)

/-! ## Values -/

/-- C63: the texts of two values are the same exactly if their normal forms are. -/
theorem C63_value {v v' : J F} {x : List Char} (h : serValue conv v = some x) :
    serValue conv v' = some x ↔ norm conv v' = norm conv v := by
  constructor
  · intro h'
    rw [← ser_norm] at h h'
    exact (ser_inj conv _ (norm_normal conv v') x h' _ x [] [] (norm_normal conv v) h (Or.inl rfl) (Or.inl rfl) rfl).1
  · intro e
    rw [← ser_norm, e, ser_norm, h]

/-- C63: the same for the fields of a transaction in JSON form. -/
theorem C63_json {d d' : List (List Char × J F)} {x : List Char} (h : jsonText conv d = some x) :
    jsonText conv d' = some x ↔
      normDict conv (d'.filter (fun e => e.1 ≠ "signature".toList ∧ e.1 ≠ "txHash".toList)) =
        normDict conv (d.filter (fun e => e.1 ≠ "signature".toList ∧ e.1 ≠ "txHash".toList)) := by
  have hf : (fun e : List Char × J F => decide (e.1 ∉ ["signature".toList, "txHash".toList])) =
      (fun e => decide (e.1 ≠ "signature".toList ∧ e.1 ≠ "txHash".toList)) := by
    generalize "signature".toList = a, "txHash".toList = b
    funext e
    simp only [List.mem_cons, List.not_mem_nil, or_false, not_or, ne_eq]
  unfold jsonText at h ⊢
  rw [hf] at h ⊢
  generalize "signature".toList = sg, "txHash".toList = th at h ⊢
  generalize d.filter (fun e => decide (e.1 ≠ sg ∧ e.1 ≠ th)) = a at h ⊢
  generalize d'.filter (fun e => decide (e.1 ≠ sg ∧ e.1 ≠ th)) = b at h ⊢
  obtain ⟨f, hfa, rfl⟩ := Option.map_eq_some_iff.mp h
  constructor
  · intro h'
    obtain ⟨g, hg, e⟩ := Option.map_eq_some_iff.mp h'
    have e' : g = f := List.append_cancel_left e
    subst e'
    rw [← serDict_norm] at hfa hg
    exact (dict_inj conv _ (normDict_normal conv b) g hg _ g [] [] (normDict_normal conv a) hfa (Or.inl rfl) (Or.inl rfl) rfl).1
  · intro e
    rw [← serDict_norm, e, serDict_norm, hfa]
    rfl

/-! ## The texts of numbers and addresses -/

/-- A character of a number or an address. -/
def plainChar (c : Char) : Prop := special c = false ∧ c ≠ 'r'

theorem lowerHex_plain {c : Char} (h : isLowerHex c = true) : plainChar c := by
  constructor
  · by_contra hc
    simp only [special, Bool.not_eq_false, decide_eq_true_eq, List.mem_cons, List.not_mem_nil, or_false] at hc
    rcases hc with rfl | rfl | rfl | rfl | rfl | rfl <;> revert h <;> decide
  · rintro rfl
    revert h
    decide

theorem bigInt_plain (i : ℤ) : ∀ c ∈ formatBigInt i, plainChar c := by
  obtain ⟨ds, e, _, _, hl, _⟩ := C38_format_canonical i
  rw [e]
  intro c hc
  simp only [List.mem_append] at hc
  rcases hc with (hc | hc) | hc
  · split_ifs at hc
    · simp only [List.mem_singleton] at hc; subst hc; exact ⟨by decide, by decide⟩
    · simp at hc
  · simp only [List.mem_cons, List.not_mem_nil, or_false] at hc
    rcases hc with rfl | rfl <;> exact ⟨by decide, by decide⟩
  · exact lowerHex_plain (List.all_eq_true.mp hl c hc)

theorem bigInt_inj {i j : ℤ} (h : formatBigInt i = formatBigInt j) : i = j := by
  have := C38_text_roundtrip i
  rw [h, C38_text_roundtrip] at this
  exact (Option.some.inj this).symm

theorem int_inj {i j : BitVec 64} (h : formatInt i = formatInt j) : i = j := by
  rw [(C38_format_int64 i).1, (C38_format_int64 j).1] at h
  exact BitVec.eq_of_toInt_eq (bigInt_inj h)

theorem uint_inj {i j : BitVec 64} (h : formatUint i = formatUint j) : i = j := by
  rw [(C38_format_int64 i).2, (C38_format_int64 j).2] at h
  exact BitVec.eq_of_toNat_eq (by exact_mod_cast bigInt_inj h)

theorem int_plain (i : BitVec 64) : ∀ c ∈ formatInt i, plainChar c := by
  rw [(C38_format_int64 i).1]; exact bigInt_plain _

theorem uint_plain (i : BitVec 64) : ∀ c ∈ formatUint i, plainChar c := by
  rw [(C38_format_int64 i).2]; exact bigInt_plain _

theorem addr_plain (a : GoAddr) : ∀ c ∈ goString a, plainChar c := by
  intro c hc
  rw [goString, List.mem_append] at hc
  rcases hc with hc | hc
  · split_ifs at hc <;> simp only [List.mem_cons, List.not_mem_nil, or_false] at hc <;> rcases hc with rfl | rfl <;>
      exact ⟨by decide, by decide⟩
  · exact lowerHex_plain (List.all_eq_true.mp (hexEncode_lower a.id) c hc)

/-- What `SetBytes` and `SetTypeAndID` make. -/
def _root_.Verif.Address.GoAddr.Proper (a : GoAddr) : Prop := (a.typ = 0 ∨ a.typ = 1) ∧ a.id.length = 20

theorem addr_inj {a b : GoAddr} (ha : a.Proper) (hb : b.Proper) (h : goString a = goString b) : a = b := by
  obtain ⟨t, i⟩ := a
  obtain ⟨u, j⟩ := b
  obtain ⟨ha, _⟩ := ha
  obtain ⟨hb, _⟩ := hb
  dsimp only at ha hb
  rw [goString, goString] at h
  dsimp only at h
  rcases ha with rfl | rfl <;> rcases hb with rfl | rfl <;> simp at h ⊢ <;> exact hexEncode_inj h

/-! ## The fields that follow `dataType` -/

/-- An entry that may be missing. -/
def opt (name : String) : Option (List Char) → List (List Char × J F)
  | none => []
  | some s => [(name.toList, .str s)]

/-- The entries of a transaction from `from` on. -/
def entries (t : V3 F) : List (List Char × J F) :=
  opt "from" (some (goString t.src)) ++ (opt "nid" (t.nid.map formatInt) ++ (opt "nonce" (t.nonce.map formatBigInt) ++
    (opt "stepLimit" (some (formatBigInt t.stepLimit)) ++ (opt "timestamp" (some (formatInt t.timestamp)) ++
    (opt "to" (some (goString t.dst)) ++ (opt "value" (t.value.map formatBigInt) ++
    opt "version" (some (formatUint (t.version.setWidth 64)))))))))

/-- Their text. -/
def core (t : V3 F) : List Char :=
  field "from" (some (goString t.src)) ++ (field "nid" (t.nid.map formatInt) ++ (field "nonce" (t.nonce.map formatBigInt) ++
    (field "stepLimit" (some (formatBigInt t.stepLimit)) ++ (field "timestamp" (some (formatInt t.timestamp)) ++
    (field "to" (some (goString t.dst)) ++ (field "value" (t.value.map formatBigInt) ++
    field "version" (some (formatUint (t.version.setWidth 64)))))))))

theorem rest_eq (t : V3 F) : t.rest = field "dataType" t.dataType ++ core t := by
  simp only [V3.rest, core, List.append_assoc]

theorem tail_opt {name : String} {o : Option (List Char)} (hn : ∀ c ∈ name.toList, special c = false)
    (ho : ∀ s, o = some s → ∀ c ∈ s, plainChar c) {d : List (List Char × J F)} {x : List Char} (h : tailDict conv d = some x) :
    tailDict conv (opt name o ++ d) = some (field name o ++ x) := by
  cases o with
  | none => simpa [opt, field] using h
  | some s =>
    have hs : serString s = s := serString_plain (fun c hc => (ho s rfl c hc).1)
    have hk : serString name.toList = name.toList := serString_plain hn
    simp only [opt, field, List.cons_append, List.nil_append, tailDict, serValue, h, hs, hk, Option.map_some, List.append_assoc]

theorem map_plain {α : Type} {f : α → List Char} (hf : ∀ a, ∀ c ∈ f a, plainChar c) (o : Option α) :
    ∀ s, o.map f = some s → ∀ c ∈ s, plainChar c := by
  intro s hs
  obtain ⟨a, _, rfl⟩ := Option.map_eq_some_iff.mp hs
  exact hf a

theorem some_plain {x : List Char} (hx : ∀ c ∈ x, plainChar c) : ∀ s, some x = some s → ∀ c ∈ s, plainChar c := by
  rintro s ⟨⟩
  exact hx

theorem tail_entries (t : V3 F) : tailDict conv (entries t) = some (core t) := by
  unfold entries core
  apply tail_opt conv (by decide) (some_plain (addr_plain _))
  apply tail_opt conv (by decide) (map_plain int_plain _)
  apply tail_opt conv (by decide) (map_plain bigInt_plain _)
  apply tail_opt conv (by decide) (some_plain (bigInt_plain _))
  apply tail_opt conv (by decide) (some_plain (int_plain _))
  apply tail_opt conv (by decide) (some_plain (addr_plain _))
  apply tail_opt conv (by decide) (map_plain bigInt_plain _)
  have := tail_opt conv (name := "version") (by decide) (some_plain (uint_plain (t.version.setWidth 64))) (d := []) (x := []) rfl
  rwa [List.append_nil, List.append_nil] at this

theorem normalDict_append : ∀ {a b : List (List Char × J F)}, NormalDict a → NormalDict b → NormalDict (a ++ b)
  | [], _, _, hb => hb
  | _ :: _, _, ⟨h1, h2⟩, hb => ⟨h1, normalDict_append h2 hb⟩

theorem opt_normal (name : String) (o : Option (List Char)) : NormalDict (opt (F := F) name o) := by
  cases o
  · trivial
  · exact ⟨trivial, trivial⟩

theorem entries_normal (t : V3 F) : NormalDict (entries t) := by
  unfold entries
  repeat' apply normalDict_append
  all_goals apply opt_normal

/-- The value with a name. -/
def look (k : String) : List (List Char × J F) → Option (J F)
  | [] => none
  | e :: d => if e.1 = k.toList then some e.2 else look k d

theorem look_hit (k : String) (o : Option (List Char)) (d : List (List Char × J F)) (hd : look k d = none) :
    look k (opt k o ++ d) = o.map .str := by
  cases o with
  | none => exact hd
  | some s => simp only [opt, List.cons_append, List.nil_append, look, if_pos, Option.map_some]

theorem look_miss {k name : String} (h : k ≠ name) (o : Option (List Char)) (d : List (List Char × J F)) :
    look k (opt name o ++ d) = look k d := by
  cases o with
  | none => rfl
  | some s =>
    have : ¬ name.toList = k.toList := fun he => h (String.toList_inj.mp he).symm
    simp only [opt, List.cons_append, List.nil_append, look, if_neg this]

theorem look_miss' {k name : String} (h : k ≠ name) (o : Option (List Char)) : look k (opt (F := F) name o) = none := by
  have := look_miss (F := F) h o []
  rwa [List.append_nil] at this

theorem look_hit' (k : String) (o : Option (List Char)) : look k (opt (F := F) k o) = o.map .str := by
  have := look_hit (F := F) k o [] rfl
  rwa [List.append_nil] at this

theorem look_entries (t : V3 F) :
    look "from" (entries t) = some (.str (goString t.src)) ∧ look "nid" (entries t) = (t.nid.map formatInt).map .str ∧
    look "nonce" (entries t) = (t.nonce.map formatBigInt).map .str ∧ look "stepLimit" (entries t) = some (.str (formatBigInt t.stepLimit)) ∧
    look "timestamp" (entries t) = some (.str (formatInt t.timestamp)) ∧ look "to" (entries t) = some (.str (goString t.dst)) ∧
    look "value" (entries t) = (t.value.map formatBigInt).map .str ∧
    look "version" (entries t) = some (.str (formatUint (t.version.setWidth 64))) := by
  unfold entries
  generalize formatUint (t.version.setWidth 64) = x1, t.value.map formatBigInt = x2, goString t.dst = x3, formatInt t.timestamp = x4,
    formatBigInt t.stepLimit = x5, t.nonce.map formatBigInt = x6, t.nid.map formatInt = x7, goString t.src = x8
  refine ⟨?_, ?_, ?_, ?_, ?_, ?_, ?_, ?_⟩
  all_goals (repeat rw [look_miss (by decide)])
  all_goals first | rw [look_hit'] | rw [look_hit]
  all_goals first | rfl | skip
  all_goals (repeat rw [look_miss (by decide)])
  all_goals exact look_miss' (by decide) _

theorem map_map_inj {α : Type} {f : α → List Char} (hf : ∀ {a b}, f a = f b → a = b) {o o' : Option α}
    (h : (o.map f).map (J.str (F := F)) = (o'.map f).map .str) : o = o' := by
  cases o <;> cases o' <;> simp at h ⊢
  exact hf h

/-- All fields but the data and its type are the same. -/
def SameCore (t t' : V3 F) : Prop :=
  t.src = t'.src ∧ t.nid = t'.nid ∧ t.nonce = t'.nonce ∧ t.stepLimit = t'.stepLimit ∧ t.timestamp = t'.timestamp ∧ t.dst = t'.dst ∧
    t.value = t'.value ∧ t.version = t'.version

/-- The addresses are proper. -/
def V3.Proper (t : V3 F) : Prop := t.src.Proper ∧ t.dst.Proper

theorem core_inj {t t' : V3 F} (hp : t.Proper) (hp' : t'.Proper) (h : core t = core t') : SameCore t t' := by
  have e : entries t = entries t' := (tailDict_inj (fun _ => 0) _ (entries_normal t) _ (tail_entries _ t) _ _ [] []
    (entries_normal t') (tail_entries _ t') (Or.inl rfl) (Or.inl rfl) (by rw [h])).1
  obtain ⟨a1, a2, a3, a4, a5, a6, a7, a8⟩ := look_entries t
  obtain ⟨b1, b2, b3, b4, b5, b6, b7, b8⟩ := look_entries t'
  rw [e] at a1 a2 a3 a4 a5 a6 a7 a8
  rw [a1] at b1; rw [a2] at b2; rw [a3] at b3; rw [a4] at b4; rw [a5] at b5; rw [a6] at b6; rw [a7] at b7; rw [a8] at b8
  simp only [Option.some.injEq, J.str.injEq] at b1 b4 b5 b6 b8
  refine ⟨addr_inj hp.1 hp'.1 b1, map_map_inj int_inj b2, map_map_inj bigInt_inj b3, bigInt_inj b4, int_inj b5, addr_inj hp.2 hp'.2 b6,
    map_map_inj bigInt_inj b7, ?_⟩
  have := congrArg BitVec.toNat (uint_inj b8)
  rw [BitVec.toNat_setWidth, BitVec.toNat_setWidth, Nat.mod_eq_of_lt, Nat.mod_eq_of_lt] at this
  · exact BitVec.eq_of_toNat_eq this
  · have := t'.version.isLt; omega
  · have := t.version.isLt; omega

/-! ## The type of the data -/

theorem count_field {name : String} {o : Option (List Char)} (ho : ∀ s, o = some s → ∀ c ∈ s, plainChar c) :
    (field name o).count 'r' = if o = none then 0 else name.toList.count 'r' := by
  cases o with
  | none => simp [field]
  | some s =>
    have : s.count 'r' = 0 := List.count_eq_zero.mpr (fun hm => (ho s rfl _ hm).2 rfl)
    simp [field, this]

theorem count_core (t : V3 F) : (core t).count 'r' = 2 := by
  have hz : ∀ (name : String) (o : Option (List Char)), name.toList.count 'r' = 0 → (∀ s, o = some s → ∀ c ∈ s, plainChar c) →
      (field name o).count 'r' = 0 := by
    intro name o h ho
    rw [count_field ho, h, ite_self]
  unfold core
  simp only [List.count_append]
  rw [count_field (some_plain (addr_plain _)), hz _ _ (by decide) (map_plain int_plain _), hz _ _ (by decide) (map_plain bigInt_plain _),
    hz _ _ (by decide) (some_plain (bigInt_plain _)), hz _ _ (by decide) (some_plain (int_plain _)),
    hz _ _ (by decide) (some_plain (addr_plain _)), hz _ _ (by decide) (map_plain bigInt_plain _), count_field (some_plain (uint_plain _))]
  rfl

theorem core_start (t : V3 F) : ∃ u, core t = '.' :: 'f' :: 'r' :: u := ⟨_, rfl⟩

/-- The last `.from.` is the field. -/
theorem suffix_core {t t' : V3 F} {e : List Char} (h : e ++ core t = core t') : e = [] := by
  have hc := congrArg (List.count 'r') h
  rw [List.count_append, count_core, count_core] at hc
  obtain ⟨u, hu⟩ := core_start t
  obtain ⟨u', hu'⟩ := core_start t'
  rw [hu, hu'] at h
  match e, h, hc with
  | [], _, _ => rfl
  | [a], h, _ => simp at h
  | [a, b], h, _ => simp at h
  | a :: b :: c :: e, h, hc =>
    simp only [List.cons_append, List.cons.injEq] at h
    obtain ⟨_, _, rfl, _⟩ := h
    rw [List.count_cons, List.count_cons, List.count_cons_self] at hc
    omega

theorem rest_inj {t t' : V3 F} (h : t.rest = t'.rest) : t.dataType = t'.dataType ∧ core t = core t' := by
  rw [rest_eq, rest_eq] at h
  obtain ⟨u, hu⟩ := core_start t
  obtain ⟨u', hu'⟩ := core_start t'
  cases ha : t.dataType with
  | none =>
    cases hb : t'.dataType with
    | none => rw [ha, hb] at h; exact ⟨rfl, h⟩
    | some b =>
      rw [ha, hb, hu] at h
      simp [field] at h
  | some a =>
    cases hb : t'.dataType with
    | none =>
      rw [ha, hb, hu'] at h
      simp [field] at h
    | some b =>
      rw [ha, hb] at h
      simp only [field, List.cons_append, List.append_assoc, List.cons.injEq, true_and] at h
      have h := List.append_cancel_left h
      simp only [List.cons.injEq, true_and] at h
      rcases List.append_eq_append_iff.mp h with ⟨e, e1, e2⟩ | ⟨e, e1, e2⟩
      · have := suffix_core e2.symm
        subst this
        simp only [List.nil_append] at e2
        simp only [List.append_nil] at e1
        exact ⟨by rw [e1], e2⟩
      · have := suffix_core e2.symm
        subst this
        simp only [List.nil_append] at e2
        simp only [List.append_nil] at e1
        exact ⟨by rw [e1], e2.symm⟩

theorem rest_delim (t : V3 F) : ∃ u, t.rest = '.' :: u := by
  rw [rest_eq]
  cases t.dataType with
  | none => exact ⟨_, rfl⟩
  | some a => exact ⟨_, rfl⟩

theorem rest_not_data (t : V3 F) (u : List Char) : t.rest ≠ '.' :: 'd' :: 'a' :: 't' :: 'a' :: '.' :: u := by
  rw [rest_eq]
  obtain ⟨w, hw⟩ := core_start t
  cases t.dataType with
  | none => rw [hw]; simp [field]
  | some a => simp [field]

/-- What of the data is signed: an empty one counts as an empty string. -/
def dataNorm : Option (Option (J F)) → Option (J F)
  | none => none
  | some none => some (.str [])
  | some (some v) => some (norm conv v)

theorem dataText_norm (d : Option (Option (J F))) :
    (dataNorm conv d = none ∧ dataText conv d = some none) ∨
      ∃ n, dataNorm conv d = some n ∧ Normal n ∧ dataText conv d = (serValue conv n).map some := by
  match d with
  | none => exact Or.inl ⟨rfl, rfl⟩
  | some none => exact Or.inr ⟨_, rfl, trivial, rfl⟩
  | some (some v) => exact Or.inr ⟨_, rfl, norm_normal conv v, by rw [ser_norm]; rfl⟩

theorem rest_of_core {t t' : V3 F} (h1 : t.dataType = t'.dataType) (h2 : SameCore t t') : t.rest = t'.rest := by
  obtain ⟨a, b, c, d, e, f, g, i⟩ := h2
  simp only [V3.rest, h1, a, b, c, d, e, f, g, i]

/-- C63: two transactions in binary form have the same text, and so the same hash, exactly if all their fields are the same and their data has
the same normal form. -/
theorem C63_fields {t t' : V3 F} (hp : t.Proper) (hp' : t'.Proper) {x : List Char} (h : t.text conv = some x) :
    t'.text conv = some x ↔ SameCore t' t ∧ t'.dataType = t.dataType ∧ dataNorm conv t'.data = dataNorm conv t.data := by
  obtain ⟨d, hd, rfl⟩ := Option.map_eq_some_iff.mp h
  constructor
  · intro h'
    obtain ⟨d', hd', e⟩ := Option.map_eq_some_iff.mp h'
    simp only [List.append_assoc] at e
    have e := List.append_cancel_left e
    have key : dataNorm conv t'.data = dataNorm conv t.data ∧ t'.rest = t.rest := by
      obtain ⟨u, hu⟩ := rest_delim t
      obtain ⟨u', hu'⟩ := rest_delim t'
      rcases dataText_norm conv t.data with ⟨n1, n2⟩ | ⟨n, n1, n2, n3⟩ <;>
        rcases dataText_norm conv t'.data with ⟨m1, m2⟩ | ⟨m, m1, m2, m3⟩
      · rw [n2] at hd; rw [m2] at hd'
        cases hd; cases hd'
        exact ⟨by rw [n1, m1], e⟩
      · rw [n2] at hd; rw [m3] at hd'
        cases hd
        obtain ⟨f, hf, rfl⟩ := Option.map_eq_some_iff.mp hd'
        exact absurd e.symm (rest_not_data t _)
      · rw [n3] at hd; rw [m2] at hd'
        cases hd'
        obtain ⟨f, hf, rfl⟩ := Option.map_eq_some_iff.mp hd
        exact absurd e (rest_not_data t' _)
      · rw [n3] at hd; rw [m3] at hd'
        obtain ⟨f, hf, rfl⟩ := Option.map_eq_some_iff.mp hd
        obtain ⟨g, hg, rfl⟩ := Option.map_eq_some_iff.mp hd'
        simp only [field, List.cons_append, List.append_assoc, List.cons.injEq, true_and] at e
        have e := List.append_cancel_left e
        simp only [List.cons.injEq, true_and] at e
        have := ser_inj conv m m2 g hg n f t'.rest t.rest n2 hf (by rw [hu']; exact delim_dot _) (by rw [hu]; exact delim_dot _) e
        exact ⟨by rw [n1, m1, this.1], this.2⟩
    obtain ⟨r1, r2⟩ := rest_inj key.2
    exact ⟨core_inj hp' hp r2, r1, key.1⟩
  · rintro ⟨h1, h2, h3⟩
    have hr := rest_of_core h2 h1
    have hd' : dataText conv t'.data = dataText conv t.data := by
      rcases dataText_norm conv t.data with ⟨n1, n2⟩ | ⟨n, n1, n2, n3⟩ <;>
        rcases dataText_norm conv t'.data with ⟨m1, m2⟩ | ⟨m, m1, m2, m3⟩
      · rw [n2, m2]
      · rw [n1, m1] at h3; cases h3
      · rw [n1, m1] at h3; cases h3
      · rw [n1, m1] at h3; cases h3; rw [n3, m3]
    rw [V3.text, hd', hd, hr]
    rfl

end

/-! ## What is not signed -/

/-- C63 (finding): whoever sees a signed call can change its arguments and keep the signature: empty strings can be put in front of a list, a
string of a number can be made a number with any fraction, and an empty list can be made `[""]`. -/
theorem C63_not_signed :
    (∀ {F : Type} (conv : F → ℤ) (l : List (J F)), serValue conv (.list (.str [] :: l)) = serValue conv (.list l)) ∧
    (∀ {F : Type} (conv : F → ℤ) (x y : F), conv x = conv y → serValue conv (.num x) = serValue conv (.num y)) ∧
    (∀ {F : Type} (conv : F → ℤ) (x : F), serValue conv (.num x) = serValue conv (.str (decInt (conv x)))) := by
  refine ⟨fun conv l => ?_, fun conv x y h => ?_, fun conv x => ?_⟩
  · simp only [serValue, serList, serString, if_pos, List.append_nil]
  · simp only [serValue, h]
  · simp only [serValue, serString_plain (decInt_plain _)]

/-! ## The text of a number -/

theorem decNat_spec : ∀ fuel n, n < 10 ^ fuel → 0 < fuel →
    DigitsOf 10 (decNat fuel n) n ∧ decNat fuel n ≠ [] ∧ (n = 0 ∧ decNat fuel n = ['0'] ∨ n ≠ 0 ∧ (decNat fuel n).head? ≠ some '0')
  | 0, _, _, h => absurd h (by decide)
  | fuel + 1, n, hn, _ => by
    rw [decNat]
    by_cases h : n < 10
    · rw [if_pos h]
      refine ⟨?_, by simp, ?_⟩
      · have := DigitsOf.snoc (b := 10) (c := digit n) DigitsOf.nil h (by omega) (Or.inl ⟨by rw [digit, Nat.mod_eq_of_lt h], h⟩)
        simpa using this
      · by_cases h0 : n = 0
        · subst h0; exact Or.inl ⟨rfl, rfl⟩
        · refine Or.inr ⟨h0, ?_⟩
          have : ∀ m < 10, m ≠ 0 → [digit m].head? ≠ some '0' := by decide
          exact this n h h0
    · rw [if_neg h]
      have hf : 0 < fuel := by
        rcases Nat.eq_zero_or_pos fuel with rfl | hf
        · simp at hn; omega
        · exact hf
      obtain ⟨h1, h2, h3⟩ := decNat_spec fuel (n / 10) (by rw [Nat.div_lt_iff_lt_mul (by decide)]; rwa [Nat.pow_succ] at hn) hf
      refine ⟨?_, by simp, Or.inr ⟨by omega, ?_⟩⟩
      · have := DigitsOf.snoc (b := 10) (c := digit n) (d := n % 10) h1 (Nat.mod_lt _ (by decide)) (by omega)
          (Or.inl ⟨rfl, Nat.mod_lt _ (by decide)⟩)
        rwa [show n / 10 * 10 + n % 10 = n by omega] at this
      · rcases h3 with ⟨h3, _⟩ | ⟨_, h3⟩
        · omega
        · cases hd : decNat fuel (n / 10) with
          | nil => exact absurd hd h2
          | cons c r => rw [hd] at h3; exact h3

/-- C63: a number is written in decimal, with its sign and without leading zeros. -/
theorem C63_decimal (i : ℤ) (hi : i.natAbs < 10 ^ 20) :
    ∃ ds, decInt i = (if i < 0 then ['-'] else []) ++ ds ∧ DigitsOf 10 ds i.natAbs ∧ ds ≠ [] ∧ (ds = ['0'] ∨ ds.head? ≠ some '0') := by
  obtain ⟨h1, h2, h3⟩ := decNat_spec 20 i.natAbs hi (by decide)
  refine ⟨decNat 20 i.natAbs, ?_, h1, h2, ?_⟩
  · rw [decInt]
    split_ifs <;> rfl
  · rcases h3 with ⟨_, h⟩ | ⟨_, h⟩
    · exact Or.inl h
    · exact Or.inr h

theorem digitsOf_fun {b : ℕ} {s : List Char} {m n : ℕ} (h : DigitsOf b s m) (h' : DigitsOf b s n) : m = n := by
  induction h generalizing n with
  | nil => exact (digitsOf_nil h').symm
  | snoc h1 h2 h3 h4 ih =>
    obtain ⟨n', d', a1, a2, a3, rfl⟩ := digitsOf_snoc_iff.mp h'
    have := (digitVal_iff _ _).mpr ⟨h3, h4⟩
    rw [a2] at this
    cases this
    rw [ih a1]

theorem minus_digits {r : List Char} {n : ℕ} (h : DigitsOf 10 ('-' :: r) n) : False := by
  have : ∀ (s : List Char) (n : ℕ), DigitsOf 10 s n → ∀ c ∈ s, c ≠ '-' := by
    intro s n h
    induction h with
    | nil => simp
    | snoc h1 h2 h3 h4 ih =>
      intro c hc
      rcases List.mem_append.mp hc with hc | hc
      · exact ih c hc
      · rw [List.mem_singleton] at hc
        subst hc
        rintro rfl
        have := (digitVal_iff _ _).mpr ⟨h3, h4⟩
        revert this
        decide +revert
  exact this _ _ h '-' (by simp) rfl

/-- C63: numbers have the same text exactly if their integer parts are the same. -/
theorem C63_number {i j : ℤ} (hi : i.natAbs < 10 ^ 20) (hj : j.natAbs < 10 ^ 20) : decInt i = decInt j ↔ i = j := by
  refine ⟨fun h => ?_, fun h => by rw [h]⟩
  obtain ⟨a, ha, a1, _, _⟩ := C63_decimal i hi
  obtain ⟨b, hb, b1, _, _⟩ := C63_decimal j hj
  rw [ha, hb] at h
  by_cases h1 : i < 0 <;> by_cases h2 : j < 0
  · rw [if_pos h1, if_pos h2] at h
    rw [List.append_cancel_left h] at a1
    have := digitsOf_fun a1 b1
    omega
  · rw [if_pos h1, if_neg h2] at h
    exact absurd (show DigitsOf 10 ('-' :: a) _ by rw [show '-' :: a = b from h]; exact b1) minus_digits
  · rw [if_neg h1, if_pos h2] at h
    exact absurd (show DigitsOf 10 ('-' :: b) _ by rw [show '-' :: b = a from h.symm]; exact a1) minus_digits
  · rw [if_neg h1, if_neg h2] at h
    rw [show a = b from h] at a1
    have := digitsOf_fun a1 b1
    omega

/-! ## The hypotheses are met -/

/-- A call. -/
def exCall (args : List (J ℤ)) : V3 ℤ :=
  { data := some (some (.dict [("method".toList, .str "f".toList), ("params".toList, .list args)])), dataType := some "call".toList,
    src := ⟨0, List.replicate 20 7⟩, nid := some 1, nonce := none, stepLimit := 100, timestamp := 5, dst := ⟨1, List.replicate 20 9⟩,
    value := none, version := 3 }

example : (exCall [.str "a.b".toList]).Proper := ⟨⟨Or.inl rfl, rfl⟩, ⟨Or.inr rfl, rfl⟩⟩
example : ((exCall [.str "a.b".toList, .num 3]).text id).isSome = true := by decide +kernel
example : (exCall [.str [], .num 3]).text id = (exCall [.str "3".toList]).text id := by decide +kernel
example : (exCall [.str "a".toList, .str []]).text id ≠ (exCall [.str "a".toList]).text id := by decide +kernel
example : (jsonText (F := ℤ) id [("to".toList, .str "x".toList), ("txHash".toList, .bool true)]) = some "icx_sendTransaction.to.x".toList := by
  decide +kernel

end Verif.Tx
