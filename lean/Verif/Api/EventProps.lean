import Verif.Api.Event
import Verif.Api.TypesProps
import Verif.Container.Lemmas

/-!
# C14: event logs
-/
namespace Verif.Api
open Verif.Container (PyVal utf8 utf8Decode utf8_decode)
open Verif.IntCodec

/-! ### Specification -/

/-- The value a call gives to a parameter: the positional argument (which must not be given by name as
well), else the argument given by name, else the default. -/
inductive Given (p : Param) (pos : Option Val) (kwargs : List (String × Val)) (v : PyVal) : Prop
  | positional (h : pos = some (.ok v)) (h' : lookup p.name kwargs = none)
  | keyword (h : pos = none) (h' : lookup p.name kwargs = some (.ok v))
  | default (h : pos = none) (h' : lookup p.name kwargs = none) (h'' : p.default = some (.ok v))

/-- `None` or a value of the declared type; in Python `True` and `False` are integers too. -/
inductive FitsType : PyVal → Base → Prop
  | none (b : Base) : FitsType .none b
  | int (i : ℤ) : FitsType (.int i) .int
  | boolInt (c : Bool) : FitsType (.bool c) .int
  | bool (c : Bool) : FitsType (.bool c) .bool
  | str (s : String) : FitsType (.str s) .str
  | bytes (s : Bytes) : FitsType (.bytes s) .bytes
  | addr (a : Address.Addr) : FitsType (.addr a) .address

theorem fits_iff (v : PyVal) (b : Base) : FitsType v b ↔ v = .none ∨ isInstance v b = true := by
  constructor
  · intro h; cases h <;> simp [isInstance]
  · rintro (rfl | h)
    · exact .none b
    · cases v <;> cases b <;> simp [isInstance] at h <;> constructor

/-- The type annotation of a parameter of an event names a base type. -/
def Annotated (p : Param) (b : Base) : Prop :=
  p.hint = some (.base b) ∨ (p.hint = some (.text "Address") ∧ b = .address)

/-- `name(T1,T2,..)` in bytes. -/
def signatureBytes (e : Event) : Bytes := utf8 (String.ofList (signatureOf e.fname (e.types.map Base.pyName)))

/-! ### Declarations -/

theorem mainType_iff (o : Option Hint) (b : Base) : mainType o = .ok b ↔
    (o = some (.base b) ∨ (o = some (.text "Address") ∧ b = .address)) := by
  cases o with
  | none => simp [mainType]
  | some h => cases h with
    | base c => simp [mainType]
    | text s =>
      by_cases hs : s = "Address"
      · subst hs; simp [mainType, eq_comm]
      · simp [mainType, hs]
    | _ => simp [mainType]

theorem mainTypes_iff : ∀ (ps : List Param) (ts : List Base), mainTypes ps = .ok ts ↔
    List.Forall₂ Annotated ps ts
  | [], ts => by
    rw [mainTypes]
    constructor
    · intro h; cases h; exact .nil
    · intro h; cases h; rfl
  | p :: l, ts => by
    rw [mainTypes]
    constructor
    · intro h
      rcases hm : mainType p.hint with e | b
      · rw [hm] at h; simp at h
      · rw [hm] at h
        rcases hl : mainTypes l with e | bs
        · rw [hl] at h; simp at h
        · rw [hl] at h
          simp only [Except.ok.injEq] at h
          subst h
          exact .cons ((mainType_iff _ _).mp hm) ((mainTypes_iff l bs).mp hl)
    · intro h
      cases h with
      | cons h1 h2 =>
        rw [(mainType_iff _ _).mpr h1, (mainTypes_iff l _).mpr h2]

/-- C14: which declarations are accepted: `self` first, at most three indexed parameters and at most as many as
there are parameters, all annotated with base types. -/
theorem C14_declare_exact (d : Decl) (e : Event) : declare d = .ok e ↔
    ∃ s ps ts, d.params = s :: ps ∧ s.name = "self" ∧ d.indexed ≤ 3 ∧ d.indexed ≤ ps.length ∧
      List.Forall₂ Annotated ps ts ∧ e = ⟨d.fname, ps, ts, d.indexed⟩ := by
  rw [declare]
  cases hp : d.params with
  | nil => simp
  | cons s ps =>
    simp only []
    by_cases h1 : s.name ≠ "self"
    · rw [if_pos h1]; simp [h1]
    rw [if_neg h1]
    by_cases h2 : d.indexed > 3
    · rw [if_pos h2]
      simp only [reduceCtorEq, false_iff]
      rintro ⟨s', ps', ts, h, _, h3, _⟩; omega
    rw [if_neg h2]
    by_cases h3 : (ps.length : ℤ) < d.indexed
    · rw [if_pos h3]
      simp only [reduceCtorEq, false_iff]
      rintro ⟨s', ps', ts, h, _, _, h4, _⟩
      cases h; omega
    rw [if_neg h3]
    constructor
    · intro h
      rcases hm : mainTypes ps with x | ts
      · rw [hm] at h; simp at h
      · rw [hm] at h
        simp only [Except.ok.injEq] at h
        exact ⟨s, ps, ts, rfl, by simpa using h1, by omega, by omega, (mainTypes_iff _ _).mp hm, h.symm⟩
    · rintro ⟨s', ps', ts, h, _, _, _, h4, h5⟩
      cases h
      rw [(mainTypes_iff _ _).mpr h4, h5]

/-! ### Arguments -/

theorem checkType_iff (v : Val) (b : Base) (x : PyVal) :
    checkType v b = .ok x ↔ v = .ok x ∧ FitsType x b := by
  cases v with
  | other => simp [checkType]
  | ok y =>
    have hne : y ≠ .none → checkType (.ok y) b = if isInstance y b then .ok y else .error .typeMismatch := by
      intro h; cases y <;> first | rfl | exact absurd rfl h
    by_cases hy : y = .none
    · subst hy
      simp only [checkType, Except.ok.injEq, Val.ok.injEq]
      exact ⟨fun h => ⟨h, h ▸ .none b⟩, fun h => h.1⟩
    · rw [hne hy]
      by_cases hi : isInstance y b = true
      · rw [if_pos hi]
        simp only [Except.ok.injEq, Val.ok.injEq]
        exact ⟨fun h => ⟨h, (fits_iff _ _).mpr (.inr (h ▸ hi))⟩, fun h => h.1⟩
      · rw [if_neg hi]
        simp only [reduceCtorEq, Val.ok.injEq, false_iff]
        rintro ⟨rfl, h⟩
        rcases (fits_iff _ _).mp h with h | h
        · exact hy h
        · exact hi h

theorem valueOf_iff (p : Param) (pos : Option Val) (kw : List (String × Val)) (x : PyVal) :
    valueOf p pos kw = .ok (.ok x) ↔ Given p pos kw x := by
  constructor
  · intro h
    cases pos with
    | some v =>
      simp only [valueOf] at h
      by_cases hl : (lookup p.name kw).isSome
      · rw [if_pos hl] at h; cases h
      · rw [if_neg hl] at h
        cases h
        exact .positional rfl (by simpa using hl)
    | none =>
      simp only [valueOf] at h
      rcases hl : lookup p.name kw with _ | v
      · rw [hl] at h
        simp only [] at h
        rcases hd : p.default with _ | v
        · rw [hd] at h; cases h
        · rw [hd] at h; cases h
          exact .default rfl hl hd
      · rw [hl] at h; cases h
        exact .keyword rfl hl
  · intro h
    cases h with
    | positional h h' => simp [valueOf, h, h']
    | keyword h h' => simp [valueOf, h, h']
    | default h h' h'' => simp [valueOf, h, h', h'']

theorem resolveLoop_iff (kw : List (String × Val)) : ∀ (ps : List Param) (bs : List Base) (args : List Val)
    (vs : List PyVal), ps.length = bs.length → (resolveLoop kw ps bs args = .ok vs ↔
      vs.length = ps.length ∧ ∀ (i : ℕ) p b v, ps[i]? = some p → bs[i]? = some b → vs[i]? = some v →
        Given p args[i]? kw v ∧ FitsType v b)
  | [], bs, args, vs, hl => by
    cases bs <;> simp at hl
    rw [resolveLoop]
    constructor
    · intro h; cases h; simp
    · rintro ⟨h, _⟩
      simp at h; rw [h]
    all_goals simp
  | p :: ps, [], args, vs, hl => by simp at hl
  | p :: ps, b :: bs, args, vs, hl => by
    have hl' : ps.length = bs.length := by simpa using hl
    have ih := fun vs => resolveLoop_iff kw ps bs args.tail vs hl'
    rw [resolveLoop]
    constructor
    · intro h
      rcases hv : valueOf p args.head? kw with e | v
      · rw [hv] at h; cases h
      rw [hv] at h
      simp only [] at h
      rcases hc : checkType v b with e | x
      · rw [hc] at h; cases h
      rw [hc] at h
      simp only [] at h
      rcases hr : resolveLoop kw ps bs args.tail with e | xs
      · rw [hr] at h; cases h
      rw [hr] at h
      cases h
      obtain ⟨h1, h2⟩ := (ih xs).mp hr
      refine ⟨by simp [h1], ?_⟩
      intro i q c w hp hb hw
      cases i with
      | zero =>
        simp only [List.getElem?_cons_zero, Option.some.injEq] at hp hb hw
        subst hp hb hw
        obtain ⟨hc1, hc2⟩ := (checkType_iff _ _ _).mp hc
        rw [hc1] at hv
        have := (valueOf_iff _ _ _ _).mp hv
        rw [List.head?_eq_getElem?] at this
        exact ⟨this, hc2⟩
      | succ i =>
        have := h2 i q c w (by simpa using hp) (by simpa using hb) (by simpa using hw)
        rw [List.getElem?_tail] at this
        exact this
    · rintro ⟨h1, h2⟩
      cases vs with
      | nil => simp at h1
      | cons x xs =>
        obtain ⟨g, f⟩ := h2 0 p b x rfl rfl rfl
        rw [← List.head?_eq_getElem?] at g
        rw [(valueOf_iff _ _ _ _).mpr g]
        simp only []
        rw [(checkType_iff _ _ _).mpr ⟨rfl, f⟩]
        simp only []
        rw [(ih xs).mpr ⟨by simpa using h1, ?_⟩]
        intro i q c w hp hb hw
        have := h2 (i + 1) q c w (by simpa using hp) (by simpa using hb) (by simpa using hw)
        rw [List.getElem?_tail]
        exact this

theorem forall2_length {α β : Type} {R : α → β → Prop} {l : List α} {m : List β}
    (h : List.Forall₂ R l m) : l.length = m.length := h.length_eq

theorem separate_eq (k : ℤ) : ∀ (l : List PyVal) (i : ℕ),
    separate k i l = (l.take (k - i).toNat, l.drop (k - i).toNat)
  | [], i => by simp [separate]
  | a :: l, i => by
    simp only [separate, separate_eq k l (i + 1)]
    by_cases h : (i : ℤ) < k
    · rw [if_pos h]
      have : (k - i).toNat = (k - ((i + 1 : ℕ) : ℤ)).toNat + 1 := by push_cast; omega
      rw [this]; simp
    · rw [if_neg h]
      have h0 : (k - i).toNat = 0 := by omega
      have h1 : (k - ((i + 1 : ℕ) : ℤ)).toNat = 0 := by push_cast; omega
      rw [h0, h1]; simp

theorem resolve_iff (d : Decl) (e : Event) (hd : declare d = .ok e) (args : List Val)
    (kw : List (String × Val)) (vs : List PyVal) : resolve e args kw = .ok vs ↔
      args.length + kw.length ≤ e.params.length ∧ vs.length = e.params.length ∧
      ∀ (i : ℕ) p b v, e.params[i]? = some p → e.types[i]? = some b → vs[i]? = some v →
        Given p args[i]? kw v ∧ FitsType v b := by
  obtain ⟨s, ps, ts, _, _, _, _, h2, rfl⟩ := (C14_declare_exact d e).mp hd
  rw [resolve]
  by_cases h : ps.length < args.length + kw.length
  · simp only [h, if_true, reduceCtorEq, false_iff]
    rintro ⟨h', _⟩; omega
  · simp only [h, if_false]
    rw [resolveLoop_iff kw ps ts args vs (forall2_length h2)]
    constructor
    · rintro ⟨a, b⟩; exact ⟨by omega, a, b⟩
    · rintro ⟨_, a, b⟩; exact ⟨a, b⟩

/-- C14: exactly which calls of an event succeed, and what they send. The message starts with the signature, then the
declared number of arguments, then all other arguments, in the order of the declaration, each one exactly
once with the value the call gives to it. -/
theorem C14_layout (d : Decl) (e : Event) (hd : declare d = .ok e) (ro : Bool) (args : List Val)
    (kw : List (String × Val)) (n : ℕ) (m : Msg) :
    emit ro e args kw = .ok (n, m) ↔ ro = false ∧ e.signature ≠ reservedSignature ∧
      args.length + kw.length ≤ e.params.length ∧
      ∃ vs : List PyVal, vs.length = e.params.length ∧
        (∀ (i : ℕ) p b v, e.params[i]? = some p → e.types[i]? = some b → vs[i]? = some v →
          Given p args[i]? kw v ∧ FitsType v b) ∧
        m.indexed = some (signatureBytes e) :: (vs.take d.indexed.toNat).map encode ∧
        m.data = (vs.drop d.indexed.toNat).map encode ∧
        n = (signatureBytes e).length + (vs.map byteLength).sum := by
  have hi : e.indexed = d.indexed ∧ d.indexed ≤ e.params.length := by
    obtain ⟨s, ps, ts, _, _, _, h1, h2, rfl⟩ := (C14_declare_exact d e).mp hd
    exact ⟨rfl, h1⟩
  rw [emit]
  constructor
  · intro h
    rcases hr : resolve e args kw with x | vs
    · rw [hr] at h; cases h
    rw [hr] at h
    simp only [] at h
    by_cases h1 : e.signature = reservedSignature
    · rw [if_pos h1] at h; cases h
    rw [if_neg h1] at h
    by_cases h2 : ro = true
    · rw [if_pos h2] at h; cases h
    rw [if_neg h2] at h
    by_cases h3 : e.indexed > vs.length
    · rw [if_pos h3] at h; cases h
    rw [if_neg h3] at h
    obtain ⟨r1, r2, r3⟩ := (resolve_iff d e hd _ _ _).mp hr
    refine ⟨by simpa using h2, h1, r1, vs, r2, r3, ?_⟩
    simp only [Except.ok.injEq, Prod.mk.injEq, separate_eq] at h
    obtain ⟨ha, hb⟩ := h
    subst hb
    refine ⟨?_, ?_, ha.symm⟩
    · simp [hi.1, encode, signatureBytes, Event.signature]
    · simp [hi.1]
  · rintro ⟨h2, h1, h3, vs, h4, h5, h6, h7, h8⟩
    rw [(resolve_iff d e hd _ _ _).mpr ⟨h3, h4, h5⟩]
    simp only []
    rw [if_neg h1, if_neg (by simp [h2]), if_neg (by rw [h4, hi.1]; omega)]
    simp only [Except.ok.injEq, Prod.mk.injEq, separate_eq]
    refine ⟨h8.symm, ?_⟩
    cases m
    simp only [Msg.mk.injEq] at *
    rw [h6, h7]
    simp [hi.1, encode, signatureBytes, Event.signature]

/-- C14: counts. A message has the signature, the declared number of indexed values and the remaining
parameters as data. -/
theorem C14_counts (d : Decl) (e : Event) (hd : declare d = .ok e) (ro : Bool) (args : List Val)
    (kw : List (String × Val)) (n : ℕ) (m : Msg) (h : emit ro e args kw = .ok (n, m)) :
    m.indexed.length = 1 + d.indexed.toNat ∧ m.indexed.length ≤ 4 ∧
    m.indexed.length + m.data.length = 1 + (d.params.length - 1) := by
  obtain ⟨_, _, _, vs, h1, _, h2, h3, _⟩ := (C14_layout d e hd ro args kw n m).mp h
  obtain ⟨s, ps, ts, hp, _, hx, hy, _, rfl⟩ := (C14_declare_exact d e).mp hd
  simp only [] at h1
  rw [h2, h3, hp]
  simp only [List.length_cons, List.length_map, List.length_take, List.length_drop, h1]
  omega

theorem lookup_mem {n : String} {v : Val} : ∀ {kw : List (String × Val)}, (kw.map Prod.fst).Nodup →
    (n, v) ∈ kw → lookup n kw = some v
  | [], _, h => by cases h
  | (k, w) :: l, hn, h => by
    rw [lookup]
    simp only [List.map_cons, List.nodup_cons] at hn
    rcases List.mem_cons.mp h with h | h
    · cases h; rw [if_pos rfl]
    · rw [if_neg, lookup_mem hn.2 h]
      rintro rfl
      exact hn.1 (List.mem_map.mpr ⟨_, h, rfl⟩)

/-- C14: no argument is lost or moved. The value given at position `i`, and the value given by the name of parameter
`i`, is the value at place `i` after the signature in the message. -/
theorem C14_no_argument_lost (d : Decl) (e : Event) (hd : declare d = .ok e) (ro : Bool) (args : List Val)
    (kw : List (String × Val)) (hk : (kw.map Prod.fst).Nodup) (n : ℕ) (m : Msg)
    (h : emit ro e args kw = .ok (n, m)) (i : ℕ) (p : Param) (hp : d.params[i + 1]? = some p) (v : Val)
    (hv : args[i]? = some v ∨ (p.name, v) ∈ kw) :
    ∃ x, v = .ok x ∧ (m.indexed ++ m.data)[i + 1]? = some (encode x) := by
  obtain ⟨_, _, _, vs, h1, hg, h2, h3, _⟩ := (C14_layout d e hd ro args kw n m).mp h
  obtain ⟨s, ps, ts, hps, _, hx, hy, hf, rfl⟩ := (C14_declare_exact d e).mp hd
  rw [hps] at hp
  simp only [List.getElem?_cons_succ] at hp
  have hi : i < ps.length := (List.getElem?_eq_some_iff.mp hp).1
  have hts : i < ts.length := by rw [← forall2_length hf]; exact hi
  simp only [] at h1
  have hvs : i < vs.length := by omega
  obtain ⟨g, _⟩ := hg i p _ _ hp (List.getElem?_eq_getElem hts) (List.getElem?_eq_getElem hvs)
  refine ⟨vs[i], ?_, ?_⟩
  · rcases hv with hv | hv
    · cases g with
      | positional a _ => rw [hv] at a; cases a; rfl
      | keyword a _ => rw [hv] at a; cases a
      | default a _ _ => rw [hv] at a; cases a
    · have hl := lookup_mem hk hv
      cases g with
      | positional _ a => rw [hl] at a; cases a
      | keyword _ a => rw [hl] at a; cases a; rfl
      | default _ a _ => rw [hl] at a; cases a
  · rw [h2, h3, List.cons_append, List.getElem?_cons_succ, ← List.map_append, List.take_append_drop]
    simp [hvs]

/-- C14: more than three indexed parameters, or more than there are parameters, are refused. -/
theorem C14_too_many_indexed (d : Decl) (h : 3 < d.indexed ∨ ((d.params.length - 1 : ℕ) : ℤ) < d.indexed)
    (e : Event) : declare d ≠ .ok e := by
  intro hd
  obtain ⟨s, ps, ts, hps, _, hx, hy, _, _⟩ := (C14_declare_exact d e).mp hd
  rw [hps] at h
  simp only [List.length_cons] at h
  omega

/-- C14: calls with too many arguments, with a parameter given twice, with a parameter that has no value, and
with a value of another type are refused. -/
theorem C14_rejections (d : Decl) (e : Event) (hd : declare d = .ok e) (ro : Bool) (args : List Val)
    (kw : List (String × Val))
    (h : d.params.length - 1 < args.length + kw.length ∨
      ∃ (i : ℕ) (p : Param) (b : Base), e.params[i]? = some p ∧ e.types[i]? = some b ∧
        ((args[i]?.isSome ∧ (lookup p.name kw).isSome) ∨
         (args[i]? = none ∧ lookup p.name kw = none ∧ p.default = none) ∨
         (∃ v, args[i]? = some v ∧ ∀ x, v = .ok x → ¬ FitsType x b) ∨
         (∃ v, args[i]? = none ∧ lookup p.name kw = some v ∧ ∀ x, v = .ok x → ¬ FitsType x b))) :
    ∀ r, emit ro e args kw ≠ .ok r := by
  rintro ⟨n, m⟩ hr
  obtain ⟨_, _, h0, vs, h1, hg, _⟩ := (C14_layout d e hd ro args kw n m).mp hr
  have hl : e.params.length = d.params.length - 1 := by
    obtain ⟨s, ps, ts, hps, _, hx, hy, _, rfl⟩ := (C14_declare_exact d e).mp hd
    rw [hps]; simp
  rcases h with h | ⟨i, p, b, hp, hb, h⟩
  · omega
  · have hvs : i < vs.length := by rw [h1]; exact (List.getElem?_eq_some_iff.mp hp).1
    obtain ⟨g, f⟩ := hg i p b _ hp hb (List.getElem?_eq_getElem hvs)
    rcases h with ⟨a, c⟩ | ⟨a, c, k⟩ | ⟨v, a, c⟩ | ⟨v, a, k, c⟩
    · cases g with
      | positional _ x => rw [x] at c; simp at c
      | keyword x _ => rw [x] at a; simp at a
      | default x _ _ => rw [x] at a; simp at a
    · cases g with
      | positional x _ => rw [x] at a; simp at a
      | keyword _ x => rw [x] at c; simp at c
      | default _ _ x => rw [x] at k; simp at k
    · cases g with
      | positional x _ => rw [x] at a; cases a; exact c _ rfl f
      | keyword x _ => rw [x] at a; cases a
      | default x _ _ => rw [x] at a; cases a
    · cases g with
      | positional x _ => rw [x] at a; cases a
      | keyword _ x => rw [x] at k; cases k; exact c _ rfl f
      | default _ x _ => rw [x] at k; cases k

theorem utf8_inj {a b : String} (h : utf8 a = utf8 b) : a = b := by
  have := utf8_decode a
  rw [h, utf8_decode] at this
  exact (Option.some.inj this).symm

theorem reserved_aux (d : Decl) (e : Event) (hd : declare d = .ok e) (ro : Bool) (args : List Val)
    (kw : List (String × Val)) (n : ℕ) (m : Msg) (h : emit ro e args kw = .ok (n, m)) (t : String)
    (ht : reservedSignature = t.toList) : m.indexed.head? ≠ some (some (utf8 t)) := by
  obtain ⟨_, h0, _, vs, _, _, h2, _⟩ := (C14_layout d e hd ro args kw n m).mp h
  rw [h2]
  simp only [List.head?_cons, ne_eq, Option.some.injEq]
  intro hc
  have hc := congrArg String.toList (utf8_inj hc)
  rw [String.toList_ofList] at hc
  apply h0
  rw [Event.signature, ht]
  exact hc

/-- C14: no contract can send a message with the signature of the transfer event of the platform. -/
theorem C14_reserved (d : Decl) (e : Event) (hd : declare d = .ok e) (ro : Bool) (args : List Val)
    (kw : List (String × Val)) (n : ℕ) (m : Msg) (h : emit ro e args kw = .ok (n, m)) :
    m.indexed.head? ≠ some (some (utf8 "ICXTransfer(Address,Address,int)")) :=
  reserved_aux d e hd ro args kw n m h _ rfl

/-- C14: the size charged for an event is the number of bytes sent. -/
theorem C14_size (d : Decl) (e : Event) (hd : declare d = .ok e) (ro : Bool) (args : List Val)
    (kw : List (String × Val)) (n : ℕ) (m : Msg) (h : emit ro e args kw = .ok (n, m)) :
    n = ((m.indexed ++ m.data).map (fun o => (o.getD []).length)).sum := by
  obtain ⟨_, h0, _, vs, _, _, h2, h3, h4⟩ := (C14_layout d e hd ro args kw n m).mp h
  rw [h2, h3, h4, List.cons_append, ← List.map_append, List.take_append_drop]
  simp only [List.map_cons, Option.getD_some, List.sum_cons, List.map_map]
  congr 2
  apply List.map_congr_left
  intro v _
  cases v with
  | bool b => cases b <;> decide
  | int i => simp [byteLength, encode, pyIntToBytes_eq, enc_length]
  | _ => simp [byteLength, encode]

/-! ### The service -/

theorem paramCode_eq {p : Param} {b : Base} (h : Annotated p b) : paramCode p = some (Elem.base b).tag := by
  rcases h with h | ⟨h, rfl⟩
  · rw [paramCode, h]
    by_cases hd : p.default = some (.ok .none)
    · simp only [Option.getD_some, normalize, Option.bind_some, if_pos hd]
      cases b <;> rfl
    · simp only [Option.getD_some, normalize, Option.bind_some, if_neg hd]
      cases b <;> rfl
  · rw [paramCode, h]
    by_cases hd : p.default = some (.ok .none)
    · simp only [Option.getD_some, normalize, Option.bind_some, if_pos hd, and_self, if_true]
      rfl
    · simp only [Option.getD_some, normalize, Option.bind_some, if_neg hd, and_self, if_true]
      rfl

theorem paramCodes_eq {ps : List Param} {ts : List Base} (h : List.Forall₂ Annotated ps ts) :
    paramCodes ps = some (ts.map (fun b => (Elem.base b).tag)) := by
  induction h with
  | nil => rfl
  | cons h1 _ ih => rw [paramCodes, paramCode_eq h1, ih]; rfl

theorem eventMethod_eq {d : Decl} {e : Event} (hd : declare d = .ok e) :
    eventMethod e = some ⟨e.fname, d.indexed, e.types.map (fun b => (Elem.base b).tag)⟩ := by
  obtain ⟨s, ps, ts, _, _, _, _, h2, rfl⟩ := (C14_declare_exact d e).mp hd
  simp only [eventMethod, paramCodes_eq h2, Option.map_some]

theorem goString_tag (b : Base) : (goString (Elem.base b).tag).getD [] = b.pyName := by
  cases b <;> rfl

/-- C14: the service computes the same signature from the API as the executor sends. -/
theorem C14_same_signature (d : Decl) (e : Event) (hd : declare d = .ok e) :
    ∃ g, eventMethod e = some g ∧ g.signature = e.signature := by
  refine ⟨_, eventMethod_eq hd, ?_⟩
  simp [GoMethod.signature, Event.signature, List.map_map, Function.comp_def, goString_tag]

/-- Addresses have 20 bytes after the prefix. -/
def GoodVal : Val → Prop
  | .ok (.addr a) => a.body.length = 20
  | _ => True

/-- All the values a call may use are proper. -/
def GoodCall (e : Event) (args : List Val) (kw : List (String × Val)) : Prop :=
  (∀ v ∈ args, GoodVal v) ∧ (∀ q ∈ kw, GoodVal q.2) ∧ ∀ p ∈ e.params, ∀ v, p.default = some v → GoodVal v

theorem lookup_some {n : String} {v : Val} : ∀ {kw : List (String × Val)}, lookup n kw = some v → (n, v) ∈ kw
  | (k, w) :: l, h => by
    rw [lookup] at h
    by_cases hk : k = n
    · rw [if_pos hk] at h; cases h; subst hk; simp
    · rw [if_neg hk] at h
      exact List.mem_cons_of_mem _ (lookup_some h)

theorem given_good {p : Param} {args : List Val} {i : ℕ} {kw : List (String × Val)} {v : PyVal}
    (g : Given p args[i]? kw v) (h1 : ∀ v ∈ args, GoodVal v) (h2 : ∀ q ∈ kw, GoodVal q.2)
    (h3 : ∀ v, p.default = some v → GoodVal v) : GoodVal (.ok v) := by
  cases g with
  | positional h _ => exact h1 _ (List.mem_of_getElem? h)
  | keyword _ h => exact h2 _ (lookup_some h)
  | default _ _ h => exact h3 _ h

theorem validate_encode {v : PyVal} {b : Base} (hf : FitsType v b) (hg : GoodVal (.ok v)) :
    validateEvent (Elem.base b).tag (encode v) = true := by
  rcases (fits_iff _ _).mp hf with rfl | hf
  · cases b <;> decide
  · cases v with
    | none => simp [isInstance] at hf
    | int i =>
      cases b <;> simp [isInstance] at hf
      have h : (enc i (pyByteLength i)).length ≠ 0 := by
        rw [enc_length]; exact (pyByteLength_pos i).ne'
      have h' : enc i (pyByteLength i) ≠ [] := by intro hc; rw [hc] at h; exact h rfl
      simp [validateEvent, Elem.tag, goIsList, goTag, encode, pyIntToBytes_eq, h']
    | bool c =>
      cases b <;> simp [isInstance] at hf <;> cases c <;> decide
    | str s =>
      cases b <;> simp [isInstance] at hf
      simp [validateEvent, Elem.tag, goIsList, goTag, encode, utf8_decode]
    | bytes s =>
      cases b <;> simp [isInstance] at hf
      simp [validateEvent, Elem.tag, goIsList, goTag, encode]
    | addr a =>
      cases b <;> simp [isInstance] at hf
      simp only [GoodVal] at hg
      simp only [validateEvent, Elem.tag, goIsList, goTag, encode, Address.goSetBytes, Address.toBytes, List.length_cons, hg]
      cases a.pfx <;> simp

theorem checkInputs_ok : ∀ (ts : List Base) (vs : List PyVal), vs.length = ts.length →
    (∀ (i : ℕ) b v, ts[i]? = some b → vs[i]? = some v → FitsType v b ∧ GoodVal (.ok v)) →
    checkInputs (ts.map (fun b => (Elem.base b).tag)) (vs.map encode) = true
  | [], vs, _, _ => by simp [checkInputs]
  | b :: ts, [], h, _ => by simp at h
  | b :: ts, v :: vs, h, h' => by
    obtain ⟨h1, h2⟩ := h' 0 b v rfl rfl
    rw [List.map_cons, List.map_cons, checkInputs, validate_encode h1 h2, checkInputs_ok ts vs (by simpa using h)]
    · rfl
    · intro i c w hc hw
      exact h' (i + 1) c w (by simpa using hc) (by simpa using hw)

/-- C14: a message sent for an event passes the checks of the service for this event exactly if the declared
number of indexed parameters is not negative. -/
theorem C14_accepted (d : Decl) (e : Event) (hd : declare d = .ok e) (ro : Bool) (args : List Val)
    (kw : List (String × Val)) (hgood : GoodCall e args kw) (n : ℕ) (m : Msg)
    (h : emit ro e args kw = .ok (n, m)) (g : GoMethod) (hg : eventMethod e = some g) :
    g.checkEventData m = true ↔ 0 ≤ d.indexed := by
  have hc := C14_counts d e hd ro args kw n m h
  obtain ⟨_, h0, _, vs, h1, hv, h2, h3, h4⟩ := (C14_layout d e hd ro args kw n m).mp h
  rw [eventMethod_eq hd] at hg
  cases hg
  obtain ⟨s, ps, ts, hps, _, hx, hy, hf, rfl⟩ := (C14_declare_exact d e).mp hd
  have hlen := forall2_length hf
  simp only [] at h1 hv hlen
  rw [GoMethod.checkEventData]
  have hn : m.indexed.length + m.data.length = ts.length + 1 := by
    rw [hc.2.2, hps]; simp [hlen]; omega
  rw [if_neg (by simpa using hn)]
  simp only []
  by_cases hi : 0 ≤ d.indexed
  · simp only [hi, iff_true]
    rw [if_neg (by rw [hc.1]; push_cast; omega)]
    rw [h2, h3, List.tail_cons, ← List.map_append, List.take_append_drop]
    refine checkInputs_ok ts vs (by omega) ?_
    intro i b v hb hv'
    have hi' : i < ps.length := by
      have := (List.getElem?_eq_some_iff.mp hv').1; omega
    obtain ⟨g, f⟩ := hv i ps[i] b v (List.getElem?_eq_getElem hi') hb hv'
    exact ⟨f, given_good g hgood.1 hgood.2.1 (hgood.2.2 _ (List.getElem_mem hi'))⟩
  · simp only [hi, iff_false]
    rw [if_pos (by rw [hc.1]; push_cast; omega)]
    simp

/-! ### Signatures identify events -/

theorem append_paren {a b c d : List Char} (ha : '(' ∉ a) (hb : '(' ∉ b)
    (h : a ++ '(' :: c = b ++ '(' :: d) : a = b ∧ c = d := by
  induction a generalizing b with
  | nil =>
    cases b with
    | nil => simpa using h
    | cons x b => simp at h; simp at hb; exact absurd h.1 hb.1
  | cons x a ih =>
    cases b with
    | nil => simp at h; simp at ha; exact absurd h.1.symm ha.1
    | cons y b =>
      simp only [List.cons_append, List.cons.injEq] at h
      obtain ⟨i1, i2⟩ := ih (b := b) (fun hm => ha (by simp [hm])) (fun hm => hb (by simp [hm])) h.2
      rw [h.1, i1]; exact ⟨rfl, i2⟩

theorem name_no_comma (b : Base) : ',' ∉ b.pyName ∧ ')' ∉ b.pyName ∧ b.pyName ≠ [] := by
  cases b <;> decide

theorem pyName_inj {a b : Base} (h : a.pyName = b.pyName) : a = b := by
  cases a <;> cases b <;> first | rfl | (exfalso; revert h; decide)

theorem append_comma {a b c d : List Char} (ha : ',' ∉ a) (hb : ',' ∉ b)
    (h : a ++ ',' :: c = b ++ ',' :: d) : a = b ∧ c = d := by
  induction a generalizing b with
  | nil =>
    cases b with
    | nil => simpa using h
    | cons x b => simp at h; simp at hb; exact absurd h.1 hb.1
  | cons x a ih =>
    cases b with
    | nil => simp at h; simp at ha; exact absurd h.1.symm ha.1
    | cons y b =>
      simp only [List.cons_append, List.cons.injEq] at h
      obtain ⟨i1, i2⟩ := ih (b := b) (fun hm => ha (by simp [hm])) (fun hm => hb (by simp [hm])) h.2
      rw [h.1, i1]; exact ⟨rfl, i2⟩

theorem joinComma_inj : ∀ (l m : List Base), joinComma (l.map Base.pyName) = joinComma (m.map Base.pyName) → l = m
  | [], [], _ => rfl
  | [], [b], h => absurd h.symm (name_no_comma b).2.2
  | [], b :: c :: m, h => by simp [joinComma] at h
  | [a], [], h => absurd h (name_no_comma a).2.2
  | [a], [b], h => by rw [pyName_inj h]
  | [a], b :: c :: m, h => by
    exfalso
    simp only [List.map_cons, List.map_nil, joinComma] at h
    exact (name_no_comma a).1 (by rw [h]; simp)
  | a :: a' :: l, [], h => by simp [joinComma] at h
  | a :: a' :: l, [b], h => by
    exfalso
    simp only [List.map_cons, List.map_nil, joinComma] at h
    exact (name_no_comma b).1 (by rw [← h]; simp)
  | a :: a' :: l, b :: b' :: m, h => by
    simp only [List.map_cons, joinComma] at h
    obtain ⟨h1, h2⟩ := append_comma (name_no_comma a).1 (name_no_comma b).1 h
    rw [pyName_inj h1, joinComma_inj (a' :: l) (b' :: m) h2]

/-- C14: a signature determines the name of the event and the types of its parameters. -/
theorem C14_signature_injective (e e' : Event) (h1 : '(' ∉ e.fname) (h2 : '(' ∉ e'.fname)
    (h : e.signature = e'.signature) : e.fname = e'.fname ∧ e.types = e'.types := by
  rw [Event.signature, Event.signature, signatureOf, signatureOf] at h
  rw [List.append_assoc, List.append_assoc, List.cons_append, List.cons_append] at h
  obtain ⟨a, b⟩ := append_paren h1 h2 h
  exact ⟨a, joinComma_inj _ _ (List.append_cancel_right b)⟩

/-- The events of a contract class: declared, with distinct names that contain no parenthesis. -/
def EventsOf (ds : List Decl) (es : List Event) : Prop :=
  List.Forall₂ (fun d e => declare d = .ok e) ds es ∧ (es.map Event.fname).Nodup ∧ ∀ e ∈ es, '(' ∉ e.fname

theorem find_self {es : List Event} (hn : (es.map Event.fname).Nodup) (hp : ∀ e ∈ es, '(' ∉ e.fname)
    {e : Event} (he : e ∈ es) : es.find? (fun x => signatureBytes x == signatureBytes e) = some e := by
  induction es with
  | nil => cases he
  | cons x l ih =>
    rw [List.find?_cons]
    by_cases hx : signatureBytes x = signatureBytes e
    · simp only [hx, beq_self_eq_true]
      have hs : x.signature = e.signature := by
        have := congrArg String.toList (utf8_inj hx)
        rwa [String.toList_ofList, String.toList_ofList] at this
      have := (C14_signature_injective x e (hp x (by simp)) (hp e he) hs).1
      rcases List.mem_cons.mp he with rfl | hm
      · rfl
      · simp only [List.map_cons, List.nodup_cons] at hn
        exact absurd (List.mem_map.mpr ⟨e, hm, this.symm⟩) hn.1
    · rw [(beq_eq_false_iff_ne).mpr hx]
      simp only [List.map_cons, List.nodup_cons] at hn
      rcases List.mem_cons.mp he with rfl | hm
      · exact absurd rfl hx
      · exact ih hn.2 (fun e h => hp e (by simp [h])) hm

theorem find_methods : ∀ {ds : List Decl} {es : List Event}, List.Forall₂ (fun d e => declare d = .ok e) ds es →
    ∀ (s : Bytes), (es.filterMap eventMethod).find? (fun m => utf8 (String.ofList m.signature) == s) =
      (es.find? (fun x => signatureBytes x == s)).bind eventMethod
  | _, _, .nil, s => rfl
  | _, e :: es, .cons h1 h2, s => by
    obtain ⟨g, hg, hs⟩ := C14_same_signature _ e h1
    rw [List.filterMap_cons, hg, List.find?_cons, List.find?_cons]
    have : utf8 (String.ofList g.signature) = signatureBytes e := by rw [hs]; rfl
    rw [this]
    cases hb : (signatureBytes e == s)
    · simp only []; exact find_methods h2 s
    · simp [hg]

theorem forall2_reverse {α β : Type} {R : α → β → Prop} {l : List α} {m : List β} (h : List.Forall₂ R l m) :
    List.Forall₂ R l.reverse m.reverse := by
  exact List.forall₂_reverse_iff.mpr h

/-- C14: whatever events a contract declares, the service records an emitted event exactly if its declaration
has no negative number of indexed parameters. -/
theorem C14_recorded (ds : List Decl) (es : List Event) (hes : EventsOf ds es) (d : Decl) (e : Event)
    (hd : declare d = .ok e) (he : e ∈ es) (ro : Bool) (args : List Val) (kw : List (String × Val))
    (hgood : GoodCall e args kw) (n : ℕ) (m : Msg) (h : emit ro e args kw = .ok (n, m)) :
    recorded (es.filterMap eventMethod) m = true ↔ 0 ≤ d.indexed := by
  obtain ⟨_, h0, _, vs, h1, hv, h2, h3, h4⟩ := (C14_layout d e hd ro args kw n m).mp h
  obtain ⟨hf, hnd, hp⟩ := hes
  have hfind : (es.filterMap eventMethod).reverse.find?
      (fun m => utf8 (String.ofList m.signature) == (some (signatureBytes e)).getD []) = eventMethod e := by
    rw [← List.filterMap_reverse, find_methods (forall2_reverse hf), Option.getD_some,
      find_self (by rw [List.map_reverse]; exact List.nodup_reverse.mpr hnd)
        (fun e h => hp e (List.mem_reverse.mp h)) (List.mem_reverse.mpr he)]
    rfl
  have hr : recorded (es.filterMap eventMethod) m = match eventMethod e with
      | none => false
      | some g => g.checkEventData m := by
    rw [recorded, h2]
    simp only [hfind]
    rfl
  rw [hr, eventMethod_eq hd]
  exact C14_accepted d e hd ro args kw hgood n m h _ (eventMethod_eq hd)

/-! ### Findings and examples -/

def selfParam : Param := ⟨"self", none, none⟩
/-- `@eventlog(indexed=1) def E(self, a: int, b: int = 1)` -/
def demoDecl (k : ℤ) : Decl :=
  ⟨['E'], [selfParam, ⟨"a", some (.base .int), none⟩, ⟨"b", some (.base .int), some (.ok (.int 1))⟩], k⟩
def demoEvent (k : ℤ) : Event :=
  ⟨['E'], [⟨"a", some (.base .int), none⟩, ⟨"b", some (.base .int), some (.ok (.int 1))⟩], [.int, .int], k⟩

/-- C14: an argument with a name that is no parameter is not refused but dropped, as long as a
parameter with a default is not given. -/
theorem C14_unknown_keyword_dropped : declare (demoDecl 1) = .ok (demoEvent 1) ∧
    emit false (demoEvent 1) [.ok (.int 5)] [("c", .ok (.int 7))] = emit false (demoEvent 1) [.ok (.int 5)] [] ∧
    ∃ r, emit false (demoEvent 1) [.ok (.int 5)] [("c", .ok (.int 7))] = .ok r := by
  refine ⟨rfl, by decide +kernel, ?_⟩
  have : (emit false (demoEvent 1) [.ok (.int 5)] [("c", .ok (.int 7))]).toOption.isSome = true := by decide +kernel
  revert this
  cases emit false (demoEvent 1) [.ok (.int 5)] [("c", .ok (.int 7))] with
  | error x => simp [Except.toOption]
  | ok r => exact fun _ => ⟨r, rfl⟩

/-- C14: a declaration with a negative number of indexed parameters is accepted, its events can be emitted, and
the service drops them all. -/
theorem C14_negative_indexed_dropped : declare (demoDecl (-1)) = .ok (demoEvent (-1)) ∧
    (∃ r, emit false (demoEvent (-1)) [.ok (.int 5)] [] = .ok r) ∧
    ∀ ro args kw n m, GoodCall (demoEvent (-1)) args kw → emit ro (demoEvent (-1)) args kw = .ok (n, m) →
      recorded ([demoEvent (-1)].filterMap eventMethod) m = false := by
  refine ⟨rfl, ?_, ?_⟩
  · have : (emit false (demoEvent (-1)) [.ok (.int 5)] []).toOption.isSome = true := by decide +kernel
    revert this
    cases emit false (demoEvent (-1)) [.ok (.int 5)] [] with
    | error x => simp [Except.toOption]
    | ok r => exact fun _ => ⟨r, rfl⟩
  · intro ro args kw n m hg h
    have := C14_recorded [demoDecl (-1)] [demoEvent (-1)]
      ⟨.cons rfl .nil, by simp, by decide⟩ (demoDecl (-1)) (demoEvent (-1)) rfl (by simp) ro args kw hg n m h
    simpa [demoDecl] using this

example : emit false (demoEvent 1) [.ok (.int 5)] [("b", .ok (.int 7))] =
    .ok (12, ⟨[some (utf8 "E(int,int)"), some [5]], [some [7]]⟩) := by decide +kernel
example : EventsOf [demoDecl 1] [demoEvent 1] ∧ GoodCall (demoEvent 1) [.ok (.int 5)] [("b", .ok (.int 7))] := by
  refine ⟨⟨.cons rfl .nil, by simp, by decide⟩, ?_, ?_, ?_⟩ <;> simp [GoodVal, demoEvent]

end Verif.Api
