import Verif.Api.Types

/-! # C21: type descriptors -/
namespace Verif.Api

/-! ### Specification -/

mutual
/-- The hints a contract may use: base types, the text `Address`, lists and optionals of them, and
structs of at most 16 supported fields in which no struct class occurs twice directly (not below a list or optional). -/
def Supported (top : Bool) : Hint → Prop
  | .base _ => True
  | .text s => top = true ∧ s = "Address"
  | .list h => Supported false h
  | .opt h => Supported false h
  | .struct id fs => fs.length ≤ 16 ∧ SupportedFields fs ∧ (id :: structsIn fs).Nodup
  | .other => False
def SupportedFields : List (String × Hint) → Prop
  | [] => True
  | (_, h) :: l => Supported false h ∧ SupportedFields l
/-- Struct classes nested directly in the fields. -/
def structsIn : List (String × Hint) → List ℕ
  | [] => []
  | (_, h) :: l => structsOf h ++ structsIn l
def structsOf : Hint → List ℕ
  | .struct id fs => id :: structsIn fs
  | _ => []
end

/-- How many `List[...]` are around the element. -/
def depth : Hint → ℕ
  | .list h => depth h + 1
  | .opt h => depth h
  | _ => 0

/-- What is inside the lists. -/
inductive Elem
  | base (b : Base)
  | struct
deriving DecidableEq

def elem : Hint → Option Elem
  | .base b => some (.base b)
  | .text s => if s = "Address" then some (.base .address) else none
  | .list h => elem h
  | .opt h => elem h
  | .struct _ _ => some .struct
  | .other => none

/-- The documented tags (pyee/pyexec/ipc/proxy.py:171-179). -/
def Elem.tag : Elem → ℕ
  | .base .int => 1
  | .base .str => 2
  | .base .bytes => 3
  | .base .bool => 4
  | .base .address => 5
  | .struct => 8

def Elem.name : Elem → List Char
  | .base b => b.pyName
  | .struct => "struct".toList

/-! ### Which hints are accepted -/

mutual
theorem normalize_iff (top : Bool) : ∀ h : Hint, (∃ h', normalize top h = some h') ↔ Supported top h
  | .base b => ⟨fun _ => trivial, fun _ => ⟨_, rfl⟩⟩
  | .text s => by
      rw [normalize, Supported]
      by_cases hs : top = true ∧ s = "Address"
      · rw [if_pos hs]; exact ⟨fun _ => hs, fun _ => ⟨_, rfl⟩⟩
      · rw [if_neg hs]; exact ⟨fun ⟨_, h⟩ => by simp at h, fun h => absurd h hs⟩
  | .list h => by
      rw [normalize, Supported, ← normalize_iff false h]
      cases normalize false h <;> simp
  | .opt h => by
      rw [normalize, Supported, ← normalize_iff false h]
      cases normalize false h <;> simp
  | .struct id fs => by
      rw [normalize, Supported]
      by_cases hl : fs.length > 16
      · rw [if_pos hl]
        exact ⟨fun ⟨_, h⟩ => by simp at h, fun h => absurd hl (by have := h.1; omega)⟩
      · rw [if_neg hl]
        have key := checkFields_iff [id] fs
        constructor
        · rintro ⟨h', hh⟩
          cases hc : checkFields [id] fs with
          | none => rw [hc] at hh; simp at hh
          | some s =>
            obtain ⟨h1, h2, h3, _⟩ := (key s).mp hc
            refine ⟨by omega, h1, List.nodup_cons.mpr ⟨fun hm => h3 id hm (by simp), h2⟩⟩
        · rintro ⟨_, h1, h2⟩
          rw [List.nodup_cons] at h2
          refine ⟨.struct id fs, ?_⟩
          rw [(key _).mpr ⟨h1, h2.2, fun i hi hs => ?_, rfl⟩]
          · rfl
          · simp at hs
            exact h2.1 (hs ▸ hi)
  | .other => ⟨fun ⟨_, h⟩ => by simp [normalize] at h, fun h => False.elim h⟩
theorem checkFields_iff (seen : List ℕ) : ∀ (l : List (String × Hint)) (s : List ℕ),
    checkFields seen l = some s ↔ SupportedFields l ∧ (structsIn l).Nodup ∧
      (∀ i ∈ structsIn l, i ∉ seen) ∧ s = (structsIn l).reverse ++ seen
  | [], s => by simp [checkFields, SupportedFields, structsIn, eq_comm]
  | (n, h) :: l, s => by
      rw [checkFields, SupportedFields, structsIn]
      have key := checkField_iff seen h
      cases hc : checkField seen h with
      | none =>
        simp only [reduceCtorEq, false_iff]
        rintro ⟨⟨h1, h2⟩, h3, h4, _⟩
        rw [List.nodup_append] at h3
        have := (key _).mpr ⟨h1, h3.1, fun i hi => h4 i (by simp [hi]), rfl⟩
        rw [hc] at this
        cases this
      | some s' =>
        obtain ⟨k1, k2, k3, k4⟩ := (key s').mp hc
        rw [checkFields_iff s' l s]
        subst k4
        simp only [List.nodup_append, List.mem_append, List.mem_reverse, List.reverse_append,
          List.append_assoc]
        constructor
        · rintro ⟨a, b, c, d⟩
          refine ⟨⟨k1, a⟩, ⟨k2, b, ?_⟩, ?_, d⟩
          · rintro x hx y hy rfl
            exact c x hy (Or.inl hx)
          · rintro i (hi | hi)
            · exact k3 i hi
            · exact fun hs => c i hi (Or.inr hs)
        · rintro ⟨⟨_, a⟩, ⟨_, b, b'⟩, c, d⟩
          refine ⟨a, b, ?_, d⟩
          rintro i hi (hs | hs)
          · exact b' i hs i hi rfl
          · exact c i (Or.inr hi) hs
theorem checkField_iff (seen : List ℕ) : ∀ (h : Hint) (s : List ℕ),
    checkField seen h = some s ↔ Supported false h ∧ (structsOf h).Nodup ∧
      (∀ i ∈ structsOf h, i ∉ seen) ∧ s = (structsOf h).reverse ++ seen
  | .base b, s => by simp [checkField, Supported, structsOf, eq_comm]
  | .text t, s => by simp [checkField, Supported]
  | .other, s => by simp [checkField, Supported]
  | .list h, s => by
      rw [checkField, Supported, ← normalize_iff false h]
      cases normalize false h <;> simp [structsOf, eq_comm]
  | .opt h, s => by
      rw [checkField, Supported, ← normalize_iff false h]
      cases normalize false h <;> simp [structsOf, eq_comm]
  | .struct id fs, s => by
      rw [checkField, Supported, structsOf]
      by_cases h1 : id ∈ seen
      · rw [if_pos h1]
        simp only [reduceCtorEq, false_iff]
        rintro ⟨_, _, h, _⟩
        exact h id (by simp) h1
      rw [if_neg h1]
      by_cases h2 : fs.length > 16
      · rw [if_pos h2]
        simp only [reduceCtorEq, false_iff]
        rintro ⟨h, _⟩
        have := h.1
        omega
      rw [if_neg h2, checkFields_iff (id :: seen) fs s]
      simp only [List.nodup_cons, List.mem_cons, List.reverse_cons, List.append_assoc,
        List.singleton_append]
      constructor
      · rintro ⟨a, b, c, d⟩
        have hid : id ∉ structsIn fs := fun hm => c id hm (Or.inl rfl)
        refine ⟨⟨by omega, a, hid, b⟩, ⟨hid, b⟩, ?_, d⟩
        rintro i (rfl | hi)
        · exact h1
        · exact fun hs => c i hi (Or.inr hs)
      · rintro ⟨⟨_, a, _⟩, ⟨hid, b⟩, c, d⟩
        refine ⟨a, b, ?_, d⟩
        rintro i hi (rfl | hs)
        · exact hid hi
        · exact c i (Or.inr hi) hs
end

/-! ### Codes -/

theorem depth_mkOpt (h : Hint) : depth (mkOpt h) = depth h := by cases h <;> rfl
theorem elem_mkOpt (h : Hint) : elem (mkOpt h) = elem h := by cases h <;> rfl

theorem normalize_keeps (top : Bool) : ∀ h h' : Hint, normalize top h = some h' →
    depth h' = depth h ∧ elem h' = elem h := by
  intro h
  induction h using Hint.rec (motive_2 := fun _ => True) (motive_3 := fun _ => True) generalizing top with
  | base b => intro h' hh; simp only [normalize, Option.some.injEq] at hh; subst hh; exact ⟨rfl, rfl⟩
  | text s =>
    intro h' hh
    rw [normalize] at hh
    by_cases hs : top = true ∧ s = "Address"
    · rw [if_pos hs] at hh
      cases hh
      simp [depth, elem, hs.2]
    · rw [if_neg hs] at hh; cases hh
  | list h ih =>
    intro h' hh
    rw [normalize] at hh
    cases hn : normalize false h with
    | none => rw [hn] at hh; cases hh
    | some k =>
      rw [hn] at hh
      cases hh
      obtain ⟨a, b⟩ := ih false k hn
      exact ⟨by simp [depth, a], by simp [elem, b]⟩
  | opt h ih =>
    intro h' hh
    rw [normalize] at hh
    cases hn : normalize false h with
    | none => rw [hn] at hh; cases hh
    | some k =>
      rw [hn] at hh
      cases hh
      obtain ⟨a, b⟩ := ih false k hn
      exact ⟨by rw [depth_mkOpt, a, depth], by rw [elem_mkOpt, b, elem]⟩
  | struct id fs _ =>
    intro h' hh
    rw [normalize] at hh
    by_cases hl : fs.length > 16
    · rw [if_pos hl] at hh; cases hh
    · rw [if_neg hl] at hh
      cases hc : checkFields [id] fs with
      | none => rw [hc] at hh; cases hh
      | some s => rw [hc] at hh; cases hh; exact ⟨rfl, rfl⟩
  | other => intro h' hh; simp [normalize] at hh
  | nil => trivial
  | cons => trivial
  | mk => trivial

theorem name_eq (h : Hint) (e : Elem) (he : elem h = some e) :
    typeName h = brackets (depth h) ++ e.name := by
  induction h using Hint.rec (motive_2 := fun _ => True) (motive_3 := fun _ => True) with
  | base b => cases he; rfl
  | text s =>
    rw [elem] at he
    by_cases hs : s = "Address"
    · rw [if_pos hs] at he; cases he; rw [typeName, if_pos hs]; rfl
    · rw [if_neg hs] at he; cases he
  | list h ih => rw [typeName, ih he]; rfl
  | opt h ih => rw [typeName, ih he]; rfl
  | struct id fs _ => cases he; rfl
  | other => cases he
  | nil => trivial
  | cons => trivial
  | mk => trivial

theorem convert_brackets (n : ℕ) (e : Elem) :
    convertDataType (brackets n ++ e.name) = some (16 * n + e.tag) := by
  induction n with
  | zero => rcases e with b | _ <;> [cases b; skip] <;> decide
  | succ n ih =>
    rw [brackets, List.cons_append, List.cons_append, convertDataType, ih]
    simp only [Option.map_some, Option.some.injEq]
    ring

mutual
theorem describe_ok : ∀ (top : Bool) (h : Hint), Supported top h →
    ∃ e fs, elem h = some e ∧ describe h = some (.mk (16 * depth h + e.tag) fs)
  | _, .base b, _ => ⟨.base b, [], rfl, by cases b <;> rfl⟩
  | _, .text s, h => ⟨.base .address, [], by simp [elem, h.2], by rw [h.2]; rfl⟩
  | _, .list h, hs => by
      obtain ⟨e, fs, h1, h2⟩ := describe_ok false h hs
      refine ⟨e, fs, h1, ?_⟩
      rw [describe, h2, depth]
      simp only [Option.map_some, Option.some.injEq, Desc.mk.injEq, and_true]
      ring
  | _, .opt h, hs => by
      obtain ⟨e, fs, h1, h2⟩ := describe_ok false h hs
      exact ⟨e, fs, h1, by rw [describe, h2, depth]⟩
  | _, .struct id fs, hs => by
      obtain ⟨ds, hd⟩ := describeFields_ok fs hs.2.1
      exact ⟨.struct, ds, rfl, by rw [describe, hd]; rfl⟩
  | _, .other, hs => False.elim hs
theorem describeFields_ok : ∀ (l : List (String × Hint)), SupportedFields l →
    ∃ ds, describeFields l = some ds
  | [], _ => ⟨_, rfl⟩
  | (n, h) :: l, hs => by
      obtain ⟨e, fs, _, h2⟩ := describe_ok false h hs.1
      obtain ⟨ds, hd⟩ := describeFields_ok l hs.2
      exact ⟨(n, .mk (16 * depth h + e.tag) fs) :: ds, by rw [describeFields, h2, hd]; rfl⟩
end

/-! ### Theorems -/

/-- C21: a hint is accepted exactly if it is supported. -/
theorem C21_accept_exact (h : Hint) : (∃ h', normalize true h = some h') ↔ Supported true h :=
  normalize_iff true h

/-- C21: every accepted hint gets the type name with its list depth and element type, and the one
code with the depth in the upper bits and the tag of the element type in the lower ones. -/
theorem C21_code (h : Hint) (hs : Supported true h) :
    ∃ h' e, normalize true h = some h' ∧ elem h = some e ∧
      typeName h' = brackets (depth h) ++ e.name ∧
      convertDataType (typeName h') = some (16 * depth h + e.tag) := by
  obtain ⟨h', hn⟩ := (normalize_iff true h).mpr hs
  obtain ⟨e, fs, he, _⟩ := describe_ok true h hs
  obtain ⟨k1, k2⟩ := normalize_keeps true h h' hn
  refine ⟨h', e, hn, he, ?_, ?_⟩
  · rw [name_eq h' e (by rw [k2, he]), k1]
  · rw [name_eq h' e (by rw [k2, he]), k1, convert_brackets]

/-- C21: the description sent for a struct field has the code of its hint too. -/
theorem C21_field_code (h : Hint) (hs : Supported false h) :
    ∃ e fs, elem h = some e ∧ describe h = some (.mk (16 * depth h + e.tag) fs) :=
  describe_ok false h hs

/-- C21: a code determines depth and element type. -/
theorem C21_code_injective (n m : ℕ) (e e' : Elem) (h : 16 * n + e.tag = 16 * m + e'.tag) :
    n = m ∧ e = e' := by
  have ht : ∀ e : Elem, e.tag < 16 := by intro e; rcases e with b | _ <;> [cases b; skip] <;> decide
  have h1 := ht e
  have h2 := ht e'
  have : e.tag = e'.tag := by omega
  refine ⟨by omega, ?_⟩
  rcases e with b | _ <;> rcases e' with b' | _ <;> (try cases b) <;> (try cases b') <;>
    first | rfl | (exfalso; revert this; decide)

theorem goDepth_eq (n t : ℕ) (h : t < 16) : goDepth (16 * n + t) = n % 16 := by
  rw [goDepth, Nat.shiftRight_eq_div_pow, show (15 : ℕ) = 2 ^ 4 - 1 from rfl, Nat.and_two_pow_sub_one_eq_mod]
  omega

theorem goTag_eq (n t : ℕ) (h : t < 16) : goTag (16 * n + t) = t := by
  rw [goTag, show (15 : ℕ) = 2 ^ 4 - 1 from rfl, Nat.and_two_pow_sub_one_eq_mod]
  omega

theorem tag_lt (e : Elem) : e.tag < 16 := by rcases e with b | _ <;> [cases b; skip] <;> decide

theorem strip_brackets (n : ℕ) (e : Elem) : stripBrackets (brackets n ++ e.name) = (n, e.name) := by
  induction n with
  | zero => rcases e with b | _ <;> [cases b; skip] <;> decide
  | succ n ih => rw [brackets, List.cons_append, List.cons_append, stripBrackets, ih]

/-- C21: for lists up to depth 15 the service reads depth, element type and name from the code, and
computes the code from the name. -/
theorem C21_go_reads (n : ℕ) (e : Elem) (h : n ≤ 15) :
    goDepth (16 * n + e.tag) = n ∧ goTag (16 * n + e.tag) = e.tag ∧
    goString (16 * n + e.tag) = some (brackets n ++ e.name) ∧
    goDataTypeOf (brackets n ++ e.name) = 16 * n + e.tag := by
  have hd : goDepth (16 * n + e.tag) = n := by rw [goDepth_eq _ _ (tag_lt e)]; omega
  have ht := goTag_eq n _ (tag_lt e)
  refine ⟨hd, ht, ?_, ?_⟩
  · rw [goString, hd, ht]
    rcases e with b | _ <;> [cases b; skip] <;> rfl
  · have h1 : goTagOf e.name = e.tag := by rcases e with b | _ <;> [cases b; skip] <;> decide
    have h2 : e.tag ≠ 0 := by rcases e with b | _ <;> [cases b; skip] <;> decide
    simp only [goDataTypeOf, strip_brackets, h1, goListTypeOf]
    rw [if_neg (by omega), if_neg h2]
    omega

/-- C21: beyond depth 15 the service reads another type than was declared: the depth modulo 16. -/
theorem C21_deep_list_misread (n : ℕ) (e : Elem) (h : 15 < n) :
    goString (16 * n + e.tag) = some (brackets (n % 16) ++ e.name) ∧
    goDepth (16 * n + e.tag) ≠ n := by
  have hd : goDepth (16 * n + e.tag) = n % 16 := goDepth_eq _ _ (tag_lt e)
  have ht := goTag_eq n _ (tag_lt e)
  refine ⟨?_, by rw [hd]; omega⟩
  rw [goString, hd, ht]
  rcases e with b | _ <;> [cases b; skip] <;> rfl

def deep : ℕ → Hint
  | 0 => .base .int
  | n + 1 => .list (deep n)

/-- C21: such a hint is accepted: `List` nested 16 times around `int` is taken for `int`. -/
theorem C21_deep_list_accepted : Supported true (deep 16) ∧
    (normalize true (deep 16)).bind (fun h => convertDataType (typeName h)) = some 257 ∧
    goString 257 = some "int".toList ∧ goIsList 257 = false := by
  refine ⟨by simp [deep, Supported], by decide +kernel, by decide, by decide⟩

/-! Non-trivial cases. -/
example : Supported true (.opt (.list (.struct 1 [("a", .base .int), ("b", .struct 2 [("c", .list (.base .address))])]))) := by
  simp [Supported, SupportedFields, structsIn, structsOf]
example : convertDataType "[][]bytes".toList = some 0x23 := by decide +kernel
example : ¬ Supported true (.struct 1 [("a", .struct 1 [])]) := by
  simp [Supported, SupportedFields, structsIn, structsOf]

end Verif.Api
