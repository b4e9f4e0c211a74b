import Verif.Api.Params
import Verif.Api.EventProps
import Verif.IntCodec.TextProps
import Verif.Typed.Props
import Verif.Address.Props
import Mathlib.Data.List.Dedup
import Batteries.Data.List.Perm

/-! # C18: the parameters of calls and their results -/
namespace Verif.Api.Params
open Verif.Container (PyVal utf8)
open Verif.IntCodec Verif.Typed

/-! ### Specification -/

/-- Types of parameters. -/
inductive Ty
  | int | str | bytes | bool | address
  | list (t : Ty)
  | struct (fs : List (String × Ty))

/-- The number of list brackets. -/
def Ty.depth : Ty → ℕ
  | .list t => t.depth + 1
  | _ => 0

mutual
/-- No list is nested deeper than 15, and the names of the fields of a struct are distinct. -/
def Ty.Ok : Ty → Prop
  | .list t => t.depth < 15 ∧ t.Ok
  | .struct fs => (fs.map Prod.fst).Nodup ∧ OkFields fs
  | _ => True
def OkFields : List (String × Ty) → Prop
  | [] => True
  | (_, t) :: fs => t.Ok ∧ OkFields fs
end

mutual
/-- What the API information says of a type: its code and its fields. -/
def Ty.desc : Ty → Desc
  | .int => .mk 1 []
  | .str => .mk 2 []
  | .bytes => .mk 3 []
  | .bool => .mk 4 []
  | .address => .mk 5 []
  | .struct fs => .mk 8 (descFields fs)
  | .list t => match t.desc with | .mk c fs => .mk (16 + c) fs
def descFields : List (String × Ty) → List (String × Desc)
  | [] => []
  | (n, t) :: fs => (n, t.desc) :: descFields fs
end

/-- `(k, v)` is the last entry for `k`. -/
def Last {α β : Type} (k : α) (l : List (α × β)) (v : β) : Prop := ∃ a b, l = a ++ (k, v) :: b ∧ ∀ p ∈ b, p.1 ≠ k

mutual
/-- `Denotes t j v`: as a parameter of type `t`, the JSON value `j` stands for the Python value `v`. -/
def Denotes : Ty → J → PyObj → Prop
  | .int, j, v => ∃ i, v = .int i ∧ ((∃ s, j = .str s ∧ parseBigInt s.toList = some i) ∨ ∃ s, j = .num s ∧ setString 0 s = some i)
  | .str, j, v => ∃ s, j = .str s ∧ v = .str s
  | .bytes, j, v => ∃ (s : String) (h : List Char) (b : Bytes), j = .str s ∧ v = .bytes b ∧ hexDecode h = some b ∧
      (s.toList = '0' :: 'x' :: h ∨ s.toList = h)
  | .bool, j, v => ∃ b, v = .bool b ∧ ((∃ s, j = .str s ∧ parseInt 32 s.toList = some (if b then 1 else 0)) ∨
      ∃ s, j = .num s ∧ parseInt 32 s = some (if b then 1 else 0))
  | .address, j, v => ∃ (s : String) (a : Address.Addr), j = .str s ∧ v = .addr a ∧ a.body.length = 20 ∧ s.toList = Address.toStr a
  | .list t, j, v => ∃ l vs, j = .arr l ∧ v = .list vs ∧ List.Forall₂ (Denotes t) l vs
  | .struct fs, j, v => ∃ l m, j = .obj l ∧ v = .dict m ∧ DenotesFields fs l m
/-- Every declared field, from the last entry of its name; nothing else. -/
def DenotesFields : List (String × Ty) → List (String × J) → List (DKey × PyObj) → Prop
  | [], _, m => m = []
  | (n, t) :: fs, l, m => ∃ j v m', Last n l j ∧ Denotes t j v ∧ m = (.str n, v) :: m' ∧ DenotesFields fs l m'
end

/-! ### Lemmas -/

theorem lastOf_none {α β : Type} [DecidableEq α] (k : α) : ∀ l : List (α × β), lastOf k l = none ↔ ∀ p ∈ l, p.1 ≠ k
  | [] => by simp [lastOf]
  | (k', v') :: l => by
    have ih := lastOf_none k l
    rw [lastOf]
    rcases h : lastOf k l with _ | x
    · rw [h] at ih
      have ih := ih.mp rfl
      simp only [List.mem_cons, forall_eq_or_imp]
      by_cases hk : k' = k
      · rw [if_pos hk]; simp [hk]
      · rw [if_neg hk]; simp only [true_iff]; exact ⟨hk, ih⟩
    · rw [h] at ih
      simp only [reduceCtorEq, false_iff] at ih ⊢
      intro hc
      exact ih (fun p hp => hc p (by simp [hp]))

theorem lastOf_iff {α β : Type} [DecidableEq α] (k : α) (v : β) : ∀ l : List (α × β), lastOf k l = some v ↔ Last k l v
  | [] => by simp [lastOf, Last]
  | (k', v') :: l => by
    rw [lastOf]
    have ih := lastOf_iff k v l
    have hn := lastOf_none k l
    rcases h : lastOf k l with _ | x
    · rw [h] at hn ih
      have hn := hn.mp rfl
      simp only []
      constructor
      · intro h1
        by_cases hk : k' = k
        · rw [if_pos hk] at h1
          cases h1
          exact ⟨[], l, by rw [hk]; rfl, hn⟩
        · rw [if_neg hk] at h1; cases h1
      · rintro ⟨a, b, e, hb⟩
        cases a with
        | nil =>
          simp only [List.nil_append, List.cons.injEq, Prod.mk.injEq] at e
          rw [if_pos e.1.1, e.1.2]
        | cons q a =>
          simp only [List.cons_append, List.cons.injEq] at e
          exact absurd rfl (hn (k, v) (by rw [e.2]; simp))
    · rw [h] at hn ih
      simp only []
      rw [ih]
      constructor
      · rintro ⟨a, b, e, hb⟩
        exact ⟨(k', v') :: a, b, by rw [e]; rfl, hb⟩
      · rintro ⟨a, b, e, hb⟩
        cases a with
        | nil =>
          simp only [List.nil_append, List.cons.injEq] at e
          rw [← e.2] at hb
          exact absurd (hn.mpr hb) (by simp)
        | cons q a =>
          simp only [List.cons_append, List.cons.injEq] at e
          exact ⟨a, b, e.2, hb⟩

theorem mapAll_iff {α β γ : Type} {f : α → Option β} {R : α → γ → Prop} {g : γ → Except Err β}
    (hf : ∀ a b, f a = some b ↔ ∃ c, R a c ∧ g c = .ok b) : ∀ (l : List α) (m : List β),
    mapAll f l = some m ↔ ∃ cs, List.Forall₂ R l cs ∧ List.Forall₂ (fun c b => g c = .ok b) cs m
  | [], m => by
    simp only [mapAll, Option.some.injEq, List.forall₂_nil_left_iff, exists_eq_left]
    exact eq_comm
  | a :: l, m => by
    have ih := mapAll_iff hf l
    rw [mapAll]
    constructor
    · intro h
      rcases h1 : f a with _ | b
      · rw [h1] at h; simp at h
      rcases h2 : mapAll f l with _ | m'
      · rw [h1, h2] at h; simp at h
      rw [h1, h2] at h
      simp only [Option.some.injEq] at h
      subst h
      obtain ⟨c, hc1, hc2⟩ := (hf a b).mp h1
      obtain ⟨cs, h3, h4⟩ := (ih m').mp h2
      exact ⟨c :: cs, .cons hc1 h3, .cons hc2 h4⟩
    · rintro ⟨cs, h1, h2⟩
      cases h1 with
      | cons ha hl =>
        cases h2 with
        | cons hb hm =>
          rw [(hf a _).mpr ⟨_, ha, hb⟩, (ih _).mpr ⟨_, hl, hm⟩]

theorem encodeAll_iff : ∀ (vs : List PyObj) (ws : List W), encodeAll vs = .ok ws ↔ List.Forall₂ (fun v w => encodeAny v = .ok w) vs ws
  | [], ws => by simp only [encodeAll, Except.ok.injEq, List.forall₂_nil_left_iff]; exact eq_comm
  | v :: vs, ws => by
    have ih := encodeAll_iff vs
    rw [encodeAll]
    rcases h : encodeAny v with e | w
    · simp only [reduceCtorEq, false_iff]
      intro hc
      cases hc with
      | cons h1 _ => rw [h] at h1; cases h1
    · simp only []
      rcases h2 : encodeAll vs with e | ws'
      · simp only [Except.map, reduceCtorEq, false_iff]
        intro hc
        cases hc with
        | cons _ h3 => rw [(ih _).mpr h3] at h2; cases h2
      · simp only [Except.map, Except.ok.injEq]
        constructor
        · rintro rfl; exact .cons h ((ih _).mp h2)
        · intro hc
          cases hc with
          | cons h1 h3 =>
            rw [h] at h1; cases h1
            rw [(ih _).mpr h3] at h2; cases h2
            rfl

theorem goTag_eq (c : ℕ) : goTag c = c % 16 := Nat.and_two_pow_sub_one_eq_mod c 4

theorem goDepth_eq (c : ℕ) : goDepth c = c / 16 % 16 := by
  rw [goDepth, Nat.shiftRight_eq_div_pow]
  exact Nat.and_two_pow_sub_one_eq_mod (c / 2 ^ 4) 4

def Desc.code : Desc → ℕ | .mk c _ => c
def Desc.fields : Desc → List (String × Desc) | .mk _ fs => fs

theorem desc_eta (d : Desc) : d = .mk (Desc.code d) (Desc.fields d) := by cases d; rfl

theorem list_desc (t : Ty) : (Ty.list t).desc = .mk (16 + Desc.code t.desc) (Desc.fields t.desc) := by
  rw [Ty.desc]
  cases t.desc with
  | mk c fs => rfl

/-- The code: the tag plus 16 for every bracket. -/
theorem code_eq : ∀ t : Ty, ∃ g, g < 16 ∧ Desc.code t.desc = g + 16 * t.depth ∧
    ((g = 1 ∨ g = 2 ∨ g = 3 ∨ g = 4 ∨ g = 5) ∨ g = 8)
  | .int => ⟨1, by simp [Ty.desc, Desc.code, Ty.depth]⟩
  | .str => ⟨2, by simp [Ty.desc, Desc.code, Ty.depth]⟩
  | .bytes => ⟨3, by simp [Ty.desc, Desc.code, Ty.depth]⟩
  | .bool => ⟨4, by simp [Ty.desc, Desc.code, Ty.depth]⟩
  | .address => ⟨5, by simp [Ty.desc, Desc.code, Ty.depth]⟩
  | .struct fs => ⟨8, by simp [Ty.desc, Desc.code, Ty.depth]⟩
  | .list t => by
    obtain ⟨g, h1, h2, h3⟩ := code_eq t
    refine ⟨g, h1, ?_, h3⟩
    rw [list_desc, Desc.code, h2, Ty.depth]
    ring

theorem list_code {t : Ty} (h : t.depth < 15) :
    goTag (16 + Desc.code t.desc) = goTag (Desc.code t.desc) ∧ goDepth (16 + Desc.code t.desc) = goDepth (Desc.code t.desc) + 1 := by
  obtain ⟨g, h1, h2, _⟩ := code_eq t
  rw [goTag_eq, goTag_eq, goDepth_eq, goDepth_eq, h2]
  omega

theorem convDepth_null (leaf : J → Option W) (n : ℕ) : convDepth leaf n .null = none := by cases n <;> rfl

theorem convDepth_zero (leaf : J → Option W) (j : J) (h : j ≠ .null) : convDepth leaf 0 j = leaf j := by
  cases j <;> first | rfl | exact absurd rfl h

theorem conv_null (d : Desc) : conv d .null = none := by
  cases d with
  | mk c fs => rw [conv, convDepth_null]

theorem conv_base (c : ℕ) (fs : List (String × Desc)) (hc : c < 16) (j : J) (h : j ≠ .null) :
    conv (.mk c fs) j = convTag c (fun l => convFields fs l) j := by
  rw [conv, goTag_eq, goDepth_eq, show c % 16 = c by omega, show c / 16 % 16 = 0 by omega, convDepth_zero _ _ h]

theorem conv_list {t : Ty} (h : t.depth < 15) (j : J) : conv (Ty.list t).desc j =
    match j with
    | .arr l => match mapAll (conv t.desc) l with
      | some m => some (.list tagList m)
      | none => none
    | _ => none := by
  rw [list_desc, conv, (list_code h).1, (list_code h).2]
  have hf : conv t.desc = convDepth (convTag (goTag (Desc.code t.desc)) (fun l => convFields (Desc.fields t.desc) l))
      (goDepth (Desc.code t.desc)) := by
    funext j
    conv_lhs => rw [desc_eta t.desc, conv]
  rw [hf]
  cases j <;> rfl

theorem strict_iff (s : List Char) (g : Address.GoAddr) : Address.goSetStringStrict s = some g ↔
    ∃ a : Address.Addr, a.body.length = 20 ∧ s = Address.toStr a ∧ g = Address.toGo a := by
  constructor
  · intro h
    rcases hf : Address.fromString s with e | a
    · rw [(Address.C03_go_agrees.1 s).2 e hf] at h; cases h
    · have hg := (Address.C03_go_agrees.1 s).1 a hf
      rw [hg] at h
      cases h
      by_cases hl : Address.Legal s
      · obtain ⟨b, h1, h2, h3, h4⟩ := Address.fromString_ok s hl
        rw [hf] at h1
        cases h1
        exact ⟨a, by assumption, by simp_all, rfl⟩
      · rw [(Address.C03_parse_exact s).2 hl] at hf; cases hf
  · rintro ⟨a, h1, rfl, rfl⟩
    exact (Address.C03_go_agrees.1 _).1 a (Address.C03_print_parse a h1)

theorem hexBytes_iff (s : List Char) (b : Bytes) : hexBytes s = some b ↔ ∃ h, hexDecode h = some b ∧ (s = '0' :: 'x' :: h ∨ s = h) := by
  constructor
  · intro h
    rw [hexBytes.eq_def] at h
    split at h
    · exact ⟨_, h, Or.inl rfl⟩
    · exact ⟨_, h, Or.inr rfl⟩
  · rintro ⟨h, hd, rfl | rfl⟩
    · exact hd
    · rw [hexBytes.eq_def]
      split
      · rename_i r
        simp [hexDecode, hexVal] at hd
      · exact hd

theorem encode_int (i : ℤ) (w : W) : encodeAny (.int i) = .ok w ↔ w = .bytes tagInt (goBigIntToBytes i) := by
  rw [encodeAny, C38_go_python_agree.1]
  simp only [Except.ok.injEq]
  exact eq_comm

theorem toGo_bytes (a : Address.Addr) : Address.goBytes (Address.toGo a) = Address.toBytes a := by
  cases a with
  | mk p b => cases p <;> rfl

mutual
theorem conv_iff : ∀ (t : Ty), t.Ok → ∀ (j : J) (w : W), conv t.desc j = some w ↔ ∃ v, Denotes t j v ∧ encodeAny v = .ok w
  | .int, _, j, w => by
    by_cases hj : j = .null
    · subst hj; rw [conv_null]; simp [Denotes]
    rw [Ty.desc, conv_base 1 _ (by omega) j hj, convTag]
    have key : ∀ i, hexInt j = some i ↔ (∃ s, j = .str s ∧ parseBigInt s.toList = some i) ∨ ∃ s, j = .num s ∧ setString 0 s = some i := by
      intro i
      cases j <;> simp [hexInt]
    constructor
    · intro h
      rcases h1 : hexInt j with _ | i
      · rw [h1] at h; cases h
      · rw [h1] at h
        simp only [Option.some.injEq] at h
        exact ⟨.int i, ⟨i, rfl, (key i).mp h1⟩, (encode_int i w).mpr h.symm⟩
    · rintro ⟨v, ⟨i, rfl, h⟩, he⟩
      rw [(key i).mpr h, (encode_int i w).mp he]
  | .str, _, j, w => by
    by_cases hj : j = .null
    · subst hj; rw [conv_null]; simp [Denotes]
    rw [Ty.desc, conv_base 2 _ (by omega) j hj, convTag.eq_def]
    simp only []
    constructor
    · intro h
      cases j <;> simp only [reduceCtorEq, Option.some.injEq] at h
      rename_i s
      exact ⟨.str s, ⟨s, rfl, rfl⟩, by rw [encodeAny, h]⟩
    · rintro ⟨v, ⟨s, rfl, rfl⟩, he⟩
      rw [encodeAny] at he
      simp only [Except.ok.injEq] at he
      simp only [he]
  | .bytes, _, j, w => by
    by_cases hj : j = .null
    · subst hj; rw [conv_null]; simp [Denotes]
    rw [Ty.desc, conv_base 3 _ (by omega) j hj, convTag.eq_def]
    simp only []
    constructor
    · intro h
      cases j <;> simp only [reduceCtorEq] at h
      rename_i s
      rcases h1 : hexBytes s.toList with _ | b
      · rw [h1] at h; cases h
      · rw [h1] at h
        simp only [Option.some.injEq] at h
        obtain ⟨x, h2, h3⟩ := (hexBytes_iff _ _).mp h1
        exact ⟨.bytes b, ⟨s, x, b, rfl, rfl, h2, h3⟩, by rw [encodeAny, h]⟩
    · rintro ⟨v, ⟨s, x, b, rfl, rfl, h2, h3⟩, he⟩
      rw [encodeAny] at he
      simp only [Except.ok.injEq] at he
      simp only [(hexBytes_iff _ _).mpr ⟨x, h2, h3⟩, he]
  | .bool, _, j, w => by
    by_cases hj : j = .null
    · subst hj; rw [conv_null]; simp [Denotes]
    rw [Ty.desc, conv_base 4 _ (by omega) j hj, convTag]
    have key : ∀ i, hexInt32 j = some i ↔ (∃ s, j = .str s ∧ parseInt 32 s.toList = some i) ∨ ∃ s, j = .num s ∧ parseInt 32 s = some i := by
      intro i
      cases j <;> simp [hexInt32]
    constructor
    · intro h
      rcases h1 : hexInt32 j with _ | i
      · rw [h1] at h; cases h
      · rw [h1] at h
        simp only [] at h
        by_cases hi : i ≠ 0 ∧ i ≠ 1
        · rw [if_pos hi] at h; cases h
        · rw [if_neg hi] at h
          simp only [Option.some.injEq] at h
          have h01 : i = 0 ∨ i = 1 := by tauto
          rcases h01 with rfl | rfl
          · exact ⟨.bool false, ⟨false, rfl, (key 0).mp h1⟩, by rw [encodeAny, ← h]; rfl⟩
          · exact ⟨.bool true, ⟨true, rfl, (key 1).mp h1⟩, by rw [encodeAny, ← h]; rfl⟩
    · rintro ⟨v, ⟨b, rfl, h⟩, he⟩
      rw [(key _).mpr h]
      rw [encodeAny] at he
      simp only [Except.ok.injEq] at he
      rw [← he]
      cases b <;> rfl
  | .address, _, j, w => by
    by_cases hj : j = .null
    · subst hj; rw [conv_null]; simp [Denotes]
    rw [Ty.desc, conv_base 5 _ (by omega) j hj, convTag.eq_def]
    simp only []
    constructor
    · intro h
      cases j <;> simp only [reduceCtorEq] at h
      rename_i s
      rcases h1 : Address.goSetStringStrict s.toList with _ | g
      · rw [h1] at h; cases h
      · rw [h1] at h
        simp only [Option.some.injEq] at h
        obtain ⟨a, h2, h3, rfl⟩ := (strict_iff _ _).mp h1
        exact ⟨.addr a, ⟨s, a, rfl, rfl, h2, h3⟩, by rw [encodeAny, ← h, toGo_bytes]⟩
    · rintro ⟨v, ⟨s, a, rfl, rfl, h2, h3⟩, he⟩
      rw [encodeAny] at he
      simp only [Except.ok.injEq] at he
      simp only [(strict_iff _ _).mpr ⟨a, h2, h3, rfl⟩, toGo_bytes, he]
  | .list t, ht, j, w => by
    rw [Ty.Ok] at ht
    rw [conv_list ht.1]
    have ih := mapAll_iff (g := encodeAny) (conv_iff t ht.2)
    constructor
    · intro h
      cases j <;> simp only [reduceCtorEq] at h
      rename_i l
      rcases h1 : mapAll (conv t.desc) l with _ | m
      · rw [h1] at h; cases h
      · rw [h1] at h
        simp only [Option.some.injEq] at h
        obtain ⟨vs, h2, h3⟩ := (ih l m).mp h1
        refine ⟨.list vs, ⟨l, vs, rfl, rfl, h2⟩, ?_⟩
        rw [encodeAny, (encodeAll_iff vs m).mpr h3, ← h]; rfl
    · rintro ⟨v, ⟨l, vs, rfl, rfl, h2⟩, he⟩
      rw [encodeAny] at he
      rcases h3 : encodeAll vs with e | m
      · rw [h3] at he; cases he
      · rw [h3] at he
        cases he
        simp only [(ih l m).mpr ⟨vs, h2, (encodeAll_iff vs m).mp h3⟩]
  | .struct fs, ht, j, w => by
    by_cases hj : j = .null
    · subst hj; rw [conv_null]; simp [Denotes]
    rw [Ty.Ok] at ht
    rw [Ty.desc, conv_base 8 _ (by omega) j hj, convTag.eq_def]
    simp only []
    constructor
    · intro h
      cases j <;> simp only [reduceCtorEq] at h
      rename_i l
      rcases h1 : convFields (descFields fs) l with _ | m
      · rw [h1] at h; cases h
      · rw [h1] at h
        simp only [Option.some.injEq] at h
        obtain ⟨vs, h2, h3⟩ := (convFields_iff fs ht.2 l m).mp h1
        exact ⟨.dict vs, ⟨l, vs, rfl, rfl, h2⟩, by rw [encodeAny, h3, ← h]; rfl⟩
    · rintro ⟨v, ⟨l, vs, rfl, rfl, h2⟩, he⟩
      rw [encodeAny] at he
      rcases h3 : encodeItems vs with e | m
      · rw [h3] at he; cases he
      · rw [h3] at he
        cases he
        simp only [(convFields_iff fs ht.2 l m).mpr ⟨vs, h2, h3⟩]
theorem convFields_iff : ∀ (fs : List (String × Ty)), OkFields fs → ∀ (l : List (String × J)) (m : List (Bytes × W)),
    convFields (descFields fs) l = some m ↔ ∃ vs, DenotesFields fs l vs ∧ encodeItems vs = .ok m
  | [], _, l, m => by
    simp only [descFields, convFields, Option.some.injEq, DenotesFields, exists_eq_left, encodeItems, Except.ok.injEq]
  | (n, t) :: fs, h, l, m => by
    rw [OkFields] at h
    rw [descFields, convFields]
    have ih1 := conv_iff t h.1
    have ih2 := convFields_iff fs h.2 l
    constructor
    · intro hc
      rcases h1 : lastOf n l with _ | j
      · rw [h1] at hc; cases hc
      rw [h1] at hc
      simp only [] at hc
      rcases h2 : conv t.desc j with _ | w
      · rw [h2] at hc; simp at hc
      rcases h3 : convFields (descFields fs) l with _ | m'
      · rw [h2, h3] at hc; simp at hc
      rw [h2, h3] at hc
      simp only [Option.some.injEq] at hc
      obtain ⟨v, e1, e2⟩ := (ih1 j w).mp h2
      obtain ⟨vs, e3, e4⟩ := (ih2 m').mp h3
      refine ⟨(.str n, v) :: vs, ⟨j, v, vs, (lastOf_iff n j l).mp h1, e1, rfl, e3⟩, ?_⟩
      rw [encodeItems]
      simp only [e2, e4]
      rw [← hc]; rfl
    · rintro ⟨vs, ⟨j, v, vs', e1, e2, rfl, e3⟩, he⟩
      rw [encodeItems] at he
      rcases h4 : encodeAny v with e | w
      · simp only [h4] at he; cases he
      rcases h5 : encodeItems vs' with e | m'
      · simp only [h4, h5] at he; cases he
      simp only [h4, h5] at he
      cases he
      rw [(lastOf_iff n j l).mpr e1]
      simp only [(ih1 j w).mpr ⟨v, e2, h4⟩, (ih2 m').mpr ⟨vs', e3, h5⟩]
end

/-! ### Calls from outside -/

/-- A declared parameter: name, type, and the default (`none`: no default, or None). -/
structure Sig where
  name : String
  ty : Ty
  default : PyVal

/-- `DefaultOf t p v`: the default `p` of a parameter of type `t` is passed as `v` (a bool is an int in Python). -/
inductive DefaultOf : Ty → PyVal → PyObj → Prop
  | none (t : Ty) : DefaultOf t .none .none
  | int (i : ℤ) : DefaultOf .int (.int i) (.int i)
  | boolInt (b : Bool) : DefaultOf .int (.bool b) (.int (if b then 1 else 0))
  | str (s : String) : DefaultOf .str (.str s) (.str s)
  | bytes (b : Bytes) : DefaultOf .bytes (.bytes b) (.bytes b)
  | bool (b : Bool) : DefaultOf .bool (.bool b) (.bool b)
  | address (a : Address.Addr) (h : a.body.length = 20) : DefaultOf .address (.addr a) (.addr a)

/-- A declared function: the number of mandatory parameters, and the parameters. -/
structure Fn where
  mandatory : ℕ
  params : List Sig

/-- Names are distinct, types are well-formed, defaults have the type of the parameter. -/
def Fn.Ok (f : Fn) : Prop :=
  (f.params.map Sig.name).Nodup ∧ ∀ s ∈ f.params, s.ty.Ok ∧ ∃ v, DefaultOf s.ty s.default v

/-- What the API information says of it; defaults are encoded by the executor (proxy.py:190-206). -/
def Sig.input (s : Sig) : Input := ⟨s.name, s.ty.desc, encode s.default⟩
def Fn.method (f : Fn) : Method := ⟨f.mandatory, f.params.map Sig.input⟩

/-- How the parameters of a request are understood: nothing, a list, an object, or null. -/
def Understood (p : Option J) (g : Given) : Prop :=
  (p = none ∧ g = .list []) ∨ (∃ l, p = some (.arr l) ∧ g = .list l) ∨ (∃ l, p = some (.obj l) ∧ g = .dict l) ∨
  (p = some .null ∧ g = .dict [])

/-- The value given for the parameter at place `i` with name `n`. -/
def At (g : Given) (i : ℕ) (n : String) (j : J) : Prop :=
  match g with
  | .list l => l[i]? = some j
  | .dict l => Last n l j

/-- The value the function gets for a parameter. -/
def Arg (k : ℕ) (g : Given) (i : ℕ) (s : Sig) (v : PyObj) : Prop :=
  (∃ j, At g i s.name j ∧ (Denotes s.ty j v ∨ (j = .null ∧ k ≤ i ∧ v = .none))) ∨
  ((¬ ∃ j, At g i s.name j) ∧ k ≤ i ∧ DefaultOf s.ty s.default v)

/-- Nothing is given beyond the declared parameters. -/
def NoExtra (g : Given) (ps : List Sig) : Prop :=
  match g with
  | .list l => l.length ≤ ps.length
  | .dict l => ∀ p ∈ l, ∃ s ∈ ps, s.name = p.1

theorem get_iff (g : Given) (i : ℕ) (n : String) (j : J) : g.get i n = some j ↔ At g i n j := by
  cases g with
  | list l => exact Iff.rfl
  | dict l => exact lastOf_iff n j l

theorem understood_iff (p : Option J) (g : Given) : parseGiven p = some g ↔ Understood p g := by
  rcases p with _ | j
  · simp [parseGiven, Understood]; exact eq_comm
  · cases j <;> simp [parseGiven, Understood] <;> exact eq_comm

theorem code_ne_zero (t : Ty) : Desc.code t.desc ≠ 0 := by
  obtain ⟨g, h1, h2, h3⟩ := code_eq t
  omega

theorem defaultOf_unique {t : Ty} {p : PyVal} {v v' : PyObj} (h : DefaultOf t p v) (h' : DefaultOf t p v') : v = v' := by
  cases h <;> cases h' <;> rfl

theorem default_iff {t : Ty} {p : PyVal} {v : PyObj} (h : DefaultOf t p v) (w : W) :
    convertBytes (Desc.code t.desc) (encode p) = some w ↔ encodeAny v = .ok w := by
  rw [convertBytes.eq_def, if_neg (code_ne_zero t)]
  cases h with
  | none => simp [encode, encodeAny]
  | int i =>
    rw [encode_int, encode, C38_go_python_agree.1]
    simp only [Option.getD_some, Ty.desc, Desc.code, show goDepth 1 = 0 from rfl, show goTag 1 = 1 from rfl, C38_go_roundtrip]
    simp [eq_comm]
  | boolInt b =>
    rw [encode_int, encode]
    simp only [Ty.desc, Desc.code, show goDepth 1 = 0 from rfl, show goTag 1 = 1 from rfl]
    cases b <;> simp [eq_comm, show goBigIntSetBytes [1] = 1 by decide, show goBigIntSetBytes [0] = 0 by decide]
  | str s => simp [encode, encodeAny, Ty.desc, Desc.code, goDepth, goTag]
  | bytes b => simp [encode, encodeAny, Ty.desc, Desc.code, goDepth, goTag]
  | bool b => cases b <;> simp [encode, encodeAny, Ty.desc, Desc.code, goDepth, goTag]
  | address a ha =>
    have : Address.goSetBytes (Address.toBytes a) = some (Address.toGo a) := by
      cases a with
      | mk p b => cases p <;> simp at ha <;> simp [Address.goSetBytes, Address.toBytes, Address.toGo, ha]
    simp [encode, encodeAny, Ty.desc, Desc.code, goDepth, goTag, this, toGo_bytes]

theorem convertJSON_iff {t : Ty} (h : t.Ok) (j : J) (nullable : Bool) (w : W) : convertJSON t.desc j nullable = some w ↔
    ∃ v, (Denotes t j v ∨ (j = .null ∧ nullable = true ∧ v = .none)) ∧ encodeAny v = .ok w := by
  have nd : ∀ v, ¬ Denotes t .null v := by
    intro v hv
    have := conv_iff t h .null
    cases t <;> simp [Denotes] at hv
  by_cases hj : j = .null
  · subst hj
    rw [convertJSON]
    constructor
    · intro hc
      cases nullable with
      | false => simp at hc
      | true => simp at hc; exact ⟨.none, Or.inr ⟨rfl, rfl, rfl⟩, by rw [encodeAny, hc]⟩
    · rintro ⟨v, hv | ⟨_, hn, rfl⟩, he⟩
      · exact absurd hv (nd v)
      · rw [encodeAny] at he; rw [if_pos hn]; simpa using he
  · have hc : convertJSON t.desc j nullable = conv t.desc j := by
      cases j <;> first | rfl | exact absurd rfl hj
    rw [hc, conv_iff t h]
    constructor
    · rintro ⟨v, h1, h2⟩; exact ⟨v, Or.inl h1, h2⟩
    · rintro ⟨v, h1 | h1, h2⟩
      · exact ⟨v, h1, h2⟩
      · exact absurd h1.1 hj

/-- The arguments from place `i` on. -/
def ArgsFrom (k : ℕ) (g : Given) : ℕ → List Sig → List PyObj → Prop
  | _, [], vs => vs = []
  | i, s :: ss, vs => ∃ v vs', vs = v :: vs' ∧ Arg k g i s v ∧ ArgsFrom k g (i + 1) ss vs'

def matched (g : Given) : ℕ → List Sig → ℕ
  | _, [] => 0
  | i, s :: ss => (if (g.get i s.name).isSome then 1 else 0) + matched g (i + 1) ss

theorem input_code (s : Sig) : s.input.code = Desc.code s.ty.desc := by
  rw [Input.code, Sig.input]
  cases s.ty.desc with
  | mk c fs => rfl

theorem convLoop_iff (k : ℕ) (g : Given) : ∀ (ss : List Sig) (i : ℕ), (∀ s ∈ ss, s.ty.Ok ∧ ∃ v, DefaultOf s.ty s.default v) →
    ∀ (ws : List W) (n : ℕ), convLoop k g i (ss.map Sig.input) = some (ws, n) ↔
      n = matched g i ss ∧ ∃ vs, ArgsFrom k g i ss vs ∧ List.Forall₂ (fun v w => encodeAny v = .ok w) vs ws
  | [], i, _, ws, n => by
    simp only [List.map_nil, convLoop, Option.some.injEq, Prod.mk.injEq, matched, ArgsFrom, exists_eq_left, List.forall₂_nil_left_iff]
    constructor
    · rintro ⟨rfl, rfl⟩; exact ⟨rfl, rfl⟩
    · rintro ⟨rfl, rfl⟩; exact ⟨rfl, rfl⟩
  | s :: ss, i, hok, ws, n => by
    have ih := convLoop_iff k g ss (i + 1) (fun s hs => hok s (by simp [hs]))
    obtain ⟨hty, d, hd⟩ := hok s (by simp)
    rw [List.map_cons, convLoop, matched, show s.input.name = s.name from rfl, show s.input.desc = s.ty.desc from rfl,
      show s.input.default = encode s.default from rfl, input_code]
    rcases hg : g.get i s.name with _ | j
    · have hno : ¬ ∃ j, At g i s.name j := by
        rintro ⟨j, hj⟩
        rw [(get_iff g i s.name j).mpr hj] at hg; cases hg
      simp only [Option.isSome_none, Bool.false_eq_true, if_false, Nat.zero_add]
      constructor
      · intro h
        by_cases hk : i ≥ k
        · rw [if_pos hk] at h
          rcases h1 : convertBytes (Desc.code s.ty.desc) (encode s.default) with _ | w
          · rw [h1] at h; simp at h
          rcases h2 : convLoop k g (i + 1) (ss.map Sig.input) with _ | ⟨ws', n'⟩
          · rw [h1, h2] at h; simp at h
          rw [h1, h2] at h
          simp only [Option.some.injEq, Prod.mk.injEq] at h
          obtain ⟨rfl, rfl⟩ := h
          obtain ⟨e1, vs, e2, e3⟩ := (ih ws' n').mp h2
          exact ⟨e1, d :: vs, ⟨d, vs, rfl, Or.inr ⟨hno, hk, hd⟩, e2⟩, .cons ((default_iff hd w).mp h1) e3⟩
        · rw [if_neg hk] at h; cases h
      · rintro ⟨rfl, vs, ⟨v, vs', rfl, ha, hr⟩, hf⟩
        cases hf with
        | cons hw hws =>
          rcases ha with ⟨j, hj, _⟩ | ⟨_, hk, hd'⟩
          · exact absurd ⟨j, hj⟩ hno
          · rw [if_pos hk, (default_iff hd' _).mpr hw, (ih _ _).mpr ⟨rfl, vs', hr, hws⟩]
    · have hj := (get_iff g i s.name j).mp hg
      have huniq : ∀ j', At g i s.name j' → j' = j := by
        intro j' h
        rw [(get_iff g i s.name j').mpr h] at hg
        exact Option.some.inj hg
      simp only [Option.isSome_some, if_true]
      constructor
      · intro h
        rcases h1 : convertJSON s.ty.desc j (decide (i ≥ k)) with _ | w
        · rw [h1] at h; simp at h
        rcases h2 : convLoop k g (i + 1) (ss.map Sig.input) with _ | ⟨ws', n'⟩
        · rw [h1, h2] at h; simp at h
        rw [h1, h2] at h
        simp only [Option.some.injEq, Prod.mk.injEq] at h
        obtain ⟨rfl, rfl⟩ := h
        obtain ⟨e1, vs, e2, e3⟩ := (ih ws' n').mp h2
        obtain ⟨v, hv, hw⟩ := (convertJSON_iff hty j _ w).mp h1
        refine ⟨by omega, v :: vs, ⟨v, vs, rfl, Or.inl ⟨j, hj, ?_⟩, e2⟩, .cons hw e3⟩
        simpa using hv
      · rintro ⟨rfl, vs, ⟨v, vs', rfl, ha, hr⟩, hf⟩
        cases hf with
        | cons hw hws =>
          rcases ha with ⟨j', hj', hv⟩ | ⟨hno, _⟩
          · rw [huniq j' hj'] at hv
            rw [(convertJSON_iff hty j (decide (i ≥ k)) _).mpr ⟨v, by simpa using hv, hw⟩, (ih _ _).mpr ⟨rfl, vs', hr, hws⟩]
            simp only [Option.some.injEq, Prod.mk.injEq, true_and]
            omega
          · exact absurd ⟨j, hj⟩ hno

theorem argsFrom_index (k : ℕ) (g : Given) : ∀ (ss : List Sig) (i : ℕ) (vs : List PyObj), ArgsFrom k g i ss vs ↔
    vs.length = ss.length ∧ ∀ (n : ℕ) (s : Sig) (v : PyObj), ss[n]? = some s → vs[n]? = some v → Arg k g (i + n) s v
  | [], i, vs => by
    simp [ArgsFrom]
  | s :: ss, i, vs => by
    have ih := argsFrom_index k g ss (i + 1)
    rw [ArgsFrom]
    constructor
    · rintro ⟨v, vs', rfl, h1, h2⟩
      obtain ⟨h3, h4⟩ := (ih vs').mp h2
      refine ⟨by simp [h3], ?_⟩
      intro n s' v' hs hv
      cases n with
      | zero => simp at hs hv; rw [← hs, ← hv]; exact h1
      | succ n =>
        simp at hs hv
        have := h4 n s' v' hs hv
        rw [show i + (n + 1) = i + 1 + n by omega]; exact this
    · rintro ⟨h1, h2⟩
      cases vs with
      | nil => simp at h1
      | cons v vs =>
        refine ⟨v, vs, rfl, h2 0 s v rfl rfl, (ih vs).mpr ⟨by simpa using h1, ?_⟩⟩
        intro n s' v' hs hv
        have := h2 (n + 1) s' v' (by simpa using hs) (by simpa using hv)
        rw [show i + (n + 1) = i + 1 + n by omega] at this; exact this

theorem matched_list (l : List J) : ∀ (ss : List Sig) (i : ℕ), matched (.list l) i ss = min (l.length - i) ss.length
  | [], i => by simp [matched]
  | s :: ss, i => by
    rw [matched, matched_list l ss (i + 1), show Given.get (.list l) i s.name = l[i]? from rfl, List.length_cons]
    by_cases h : i < l.length
    · rw [List.getElem?_eq_getElem h]; simp; omega
    · rw [List.getElem?_eq_none (by omega)]; simp; omega

theorem matched_dict (l : List (String × J)) : ∀ (ss : List Sig) (i : ℕ),
    matched (.dict l) i ss = ((ss.map Sig.name).filter (fun n => n ∈ l.map Prod.fst)).length
  | [], i => by simp [matched]
  | s :: ss, i => by
    rw [matched, matched_dict l ss (i + 1), show Given.get (.dict l) i s.name = lastOf s.name l from rfl, List.map_cons]
    have hn := lastOf_none s.name l
    rcases h : lastOf s.name l with _ | x
    · rw [h] at hn
      have : s.name ∉ l.map Prod.fst := by
        intro hm
        obtain ⟨p, hp, e⟩ := List.mem_map.mp hm
        exact hn.mp rfl p hp e
      rw [List.filter_cons_of_neg (by simpa using this)]; simp
    · rw [h] at hn
      have : s.name ∈ l.map Prod.fst := by
        by_contra hc
        exact absurd (hn.mpr (fun p hp e => hc (List.mem_map.mpr ⟨p, hp, e⟩))) (by simp)
      rw [List.filter_cons_of_pos (by simpa using this)]; simp; omega

theorem matched_eq_size {g : Given} {ss : List Sig} (hn : (ss.map Sig.name).Nodup) : matched g 0 ss = g.size ↔ NoExtra g ss := by
  cases g with
  | list l =>
    rw [matched_list, Given.size, NoExtra]
    simp only [Nat.sub_zero]; omega
  | dict l =>
    rw [matched_dict, Given.size, NoExtra]
    have hF : ((ss.map Sig.name).filter (fun n => n ∈ l.map Prod.fst)).Nodup := hn.filter _
    have hsub : ((ss.map Sig.name).filter (fun n => n ∈ l.map Prod.fst)) ⊆ (l.map Prod.fst).dedup := by
      intro x hx
      rw [List.mem_dedup]
      simpa using (List.mem_filter.mp hx).2
    have hsp := List.subperm_of_subset hF hsub
    constructor
    · intro he p hp
      have hperm := hsp.perm_of_length_le (le_of_eq he.symm)
      have : p.1 ∈ (l.map Prod.fst).dedup := List.mem_dedup.mpr (List.mem_map_of_mem hp)
      have := (hperm.mem_iff).mpr this
      obtain ⟨s, hs, e⟩ := List.mem_map.mp (List.mem_filter.mp this).1
      exact ⟨s, hs, e⟩
    · intro h
      apply le_antisymm hsp.length_le
      apply (List.subperm_of_subset (List.nodup_dedup _) ?_).length_le
      intro x hx
      rw [List.mem_dedup] at hx
      obtain ⟨p, hp, rfl⟩ := List.mem_map.mp hx
      obtain ⟨s, hs, e⟩ := h p hp
      exact List.mem_filter.mpr ⟨List.mem_map.mpr ⟨s, hs, e⟩, by simpa using hx⟩

/-- C18: a request is accepted exactly when its parameters are understood, every mandatory parameter is given, every given
value has the declared type and (unless extra parameters are allowed) nothing else is given; the function then gets one value for
each declared parameter: the one given, or else the default. An optional parameter given as null is None. -/
theorem C18_call_exact (f : Fn) (hf : f.Ok) (p : Option J) (allowExtra : Bool) (ws : List W) :
    f.method.convertParams p allowExtra = some ws ↔
      ∃ g vs, Understood p g ∧ encodeAll vs = .ok ws ∧ vs.length = f.params.length ∧
        (∀ (i : ℕ) (s : Sig) (v : PyObj), f.params[i]? = some s → vs[i]? = some v → Arg f.mandatory g i s v) ∧
        (allowExtra = false → NoExtra g f.params) := by
  rw [Method.convertParams, Fn.method]
  have key := fun g => convLoop_iff f.mandatory g f.params 0 hf.2
  have idx := fun g => argsFrom_index f.mandatory g f.params 0
  constructor
  · intro h
    rcases hg : parseGiven p with _ | g
    · rw [hg] at h; cases h
    rw [hg] at h
    simp only [] at h
    rcases hl : convLoop f.mandatory g 0 (f.params.map Sig.input) with _ | ⟨ws', n⟩
    · rw [hl] at h; cases h
    rw [hl] at h
    simp only [] at h
    by_cases hc : n ≠ g.size ∧ allowExtra = false
    · rw [if_pos hc] at h; cases h
    rw [if_neg hc] at h
    cases h
    obtain ⟨rfl, vs, h1, h2⟩ := (key g ws n).mp hl
    obtain ⟨h3, h4⟩ := (idx g vs).mp h1
    refine ⟨g, vs, (understood_iff p g).mp hg, (encodeAll_iff vs ws).mpr h2, h3, ?_, ?_⟩
    · intro i s v hs hv
      simpa using h4 i s v hs hv
    · intro ha
      apply (matched_eq_size hf.1).mp
      by_contra hne
      exact hc ⟨hne, ha⟩
  · rintro ⟨g, vs, hu, he, hlen, hall, hex⟩
    rw [(understood_iff p g).mpr hu]
    simp only []
    rw [(key g ws _).mpr ⟨rfl, vs, (idx g vs).mpr ⟨hlen, fun n s v hs hv => by simpa using hall n s v hs hv⟩,
      (encodeAll_iff vs ws).mp he⟩]
    simp only []
    rw [if_neg]
    rintro ⟨hne, ha⟩
    exact hne ((matched_eq_size hf.1).mpr (hex ha))

/-! ### What the function receives -/

mutual
theorem denotes_plain : ∀ (t : Ty), t.Ok → ∀ (j : J) (v : PyObj), Denotes t j v → Typed.Supported v ∧ listed v = v
  | .int, _, j, v, h => by obtain ⟨i, rfl, _⟩ := h; exact ⟨trivial, rfl⟩
  | .str, _, j, v, h => by obtain ⟨s, _, rfl⟩ := h; exact ⟨trivial, rfl⟩
  | .bytes, _, j, v, h => by obtain ⟨s, x, b, _, rfl, _⟩ := h; exact ⟨trivial, rfl⟩
  | .bool, _, j, v, h => by obtain ⟨b, rfl, _⟩ := h; exact ⟨trivial, rfl⟩
  | .address, _, j, v, h => by obtain ⟨s, a, _, rfl, ha, _⟩ := h; exact ⟨ha, rfl⟩
  | .list t, ht, j, v, h => by
    obtain ⟨l, vs, _, rfl, hf⟩ := h
    rw [Ty.Ok] at ht
    have ih := denotes_plain t ht.2
    have key : SupportedAll vs ∧ listedAll vs = vs := by
      clear * - hf ih
      induction hf with
      | nil => exact ⟨trivial, rfl⟩
      | cons h1 _ ih' =>
        obtain ⟨h2, h3⟩ := ih _ _ h1
        rw [SupportedAll, listedAll, h3, ih'.2]
        exact ⟨⟨h2, ih'.1⟩, rfl⟩
    rw [Typed.Supported, listed, key.2]
    exact ⟨key.1, rfl⟩
  | .struct fs, ht, j, v, h => by
    obtain ⟨l, m, _, rfl, hf⟩ := h
    rw [Ty.Ok] at ht
    obtain ⟨h1, h2, h3⟩ := denotesFields_plain fs ht.2 l m hf
    rw [Typed.Supported, listed, h2]
    refine ⟨⟨h1, ?_⟩, rfl⟩
    rw [h3, ← List.map_map]
    exact ht.1.map (fun a b h => by cases h; rfl)
theorem denotesFields_plain : ∀ (fs : List (String × Ty)), OkFields fs → ∀ (l : List (String × J)) (m : List (DKey × PyObj)),
    DenotesFields fs l m → SupportedItems m ∧ listedItems m = m ∧ m.map Prod.fst = fs.map (DKey.str ∘ Prod.fst)
  | [], _, l, m, h => by
    rw [DenotesFields] at h
    subst h
    exact ⟨trivial, rfl, rfl⟩
  | (n, t) :: fs, ht, l, m, h => by
    obtain ⟨j, v, m', _, h2, rfl, h4⟩ := h
    rw [OkFields] at ht
    obtain ⟨a1, a2⟩ := denotes_plain t ht.1 j v h2
    obtain ⟨b1, b2, b3⟩ := denotesFields_plain fs ht.2 l m' h4
    refine ⟨⟨⟨n, rfl⟩, a1, b1⟩, ?_, ?_⟩
    · rw [listedItems, a2, b2]
    · simp [b3]
end

theorem default_plain {t : Ty} {p : PyVal} {v : PyObj} (h : DefaultOf t p v) : Typed.Supported v ∧ listed v = v := by
  cases h <;> first | exact ⟨trivial, rfl⟩ | (rename_i ha; exact ⟨ha, rfl⟩)

theorem arg_plain {k : ℕ} {g : Given} {i : ℕ} {s : Sig} {v : PyObj} (hs : s.ty.Ok) (h : Arg k g i s v) : Typed.Supported v ∧ listed v = v := by
  rcases h with ⟨j, _, h | ⟨_, _, rfl⟩⟩ | ⟨_, _, h⟩
  · exact denotes_plain _ hs _ _ h
  · exact ⟨trivial, rfl⟩
  · exact default_plain h

theorem decodeAll_of {vs : List PyObj} : ∀ {ws : List W}, encodeAll vs = .ok ws → (∀ v ∈ vs, Typed.Supported v ∧ listed v = v) →
    decodeAll ws = .ok vs := by
  induction vs with
  | nil => intro ws h _; rw [encodeAll] at h; cases h; rfl
  | cons v vs ih =>
    intro ws h hs
    have := (encodeAll_iff _ _).mp h
    cases this with
    | cons hw hws =>
      rename_i w ws
      obtain ⟨w', e1, e2⟩ := C12_python_roundtrip v (hs v (by simp)).1
      rw [hw] at e1
      cases e1
      rw [decodeAll, e2, (hs v (by simp)).2]
      simp only []
      rw [ih ((encodeAll_iff _ _).mpr hws) (fun x hx => hs x (by simp [hx]))]
      rfl

/-- C18: what the executor passes to the function are the values themselves. -/
theorem C18_received (f : Fn) (hf : f.Ok) (p : Option J) (allowExtra : Bool) (ws : List W)
    (h : f.method.convertParams p allowExtra = some ws) :
    ∃ g vs, Understood p g ∧ decodeAll ws = .ok vs ∧ vs.length = f.params.length ∧
      ∀ (i : ℕ) (s : Sig) (v : PyObj), f.params[i]? = some s → vs[i]? = some v → Arg f.mandatory g i s v := by
  obtain ⟨g, vs, h1, h2, h3, h4, _⟩ := (C18_call_exact f hf p allowExtra ws).mp h
  refine ⟨g, vs, h1, decodeAll_of h2 ?_, h3, h4⟩
  intro v hv
  obtain ⟨i, hi, rfl⟩ := List.getElem_of_mem hv
  have hs : f.params[i]? = some f.params[i] := List.getElem?_eq_getElem (by omega)
  exact arg_plain (hf.2 _ (List.getElem_mem _)).1 (h4 i _ _ hs (List.getElem?_eq_getElem hi))

/-! ### Calls between contracts -/

mutual
/-- `v` is a value of type `t`. -/
def ValueOf : Ty → PyObj → Prop
  | .int, v => ∃ i, v = .int i
  | .str, v => ∃ s, v = .str s
  | .bytes, v => ∃ b, v = .bytes b
  | .bool, v => ∃ b, v = .bool b
  | .address, v => ∃ a, v = .addr a
  | .list t, v => ∃ l, (v = .list l ∨ v = .tuple l) ∧ ∀ x ∈ l, ValueOf t x
  | .struct fs, v => ∃ m, v = .dict m ∧ ValueOfFields fs m ∧ ∀ p ∈ m, ∃ q ∈ fs, p.1 = .str q.1
def ValueOfFields : List (String × Ty) → List (DKey × PyObj) → Prop
  | [], _ => True
  | (n, t) :: fs, m => (∃ x, (.str n, x) ∈ m ∧ ValueOf t x) ∧ ValueOfFields fs m
end

theorem supportedAll_iff : ∀ l : List PyObj, SupportedAll l ↔ ∀ v ∈ l, Typed.Supported v
  | [] => by simp [SupportedAll]
  | v :: l => by simp [SupportedAll, supportedAll_iff l]

theorem supportedItems_iff : ∀ l : List (DKey × PyObj), SupportedItems l ↔ ∀ p ∈ l, (∃ s, p.1 = .str s) ∧ Typed.Supported p.2
  | [] => by simp [SupportedItems]
  | (k, v) :: l => by simp [SupportedItems, supportedItems_iff l, and_assoc]

theorem encodeItems_iff : ∀ (m : List (DKey × PyObj)) (ms : List (Bytes × W)), encodeItems m = .ok ms ↔
    List.Forall₂ (fun p q => ∃ s, p.1 = .str s ∧ q.1 = utf8 s ∧ encodeAny p.2 = .ok q.2) m ms
  | [], ms => by simp only [encodeItems, Except.ok.injEq, List.forall₂_nil_left_iff]; exact eq_comm
  | (k, v) :: m, ms => by
    have ih := encodeItems_iff m
    rw [encodeItems.eq_def]
    simp only []
    cases k with
    | other n =>
      simp only [reduceCtorEq, false_iff]
      intro hc
      cases hc with
      | cons h _ => obtain ⟨s, h, _⟩ := h; cases h
    | str s =>
      simp only []
      rcases h : encodeAny v with e | w
      · simp only [reduceCtorEq, false_iff]
        intro hc
        cases hc with
        | cons h1 _ => obtain ⟨s, _, _, h1⟩ := h1; simp only at h1; rw [h] at h1; cases h1
      · simp only []
        rcases h2 : encodeItems m with e | ms'
        · simp only [Except.map, reduceCtorEq, false_iff]
          intro hc
          cases hc with
          | cons _ h3 => rw [(ih _).mpr h3] at h2; cases h2
        · simp only [Except.map, Except.ok.injEq]
          constructor
          · rintro rfl; exact .cons ⟨s, rfl, rfl, h⟩ ((ih _).mp h2)
          · intro hc
            cases hc with
            | cons h1 h3 =>
              rename_i q ms''
              obtain ⟨s', e1, e2, e3⟩ := h1
              simp only at e1 e3
              cases e1
              rw [h] at e3; cases e3
              rw [(ih _).mpr h3] at h2; cases h2
              cases q; simp_all

theorem forall2_mem_left {α β : Type} {R : α → β → Prop} {l : List α} {m : List β} (h : List.Forall₂ R l m) :
    ∀ a ∈ l, ∃ b ∈ m, R a b := by
  induction h with
  | nil => intro a ha; cases ha
  | cons h1 _ ih =>
    intro a ha
    rcases List.mem_cons.mp ha with rfl | ha
    · exact ⟨_, by simp, h1⟩
    · obtain ⟨b, hb, hr⟩ := ih a ha; exact ⟨b, by simp [hb], hr⟩

theorem forall2_mem_right {α β : Type} {R : α → β → Prop} {l : List α} {m : List β} (h : List.Forall₂ R l m) :
    ∀ b ∈ m, ∃ a ∈ l, R a b := by
  induction h with
  | nil => intro a ha; cases ha
  | cons h1 _ ih =>
    intro a ha
    rcases List.mem_cons.mp ha with rfl | ha
    · exact ⟨_, by simp, h1⟩
    · obtain ⟨b, hb, hr⟩ := ih a ha; exact ⟨b, by simp [hb], hr⟩

/-- The keys stay distinct. -/
theorem keys_nodup {m : List (DKey × PyObj)} {ms : List (Bytes × W)}
    (h : List.Forall₂ (fun p q => ∃ s, p.1 = .str s ∧ q.1 = utf8 s ∧ encodeAny p.2 = .ok q.2) m ms)
    (hn : (m.map Prod.fst).Nodup) : (ms.map Prod.fst).Nodup := by
  induction h with
  | nil => simp
  | cons h1 hr ih =>
    rename_i p q m ms
    rw [List.map_cons, List.nodup_cons] at hn ⊢
    refine ⟨?_, ih hn.2⟩
    intro hm
    obtain ⟨q', hq', e⟩ := List.mem_map.mp hm
    obtain ⟨p', hp', s', e1, e2, _⟩ := forall2_mem_right hr q' hq'
    obtain ⟨s, e3, e4, _⟩ := h1
    rw [e2, e4] at e
    have := utf8_inj e
    subst this
    exact hn.1 (List.mem_map.mpr ⟨p', hp', by rw [e1, e3]⟩)

theorem last_of_nodup {α β : Type} {k : α} {v : β} : ∀ {l : List (α × β)}, (l.map Prod.fst).Nodup → ((k, v) ∈ l ↔ Last k l v) := by
  intro l hn
  constructor
  · intro h
    obtain ⟨a, b, rfl⟩ := List.append_of_mem h
    refine ⟨a, b, rfl, ?_⟩
    intro p hp e
    rw [List.map_append, List.map_cons] at hn
    have := (List.nodup_append.mp hn).2.1
    rw [List.nodup_cons] at this
    exact this.1 (List.mem_map.mpr ⟨p, hp, e⟩)
  · rintro ⟨a, b, rfl, _⟩
    simp

theorem lookup_item {m : List (DKey × PyObj)} {ms : List (Bytes × W)}
    (h : List.Forall₂ (fun p q => ∃ s, p.1 = .str s ∧ q.1 = utf8 s ∧ encodeAny p.2 = .ok q.2) m ms)
    (hn : (m.map Prod.fst).Nodup) (n : String) (w : W) :
    lastOf (utf8 n) ms = some w ↔ ∃ x, (DKey.str n, x) ∈ m ∧ encodeAny x = .ok w := by
  rw [lastOf_iff, ← last_of_nodup (keys_nodup h hn)]
  constructor
  · intro hm
    obtain ⟨p, hp, s, e1, e2, e3⟩ := forall2_mem_right h _ hm
    have := utf8_inj e2
    subst this
    exact ⟨p.2, by rw [← e1]; exact hp, e3⟩
  · rintro ⟨x, hx, he⟩
    obtain ⟨q, hq, s, e1, e2, e3⟩ := forall2_mem_left h _ hx
    cases e1
    simp only at e3
    rw [he] at e3
    cases e3
    rw [← e2]
    exact hq

theorem validDepth_zero (leaf : W → Bool) (w : W) : validDepth leaf 0 w = leaf w := by cases w <;> rfl

theorem valid_base (c : ℕ) (fs : List (String × Desc)) (hc : c < 16) (w : W) :
    valid (.mk c fs) w = validTag c (fun m => validFields fs m && decide ((m.map Prod.fst).dedup.length ≤ fs.length)) w := by
  rw [valid, goTag_eq, goDepth_eq, show c % 16 = c by omega, show c / 16 % 16 = 0 by omega, validDepth_zero]

theorem valid_list {t : Ty} (h : t.depth < 15) (w : W) : valid (Ty.list t).desc w =
    match w with
    | .list g l => decide (g = tagList) && l.all (valid t.desc)
    | _ => false := by
  rw [list_desc, valid, (list_code h).1, (list_code h).2]
  have hf : valid t.desc = validDepth (validTag (goTag (Desc.code t.desc)) (fun m => validFields (Desc.fields t.desc) m &&
      decide ((m.map Prod.fst).dedup.length ≤ (Desc.fields t.desc).length))) (goDepth (Desc.code t.desc)) := by
    funext w
    conv_lhs => rw [desc_eta t.desc, valid]
  rw [hf]
  cases w <;> rfl

def pyTag : PyObj → ℕ
  | .none => tagNil | .bool _ => tagBool | .int _ => tagInt | .str _ => tagString | .bytes _ => tagBytes | .addr _ => tagAddress
  | .list _ => tagList | .tuple _ => tagList | .dict _ => tagDict | .other => tagNil

theorem wTag_encode {v : PyObj} {w : W} (h : encodeAny v = .ok w) : wTag w = pyTag v := by
  cases v with
  | int i => rw [(encode_int i w).mp h]; rfl
  | list l => rw [encodeAny] at h; rcases h1 : encodeAll l with e | m <;> rw [h1] at h <;> cases h; rfl
  | tuple l => rw [encodeAny] at h; rcases h1 : encodeAll l with e | m <;> rw [h1] at h <;> cases h; rfl
  | dict l => rw [encodeAny] at h; rcases h1 : encodeItems l with e | m <;> rw [h1] at h <;> cases h; rfl
  | other => rw [encodeAny] at h; cases h
  | none => rw [encodeAny] at h; cases h; rfl
  | bool b => rw [encodeAny] at h; cases h; rfl
  | str s => rw [encodeAny] at h; cases h; rfl
  | bytes b => rw [encodeAny] at h; cases h; rfl
  | addr a => rw [encodeAny] at h; cases h; rfl

theorem descFields_length : ∀ fs : List (String × Ty), (descFields fs).length = fs.length
  | [] => rfl
  | (n, t) :: fs => by rw [descFields, List.length_cons, descFields_length fs, List.length_cons]

theorem valueFields_names : ∀ (fs : List (String × Ty)) (m : List (DKey × PyObj)), ValueOfFields fs m → ∀ q ∈ fs, DKey.str q.1 ∈ m.map Prod.fst
  | [], m, _, q, hq => by cases hq
  | (n, t) :: fs, m, h, q, hq => by
    obtain ⟨⟨x, hx, _⟩, h2⟩ := h
    rcases List.mem_cons.mp hq with rfl | hq
    · exact List.mem_map.mpr ⟨_, hx, rfl⟩
    · exact valueFields_names fs m h2 q hq

mutual
theorem valid_value : ∀ (t : Ty), t.Ok → ∀ (v : PyObj) (w : W), Typed.Supported v → encodeAny v = .ok w → (valid t.desc w = true ↔ ValueOf t v)
  | .int, _, v, w, _, he => by
    rw [Ty.desc, valid_base 1 _ (by omega), validTag.eq_def, if_neg (by decide)]
    have := wTag_encode he
    cases v <;> simp [inputTag, this, pyTag, ValueOf, tagInt, tagNil, tagBool, tagString, tagBytes, tagAddress, tagList, tagDict]
  | .str, _, v, w, _, he => by
    rw [Ty.desc, valid_base 2 _ (by omega), validTag.eq_def, if_neg (by decide)]
    have := wTag_encode he
    cases v <;> simp [inputTag, this, pyTag, ValueOf, tagInt, tagNil, tagBool, tagString, tagBytes, tagAddress, tagList, tagDict]
  | .bytes, _, v, w, _, he => by
    rw [Ty.desc, valid_base 3 _ (by omega), validTag.eq_def, if_neg (by decide)]
    have := wTag_encode he
    cases v <;> simp [inputTag, this, pyTag, ValueOf, tagInt, tagNil, tagBool, tagString, tagBytes, tagAddress, tagList, tagDict]
  | .bool, _, v, w, _, he => by
    rw [Ty.desc, valid_base 4 _ (by omega), validTag.eq_def, if_neg (by decide)]
    have := wTag_encode he
    cases v <;> simp [inputTag, this, pyTag, ValueOf, tagInt, tagNil, tagBool, tagString, tagBytes, tagAddress, tagList, tagDict]
  | .address, _, v, w, _, he => by
    rw [Ty.desc, valid_base 5 _ (by omega), validTag.eq_def, if_neg (by decide)]
    have := wTag_encode he
    cases v <;> simp [inputTag, this, pyTag, ValueOf, tagInt, tagNil, tagBool, tagString, tagBytes, tagAddress, tagList, tagDict]
  | .list t, ht, v, w, hs, he => by
    rw [Ty.Ok] at ht
    rw [valid_list ht.1]
    have ih := valid_value t ht.2
    have key : ∀ (l : List PyObj) (ws : List W), SupportedAll l → encodeAll l = .ok ws → (ws.all (valid t.desc) = true ↔ ∀ x ∈ l, ValueOf t x) := by
      intro l ws hl hw
      have hf := (encodeAll_iff l ws).mp hw
      clear hw
      induction hf with
      | nil => simp
      | cons h1 _ ih' =>
        rw [SupportedAll] at hl
        have e1 := ih _ _ hl.1 h1
        have e2 := ih' hl.2
        rw [List.all_cons, Bool.and_eq_true]
        exact (and_congr e1 e2).trans (by simp)
    cases v with
    | list l =>
      rw [encodeAny] at he
      rcases h1 : encodeAll l with e | m <;> rw [h1] at he <;> cases he
      rw [Typed.Supported] at hs
      simp only [decide_true, Bool.true_and]
      rw [key l m hs h1, ValueOf]
      simp
    | tuple l =>
      rw [encodeAny] at he
      rcases h1 : encodeAll l with e | m <;> rw [h1] at he <;> cases he
      rw [Typed.Supported] at hs
      simp only [decide_true, Bool.true_and]
      rw [key l m hs h1, ValueOf]
      simp
    | int i => rw [(encode_int i w).mp he]; simp [ValueOf]
    | dict l => rw [encodeAny] at he; rcases h1 : encodeItems l with e | m <;> rw [h1] at he <;> cases he; simp [ValueOf]
    | none => rw [encodeAny] at he; cases he; simp [ValueOf]
    | bool b => rw [encodeAny] at he; cases he; simp [ValueOf]
    | str s => rw [encodeAny] at he; cases he; simp [ValueOf]
    | bytes b => rw [encodeAny] at he; cases he; simp [ValueOf]
    | addr a => rw [encodeAny] at he; cases he; simp [ValueOf]
    | other => rw [encodeAny] at he; cases he
  | .struct fs, ht, v, w, hs, he => by
    rw [Ty.Ok] at ht
    rw [Ty.desc, valid_base 8 _ (by omega), validTag.eq_def, if_pos rfl]
    cases v with
    | dict l =>
      rw [encodeAny] at he
      rcases h1 : encodeItems l with e | m <;> rw [h1] at he <;> cases he
      rw [Typed.Supported] at hs
      have hf := (encodeItems_iff l m).mp h1
      simp only [decide_true, Bool.true_and, Bool.and_eq_true, decide_eq_true_eq]
      rw [validFields_value fs ht.2 l m hs.1 hs.2 hf, descFields_length, (keys_nodup hf hs.2).dedup, List.length_map, ← hf.length_eq, ValueOf]
      have hsn : (fs.map (DKey.str ∘ Prod.fst)).Nodup := by
        rw [← List.map_map]; exact ht.1.map (fun a b h => by cases h; rfl)
      constructor
      · rintro ⟨h2, h3⟩
        refine ⟨l, rfl, h2, ?_⟩
        intro p hp
        have hsub : fs.map (DKey.str ∘ Prod.fst) ⊆ l.map Prod.fst := by
          intro k hk
          obtain ⟨q, hq, rfl⟩ := List.mem_map.mp hk
          exact valueFields_names fs l h2 q hq
        have hperm := (List.subperm_of_subset hsn hsub).perm_of_length_le (by simpa using h3)
        have := hperm.mem_iff.mpr (List.mem_map_of_mem hp)
        obtain ⟨q, hq, e⟩ := List.mem_map.mp this
        exact ⟨q, hq, e.symm⟩
      · rintro ⟨l', h, h2, h3⟩
        cases h
        refine ⟨h2, ?_⟩
        have hsub : l.map Prod.fst ⊆ fs.map (DKey.str ∘ Prod.fst) := by
          intro k hk
          obtain ⟨p, hp, rfl⟩ := List.mem_map.mp hk
          obtain ⟨q, hq, e⟩ := h3 p hp
          exact List.mem_map.mpr ⟨q, hq, e.symm⟩
        simpa using (List.subperm_of_subset hs.2 hsub).length_le
    | list l => rw [encodeAny] at he; rcases h1 : encodeAll l with e | m <;> rw [h1] at he <;> cases he; simp [ValueOf]
    | tuple l => rw [encodeAny] at he; rcases h1 : encodeAll l with e | m <;> rw [h1] at he <;> cases he; simp [ValueOf]
    | int i => rw [(encode_int i w).mp he]; simp [ValueOf]
    | none => rw [encodeAny] at he; cases he; simp [ValueOf]
    | bool b => rw [encodeAny] at he; cases he; simp [ValueOf]
    | str s => rw [encodeAny] at he; cases he; simp [ValueOf]
    | bytes b => rw [encodeAny] at he; cases he; simp [ValueOf]
    | addr a => rw [encodeAny] at he; cases he; simp [ValueOf]
    | other => rw [encodeAny] at he; cases he
theorem validFields_value : ∀ (fs : List (String × Ty)), OkFields fs → ∀ (m : List (DKey × PyObj)) (ms : List (Bytes × W)),
    SupportedItems m → (m.map Prod.fst).Nodup →
    List.Forall₂ (fun p q => ∃ s, p.1 = .str s ∧ q.1 = utf8 s ∧ encodeAny p.2 = .ok q.2) m ms →
    (validFields (descFields fs) ms = true ↔ ValueOfFields fs m)
  | [], _, m, ms, _, _, _ => by simp [descFields, validFields, ValueOfFields]
  | (n, t) :: fs, ht, m, ms, hs, hn, hf => by
    rw [OkFields] at ht
    have ih1 := valid_value t ht.1
    have ih2 := validFields_value fs ht.2 m ms hs hn hf
    have hl := lookup_item hf hn n
    rw [descFields, validFields, ValueOfFields]
    have hsup := (supportedItems_iff m).mp hs
    rcases h1 : lastOf (utf8 n) ms with _ | w
    · simp only [Bool.false_eq_true, false_iff]
      rintro ⟨⟨x, hx, _⟩, _⟩
      obtain ⟨q, hq, s, e1, e2, e3⟩ := forall2_mem_left hf _ hx
      have := (hl q.2).mpr ⟨x, hx, e3⟩
      rw [h1] at this; cases this
    · obtain ⟨x, hx, he⟩ := (hl w).mp h1
      simp only [Bool.and_eq_true]
      rw [ih2, ih1 x w (hsup _ hx).2 he]
      constructor
      · rintro ⟨a, b⟩; exact ⟨⟨x, hx, a⟩, b⟩
      · rintro ⟨⟨x', hx', a⟩, b⟩
        refine ⟨?_, b⟩
        have : x' = x := by
          obtain ⟨q, hq, s, e1, e2, e3⟩ := forall2_mem_left hf _ hx'
          obtain ⟨a1, b1, e, hb⟩ := (last_of_nodup hn).mp hx
          obtain ⟨a2, b2, e', hb'⟩ := (last_of_nodup hn).mp hx'
          have h5 := (lastOf_iff (DKey.str n) x m).mpr ⟨a1, b1, e, hb⟩
          have h6 := (lastOf_iff (DKey.str n) x' m).mpr ⟨a2, b2, e', hb'⟩
          rw [h5] at h6
          exact (Option.some.inj h6).symm
        rw [← this]; exact a
end

/-- The arguments of a call from a contract: by place, by name, or both. -/
inductive Args
  | list (l : List PyObj)
  | dict (m : List (DKey × PyObj))

/-- What the contract sends: a list (or tuple), or a dictionary. -/
def Args.Sent (a : Args) (v : PyObj) : Prop :=
  match a with
  | .list l => v = .list l ∨ v = .tuple l
  | .dict m => v = .dict m

/-- The positional arguments of a dictionary: the list under the key `.`. -/
def Positional (m : List (DKey × PyObj)) (l : List PyObj) : Prop :=
  (∃ v, (DKey.str ".", v) ∈ m ∧ (v = .list l ∨ v = .tuple l)) ∨
  ((¬ ∃ v l', (DKey.str ".", v) ∈ m ∧ (v = .list l' ∨ v = .tuple l')) ∧ l = [])

/-- The value sent for the parameter at place `i` with name `n`. -/
def SentAt (a : Args) (i : ℕ) (n : String) (v : PyObj) : Prop :=
  match a with
  | .list l => l[i]? = some v
  | .dict m => ∃ l, Positional m l ∧ (l[i]? = some v ∨ (l[i]? = none ∧ (DKey.str n, v) ∈ m))

/-- The value the function gets for a parameter of a call from a contract. -/
def SentArg (k : ℕ) (a : Args) (i : ℕ) (s : Sig) (v : PyObj) : Prop :=
  (SentAt a i s.name v ∧ (ValueOf s.ty v ∨ (v = .none ∧ k ≤ i ∧ s.default = .none))) ∨
  ((¬ ∃ v', SentAt a i s.name v') ∧ k ≤ i ∧ DefaultOf s.ty s.default v)

theorem encode_none_iff (p : PyVal) : (encode p).isNone = true ↔ p = .none := by cases p <;> simp [encode]

theorem encode_unique {v : PyObj} {w w' : W} (h : encodeAny v = .ok w) (h' : encodeAny v = .ok w') : w = w' := by
  rw [h] at h'; exact Except.ok.inj h'

theorem validInput_iff {t : Ty} (ht : t.Ok) {v : PyObj} {w : W} (hs : Typed.Supported v) (he : encodeAny v = .ok w) (nullable : Bool) :
    validInput t.desc w nullable = true ↔ ValueOf t v ∨ (v = .none ∧ nullable = true) := by
  have hu : (match t.desc with | .mk c _ => decide (goTag c = 8) || (inputTag (goTag c)).isSome) = true := by
    obtain ⟨g, h1, h2, h3⟩ := code_eq t
    rw [desc_eta t.desc]
    simp only []
    have : goTag (Desc.code t.desc) = g := by rw [goTag_eq, h2]; omega
    rw [this]
    rcases h3 with (rfl | rfl | rfl | rfl | rfl) | rfl <;> rfl
  have hv : validInput t.desc w nullable = ((match t.desc with | .mk c _ => decide (goTag c = 8) || (inputTag (goTag c)).isSome) &&
      (decide (wTag w = tagNil) && nullable || valid t.desc w)) := by
    rw [validInput.eq_def]
    rfl
  rw [hv, hu, Bool.true_and, Bool.or_eq_true, valid_value t ht v w hs he, Bool.and_eq_true, decide_eq_true_eq, wTag_encode he]
  have : pyTag v = tagNil ↔ v = .none := by
    cases v <;> simp [pyTag, tagNil, tagInt, tagBool, tagString, tagBytes, tagAddress, tagList, tagDict]
    rw [encodeAny] at he; cases he
  rw [this]
  tauto

/-- The loops of `EnsureParamsSequential`, with the lookup of a sent value as a parameter. -/
def seqBy (k : ℕ) (look : ℕ → String → Option W) : ℕ → List Input → Option (List W)
  | _, [] => some []
  | i, a :: l => match look i a.name with
    | some w =>
      if validInput a.desc w (decide (i ≥ k) && a.default.isNone) then (seqBy k look (i + 1) l).map (w :: ·) else none
    | none =>
      if i ≥ k then
        match convertBytes a.code a.default, seqBy k look (i + 1) l with
        | some w, some ws => some (w :: ws)
        | _, _ => none
      else none

theorem seqDict_by (k : ℕ) (m : List (Bytes × W)) : ∀ (l : List Input) (i : ℕ), seqDict k m i l =
    seqBy k (fun i n => match (positional m)[i]? with | some w => some w | none => lastOf (utf8 n) m) i l
  | [], i => rfl
  | a :: l, i => by
    rw [seqDict, seqBy, seqDict_by k m l (i + 1)]
    rcases (positional m)[i]? with _ | w <;> rfl

theorem seqList_by (k : ℕ) (given : List W) (hk : k ≤ given.length) : ∀ (l : List Input) (i : ℕ), seqList k given i l =
    seqBy k (fun i _ => given[i]?) i l
  | [], i => rfl
  | a :: l, i => by
    rw [seqList, seqBy, seqList_by k given hk l (i + 1)]
    by_cases hi : i < given.length
    · rw [List.getElem?_eq_getElem hi]
    · rw [List.getElem?_eq_none (by omega)]
      simp only []
      rw [if_pos (by omega)]
      rfl

def SentFrom (k : ℕ) (a : Args) : ℕ → List Sig → List PyObj → Prop
  | _, [], vs => vs = []
  | i, s :: ss, vs => ∃ v vs', vs = v :: vs' ∧ SentArg k a i s v ∧ SentFrom k a (i + 1) ss vs'

theorem sentFrom_index (k : ℕ) (a : Args) : ∀ (ss : List Sig) (i : ℕ) (vs : List PyObj), SentFrom k a i ss vs ↔
    vs.length = ss.length ∧ ∀ (n : ℕ) (s : Sig) (v : PyObj), ss[n]? = some s → vs[n]? = some v → SentArg k a (i + n) s v
  | [], i, vs => by
    simp [SentFrom]
  | s :: ss, i, vs => by
    have ih := sentFrom_index k a ss (i + 1)
    rw [SentFrom]
    constructor
    · rintro ⟨v, vs', rfl, h1, h2⟩
      obtain ⟨h3, h4⟩ := (ih vs').mp h2
      refine ⟨by simp [h3], ?_⟩
      intro n s' v' hs hv
      cases n with
      | zero => simp at hs hv; rw [← hs, ← hv]; exact h1
      | succ n =>
        simp at hs hv
        have := h4 n s' v' hs hv
        rw [show i + (n + 1) = i + 1 + n by omega]; exact this
    · rintro ⟨h1, h2⟩
      cases vs with
      | nil => simp at h1
      | cons v vs =>
        refine ⟨v, vs, rfl, h2 0 s v rfl rfl, (ih vs).mpr ⟨by simpa using h1, ?_⟩⟩
        intro n s' v' hs hv
        have := h2 (n + 1) s' v' (by simpa using hs) (by simpa using hv)
        rw [show i + (n + 1) = i + 1 + n by omega] at this; exact this

theorem seqBy_iff (k : ℕ) (a : Args) (look : ℕ → String → Option W)
    (hlook : ∀ i n w, look i n = some w ↔ ∃ v, SentAt a i n v ∧ encodeAny v = .ok w)
    (hsome : ∀ i n v, SentAt a i n v → Typed.Supported v ∧ ∃ w, encodeAny v = .ok w)
    (huniq : ∀ i n v v', SentAt a i n v → SentAt a i n v' → v = v') :
    ∀ (ss : List Sig) (i : ℕ), (∀ s ∈ ss, s.ty.Ok ∧ ∃ v, DefaultOf s.ty s.default v) → ∀ (ws : List W),
      seqBy k look i (ss.map Sig.input) = some ws ↔
      ∃ vs, SentFrom k a i ss vs ∧ List.Forall₂ (fun v w => encodeAny v = .ok w) vs ws
  | [], i, _, ws => by
    simp only [List.map_nil, seqBy, Option.some.injEq, SentFrom, exists_eq_left, List.forall₂_nil_left_iff]
    exact eq_comm
  | s :: ss, i, hok, ws => by
    have ih := seqBy_iff k a look hlook hsome huniq ss (i + 1) (fun s hs => hok s (by simp [hs]))
    obtain ⟨hty, d, hd⟩ := hok s (by simp)
    rw [List.map_cons, seqBy, show s.input.name = s.name from rfl, show s.input.desc = s.ty.desc from rfl,
      show s.input.default = encode s.default from rfl, input_code]
    rcases hg : look i s.name with _ | w
    · have hno : ¬ ∃ v, SentAt a i s.name v := by
        rintro ⟨v, hv⟩
        obtain ⟨_, w, hw⟩ := hsome _ _ _ hv
        rw [(hlook i s.name w).mpr ⟨v, hv, hw⟩] at hg; cases hg
      simp only []
      constructor
      · intro h
        by_cases hk : i ≥ k
        · rw [if_pos hk] at h
          rcases h1 : convertBytes (Desc.code s.ty.desc) (encode s.default) with _ | w
          · rw [h1] at h; simp at h
          rcases h2 : seqBy k look (i + 1) (ss.map Sig.input) with _ | ws'
          · rw [h1, h2] at h; simp at h
          rw [h1, h2] at h
          simp only [Option.some.injEq] at h
          subst h
          obtain ⟨vs, e2, e3⟩ := (ih ws').mp h2
          exact ⟨d :: vs, ⟨d, vs, rfl, Or.inr ⟨hno, hk, hd⟩, e2⟩, .cons ((default_iff hd w).mp h1) e3⟩
        · rw [if_neg hk] at h; cases h
      · rintro ⟨vs, ⟨v, vs', rfl, ha, hr⟩, hf⟩
        cases hf with
        | cons hw hws =>
          rcases ha with ⟨hj, _⟩ | ⟨_, hk, hd'⟩
          · exact absurd ⟨v, hj⟩ hno
          · rw [if_pos hk, (default_iff hd' _).mpr hw, (ih _).mpr ⟨vs', hr, hws⟩]
    · obtain ⟨v, hv, he⟩ := (hlook i s.name w).mp hg
      have hvi := validInput_iff hty (hsome _ _ _ hv).1 he (decide (i ≥ k) && (encode s.default).isNone)
      rw [Bool.and_eq_true, decide_eq_true_eq, encode_none_iff] at hvi
      simp only []
      constructor
      · intro h
        by_cases hc : validInput s.ty.desc w (decide (i ≥ k) && (encode s.default).isNone) = true
        · rw [if_pos hc] at h
          rcases h2 : seqBy k look (i + 1) (ss.map Sig.input) with _ | ws'
          · rw [h2] at h; simp at h
          rw [h2] at h
          simp only [Option.map_some, Option.some.injEq] at h
          subst h
          obtain ⟨vs, e2, e3⟩ := (ih ws').mp h2
          exact ⟨v :: vs, ⟨v, vs, rfl, Or.inl ⟨hv, hvi.mp hc⟩, e2⟩, .cons he e3⟩
        · rw [if_neg hc] at h; cases h
      · rintro ⟨vs, ⟨v', vs', rfl, ha, hr⟩, hf⟩
        cases hf with
        | cons hw hws =>
          rcases ha with ⟨hj, hval⟩ | ⟨hno, _⟩
          · have := huniq _ _ _ _ hv hj
            subst this
            rw [encode_unique hw he, if_pos (hvi.mpr hval), (ih _).mpr ⟨vs', hr, hws⟩]; rfl
          · exact absurd ⟨v, hv⟩ hno

theorem forall2_getElem {α β : Type} {R : α → β → Prop} {l : List α} {m : List β} (h : List.Forall₂ R l m) :
    ∀ (i : ℕ) (b : β), m[i]? = some b ↔ ∃ a, l[i]? = some a ∧ m[i]? = some b ∧ R a b := by
  induction h with
  | nil => intro i b; simp
  | cons h1 _ ih =>
    intro i b
    cases i with
    | zero => simp; rintro rfl; exact h1
    | succ i => simpa using ih i b

theorem all_encoded {vs : List PyObj} {ws : List W} (h : List.Forall₂ (fun v w => encodeAny v = .ok w) vs ws) (i : ℕ) (w : W) :
    ws[i]? = some w ↔ ∃ v, vs[i]? = some v ∧ encodeAny v = .ok w := by
  induction h generalizing i with
  | nil => simp
  | cons h1 _ ih =>
    cases i with
    | zero =>
      simp only [List.getElem?_cons_zero, Option.some.injEq, exists_eq_left', h1, Except.ok.injEq]
    | succ i => simpa using ih i

/-- C18: a call from a contract is accepted exactly when every mandatory parameter is sent, at most as many values are sent by place as
there are parameters, and every value has the declared type (null only for parameters whose default is None); the
function gets the values sent, or else the defaults. -/
theorem C18_internal_exact (f : Fn) (hf : f.Ok) (a : Args) (v : PyObj) (hsent : a.Sent v) (hsup : Typed.Supported v) (w : W)
    (hw : encodeAny v = .ok w) (ws : List W) :
    f.method.sequential w = some ws ↔
      (∀ l, a = .list l → f.mandatory ≤ l.length ∧ l.length ≤ f.params.length) ∧
      ∃ vs, encodeAll vs = .ok ws ∧ vs.length = f.params.length ∧
        ∀ (i : ℕ) (s : Sig) (x : PyObj), f.params[i]? = some s → vs[i]? = some x → SentArg f.mandatory a i s x := by
  cases a with
  | list l =>
    have hl : SupportedAll l ∧ ∃ m, encodeAll l = .ok m ∧ w = .list tagList m := by
      rcases hsent with rfl | rfl <;>
      · rw [encodeAny] at hw
        rcases h1 : encodeAll l with e | m <;> rw [h1] at hw <;> cases hw
        exact ⟨hsup, m, rfl, rfl⟩
    obtain ⟨hs, m, hm, rfl⟩ := hl
    have hs := (supportedAll_iff l).mp hs
    have hfa := (encodeAll_iff l m).mp hm
    have hlen := hfa.length_eq
    rw [Method.sequential, if_pos rfl, show f.method.indexed = f.mandatory from rfl,
      show f.method.inputs = f.params.map Sig.input from rfl, List.length_map]
    have key := fun hk : f.mandatory ≤ m.length => seqBy_iff f.mandatory (.list l) (fun i _ => m[i]?)
      (fun i n w => all_encoded hfa i w)
      (fun i n v h => by
        have hmem := List.mem_of_getElem? h
        refine ⟨hs v hmem, ?_⟩
        obtain ⟨b, _, hb⟩ := forall2_mem_left hfa v hmem
        exact ⟨b, hb⟩)
      (fun i n v v' h h' => by
        have h : l[i]? = some v := h
        have h' : l[i]? = some v' := h'
        rw [h] at h'; exact Option.some.inj h')
      f.params 0 hf.2 ws
    by_cases h1 : m.length < f.mandatory
    · rw [if_pos h1]
      simp only [reduceCtorEq, false_iff]
      rintro ⟨h, _⟩
      have := h l rfl
      omega
    rw [if_neg h1]
    by_cases h2 : m.length > f.params.length
    · rw [if_pos h2]
      simp only [reduceCtorEq, false_iff]
      rintro ⟨h, _⟩
      have := h l rfl
      omega
    rw [if_neg h2, seqList_by _ _ (by omega), key (by omega)]
    constructor
    · rintro ⟨vs, h3, h4⟩
      obtain ⟨h5, h6⟩ := (sentFrom_index _ _ _ _ _).mp h3
      refine ⟨?_, vs, (encodeAll_iff _ _).mpr h4, h5, fun i s x hi hx => by simpa using h6 i s x hi hx⟩
      intro l' e; cases e; omega
    · rintro ⟨_, vs, h3, h4, h5⟩
      exact ⟨vs, (sentFrom_index _ _ _ _ _).mpr ⟨h4, fun i s x hi hx => by simpa using h5 i s x hi hx⟩, (encodeAll_iff _ _).mp h3⟩
  | dict m =>
    have hsent : v = .dict m := hsent
    subst hsent
    rw [encodeAny] at hw
    rcases h1 : encodeItems m with e | ms <;> rw [h1] at hw <;> cases hw
    rw [Typed.Supported] at hsup
    have hfa := (encodeItems_iff m ms).mp h1
    have hsi := (supportedItems_iff m).mp hsup.1
    have hlk := lookup_item hfa hsup.2
    have hone : ∀ n x x', (DKey.str n, x) ∈ m → (DKey.str n, x') ∈ m → x = x' := by
      intro n x x' hx hx'
      have h5 := (lastOf_iff (DKey.str n) x m).mpr ((last_of_nodup hsup.2).mp hx)
      have h6 := (lastOf_iff (DKey.str n) x' m).mpr ((last_of_nodup hsup.2).mp hx')
      rw [h5] at h6
      exact Option.some.inj h6
    -- the positional arguments
    have hpos : ∃ l, Positional m l ∧ (∀ l', Positional m l' → l' = l) ∧ SupportedAll l ∧ encodeAll l = .ok (positional ms) := by
      rcases hd : lastOf (utf8 ".") ms with _ | w
      · have hno : ¬ ∃ v, (DKey.str ".", v) ∈ m := by
          rintro ⟨v, hv⟩
          obtain ⟨q, hq, s, e1, e2, e3⟩ := forall2_mem_left hfa _ hv
          rw [(hlk "." q.2).mpr ⟨v, hv, e3⟩] at hd; cases hd
        refine ⟨[], Or.inr ⟨fun ⟨v, l', h, _⟩ => hno ⟨v, h⟩, rfl⟩, ?_, trivial, ?_⟩
        · rintro l' (⟨v, h, _⟩ | ⟨_, rfl⟩)
          · exact absurd ⟨v, h⟩ hno
          · rfl
        · rw [positional, hd]; rfl
      · obtain ⟨x, hx, he⟩ := (hlk "." w).mp hd
        have hsx := (hsi _ hx).2
        by_cases hl : ∃ l, x = .list l ∨ x = .tuple l
        · obtain ⟨l, hl⟩ := hl
          have : SupportedAll l ∧ ∃ u, encodeAll l = .ok u ∧ w = .list tagList u := by
            rcases hl with rfl | rfl <;>
            · rw [encodeAny] at he
              rcases h2 : encodeAll l with e | u <;> rw [h2] at he <;> cases he
              exact ⟨hsx, u, rfl, rfl⟩
          obtain ⟨hsl, u, hu, rfl⟩ := this
          refine ⟨l, Or.inl ⟨x, hx, hl⟩, ?_, hsl, ?_⟩
          · rintro l' (⟨v, h, hv⟩ | ⟨hno, _⟩)
            · rw [hone "." v x h hx] at hv
              rcases hl with rfl | rfl <;> rcases hv with hv | hv <;> cases hv <;> rfl
            · exact absurd ⟨x, l, hx, hl⟩ hno
          · rw [positional, hd, hu]; rfl
        · have hno : ¬ ∃ v l', (DKey.str ".", v) ∈ m ∧ (v = .list l' ∨ v = .tuple l') := by
            rintro ⟨v, l', h, hv⟩
            rw [hone "." v x h hx] at hv
            exact hl ⟨l', hv⟩
          refine ⟨[], Or.inr ⟨hno, rfl⟩, ?_, trivial, ?_⟩
          · rintro l' (⟨v, h, hv⟩ | ⟨_, rfl⟩)
            · exact absurd ⟨v, l', h, hv⟩ hno
            · rfl
          · have : positional ms = [] := by
              rw [positional, hd]
              cases x with
              | list l => exact absurd ⟨l, Or.inl rfl⟩ hl
              | tuple l => exact absurd ⟨l, Or.inr rfl⟩ hl
              | int i => rw [(encode_int i w).mp he]
              | dict l => rw [encodeAny] at he; rcases h1 : encodeItems l with e | m <;> rw [h1] at he <;> cases he; rfl
              | none => rw [encodeAny] at he; cases he; rfl
              | bool b => rw [encodeAny] at he; cases he; rfl
              | str s => rw [encodeAny] at he; cases he; rfl
              | bytes b => rw [encodeAny] at he; cases he; rfl
              | addr a => rw [encodeAny] at he; cases he; rfl
              | other => rw [encodeAny] at he; cases he
            rw [this]; rfl
    obtain ⟨l, hp, hpu, hsl, hpe⟩ := hpos
    have hsl := (supportedAll_iff l).mp hsl
    have hpf := (encodeAll_iff l _).mp hpe
    have hat : ∀ i n x, SentAt (.dict m) i n x ↔ (l[i]? = some x ∨ (l[i]? = none ∧ (DKey.str n, x) ∈ m)) := by
      intro i n x
      constructor
      · rintro ⟨l', h, hx⟩; rw [hpu l' h] at hx; exact hx
      · intro h; exact ⟨l, hp, h⟩
    have hlen := hpf.length_eq
    rw [Method.sequential, if_pos rfl, show f.method.indexed = f.mandatory from rfl,
      show f.method.inputs = f.params.map Sig.input from rfl, seqDict_by]
    have key := seqBy_iff f.mandatory (.dict m)
      (fun i n => match (positional ms)[i]? with | some w => some w | none => lastOf (utf8 n) ms)
      (fun i n w => by
        have hae := fun w => all_encoded hpf i w
        rcases hi : (positional ms)[i]? with _ | w0
        · have hln : l[i]? = none := by
            rw [List.getElem?_eq_none_iff] at hi ⊢; omega
          simp only []
          rw [hlk n w]
          constructor
          · rintro ⟨x, hx, he⟩; exact ⟨x, (hat i n x).mpr (Or.inr ⟨hln, hx⟩), he⟩
          · rintro ⟨x, hx, he⟩
            rcases (hat i n x).mp hx with h | ⟨_, h⟩
            · rw [hln] at h; cases h
            · exact ⟨x, h, he⟩
        · simp only [Option.some.injEq]
          obtain ⟨x0, hx0, he0⟩ := (hae w0).mp hi
          constructor
          · rintro rfl; exact ⟨x0, (hat i n x0).mpr (Or.inl hx0), he0⟩
          · rintro ⟨x, hx, he⟩
            rcases (hat i n x).mp hx with h | ⟨h, _⟩
            · rw [hx0] at h; cases h; exact encode_unique he0 he
            · rw [hx0] at h; cases h)
      (fun i n x h => by
        rcases (hat i n x).mp h with h | ⟨_, h⟩
        · have hmem := List.mem_of_getElem? h
          obtain ⟨b, _, hb⟩ := forall2_mem_left hpf x hmem
          exact ⟨hsl x hmem, b, hb⟩
        · obtain ⟨q, _, s, _, _, hb⟩ := forall2_mem_left hfa _ h
          exact ⟨(hsi _ h).2, q.2, hb⟩)
      (fun i n x x' h h' => by
        rcases (hat i n x).mp h with h | ⟨h0, h⟩ <;> rcases (hat i n x').mp h' with h' | ⟨h0', h'⟩
        · rw [h] at h'; exact Option.some.inj h'
        · rw [h] at h0'; cases h0'
        · rw [h'] at h0; cases h0
        · exact hone n x x' h h')
      f.params 0 hf.2 ws
    rw [key]
    constructor
    · rintro ⟨vs, h3, h4⟩
      obtain ⟨h5, h6⟩ := (sentFrom_index _ _ _ _ _).mp h3
      exact ⟨fun l e => (by cases e), vs, (encodeAll_iff _ _).mpr h4, h5, fun i s x hi hx => by simpa using h6 i s x hi hx⟩
    · rintro ⟨_, vs, h3, h4, h5⟩
      exact ⟨vs, (sentFrom_index _ _ _ _ _).mpr ⟨h4, fun i s x hi hx => by simpa using h5 i s x hi hx⟩, (encodeAll_iff _ _).mp h3⟩

/-! ### Results -/

/-- Declared types of results. -/
inductive Out | int | str | bytes | bool | address | list | dict

def Out.code : Out → ℕ
  | .int => 1 | .str => 2 | .bytes => 3 | .bool => 4 | .address => 5 | .list => 6 | .dict => 7

/-- `v` is a result of the declared type; None is allowed for bytes, addresses, lists and dictionaries. -/
inductive Out.Has : Out → PyObj → Prop
  | int (i : ℤ) : Has .int (.int i)
  | str (s : String) : Has .str (.str s)
  | bytes (b : Bytes) : Has .bytes (.bytes b)
  | bool (b : Bool) : Has .bool (.bool b)
  | address (a : Address.Addr) : Has .address (.addr a)
  | list (l : List PyObj) : Has .list (.list l)
  | tuple (l : List PyObj) : Has .list (.tuple l)
  | dict (m : List (DKey × PyObj)) : Has .dict (.dict m)
  | noBytes : Has .bytes .none
  | noAddress : Has .address .none
  | noList : Has .list .none
  | noDict : Has .dict .none

theorem validOutput_iff (o : Out) {v : PyObj} {w : W} (he : encodeAny v = .ok w) : validOutput o.code w = true ↔ o.Has v := by
  have hno : v ≠ .other := by rintro rfl; rw [encodeAny] at he; cases he
  have ht := wTag_encode he
  cases o <;> cases v <;>
    first
    | exact absurd rfl hno
    | (simp only [validOutput, Out.code, goDepth, goTag, outputTag, ht, pyTag]
       constructor
       · intro h
         first
         | constructor
         | exact absurd h (by decide)
       · intro h
         first
         | decide
         | (exfalso; cases h))

/-- C18: the result of a function is accepted exactly when it has the declared type (one, several or none; the result of a function
that changes the state and declares none is not looked at). -/
theorem C18_result_exact (os : List Out) (readOnly : Bool) (v : PyObj) (w : W) (he : encodeAny v = .ok w) :
    ensureResult (os.map Out.code) readOnly w = true ↔
      (os = [] ∧ (v = .none ∨ readOnly = false)) ∨ (∃ o, os = [o] ∧ o.Has v) ∨
      (2 ≤ os.length ∧ ∃ l, (v = .list l ∨ v = .tuple l) ∧ List.Forall₂ Out.Has os l) := by
  have hno : v ≠ .other := by rintro rfl; rw [encodeAny] at he; cases he
  match os with
  | [] =>
    rw [List.map_nil, ensureResult, wTag_encode he]
    cases v <;> cases readOnly <;> first | exact absurd rfl hno | simp [pyTag, tagNil, tagInt, tagBool, tagString, tagBytes, tagAddress, tagList, tagDict]
  | [o] =>
    rw [List.map_cons, List.map_nil, ensureResult, validOutput_iff o he]
    simp
  | o :: o' :: os =>
    have key : ∀ (os : List Out) (l : List PyObj) (ws : List W), List.Forall₂ (fun v w => encodeAny v = .ok w) l ws →
        (allValid (os.map Out.code) ws = true ↔ List.Forall₂ Out.Has os l) := by
      intro os l ws hf
      induction hf generalizing os with
      | nil => cases os <;> simp [allValid]
      | cons h1 _ ih =>
        cases os with
        | nil => simp [allValid]
        | cons o os => simp [allValid, validOutput_iff o h1, ih os]
    rw [List.map_cons, List.map_cons, ensureResult.eq_def]
    simp only []
    · have hk := fun l ws h => key (o :: o' :: os) l ws h
      rw [List.map_cons, List.map_cons] at hk
      cases v with
      | list l =>
        rw [encodeAny] at he
        rcases h1 : encodeAll l with e | m <;> rw [h1] at he <;> cases he
        simp only [decide_true, Bool.true_and]
        rw [hk l m ((encodeAll_iff l m).mp h1)]
        simp
      | tuple l =>
        rw [encodeAny] at he
        rcases h1 : encodeAll l with e | m <;> rw [h1] at he <;> cases he
        simp only [decide_true, Bool.true_and]
        rw [hk l m ((encodeAll_iff l m).mp h1)]
        simp
      | int i => rw [(encode_int i w).mp he]; simp
      | dict l => rw [encodeAny] at he; rcases h1 : encodeItems l with e | m <;> rw [h1] at he <;> cases he; simp
      | none => rw [encodeAny] at he; cases he; simp
      | bool b => rw [encodeAny] at he; cases he; simp
      | str s => rw [encodeAny] at he; cases he; simp
      | bytes b => rw [encodeAny] at he; cases he; simp
      | addr a => rw [encodeAny] at he; cases he; simp
      | other => exact absurd rfl hno

/-! ### Examples and surprises -/

def demo : Fn := ⟨1, [⟨"to", .str, .none⟩, ⟨"n", .int, .int 5⟩]⟩

theorem demo_ok : demo.Ok := by
  refine ⟨by decide, ?_⟩
  intro s hs
  simp only [demo, List.mem_cons, List.not_mem_nil, or_false] at hs
  rcases hs with rfl | rfl
  · exact ⟨trivial, _, .none _⟩
  · exact ⟨trivial, _, .int 5⟩

/-- The default is used when the parameter is missing; a given value is read. -/
example : demo.method.convertParams (some (.obj [("to", .str "x")])) false = some [.bytes tagString (utf8 "x"), .bytes tagInt [5]] := by
  rfl
example : demo.method.convertParams (some (.arr [.str "x", .str "-0x1"])) false = some [.bytes tagString (utf8 "x"), .bytes tagInt [255]] := by
  rfl
example : demo.method.convertParams (some (.obj [("n", .str "0x1")])) false = none := rfl
example : demo.method.convertParams (some (.obj [("to", .str "x"), ("m", .null)])) false = none := rfl
example : Denotes (.list .bool) (.arr [.str "0x1", .num ['0']]) (.list [.bool true, .bool false]) :=
  ⟨_, _, rfl, rfl, .cons ⟨true, rfl, Or.inl ⟨_, rfl, by decide +kernel⟩⟩ (.cons ⟨false, rfl, Or.inr ⟨_, rfl, by decide +kernel⟩⟩ .nil)⟩

/-- C18, not as expected: null for a parameter with a default other than None reaches the function as None if the call comes from
outside, although the same call from a contract is refused. -/
theorem C18_null_replaces_default :
    demo.method.convertParams (some (.obj [("to", .str "x"), ("n", .null)])) false = some [.bytes tagString (utf8 "x"), .null tagNil] ∧
    demo.method.sequential (.list tagList [.bytes tagString (utf8 "x"), .null tagNil]) = none := ⟨rfl, rfl⟩

/-- C18, not as expected: parameters that do not exist are ignored in calls by name from contracts, so a misspelt optional parameter is
silently replaced by its default; the same call from outside is refused. -/
theorem C18_unknown_names_ignored :
    demo.method.sequential (.dict tagDict [(utf8 "to", .bytes tagString (utf8 "x")), (utf8 "m", .bytes tagInt [9])]) =
      some [.bytes tagString (utf8 "x"), .bytes tagInt [5]] ∧
    demo.method.convertParams (some (.obj [("to", .str "x"), ("m", .str "0x9")])) false = none := by
  exact ⟨rfl, rfl⟩

end Verif.Api.Params
