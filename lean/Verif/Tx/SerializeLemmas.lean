import Verif.Tx.Serialize
import Mathlib.Tactic.Common

/-! # The text of a value determines the value up to its normal form -/

namespace Verif.Tx

section
variable {F : Type} (conv : F → ℤ)

/-! ## Specification -/

/-- An empty string. -/
def J.blank : J F → Bool
  | .str [] => true
  | _ => false

mutual

/-- What of a value is signed: a number counts as the string of its integer part, and empty strings at the start of a list do not count. -/
def norm : J F → J F
  | .null => .null
  | .bool b => .bool b
  | .num x => .str (decInt (conv x))
  | .str s => .str s
  | .list l => .list ((normList l).dropWhile J.blank)
  | .dict d => .dict (normDict d)

/-- `norm` of every element. -/
def normList : List (J F) → List (J F)
  | [] => []
  | v :: l => norm v :: normList l

/-- `norm` of every value of a map. -/
def normDict : List (List Char × J F) → List (List Char × J F)
  | [] => []
  | (k, v) :: d => (k, norm v) :: normDict d

end

/-! ## The text is that of the normal form -/

theorem digit_plain (n : ℕ) : special (digit n) = false := by
  have : n % 10 < 10 := Nat.mod_lt _ (by decide)
  unfold digit
  generalize n % 10 = k at this
  revert k
  decide

theorem serString_plain : ∀ {s : List Char}, (∀ c ∈ s, special c = false) → serString s = s
  | [], _ => rfl
  | c :: s, h => by
    rw [serString, if_neg (by rw [h c List.mem_cons_self]; simp), serString_plain (fun c hc => h c (List.mem_cons_of_mem _ hc))]

theorem decNat_plain : ∀ fuel n, ∀ c ∈ decNat fuel n, special c = false
  | 0, _, c, h => by cases h
  | fuel + 1, n, c, h => by
    rw [decNat] at h
    by_cases hn : n < 10
    · rw [if_pos hn, List.mem_singleton] at h
      rw [h]; exact digit_plain n
    · rw [if_neg hn, List.mem_append, List.mem_singleton] at h
      rcases h with h | h
      · exact decNat_plain fuel _ c h
      · rw [h]; exact digit_plain n

theorem decInt_plain (i : ℤ) : ∀ c ∈ decInt i, special c = false := by
  intro c h
  unfold decInt at h
  by_cases hi : i < 0
  · rw [if_pos hi, List.mem_cons] at h
    rcases h with h | h
    · rw [h]; rfl
    · exact decNat_plain _ _ c h
  · rw [if_neg hi] at h
    exact decNat_plain _ _ c h

theorem serList_drop : ∀ l : List (J F), serList conv [] (l.dropWhile J.blank) = serList conv [] l
  | [] => rfl
  | v :: l => by
    rw [List.dropWhile_cons]
    by_cases h : J.blank v = true
    · rw [if_pos h, serList_drop l]
      have hv : v = .str [] := by
        cases v with
        | str s =>
          cases s with
          | nil => rfl
          | cons => cases h
        | _ => cases h
      subst hv
      rw [serList, serValue]
      rfl
    · rw [if_neg h]

mutual

theorem ser_norm : ∀ v : J F, serValue conv (norm conv v) = serValue conv v
  | .null => rfl
  | .bool _ => rfl
  | .num x => by rw [norm, serValue, serValue, serString_plain (decInt_plain _)]
  | .str s => rfl
  | .list l => by rw [norm, serValue, serValue, serList_drop, serList_norm [] l]
  | .dict d => by rw [norm, serValue, serValue, serDict_norm [] d]

theorem serList_norm : ∀ (buf : List Char) (l : List (J F)), serList conv buf (normList conv l) = serList conv buf l
  | _, [] => rfl
  | buf, v :: l => by
    rw [normList, serList, serList, ser_norm v]
    cases serValue conv v with
    | none => rfl
    | some f => exact serList_norm _ l

theorem serDict_norm : ∀ (buf : List Char) (d : List (List Char × J F)), serDict conv buf (normDict conv d) = serDict conv buf d
  | _, [] => rfl
  | buf, (k, v) :: d => by
    rw [normDict, serDict, serDict, ser_norm v]
    cases serValue conv v with
    | none => rfl
    | some f => exact serDict_norm _ d

end

/-! ## Values in normal form -/

mutual

/-- No numbers, and no empty string at the start of a list. -/
def Normal : J F → Prop
  | .null => True
  | .bool _ => True
  | .num _ => False
  | .str _ => True
  | .list l => NormalList l ∧ ∀ v r, l = v :: r → v.blank = false
  | .dict d => NormalDict d

def NormalList : List (J F) → Prop
  | [] => True
  | v :: l => Normal v ∧ NormalList l

def NormalDict : List (List Char × J F) → Prop
  | [] => True
  | (_, v) :: d => Normal v ∧ NormalDict d

end

theorem normalList_drop : ∀ l : List (J F), NormalList l → NormalList (l.dropWhile J.blank) ∧
    ∀ v r, l.dropWhile J.blank = v :: r → v.blank = false
  | [], _ => ⟨trivial, fun v r h => by cases h⟩
  | x :: l, h => by
    rw [List.dropWhile_cons]
    by_cases hb : J.blank x = true
    · rw [if_pos hb]; exact normalList_drop l h.2
    · rw [if_neg hb]
      refine ⟨h, fun v r e => ?_⟩
      cases e
      simpa using hb

mutual

theorem norm_normal : ∀ v : J F, Normal (norm conv v)
  | .null => trivial
  | .bool _ => trivial
  | .num _ => trivial
  | .str _ => trivial
  | .list l => normalList_drop _ (normList_normal l)
  | .dict d => normDict_normal d

theorem normList_normal : ∀ l : List (J F), NormalList (normList conv l)
  | [] => trivial
  | v :: l => ⟨norm_normal v, normList_normal l⟩

theorem normDict_normal : ∀ d : List (List Char × J F), NormalDict (normDict conv d)
  | [] => trivial
  | (_, v) :: d => ⟨norm_normal v, normDict_normal d⟩

end

/-! ## Reading a text -/

/-- What may follow a value. -/
def Delim (r : List Char) : Prop := r = [] ∨ ∃ c t, r = c :: t ∧ (c = '.' ∨ c = ']' ∨ c = '}')

theorem delim_dot (t : List Char) : Delim ('.' :: t) := Or.inr ⟨_, t, rfl, Or.inl rfl⟩
theorem delim_list (t : List Char) : Delim (']' :: t) := Or.inr ⟨_, t, rfl, Or.inr (Or.inl rfl)⟩
theorem delim_dict (t : List Char) : Delim ('}' :: t) := Or.inr ⟨_, t, rfl, Or.inr (Or.inr rfl)⟩

theorem Delim.not_esc {r t : List Char} (h : Delim r) : r ≠ '\\' :: t := by
  rintro rfl
  rcases h with h | ⟨c, t', h, hc⟩
  · cases h
  · cases h
    rcases hc with h | h | h <;> cases h

theorem Delim.not_plain {r t : List Char} {c : Char} (h : Delim r) (hc : special c = false) : r ≠ c :: t := by
  rintro rfl
  rcases h with h | ⟨c', t', h, hc'⟩
  · cases h
  · cases h
    rcases hc' with h | h | h <;> (rw [h] at hc; cases hc)

theorem Delim.not_open {r t : List Char} {c : Char} (h : Delim r) (hc : c = '[' ∨ c = '{') : r ≠ c :: t := by
  rintro rfl
  rcases h with h | ⟨c', t', h, hc'⟩
  · cases h
  · cases h
    rcases hc with rfl | rfl <;> rcases hc' with h | h | h <;> cases h

/-- A string ends where something unescaped follows. -/
theorem serString_inj : ∀ (s s' r r' : List Char), Delim r → Delim r' → serString s ++ r = serString s' ++ r' → s = s' ∧ r = r'
  | [], [], r, r', _, _, h => ⟨rfl, h⟩
  | [], c :: s', r, r', hr, _, h => by
    rw [serString, serString] at h
    by_cases hc : special c = true
    · rw [if_pos hc] at h; exact absurd h hr.not_esc
    · rw [if_neg hc] at h; exact absurd h (hr.not_plain (by simpa using hc))
  | c :: s, [], r, r', _, hr', h => by
    rw [serString, serString] at h
    by_cases hc : special c = true
    · rw [if_pos hc] at h; exact absurd h.symm hr'.not_esc
    · rw [if_neg hc] at h; exact absurd h.symm (hr'.not_plain (by simpa using hc))
  | c :: s, c' :: s', r, r', hr, hr', h => by
    rw [serString, serString] at h
    by_cases hc : special c = true
    · rw [if_pos hc] at h
      by_cases hc' : special c' = true
      · rw [if_pos hc'] at h
        simp only [List.cons_append, List.cons.injEq, true_and] at h
        obtain ⟨h1, h2⟩ := serString_inj s s' r r' hr hr' h.2
        exact ⟨by rw [h.1, h1], h2⟩
      · rw [if_neg hc'] at h
        simp only [List.cons_append, List.cons.injEq] at h
        rw [← h.1] at hc'
        exact absurd rfl hc'
    · rw [if_neg hc] at h
      by_cases hc' : special c' = true
      · rw [if_pos hc'] at h
        simp only [List.cons_append, List.cons.injEq] at h
        rw [h.1] at hc
        exact absurd rfl hc
      · rw [if_neg hc'] at h
        simp only [List.cons_append, List.cons.injEq] at h
        obtain ⟨h1, h2⟩ := serString_inj s s' r r' hr hr' h.2
        exact ⟨by rw [h.1, h1], h2⟩

/-- A string does not start like a list, a map or null. -/
theorem serString_open {s r t : List Char} {c : Char} (hr : Delim r) (hc : c = '[' ∨ c = '{') : serString s ++ r ≠ c :: t := by
  cases s with
  | nil => exact hr.not_open hc
  | cons d s =>
    rw [serString]
    by_cases hd : special d = true
    · rw [if_pos hd]
      intro h
      simp only [List.cons_append, List.cons.injEq] at h
      rw [← h.1] at hc
      rcases hc with h | h <;> cases h
    · rw [if_neg hd]
      intro h
      simp only [List.cons_append, List.cons.injEq] at h
      rw [h.1] at hd
      rcases hc with rfl | rfl <;> exact hd rfl

theorem serString_null {s r t : List Char} (hr : Delim r) : serString s ++ r ≠ '\\' :: '0' :: t := by
  cases s with
  | nil => exact hr.not_esc
  | cons d s =>
    rw [serString]
    by_cases hd : special d = true
    · rw [if_pos hd]
      intro h
      simp only [List.cons_append, List.cons.injEq] at h
      rw [h.2.1] at hd
      cases hd
    · rw [if_neg hd]
      intro h
      simp only [List.cons_append, List.cons.injEq] at h
      rw [h.1] at hd
      exact hd rfl

/-! ## Lists and maps -/

/-- The text of elements that follow others. -/
def tailList : List (J F) → Option (List Char)
  | [] => some []
  | v :: l =>
    match serValue conv v with
    | none => none
    | some f => (tailList l).map (fun t => '.' :: (f ++ t))

/-- The text of entries that follow others. -/
def tailDict : List (List Char × J F) → Option (List Char)
  | [] => some []
  | (k, v) :: d =>
    match serValue conv v with
    | none => none
    | some f => (tailDict d).map (fun t => '.' :: (serString k ++ '.' :: (f ++ t)))

theorem serList_tail : ∀ (l : List (J F)) (buf : List Char), buf ≠ [] → serList conv buf l = (tailList conv l).map (buf ++ ·)
  | [], buf, _ => by rw [serList, tailList, Option.map_some, List.append_nil]
  | v :: l, buf, h => by
    rw [serList, tailList]
    cases hv : serValue conv v with
    | none => rfl
    | some f =>
      dsimp only
      rw [if_neg h, serList_tail l _ (by simp), Option.map_map]
      congr 1
      funext t
      simp

theorem serDict_tail : ∀ (d : List (List Char × J F)) (buf : List Char), buf ≠ [] → serDict conv buf d = (tailDict conv d).map (buf ++ ·)
  | [], buf, _ => by rw [serDict, tailDict, Option.map_some, List.append_nil]
  | (k, v) :: d, buf, h => by
    rw [serDict, tailDict]
    cases hv : serValue conv v with
    | none => rfl
    | some f =>
      dsimp only
      rw [if_neg h, serDict_tail d _ (by simp), Option.map_map]
      congr 1
      funext t
      simp

/-- Only an empty string has an empty text, and none starts with the end of a list. -/
theorem ser_head {v : J F} (hn : Normal v) (hb : v.blank = false) {f : List Char} (h : serValue conv v = some f) :
    ∃ c t, f = c :: t ∧ c ≠ ']' := by
  cases v with
  | null => rw [serValue, Option.some.injEq] at h; exact ⟨_, _, h.symm, by decide⟩
  | bool b => cases h
  | num x => cases hn
  | str s =>
    rw [serValue, Option.some.injEq] at h
    cases s with
    | nil => cases hb
    | cons c s =>
      rw [serString] at h
      by_cases hc : special c = true
      · rw [if_pos hc] at h; exact ⟨_, _, h.symm, by decide⟩
      · rw [if_neg hc] at h
        refine ⟨_, _, h.symm, ?_⟩
        rintro rfl
        exact hc rfl
  | list l =>
    rw [serValue] at h
    obtain ⟨g, -, h⟩ := Option.map_eq_some_iff.mp h
    exact ⟨_, _, h.symm, by decide⟩
  | dict l =>
    rw [serValue] at h
    obtain ⟨g, -, h⟩ := Option.map_eq_some_iff.mp h
    exact ⟨_, _, h.symm, by decide⟩

theorem ser_nonempty {v : J F} (hn : Normal v) (hb : v.blank = false) {f : List Char} (h : serValue conv v = some f) : f ≠ [] := by
  obtain ⟨c, t, h, -⟩ := ser_head conv hn hb h
  rw [h]; simp

theorem serList_cons {v : J F} {l : List (J F)} (hn : Normal v) (hb : v.blank = false) {f : List Char} (h : serList conv [] (v :: l) = some f) :
    ∃ g t, serValue conv v = some g ∧ tailList conv l = some t ∧ f = g ++ t := by
  rw [serList] at h
  cases hv : serValue conv v with
  | none => rw [hv] at h; cases h
  | some g =>
    rw [hv] at h
    dsimp only at h
    rw [if_pos rfl, List.nil_append, serList_tail conv l g (ser_nonempty conv hn hb hv)] at h
    obtain ⟨t, h1, h2⟩ := Option.map_eq_some_iff.mp h
    exact ⟨g, t, rfl, h1, h2.symm⟩

theorem serDict_cons {k : List Char} {v : J F} {d : List (List Char × J F)} {f : List Char} (h : serDict conv [] ((k, v) :: d) = some f) :
    ∃ g t, serValue conv v = some g ∧ tailDict conv d = some t ∧ f = serString k ++ '.' :: (g ++ t) := by
  rw [serDict] at h
  cases hv : serValue conv v with
  | none => rw [hv] at h; cases h
  | some g =>
    rw [hv] at h
    dsimp only at h
    rw [if_pos rfl, List.nil_append, serDict_tail conv d _ (by simp)] at h
    obtain ⟨t, h1, h2⟩ := Option.map_eq_some_iff.mp h
    refine ⟨g, t, rfl, h1, ?_⟩
    rw [← h2]; simp

theorem tailList_start {l : List (J F)} {t : List Char} (h : tailList conv l = some t) (r : List Char) : Delim (t ++ ']' :: r) := by
  cases l with
  | nil => rw [tailList, Option.some.injEq] at h; subst h; exact delim_list r
  | cons v l =>
    rw [tailList] at h
    cases hv : serValue conv v with
    | none => rw [hv] at h; cases h
    | some g =>
      rw [hv] at h
      obtain ⟨t', -, h2⟩ := Option.map_eq_some_iff.mp h
      rw [← h2]; exact delim_dot _

theorem tailDict_start {d : List (List Char × J F)} {t : List Char} (h : tailDict conv d = some t) (r : List Char) (hr : Delim r) :
    Delim (t ++ r) := by
  cases d with
  | nil => rw [tailDict, Option.some.injEq] at h; subst h; exact hr
  | cons e d =>
    obtain ⟨k, v⟩ := e
    rw [tailDict] at h
    cases hv : serValue conv v with
    | none => rw [hv] at h; cases h
    | some g =>
      rw [hv] at h
      obtain ⟨t', -, h2⟩ := Option.map_eq_some_iff.mp h
      rw [← h2]; exact delim_dot _

/-- What a text of entries is followed by: an end that is not a dot. -/
def End (r : List Char) : Prop := r = [] ∨ ∃ t, r = '}' :: t

theorem End.delim {r : List Char} (h : End r) : Delim r := by
  rcases h with h | ⟨t, h⟩
  · exact Or.inl h
  · exact Or.inr ⟨_, t, h, Or.inr (Or.inr rfl)⟩

theorem End.not_dot {r t : List Char} (h : End r) : r ≠ '.' :: t := by
  rintro rfl
  rcases h with h | ⟨t, h⟩ <;> cases h

mutual

theorem ser_inj : ∀ (v : J F), Normal v → ∀ (x : List Char), serValue conv v = some x → ∀ (v' : J F) (x' r r' : List Char), Normal v' →
    serValue conv v' = some x' → Delim r → Delim r' → x ++ r = x' ++ r' → v = v' ∧ r = r'
  | .bool _, _, _, h, _, _, _, _, _, _, _, _, _ => by cases h
  | .num _, hn, _, _, _, _, _, _, _, _, _, _, _ => by cases hn
  | .null, _, x, h, v', x', r, r', hn', h', hr, hr', e => by
    rw [serValue, Option.some.injEq] at h
    subst h
    cases v' with
    | null =>
      rw [serValue, Option.some.injEq] at h'
      subst h'
      simp only [List.cons_append, List.nil_append, List.cons.injEq, true_and] at e
      exact ⟨rfl, e⟩
    | bool b => cases h'
    | num b => cases hn'
    | str s =>
      rw [serValue, Option.some.injEq] at h'
      subst h'
      exact absurd e.symm (serString_null hr')
    | list l =>
      rw [serValue] at h'
      obtain ⟨g, -, h2⟩ := Option.map_eq_some_iff.mp h'
      rw [← h2] at e
      simp at e
    | dict l =>
      rw [serValue] at h'
      obtain ⟨g, -, h2⟩ := Option.map_eq_some_iff.mp h'
      rw [← h2] at e
      simp at e
  | .str s, _, x, h, v', x', r, r', hn', h', hr, hr', e => by
    rw [serValue, Option.some.injEq] at h
    subst h
    cases v' with
    | null =>
      rw [serValue, Option.some.injEq] at h'
      subst h'
      exact absurd e (serString_null hr)
    | bool b => cases h'
    | num b => cases hn'
    | str s' =>
      rw [serValue, Option.some.injEq] at h'
      subst h'
      obtain ⟨h1, h2⟩ := serString_inj s s' r r' hr hr' e
      exact ⟨by rw [h1], h2⟩
    | list l =>
      rw [serValue] at h'
      obtain ⟨g, -, h2⟩ := Option.map_eq_some_iff.mp h'
      rw [← h2] at e
      exact absurd e (serString_open hr (Or.inl rfl))
    | dict l =>
      rw [serValue] at h'
      obtain ⟨g, -, h2⟩ := Option.map_eq_some_iff.mp h'
      rw [← h2] at e
      exact absurd e (serString_open hr (Or.inr rfl))
  | .list l, hn, x, h, v', x', r, r', hn', h', hr, hr', e => by
    rw [serValue] at h
    obtain ⟨f, hf, h2⟩ := Option.map_eq_some_iff.mp h
    subst h2
    cases v' with
    | null =>
      rw [serValue, Option.some.injEq] at h'
      subst h'
      simp at e
    | bool b => cases h'
    | num b => cases hn'
    | str s' =>
      rw [serValue, Option.some.injEq] at h'
      subst h'
      exact absurd e.symm (serString_open hr' (Or.inl rfl))
    | dict l =>
      rw [serValue] at h'
      obtain ⟨g, -, h2⟩ := Option.map_eq_some_iff.mp h'
      rw [← h2] at e
      simp at e
    | list l' =>
      rw [serValue] at h'
      obtain ⟨f', hf', h2⟩ := Option.map_eq_some_iff.mp h'
      subst h2
      simp only [List.cons_append, List.append_assoc, List.nil_append, List.cons.injEq, true_and] at e
      obtain ⟨h1, h2⟩ := list_inj l hn f hf l' f' r r' hn' hf' e
      exact ⟨by rw [h1], h2⟩
  | .dict d, hn, x, h, v', x', r, r', hn', h', hr, hr', e => by
    rw [serValue] at h
    obtain ⟨f, hf, h2⟩ := Option.map_eq_some_iff.mp h
    subst h2
    cases v' with
    | null =>
      rw [serValue, Option.some.injEq] at h'
      subst h'
      simp at e
    | bool b => cases h'
    | num b => cases hn'
    | str s' =>
      rw [serValue, Option.some.injEq] at h'
      subst h'
      exact absurd e.symm (serString_open hr' (Or.inr rfl))
    | list l =>
      rw [serValue] at h'
      obtain ⟨g, -, h2⟩ := Option.map_eq_some_iff.mp h'
      rw [← h2] at e
      simp at e
    | dict d' =>
      rw [serValue] at h'
      obtain ⟨f', hf', h2⟩ := Option.map_eq_some_iff.mp h'
      subst h2
      simp only [List.cons_append, List.append_assoc, List.nil_append, List.cons.injEq, true_and] at e
      obtain ⟨h1, h2⟩ := dict_inj d hn f hf d' f' _ _ hn' hf' (Or.inr ⟨_, rfl⟩) (Or.inr ⟨_, rfl⟩) e
      simp only [List.cons.injEq, true_and] at h2
      exact ⟨by rw [h1], h2⟩

theorem list_inj : ∀ (l : List (J F)), (NormalList l ∧ ∀ v r, l = v :: r → v.blank = false) → ∀ (f : List Char), serList conv [] l = some f →
    ∀ (l' : List (J F)) (f' r r' : List Char), (NormalList l' ∧ ∀ v r, l' = v :: r → v.blank = false) → serList conv [] l' = some f' →
    f ++ ']' :: r = f' ++ ']' :: r' → l = l' ∧ r = r'
  | [], _, f, hf, l', f', r, r', hn', hf', e => by
    rw [serList, Option.some.injEq] at hf
    subst hf
    cases l' with
    | nil =>
      rw [serList, Option.some.injEq] at hf'
      subst hf'
      simp only [List.nil_append, List.cons.injEq, true_and] at e
      exact ⟨rfl, e⟩
    | cons v' l' =>
      obtain ⟨g, t, h1, h2, h3⟩ := serList_cons conv hn'.1.1 (hn'.2 v' l' rfl) hf'
      subst h3
      obtain ⟨c, g2, hg, hc⟩ := ser_head conv hn'.1.1 (hn'.2 v' l' rfl) h1
      rw [hg] at e
      simp only [List.nil_append, List.cons_append, List.cons.injEq] at e
      exact absurd e.1.symm hc
  | v :: l, hn, f, hf, l', f', r, r', hn', hf', e => by
    obtain ⟨g, t, h1, h2, h3⟩ := serList_cons conv hn.1.1 (hn.2 v l rfl) hf
    subst h3
    have hd := tailList_start conv h2 r
    cases l' with
    | nil =>
      rw [serList, Option.some.injEq] at hf'
      subst hf'
      obtain ⟨c, g2, hg, hc⟩ := ser_head conv hn.1.1 (hn.2 v l rfl) h1
      rw [hg] at e
      simp only [List.nil_append, List.cons_append, List.cons.injEq] at e
      exact absurd e.1 hc
    | cons v' l' =>
      obtain ⟨g', t', h1', h2', h3'⟩ := serList_cons conv hn'.1.1 (hn'.2 v' l' rfl) hf'
      subst h3'
      have hd' := tailList_start conv h2' r'
      obtain ⟨q1, q2⟩ := ser_inj v hn.1.1 g h1 v' g' (t ++ ']' :: r) (t' ++ ']' :: r') hn'.1.1 h1' hd hd' (by simpa using e)
      obtain ⟨q3, q4⟩ := tailList_inj l hn.1.2 t h2 l' t' r r' hn'.1.2 h2' q2
      exact ⟨by rw [q1, q3], q4⟩

theorem tailList_inj : ∀ (l : List (J F)), NormalList l → ∀ (t : List Char), tailList conv l = some t → ∀ (l' : List (J F)) (t' r r' : List Char),
    NormalList l' → tailList conv l' = some t' → t ++ ']' :: r = t' ++ ']' :: r' → l = l' ∧ r = r'
  | [], _, t, h, l', t', r, r', hn', h', e => by
    rw [tailList, Option.some.injEq] at h
    subst h
    cases l' with
    | nil =>
      rw [tailList, Option.some.injEq] at h'
      subst h'
      simp only [List.nil_append, List.cons.injEq, true_and] at e
      exact ⟨rfl, e⟩
    | cons v' l' =>
      rw [tailList] at h'
      cases hv : serValue conv v' with
      | none => rw [hv] at h'; cases h'
      | some g =>
        rw [hv] at h'
        obtain ⟨t1, -, h2⟩ := Option.map_eq_some_iff.mp h'
        rw [← h2] at e
        simp at e
  | v :: l, hn, t, h, l', t', r, r', hn', h', e => by
    rw [tailList] at h
    cases hv : serValue conv v with
    | none => rw [hv] at h; cases h
    | some g =>
      rw [hv] at h
      obtain ⟨t1, h1, h2⟩ := Option.map_eq_some_iff.mp h
      subst h2
      cases l' with
      | nil =>
        rw [tailList, Option.some.injEq] at h'
        subst h'
        simp at e
      | cons v' l' =>
        rw [tailList] at h'
        cases hv' : serValue conv v' with
        | none => rw [hv'] at h'; cases h'
        | some g' =>
          rw [hv'] at h'
          obtain ⟨t1', h1', h2'⟩ := Option.map_eq_some_iff.mp h'
          subst h2'
          simp only [List.cons_append, List.append_assoc, List.cons.injEq, true_and] at e
          obtain ⟨q1, q2⟩ := ser_inj v hn.1 g hv v' g' _ _ hn'.1 hv' (tailList_start conv h1 r) (tailList_start conv h1' r') e
          obtain ⟨q3, q4⟩ := tailList_inj l hn.2 t1 h1 l' t1' r r' hn'.2 h1' q2
          exact ⟨by rw [q1, q3], q4⟩

theorem dict_inj : ∀ (d : List (List Char × J F)), NormalDict d → ∀ (f : List Char), serDict conv [] d = some f →
    ∀ (d' : List (List Char × J F)) (f' r r' : List Char), NormalDict d' → serDict conv [] d' = some f' → End r → End r' →
    f ++ r = f' ++ r' → d = d' ∧ r = r'
  | [], _, f, hf, d', f', r, r', hn', hf', hr, hr', e => by
    rw [serDict, Option.some.injEq] at hf
    subst hf
    cases d' with
    | nil =>
      rw [serDict, Option.some.injEq] at hf'
      subst hf'
      exact ⟨rfl, e⟩
    | cons p d' =>
      obtain ⟨k', v'⟩ := p
      obtain ⟨g, t, h1, h2, h3⟩ := serDict_cons conv hf'
      subst h3
      have e2 : serString [] ++ r = serString k' ++ ('.' :: (g ++ (t ++ r'))) := by simpa [serString] using e
      obtain ⟨-, q⟩ := serString_inj [] k' _ _ hr.delim (delim_dot _) e2
      exact absurd q hr.not_dot
  | (k, v) :: d, hn, f, hf, d', f', r, r', hn', hf', hr, hr', e => by
    obtain ⟨g, t, h1, h2, h3⟩ := serDict_cons conv hf
    subst h3
    cases d' with
    | nil =>
      rw [serDict, Option.some.injEq] at hf'
      subst hf'
      have e2 : serString k ++ ('.' :: (g ++ (t ++ r))) = serString [] ++ r' := by simpa [serString] using e
      obtain ⟨-, q⟩ := serString_inj k [] _ _ (delim_dot _) hr'.delim e2
      exact absurd q.symm hr'.not_dot
    | cons p d' =>
      obtain ⟨k', v'⟩ := p
      obtain ⟨g', t', h1', h2', h3'⟩ := serDict_cons conv hf'
      subst h3'
      have e2 : serString k ++ ('.' :: (g ++ (t ++ r))) = serString k' ++ ('.' :: (g' ++ (t' ++ r'))) := by simpa using e
      obtain ⟨q1, q2⟩ := serString_inj k k' _ _ (delim_dot _) (delim_dot _) e2
      simp only [List.cons.injEq, true_and] at q2
      obtain ⟨q3, q4⟩ := ser_inj v hn.1 g h1 v' g' _ _ hn'.1 h1' (tailDict_start conv h2 r hr.delim) (tailDict_start conv h2' r' hr'.delim) q2
      obtain ⟨q5, q6⟩ := tailDict_inj d hn.2 t h2 d' t' r r' hn'.2 h2' hr hr' q4
      exact ⟨by rw [q1, q3, q5], q6⟩

theorem tailDict_inj : ∀ (d : List (List Char × J F)), NormalDict d → ∀ (t : List Char), tailDict conv d = some t →
    ∀ (d' : List (List Char × J F)) (t' r r' : List Char), NormalDict d' → tailDict conv d' = some t' → End r → End r' →
    t ++ r = t' ++ r' → d = d' ∧ r = r'
  | [], _, t, h, d', t', r, r', hn', h', hr, hr', e => by
    rw [tailDict, Option.some.injEq] at h
    subst h
    cases d' with
    | nil =>
      rw [tailDict, Option.some.injEq] at h'
      subst h'
      exact ⟨rfl, e⟩
    | cons p d' =>
      obtain ⟨k', v'⟩ := p
      rw [tailDict] at h'
      cases hv : serValue conv v' with
      | none => rw [hv] at h'; cases h'
      | some g =>
        rw [hv] at h'
        obtain ⟨t1, -, h2⟩ := Option.map_eq_some_iff.mp h'
        rw [← h2] at e
        exact absurd e hr.not_dot
  | (k, v) :: d, hn, t, h, d', t', r, r', hn', h', hr, hr', e => by
    rw [tailDict] at h
    cases hv : serValue conv v with
    | none => rw [hv] at h; cases h
    | some g =>
      rw [hv] at h
      obtain ⟨t1, h1, h2⟩ := Option.map_eq_some_iff.mp h
      subst h2
      cases d' with
      | nil =>
        rw [tailDict, Option.some.injEq] at h'
        subst h'
        exact absurd e.symm hr'.not_dot
      | cons p d' =>
        obtain ⟨k', v'⟩ := p
        rw [tailDict] at h'
        cases hv' : serValue conv v' with
        | none => rw [hv'] at h'; cases h'
        | some g' =>
          rw [hv'] at h'
          obtain ⟨t1', h1', h2'⟩ := Option.map_eq_some_iff.mp h'
          subst h2'
          have e2 : serString k ++ ('.' :: (g ++ (t1 ++ r))) = serString k' ++ ('.' :: (g' ++ (t1' ++ r'))) := by simpa using e
          obtain ⟨q1, q2⟩ := serString_inj k k' _ _ (delim_dot _) (delim_dot _) e2
          simp only [List.cons.injEq, true_and] at q2
          obtain ⟨q3, q4⟩ := ser_inj v hn.1 g hv v' g' _ _ hn'.1 hv' (tailDict_start conv h1 r hr.delim) (tailDict_start conv h1' r' hr'.delim) q2
          obtain ⟨q5, q6⟩ := tailDict_inj d hn.2 t1 h1 d' t1' r r' hn'.2 h1' hr hr' q4
          exact ⟨by rw [q1, q3, q5], q6⟩

end

end

end Verif.Tx
