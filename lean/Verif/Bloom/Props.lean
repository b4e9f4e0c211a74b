import Verif.Bloom.Model

/-! # C15: no false negatives; subscriptions report exactly the matching events -/
namespace Verif.Bloom

/-- Every bit of `m` is in `n`. -/
def Sub (m n : ℕ) : Prop := ∀ i, m.testBit i = true → n.testBit i = true

theorem Sub.refl (n : ℕ) : Sub n n := fun _ h => h
theorem Sub.trans {a b c : ℕ} (h : Sub a b) (h' : Sub b c) : Sub a c := fun i hi => h' i (h i hi)
theorem sub_or_left (a b : ℕ) : Sub a (a ||| b) := fun i h => by simp [Nat.testBit_or, h]
theorem sub_or_right (a b : ℕ) : Sub b (a ||| b) := fun i h => by simp [Nat.testBit_or, h]
theorem or_sub {a b c : ℕ} (h : Sub a c) (h' : Sub b c) : Sub (a ||| b) c := fun i hi => by
  simp only [Nat.testBit_or, Bool.or_eq_true] at hi
  exact hi.elim (h i) (h' i)
theorem zero_sub (n : ℕ) : Sub 0 n := fun i h => by simp at h

theorem sub_iff_and {m n : ℕ} : Sub m n ↔ n &&& m = m := by
  constructor
  · intro h
    apply Nat.eq_of_testBit_eq
    intro i
    rw [Nat.testBit_and]
    cases hm : m.testBit i
    · simp
    · simp [h i hm]
  · intro h i hi
    have := congrArg (fun x => x.testBit i) h
    simp only [Nat.testBit_and, hi, Bool.and_true] at this
    exact this

/-! ### Words -/

theorem and_split (n m : ℕ) : n &&& m = m ↔
    (n % 2 ^ 64 &&& m % 2 ^ 64 = m % 2 ^ 64) ∧ (n / 2 ^ 64 &&& m / 2 ^ 64 = m / 2 ^ 64) := by
  rw [← Nat.and_mod_two_pow, ← Nat.and_div_two_pow]
  constructor
  · intro h
    rw [h]
    exact ⟨rfl, rfl⟩
  · rintro ⟨h1, h2⟩
    rw [← Nat.div_add_mod (n &&& m) (2 ^ 64), h1, h2, Nat.div_add_mod]

theorem words_zero : words 0 = [] := by rw [words]; simp
theorem words_pos {n : ℕ} (h : n ≠ 0) : words n = n % 2 ^ 64 :: words (n / 2 ^ 64) := by
  rw [words, dif_neg h]

theorem words_mono : ∀ (n m : ℕ), m ≤ n → (words m).length ≤ (words n).length := by
  intro n
  induction n using Nat.strong_induction_on with
  | _ n ih =>
    intro m h
    by_cases hm : m = 0
    · rw [hm, words_zero]; simp
    · have hn : n ≠ 0 := by omega
      rw [words_pos hm, words_pos hn]
      simp only [List.length_cons]
      have := ih (n / 2 ^ 64) (Nat.div_lt_self (Nat.pos_of_ne_zero hn) (by norm_num)) (m / 2 ^ 64)
        (Nat.div_le_div_right h)
      omega

theorem loop_iff : ∀ (n m : ℕ), containLoop (words n) (words m) = true ↔ n &&& m = m := by
  intro n
  induction n using Nat.strong_induction_on with
  | _ n ih =>
    intro m
    by_cases hm : m = 0
    · rw [hm, words_zero]
      simp [containLoop]
    · by_cases hn : n = 0
      · rw [hn, words_zero, words_pos hm]
        simp [containLoop]
        exact fun h => hm h.symm
      · have hi := ih (n / 2 ^ 64) (Nat.div_lt_self (Nat.pos_of_ne_zero hn) (by norm_num)) (m / 2 ^ 64)
        rw [words_pos hm, words_pos hn, and_split, ← hi]
        by_cases h0 : m % 2 ^ 64 = 0
        · rw [containLoop, if_pos h0, h0]
          simp
        · rw [containLoop, if_neg h0]
          by_cases h1 : n % 2 ^ 64 &&& m % 2 ^ 64 = m % 2 ^ 64
          · rw [if_neg (by simpa using h1)]
            exact ⟨fun h => ⟨h1, h⟩, fun h => h.2⟩
          · rw [if_pos h1]
            exact ⟨fun h => absurd h (by simp), fun h => absurd h.1 h1⟩

/-- C15: Go's word by word test is bit inclusion. -/
theorem C15_contain_iff (n m : ℕ) :
    contain n m = true ↔ ∀ i, m.testBit i = true → n.testBit i = true := by
  change _ ↔ Sub m n
  rw [sub_iff_and, contain]
  split_ifs with h
  · simp only [false_iff]
    intro he
    have : m ≤ n := by rw [← he]; exact Nat.and_le_left
    have := words_mono n m this
    omega
  · exact loop_iff n m

theorem contain_sub {n m : ℕ} : contain n m = true ↔ Sub m n := C15_contain_iff n m

/-! ### Python -/

theorem foldl_or (l : List ℕ) (f : ℕ) : l.foldl (· ||| ·) f = f ||| l.foldl (· ||| ·) 0 := by
  induction l generalizing f with
  | nil => simp
  | cons a l ih => rw [List.foldl_cons, ih, List.foldl_cons, ih (0 ||| a), Nat.zero_or, Nat.or_assoc]

theorem mem_foldl_sub {l : List ℕ} {f a : ℕ} (h : a ∈ l) : Sub a (l.foldl (· ||| ·) f) := by
  induction l generalizing f with
  | nil => cases h
  | cons b l ih =>
    rw [List.foldl_cons]
    cases h with
    | head => rw [foldl_or]; exact (sub_or_right f a).trans (sub_or_left _ _)
    | tail _ h => exact ih h

theorem pyAdd_sub (H : Bytes → Bytes) (f : ℕ) (v : Bytes) : Sub f (pyAdd H f v) := by
  rw [pyAdd, foldl_or]; exact sub_or_left _ _

theorem pyExtend_sub (H : Bytes → Bytes) (l : List Bytes) (f : ℕ) : Sub f (pyExtend H f l) := by
  induction l generalizing f with
  | nil => exact Sub.refl f
  | cons v l ih => exact (pyAdd_sub H f v).trans (ih (pyAdd H f v))

theorem bits_ne {b f : ℕ} (hb : ∃ k, b = 1 <<< k) (h : Sub b f) : f &&& b ≠ 0 := by
  obtain ⟨k, rfl⟩ := hb
  rw [sub_iff_and.mp h, Nat.shiftLeft_eq]
  positivity

theorem bloomBits_pow {H : Bytes → Bytes} {v : Bytes} {b : ℕ} (h : b ∈ bloomBits H v) :
    ∃ k, b = 1 <<< k := by
  simp only [bloomBits, List.mem_map] at h
  obtain ⟨c, _, rfl⟩ := h
  exact ⟨_, rfl⟩

theorem pyContains_of_sub {H : Bytes → Bytes} {f : ℕ} {v : Bytes} (h : Sub (pyAdd H 0 v) f) :
    pyContains H f v = true := by
  rw [pyContains, List.all_eq_true]
  intro b hb
  simp only [bne_iff_ne, ne_eq]
  exact bits_ne (bloomBits_pow hb) ((mem_foldl_sub hb).trans h)

theorem pyAdd_eq (H : Bytes → Bytes) (f : ℕ) (v : Bytes) : pyAdd H f v = f ||| pyAdd H 0 v :=
  foldl_or _ _

/-- C15 (Python): after any sequence of additions to any filter, every added item is reported as
contained. -/
theorem C15_py_no_false_negatives (H : Bytes → Bytes) (f : ℕ) (l : List Bytes) (v : Bytes) (h : v ∈ l) :
    pyContains H (pyExtend H f l) v = true := by
  apply pyContains_of_sub
  induction l generalizing f with
  | nil => cases h
  | cons a l ih =>
    rw [pyExtend, List.foldl_cons]
    cases h with
    | head =>
      refine Sub.trans ?_ (pyExtend_sub H l _)
      rw [pyAdd_eq H f]
      exact sub_or_right _ _
    | tail _ h => exact ih _ h

/-- C15 (Python): the union contains every item reported by either side, and combining is the same
as having added everything to one filter. -/
theorem C15_py_union (H : Bytes → Bytes) (f g : ℕ) (v : Bytes)
    (h : pyContains H f v = true ∨ pyContains H g v = true) :
    pyContains H (pyCombine f g) v = true := by
  simp only [pyContains, List.all_eq_true, bne_iff_ne, ne_eq] at h ⊢
  intro b hb h0
  simp only [pyCombine, Nat.and_or_distrib_right, Nat.or_eq_zero_iff] at h0
  rcases h with h | h
  · exact h b hb h0.1
  · exact h b hb h0.2

theorem C15_py_union_extend (H : Bytes → Bytes) (l l' : List Bytes) :
    pyCombine (pyExtend H 0 l) (pyExtend H 0 l') = pyExtend H 0 (l ++ l') := by
  have key : ∀ (l : List Bytes) (f : ℕ), pyExtend H f l = f ||| pyExtend H 0 l := by
    intro l
    induction l with
    | nil => intro f; simp [pyExtend]
    | cons a l ih =>
      intro f
      have e : ∀ f, pyExtend H f (a :: l) = pyExtend H (pyAdd H f a) l := fun _ => rfl
      rw [e, e, ih (pyAdd H f a), ih (pyAdd H 0 a), pyAdd_eq H f, Nat.or_assoc]
  rw [pyCombine, ← key]
  simp only [pyExtend, List.foldl_append]

/-- C15: an empty filter reports nothing: membership is not vacuous. -/
theorem C15_py_empty (H : Bytes → Bytes) (v : Bytes) : pyContains H 0 v = false := by
  simp [pyContains, bloomBits, chunks]

/-- C15: Python and Go set the same bits. -/
theorem C15_py_go_same (H : Bytes → Bytes) (n : ℕ) (v : Bytes) : addLogBytes H n v = pyAdd H n v := rfl

/-! ### Go -/

theorem go_eq (H : Bytes → Bytes) (n : ℕ) (v : Bytes) : addLogBytes H n v = n ||| addLogBytes H 0 v :=
  pyAdd_eq H n v

theorem addAll_sub (H : Bytes → Bytes) (l : List (Option Bytes)) (n i : ℕ) : Sub n (addAll H n i l) := by
  induction l generalizing n i with
  | nil => exact Sub.refl n
  | cons o l ih =>
    cases o with
    | none => exact ih n (i + 1)
    | some b =>
      refine Sub.trans ?_ (ih (addIndexed H n i b) (i + 1))
      rw [addIndexed, go_eq]
      exact sub_or_left _ _

theorem addAll_mem (H : Bytes → Bytes) : ∀ (l : List (Option Bytes)) (n i j : ℕ) (b : Bytes),
    l[j]? = some (some b) → Sub (addIndexed H 0 (i + j) b) (addAll H n i l) := by
  intro l
  induction l with
  | nil => intro n i j b h; simp at h
  | cons o l ih =>
    intro n i j b h
    cases j with
    | zero =>
      simp only [List.getElem?_cons_zero, Option.some.injEq] at h
      subst h
      refine Sub.trans ?_ (addAll_sub H l _ _)
      rw [Nat.add_zero, addIndexed, addIndexed, go_eq H n]
      exact sub_or_right _ _
    | succ j =>
      simp only [List.getElem?_cons_succ] at h
      have e : i + (j + 1) = (i + 1) + j := by omega
      rw [e]
      cases o with
      | none => exact ih n (i + 1) j b h
      | some c => exact ih _ (i + 1) j b h

theorem addLog_sub (H : Bytes → Bytes) (n : ℕ) (g : Log) : Sub n (addLog H n g) := by
  rw [addLog]
  split_ifs
  · exact Sub.refl n
  · refine Sub.trans ?_ (addAll_sub H _ _ _)
    rw [addAddress, go_eq]; exact sub_or_left _ _

/-- A receipt made by adding logs. -/
def build (H : Bytes → Bytes) (l : List Log) : Receipt := l.foldl (Receipt.add H) Receipt.empty

theorem build_logs (H : Bytes → Bytes) (l : List Log) : (build H l).logs = l := by
  have key : ∀ (l : List Log) (r : Receipt), (l.foldl (Receipt.add H) r).logs = r.logs ++ l := by
    intro l
    induction l with
    | nil => intro r; simp
    | cons g l ih => intro r; rw [List.foldl_cons, ih]; simp [Receipt.add]
  rw [build, key]; rfl

theorem build_sub (H : Bytes → Bytes) (l : List Log) (g : Log) (h : g ∈ l) :
    ∃ n, Sub (addLog H n g) (build H l).bloom := by
  have mono : ∀ (l : List Log) (r : Receipt), Sub r.bloom (l.foldl (Receipt.add H) r).bloom := by
    intro l
    induction l with
    | nil => intro r; exact Sub.refl _
    | cons g l ih => intro r; exact (addLog_sub H r.bloom g).trans (ih (r.add H g))
  have key : ∀ (l : List Log) (r : Receipt), g ∈ l → ∃ n, Sub (addLog H n g) (l.foldl (Receipt.add H) r).bloom := by
    intro l
    induction l with
    | nil => intro r h; cases h
    | cons a l ih =>
      intro r h
      cases h with
      | head => exact ⟨r.bloom, mono l (r.add H g)⟩
      | tail _ h => exact ih _ h
  exact key l _ h

theorem filterArgs_sub (H : Bytes → Bytes) {c : ℕ} : ∀ (l : List (Option Bytes)) (n i : ℕ), Sub n c →
    (∀ (j : ℕ) b, l[j]? = some (some b) → Sub (addIndexed H 0 (i + j + 1) b) c) →
    Sub (filterArgs H n i l) c := by
  intro l
  induction l with
  | nil => intro n i hn _; exact hn
  | cons o l ih =>
    intro n i hn h
    have h' : ∀ (j : ℕ) b, l[j]? = some (some b) → Sub (addIndexed H 0 (i + 1 + j + 1) b) c := by
      intro j b hj
      have := h (j + 1) b (by simpa using hj)
      have e : i + (j + 1) + 1 = i + 1 + j + 1 := by omega
      rwa [e] at this
    cases o with
    | none => exact ih n (i + 1) hn h'
    | some b =>
      refine ih _ (i + 1) ?_ h'
      have := h 0 b (by simp)
      rw [addIndexed, go_eq]
      exact or_sub hn this

theorem argsMatch_get : ∀ (l m : List (Option Bytes)) (j : ℕ) (b : Bytes), argsMatch l m = true →
    l[j]? = some (some b) → m[j]? = some (some b) := by
  intro l
  induction l with
  | nil => intro m j b _ h; simp at h
  | cons a l ih =>
    intro m j b hm h
    cases m with
    | nil => simp [argsMatch] at hm
    | cons v m =>
      rw [argsMatch] at hm
      by_cases hc : a ≠ none ∧ a ≠ v
      · rw [if_pos hc] at hm; cases hm
      rw [if_neg hc] at hm
      cases j with
      | zero =>
        simp only [List.getElem?_cons_zero, Option.some.injEq] at h ⊢
        by_contra hv
        exact hc ⟨by rw [h]; simp, fun he => hv (by rw [← he, h])⟩
      | succ j => exact ih m j b hm (by simpa using h)

/-- A log that matches a filter carries all its bits. The signature in a log is never nil. -/
theorem match_sub (H : Bytes → Bytes) (f : Filter) (g : Log) (n : ℕ)
    (hs : ∀ s ∈ g.indexed.head?, s ≠ none)
    (h : matchLog f g = true) : Sub (f.lb H) (addLog H n g) := by
  obtain ⟨ga, gi, gd⟩ := g
  cases gi with
  | nil => simp [matchLog] at h
  | cons s ix =>
    obtain ⟨s, rfl⟩ := Option.ne_none_iff_exists'.mp (hs s (by simp))
    simp only [matchLog, Option.getD_some] at h
    by_cases h1 : s = f.sig
    · rw [if_pos h1] at h
      by_cases h2 : f.addr ≠ none ∧ some ga ≠ f.addr
      · rw [if_pos h2] at h; cases h
      rw [if_neg h2] at h
      have hargs : argsMatch f.indexed ix = true := by
        by_cases h3 : f.indexed.length + f.data.length > 0
        · rw [if_pos h3] at h
          by_cases h4 : (some s :: ix).length ≤ f.indexed.length
          · rw [if_pos h4] at h; cases h
          rw [if_neg h4] at h
          by_cases h5 : gd.length < f.data.length
          · rw [if_pos h5] at h; cases h
          rw [if_neg h5] at h
          simp only [Bool.and_eq_true] at h
          exact h.1
        · have : f.indexed = [] := List.length_eq_zero_iff.mp (by omega)
          rw [this]; rfl
      have hl : addLog H n ⟨ga, some s :: ix, gd⟩ =
          addAll H (addAddress H n ga) 0 (some s :: ix) := by
        simp [addLog]
      rw [hl, Filter.lb]
      have hsig : Sub (addIndexed H 0 0 f.sig) (addAll H (addAddress H n ga) 0 (some s :: ix)) := by
        have := addAll_mem H (some s :: ix) (addAddress H n ga) 0 0 s (by simp)
        rw [← h1]
        exact this
      apply filterArgs_sub
      · rw [addIndexed, go_eq]
        refine or_sub ?_ hsig
        cases ha : f.addr with
        | none => exact zero_sub _
        | some a =>
          have : ga = a := by
            by_contra hne
            exact h2 ⟨by rw [ha]; simp, by rw [ha]; simpa using hne⟩
          subst this
          refine Sub.trans ?_ (addAll_sub H _ _ _)
          simp only [addAddress]
          rw [go_eq H n]
          exact sub_or_right _ _
      · intro j b hj
        have := argsMatch_get _ _ j b hargs hj
        have := addAll_mem H (some s :: ix) (addAddress H n ga) 0 (j + 1) b (by simpa using this)
        exact this
    · rw [if_neg h1] at h; cases h

/-! ### Specification of subscriptions -/

/-- Text signatures are the first indexed value of a log and never nil
(`emit_event_log`, icon_score_eventlog.py:101). -/
def Signed (g : Log) : Prop := ∃ s l, g.indexed = some s :: l

/-- What a filter asks of a log. -/
def Wants (f : Filter) (g : Log) : Prop :=
  g.indexed.head? = some (some f.sig) ∧
  (∀ a, f.addr = some a → g.addr = a) ∧
  (f.indexed.length < g.indexed.length ∧ f.data.length ≤ g.data.length) ∧
  (∀ (i : ℕ) b, f.indexed[i]? = some (some b) → g.indexed[i + 1]? = some (some b)) ∧
  (∀ (i : ℕ) b, f.data[i]? = some (some b) → g.data[i]? = some (some b))

open Classical in
/-- The positions of the logs wanted by some filter, in order. -/
noncomputable def wanted (fs : List Filter) (l : List Log) : List ℕ :=
  l.zipIdx.filterMap (fun p => if ∃ f ∈ fs, Wants f p.1 then some p.2 else none)

/-- The receipts (given by their logs) with wanted logs, in order, with the positions of those logs. -/
noncomputable def wantedOfBlock (fs : List Filter) (rs : List (List Log)) : List (ℕ × List ℕ) :=
  rs.zipIdx.filterMap (fun p => if wanted fs p.1 = [] then none else some (p.2, wanted fs p.1))

theorem argsMatch_iff : ∀ (l m : List (Option Bytes)), l.length ≤ m.length →
    (argsMatch l m = true ↔ ∀ (j : ℕ) b, l[j]? = some (some b) → m[j]? = some (some b)) := by
  intro l m hlen
  refine ⟨fun h j b => argsMatch_get l m j b h, ?_⟩
  induction l generalizing m with
  | nil => intro _; rfl
  | cons a l ih =>
    intro h
    cases m with
    | nil => simp at hlen
    | cons v m =>
      rw [argsMatch]
      have hc : ¬ (a ≠ none ∧ a ≠ v) := by
        rintro ⟨h1, h2⟩
        obtain ⟨b, rfl⟩ := Option.ne_none_iff_exists'.mp h1
        have := h 0 b (by simp)
        simp at this
        exact h2 this.symm
      rw [if_neg hc]
      refine ih m (by simpa using hlen) (fun j b hj => ?_)
      have := h (j + 1) b (by simpa using hj)
      simpa using this

theorem match_iff (f : Filter) (g : Log) (hs : Signed g) : matchLog f g = true ↔ Wants f g := by
  obtain ⟨ga, gi, gd⟩ := g
  obtain ⟨s, ix, he⟩ := hs
  simp only at he
  subst he
  simp only [matchLog, Wants, Option.getD_some, List.head?_cons, Option.some.injEq,
    List.length_cons, List.getElem?_cons_succ]
  by_cases h1 : s = f.sig
  swap
  · rw [if_neg h1]; simp [h1]
  rw [if_pos h1]
  by_cases h2 : f.addr ≠ none ∧ some ga ≠ f.addr
  · rw [if_pos h2]
    simp only [Bool.false_eq_true, false_iff]
    rintro ⟨_, h, _⟩
    obtain ⟨a, ha⟩ := Option.ne_none_iff_exists'.mp h2.1
    exact h2.2 (by rw [ha, h a ha])
  rw [if_neg h2]
  have hadd : ∀ a, f.addr = some a → ga = a := by
    intro a ha
    by_contra hne
    exact h2 ⟨by rw [ha]; simp, by rw [ha]; simpa using hne⟩
  by_cases h3 : f.indexed.length + f.data.length > 0
  · rw [if_pos h3]
    by_cases h4 : ix.length + 1 ≤ f.indexed.length
    · rw [if_pos h4]; simp; omega
    rw [if_neg h4]
    by_cases h5 : gd.length < f.data.length
    · rw [if_pos h5]; simp; omega
    rw [if_neg h5, Bool.and_eq_true, argsMatch_iff _ _ (by omega), argsMatch_iff _ _ (by omega)]
    constructor
    · rintro ⟨a, b⟩; exact ⟨h1, hadd, ⟨by omega, by omega⟩, a, b⟩
    · rintro ⟨_, _, _, a, b⟩; exact ⟨a, b⟩
  · rw [if_neg h3]
    have e1 : f.indexed = [] := List.length_eq_zero_iff.mp (by omega)
    have e2 : f.data = [] := List.length_eq_zero_iff.mp (by omega)
    simp only [true_iff]
    refine ⟨h1, hadd, ⟨by omega, by omega⟩, ?_, ?_⟩
    · rw [e1]; simp
    · rw [e2]; simp

theorem any_filtered (H : Bytes → Bytes) (fs : List (Option Filter)) (n : ℕ) (g : Log)
    (h : ∀ f, matchLog f g = true → contain n (f.lb H) = true) :
    (filtered H fs n).1.any (fun o => optMatch o g) =
    fs.any (fun o => optMatch o g) := by
  simp only [filtered, List.any_map]
  congr 1
  funext o
  cases o with
  | none => rfl
  | some f =>
    simp only [Function.comp]
    by_cases hc : contain n (f.lb H) = true
    · rw [if_pos hc]
    · rw [if_neg hc]
      change false = matchLog f g
      cases hm : matchLog f g
      · rfl
      · exact absurd (h f hm) hc

theorem eventLoop_congr (fs fs' : List (Option Filter)) : ∀ (l : List Log) (i : ℕ),
    (∀ g ∈ l, fs.any (fun o => optMatch o g) =
      fs'.any (fun o => optMatch o g)) →
    eventLoop fs i l = eventLoop fs' i l := by
  intro l
  induction l with
  | nil => intro i _; rfl
  | cons g l ih =>
    intro i h
    rw [eventLoop, eventLoop, h g (by simp), ih (i + 1) (fun g hg => h g (by simp [hg]))]

theorem eventLoop_nil (fs : List (Option Filter)) : ∀ (l : List Log) (i : ℕ),
    (∀ g ∈ l, fs.any (fun o => optMatch o g) = false) →
    eventLoop fs i l = [] := by
  intro l
  induction l with
  | nil => intro i _; rfl
  | cons g l ih =>
    intro i h
    rw [eventLoop, h g (by simp), if_neg (by simp), ih (i + 1) (fun g hg => h g (by simp [hg]))]

theorem eventLoop_eq (fs : List Filter) : ∀ (l : List Log) (i : ℕ), (∀ g ∈ l, Signed g) →
    eventLoop (fs.map some) i l =
      (l.zipIdx i).filterMap (fun p => open Classical in
        if ∃ f ∈ fs, Wants f p.1 then some p.2 else none) := by
  intro l
  induction l with
  | nil => intro i _; rfl
  | cons g l ih =>
    intro i h
    have hg := h g (by simp)
    have hiff : (fs.map some).any (fun o => optMatch o g)
        = true ↔ ∃ f ∈ fs, Wants f g := by
      simp only [List.any_map, List.any_eq_true, Function.comp, optMatch, match_iff _ g hg]
    rw [eventLoop, List.zipIdx_cons, List.filterMap_cons, ih (i + 1) (fun g hg => h g (by simp [hg]))]
    by_cases hc : ∃ f ∈ fs, Wants f g
    · rw [if_pos (hiff.mpr hc), if_pos hc]
    · rw [if_neg (fun h => hc (hiff.mp h)), if_neg hc]

/-- The filter `n` has the bits of every log. -/
def Covers (H : Bytes → Bytes) (n : ℕ) (l : List Log) : Prop :=
  ∀ g ∈ l, ∃ k, Sub (addLog H k g) n

theorem cover_match {H : Bytes → Bytes} {n : ℕ} {l : List Log} (hs : ∀ g ∈ l, Signed g)
    (h : Covers H n l) {g : Log} (hg : g ∈ l) (f : Filter) (hm : matchLog f g = true) :
    contain n (f.lb H) = true := by
  obtain ⟨k, hk⟩ := h g hg
  refine contain_sub.mpr ((match_sub H f g k ?_ hm).trans hk)
  obtain ⟨s, l', he⟩ := hs g hg
  rw [he]; simp

/-- Pre-filtering by a filter that covers the logs changes nothing. -/
theorem prefilter (H : Bytes → Bytes) (fs : List (Option Filter)) (n : ℕ) (l : List Log) (i : ℕ)
    (hs : ∀ g ∈ l, Signed g) (h : Covers H n l) :
    (if (filtered H fs n).2 = false then [] else eventLoop (filtered H fs n).1 i l) =
      eventLoop fs i l := by
  by_cases hc : (filtered H fs n).2 = false
  · rw [if_pos hc]
    symm
    apply eventLoop_nil
    intro g hg
    simp only [filtered, List.any_eq_false] at hc ⊢
    intro o ho
    cases o with
    | none => simp [optMatch]
    | some f =>
      have := hc _ ho
      simp only at this ⊢
      exact fun hm => this (cover_match hs h hg f hm)
  · rw [if_neg hc]
    exact eventLoop_congr _ _ l i (fun g hg => any_filtered H fs n g (fun f => cover_match hs h hg f))

theorem build_covers (H : Bytes → Bytes) (l : List Log) : Covers H (build H l).bloom l :=
  fun g hg => build_sub H l g hg

theorem matchEvents_eq (H : Bytes → Bytes) (fs : List (Option Filter)) (l : List Log)
    (hs : ∀ g ∈ l, Signed g) : matchEvents H fs (build H l) = eventLoop fs 0 l := by
  rw [← prefilter H fs (build H l).bloom l 0 hs (build_covers H l)]
  simp only [matchEvents, build_logs]

/-- C15: for a receipt, the events reported to any list of filters are exactly the wanted ones: the
Bloom filter never hides an event, whatever the hash function. -/
theorem C15_receipt_exact (H : Bytes → Bytes) (fs : List Filter) (l : List Log)
    (hs : ∀ g ∈ l, Signed g) : matchEvents H (fs.map some) (build H l) = wanted fs l := by
  rw [matchEvents_eq H _ l hs, eventLoop_eq fs l 0 hs]
  rfl

/-- C15: the same for the single filters of block sessions. -/
theorem C15_block_session_exact (H : Bytes → Bytes) (f : Filter) (l : List Log)
    (hs : ∀ g ∈ l, Signed g) : matchEvents1 H f (build H l) = wanted [f] l := by
  rw [← C15_receipt_exact H [f] l hs, matchEvents_eq H _ l hs, matchEvents1, build_logs]
  by_cases hc : contain (build H l).bloom (f.lb H) = true
  · rw [if_pos hc]; rfl
  · rw [if_neg hc]
    symm
    apply eventLoop_nil
    intro g hg
    simp only [List.map_cons, List.map_nil, List.any_cons, List.any_nil, Bool.or_false, optMatch]
    by_contra hm
    exact hc (cover_match hs (build_covers H l) hg f (by simpa using hm))

theorem block_sub : ∀ (rs : List Receipt) (n : ℕ), Sub n (rs.foldl (fun n r => merge n r.bloom) n) ∧
    ∀ r ∈ rs, Sub r.bloom (rs.foldl (fun n r => merge n r.bloom) n) := by
  intro rs
  induction rs with
  | nil => intro n; exact ⟨Sub.refl n, fun r h => by cases h⟩
  | cons a l ih =>
    intro n
    obtain ⟨h1, h2⟩ := ih (merge n a.bloom)
    refine ⟨(sub_or_left _ _).trans h1, fun r h => ?_⟩
    cases h with
    | head => exact (sub_or_right _ _).trans h1
    | tail _ h => exact h2 r h

theorem receiptLoop_eq (H : Bytes → Bytes) (fs : List Filter) (fs' : List (Option Filter)) :
    ∀ (ls : List (List Log)) (i : ℕ),
    (∀ l ∈ ls, matchEvents H fs' (build H l) = wanted fs l) →
    receiptLoop H fs' i (ls.map (build H)) = (ls.zipIdx i).filterMap
      (fun p => if wanted fs p.1 = [] then none else some (p.2, wanted fs p.1)) := by
  intro ls
  induction ls with
  | nil => intro i _; rfl
  | cons l ls ih =>
    intro i h
    rw [List.map_cons, receiptLoop, h l (by simp), List.zipIdx_cons, List.filterMap_cons,
      ih (i + 1) (fun l hl => h l (by simp [hl]))]
    by_cases hw : wanted fs l = []
    · rw [if_pos hw, if_neg (by simp [hw])]
    · rw [if_neg hw, if_pos (by cases h : wanted fs l <;> simp_all)]

/-- C15: for a block, a session is notified of exactly the wanted events of every receipt: neither
the filter of the block nor those of the receipts hide anything, whatever the hash function. -/
theorem C15_subscription_exact (H : Bytes → Bytes) (fs : List Filter) (rs : List (List Log))
    (hs : ∀ l ∈ rs, ∀ g ∈ l, Signed g) :
    blockNotifications H fs (rs.map (build H)) = wantedOfBlock fs rs := by
  have hcov : ∀ l ∈ rs, Covers H (blockBloom (rs.map (build H))) l := by
    intro l hl g hg
    obtain ⟨k, hk⟩ := build_covers H l g hg
    exact ⟨k, hk.trans ((block_sub _ 0).2 _ (List.mem_map_of_mem hl))⟩
  have hall : ∀ l ∈ rs, matchEvents H (fs.map some) (build H l) = wanted fs l :=
    fun l hl => C15_receipt_exact H fs l (hs l hl)
  rw [wantedOfBlock, blockNotifications]
  by_cases hc : (filtered H (fs.map some) (blockBloom (rs.map (build H)))).2 = false
  · simp only [hc, if_true]
    symm
    rw [List.filterMap_eq_nil_iff]
    intro p hp
    have hl : p.1 ∈ rs := List.fst_mem_of_mem_zipIdx hp
    have : wanted fs p.1 = [] := by
      rw [← hall _ hl, matchEvents_eq H _ _ (hs _ hl),
        ← prefilter H _ _ _ 0 (hs _ hl) (hcov _ hl), if_pos hc]
    rw [if_pos this]
  · simp only [hc]
    apply receiptLoop_eq
    intro l hl
    rw [← hall l hl, matchEvents_eq H _ _ (hs l hl), matchEvents_eq H _ _ (hs l hl)]
    have := prefilter H (fs.map some) _ _ 0 (hs _ hl) (hcov _ hl)
    rw [if_neg hc] at this
    exact this

/-- The items a log puts into the filter: its address marked with 255, and every indexed value that is present,
marked with its position (the signature has position 0). -/
def logItems (g : Log) : List Bytes :=
  if g.indexed = [] then []
  else (255 :: g.addr) :: (g.indexed.zipIdx).filterMap (fun p => p.1.map (UInt8.ofNat p.2 :: ·))

theorem addAll_items (H : Bytes → Bytes) : ∀ (l : List (Option Bytes)) (n i : ℕ),
    addAll H n i l = pyExtend H n ((l.zipIdx i).filterMap (fun p => p.1.map (UInt8.ofNat p.2 :: ·)))
  | [], n, i => rfl
  | none :: l, n, i => by
    rw [addAll, addAll_items H l]
    simp [List.zipIdx_cons]
  | some b :: l, n, i => by
    rw [addAll, addAll_items H l]
    simp [List.zipIdx_cons, pyExtend]
    rfl

/-- Recording a log sets exactly the bits of the address and of the indexed values, each marked with its
position: what the Python filter would set for these items. -/
theorem C15_log_bits (H : Bytes → Bytes) (n : ℕ) (g : Log) : addLog H n g = pyExtend H n (logItems g) := by
  rw [addLog, logItems]
  by_cases h : g.indexed = []
  · simp [h, pyExtend]
  · rw [if_neg (by simpa using h), if_neg h, addAll_items]
    rfl


/-- C15: every filter made from logs fits in 2048 bits, so its 256 bytes give it back. -/
theorem C15_size (H : Bytes → Bytes) (l : List Log) : (build H l).bloom < 2 ^ 2048 ∧
    beNat (logBytes (build H l).bloom) = (build H l).bloom := by
  have hadd : ∀ n v, n < 2 ^ 2048 → addLogBytes H n v < 2 ^ 2048 := by
    intro n v hn
    have hb : ∀ x : ℕ, 1 <<< (x &&& (2048 - 1)) < 2 ^ 2048 := by
      intro x
      rw [Nat.one_shiftLeft]
      exact Nat.pow_lt_pow_right (by norm_num) (lt_of_le_of_lt Nat.and_le_right (by norm_num))
    simp only [addLogBytes, List.foldl_cons, List.foldl_nil, addBit]
    exact Nat.or_lt_two_pow (Nat.or_lt_two_pow (Nat.or_lt_two_pow hn (hb _)) (hb _)) (hb _)
  have hall : ∀ (ix : List (Option Bytes)) (n i : ℕ), n < 2 ^ 2048 → addAll H n i ix < 2 ^ 2048 := by
    intro ix
    induction ix with
    | nil => intro n i h; exact h
    | cons o ix ih =>
      intro n i h
      cases o with
      | none => exact ih n (i + 1) h
      | some b => exact ih _ (i + 1) (hadd _ _ h)
  have hlog : ∀ n g, n < 2 ^ 2048 → addLog H n g < 2 ^ 2048 := by
    intro n g h
    rw [addLog]
    split_ifs
    · exact h
    · exact hall _ _ _ (hadd _ _ h)
  have key : ∀ (l : List Log) (r : Receipt), r.bloom < 2 ^ 2048 →
      (l.foldl (Receipt.add H) r).bloom < 2 ^ 2048 := by
    intro l
    induction l with
    | nil => intro r h; exact h
    | cons g l ih => intro r h; exact ih _ (hlog _ _ h)
  have hlt : (build H l).bloom < 2 ^ 2048 := key l _ (by simp [Receipt.empty])
  refine ⟨hlt, ?_⟩
  rw [logBytes, beNat_beBytes_of_lt]
  have : (256 : ℕ) ^ 256 = 2 ^ 2048 := (pow_mul 2 8 256).symm
  rwa [this]

/-! ### A concrete case -/

/-- A toy hash. -/
def demoH (b : Bytes) : Bytes := b ++ [1, 2, 3, 4, 5, 6]

def demoLogs : List (List Log) :=
  [[⟨[7], [some [65], some [1], none], [some [9]]⟩], [⟨[8], [some [66]], []⟩, ⟨[7], [some [65], some [2]], []⟩]]
def demoFilter : Filter := ⟨some [7], [65], [some [2]], []⟩

example : ∀ l ∈ demoLogs, ∀ g ∈ l, Signed g := by
  simp [demoLogs, Signed]
example : blockNotifications demoH [demoFilter] (demoLogs.map (build demoH)) = [(1, [1])] := by
  decide +kernel
example : pyContains demoH (pyExtend demoH 0 [[1], [2, 3]]) [2, 3] = true := by decide +kernel
example : pyContains demoH (pyExtend demoH 0 [[1], [2, 3]]) [2, 4] = false := by decide +kernel

end Verif.Bloom
