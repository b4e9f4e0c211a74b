import Verif.Package.Extract
import Mathlib.Data.List.SplitOn
import Mathlib.Data.List.Infix

/-! # C46: unpacking of contract packages -/
namespace Verif.Package.Extract

/-! ### Specification -/

/-- A directory prefix of a name: empty or ending with a slash. -/
def IsDirPart (d : List Char) : Prop := d = [] ∨ ∃ d', d = d' ++ ['/']

/-- The package is in the directory of the first file named `package.json`. -/
def IsRoot (es : List Entry) (root : List Char) : Prop :=
  ∃ pre e post, es = pre ++ e :: post ∧ IsDirPart root ∧ e.name = root ++ "package.json".toList ∧ e.isDir = false ∧
    ∀ x ∈ pre, x.isDir = false → ∀ d, IsDirPart d → x.name ≠ d ++ "package.json".toList

/-- A file of the package: in its directory, and not in one whose path contains `__MACOSX` or `__pycache__`. -/
def Selected (root : List Char) (e : Entry) : Prop :=
  e.isDir = false ∧ ∃ d f, e.name = root ++ d ++ f ∧ IsDirPart d ∧ '/' ∉ f ∧
    ¬ "__MACOSX".toList <:+: d ∧ ¬ "__pycache__".toList <:+: d

/-- Where a file belongs: its place relative to the package. -/
def place (tmp : List (List Char)) (root name : List Char) : List (List Char) :=
  tmp ++ ((name.drop root.length).splitOn '/').filter (fun c => c ≠ [] ∧ c ≠ ['.'])

/-! ### Lemmas -/

theorem splitSlash_eq : ∀ n, splitSlash n = n.splitOn '/'
  | [] => rfl
  | c :: cs => by
    rw [splitSlash, splitSlash_eq cs, List.splitOn, List.splitOn, List.splitOnP_cons]
    by_cases h : c = '/'
    · simp [h]
    · rw [if_neg h, if_neg (by simpa using h)]
      cases hs : List.splitOnP (fun x => x == '/') cs with
      | nil => exact absurd hs (List.splitOnP_ne_nil _ _)
      | cons w ws => rfl

theorem splitSlash_ne_nil (n : List Char) : splitSlash n ≠ [] := by
  rw [splitSlash_eq, List.splitOn]
  exact List.splitOnP_ne_nil _ _

theorem splitSlash_slash (b : List Char) : ∀ a : List Char, splitSlash (a ++ '/' :: b) = splitSlash a ++ splitSlash b
  | [] => by simp [splitSlash]
  | c :: a => by
    rw [List.cons_append, splitSlash, splitSlash, splitSlash_slash b a]
    by_cases h : c = '/'
    · rw [if_pos h, if_pos h]; rfl
    · rw [if_neg h, if_neg h]
      cases hs : splitSlash a with
      | nil => exact absurd hs (splitSlash_ne_nil a)
      | cons w ws => rfl

theorem splitSlash_dirPart {d : List Char} (hd : IsDirPart d) (b : List Char) :
    splitSlash (d ++ b) = (splitSlash d).dropLast ++ splitSlash b := by
  rcases hd with rfl | ⟨d', rfl⟩
  · rfl
  · rw [List.append_assoc, List.singleton_append, splitSlash_slash, splitSlash_slash]
    congr 1
    simp [splitSlash]

theorem join_join {tmp : List (List Char)} {d : List Char} (hd : IsDirPart d) (b : List Char) :
    join (join tmp d) b = (splitSlash (d ++ b)).foldl cleanStep tmp := by
  rcases hd with rfl | ⟨d', rfl⟩
  · rw [join, join]; rfl
  · rw [List.append_assoc, List.singleton_append, splitSlash_slash, List.foldl_append, join, join, splitSlash_slash,
      List.foldl_append]
    rfl

theorem foldl_clean : ∀ (ws : List (List Char)) (p : List (List Char)), ['.', '.'] ∉ ws →
    ws.foldl cleanStep p = p ++ ws.filter (fun c => c ≠ [] ∧ c ≠ ['.'])
  | [], p, _ => by simp
  | w :: ws, p, h => by
    simp only [List.mem_cons, not_or] at h
    rw [List.foldl_cons, foldl_clean ws _ h.2, cleanStep]
    by_cases hw : w = [] ∨ w = ['.']
    · rw [if_pos hw, List.filter_cons_of_neg]
      simp only [decide_eq_true_eq]
      tauto
    · rw [if_neg hw, if_neg (fun h' => h.1 h'.symm), List.filter_cons_of_pos, List.append_assoc]
      · rfl
      · simp only [decide_eq_true_eq]
        tauto

theorem afterSlash_spec : ∀ n : List Char, ∃ d, n = d ++ afterSlash n ∧ IsDirPart d ∧ '/' ∉ afterSlash n
  | [] => ⟨[], rfl, Or.inl rfl, by simp [afterSlash]⟩
  | c :: cs => by
    rw [afterSlash]
    by_cases h : '/' ∈ cs
    · rw [if_pos h]
      obtain ⟨d, h1, h2, h3⟩ := afterSlash_spec cs
      refine ⟨c :: d, by rw [List.cons_append, ← h1], ?_, h3⟩
      rcases h2 with rfl | ⟨d', rfl⟩
      · rw [h1] at h
        exact absurd h h3
      · exact Or.inr ⟨c :: d', rfl⟩
    · rw [if_neg h]
      by_cases hc : c = '/'
      · rw [if_pos hc]
        exact ⟨['/'], by rw [hc]; rfl, Or.inr ⟨[], rfl⟩, h⟩
      · rw [if_neg hc]
        exact ⟨[], rfl, Or.inl rfl, by simp only [List.mem_cons, not_or]; exact ⟨fun h => hc h.symm, h⟩⟩

theorem split_spec (n : List Char) : n = (split n).1 ++ (split n).2 ∧ IsDirPart (split n).1 ∧ '/' ∉ (split n).2 := by
  obtain ⟨d, h1, h2, h3⟩ := afterSlash_spec n
  have : (split n).1 = d := by
    rw [split]
    simp only []
    have hl : n.length - (afterSlash n).length = d.length := by
      conv_lhs => rw [h1]
      rw [List.length_append]
      have : (afterSlash (d ++ afterSlash n)).length = (afterSlash n).length := by rw [← h1]
      omega
    rw [hl]
    conv_lhs => rw [h1]
    simp
  exact ⟨by rw [this]; exact h1, by rw [this]; exact h2, h3⟩

theorem dirPart_unique {d d' f f' : List Char} (hd : IsDirPart d) (hd' : IsDirPart d') (hf : '/' ∉ f) (hf' : '/' ∉ f')
    (h : d ++ f = d' ++ f') : d = d' ∧ f = f' := by
  rcases List.append_eq_append_iff.mp h with ⟨a, h1, h2⟩ | ⟨a, h1, h2⟩
  · rcases List.eq_nil_or_concat a with rfl | ⟨a', x, rfl⟩
    · simp at h1 h2; exact ⟨h1.symm, h2⟩
    · rcases hd' with rfl | ⟨e, rfl⟩
      · simp at h1
      · have : x = '/' := by
          have := congrArg List.getLast? h1
          simp at this
          exact this.symm
        subst this
        rw [h2] at hf
        simp at hf
  · rcases List.eq_nil_or_concat a with rfl | ⟨a', x, rfl⟩
    · simp at h1 h2; exact ⟨h1, h2.symm⟩
    · rcases hd with rfl | ⟨e, rfl⟩
      · simp at h1
      · have : x = '/' := by
          have := congrArg List.getLast? h1
          simp at this
          exact this.symm
        subst this
        rw [h2] at hf'
        simp at hf'

theorem split_unique {d f : List Char} (hd : IsDirPart d) (hf : '/' ∉ f) : split (d ++ f) = (d, f) := by
  obtain ⟨h1, h2, h3⟩ := split_spec (d ++ f)
  obtain ⟨a, b⟩ := dirPart_unique hd h2 hf h3 h1
  exact Prod.ext a.symm b.symm

theorem dirPart_drop {r d : List Char} (hd : IsDirPart (r ++ d)) : IsDirPart d := by
  rcases List.eq_nil_or_concat d with rfl | ⟨a, x, rfl⟩
  · exact Or.inl rfl
  · rcases hd with h | ⟨e, h⟩
    · simp at h
    · have : x = '/' := by
        have := congrArg List.getLast? h
        simpa using this
      exact Or.inr ⟨a, by rw [this, List.concat_eq_append]⟩

theorem dirPart_append {r d : List Char} (hr : IsDirPart r) (hd : IsDirPart d) : IsDirPart (r ++ d) := by
  rcases hd with rfl | ⟨d', rfl⟩
  · rw [List.append_nil]; exact hr
  · exact Or.inr ⟨r ++ d', by rw [List.append_assoc]⟩

theorem hasInfix_iff (w : List Char) : ∀ s, hasInfix w s = true ↔ w <:+: s
  | [] => by rw [hasInfix, List.isPrefixOf_iff_prefix, List.prefix_nil, List.infix_nil]
  | c :: cs => by rw [hasInfix, Bool.or_eq_true, List.isPrefixOf_iff_prefix, hasInfix_iff w cs, List.infix_cons_iff]

theorem findRoot_spec {es : List Entry} {pkg : List Char} (h : findRoot es = some pkg) : IsRoot es (split pkg).1 := by
  rw [findRoot, Option.map_eq_some_iff] at h
  obtain ⟨e, he, rfl⟩ := h
  rw [List.find?_eq_some_iff_append] at he
  obtain ⟨hp, pre, post, rfl, hpre⟩ := he
  simp only [Bool.and_eq_true, beq_iff_eq, Bool.not_eq_true'] at hp
  obtain ⟨h1, h2, h3⟩ := split_spec e.name
  refine ⟨pre, e, post, rfl, h2, ?_, hp.2, ?_⟩
  · conv_lhs => rw [h1]
    rw [show (split e.name).2 = afterSlash e.name from rfl, ← hp.1]
    rfl
  · intro x hx hd d hdp hn
    have := hpre x hx
    simp only [Bool.not_eq_true', Bool.and_eq_false_iff, beq_eq_false_iff_ne, Bool.not_eq_false'] at this
    rcases this with h | h
    · apply h
      rw [baseName, hn]
      exact congrArg Prod.snd (split_unique hdp (by decide))
    · rw [hd] at h; cases h

/-- The condition the loop tests, and what it writes. -/
theorem selected_iff {root : List Char} (hr : IsDirPart root) (e : Entry) (hd : e.isDir = false) :
    Selected root e ↔ root.isPrefixOf (split e.name).1 = true ∧
      (hasInfix "__MACOSX".toList ((split e.name).1.drop root.length) ||
        hasInfix "__pycache__".toList ((split e.name).1.drop root.length)) = false := by
  rw [Bool.or_eq_false_iff, ← Bool.not_eq_true, ← Bool.not_eq_true, hasInfix_iff, hasInfix_iff, List.isPrefixOf_iff_prefix]
  constructor
  · rintro ⟨_, d, f, hn, hdp, hf, h1, h2⟩
    rw [hn, split_unique (dirPart_append hr hdp) hf]
    simp only [List.drop_left]
    exact ⟨List.prefix_append _ _, h1, h2⟩
  · rintro ⟨⟨d, h⟩, h1, h2⟩
    obtain ⟨a, b, c⟩ := split_spec e.name
    rw [← h] at a b h1 h2
    rw [List.drop_left] at h1 h2
    exact ⟨hd, d, (split e.name).2, a, dirPart_drop b, c, h1, h2⟩

theorem target_eq {tmp : List (List Char)} {root : List Char} (hr : IsDirPart root) {e : Entry} (hs : Selected root e)
    (hdd : ['.', '.'] ∉ e.name.splitOn '/') :
    join (join tmp ((split e.name).1.drop root.length)) (split e.name).2 = place tmp root e.name := by
  obtain ⟨_, d, f, hn, hdp, hf, -, -⟩ := hs
  rw [hn] at hdd
  rw [hn, split_unique (dirPart_append hr hdp) hf]
  simp only [List.drop_left]
  rw [join_join hdp, place, List.append_assoc, List.drop_left, ← splitSlash_eq, foldl_clean]
  rw [← splitSlash_eq, List.append_assoc, splitSlash_dirPart hr] at hdd
  exact fun h => hdd (List.mem_append_right _ h)

theorem loop_mem {canWrite : List (List Char) → Bool} {tmp : List (List Char)} {root : List Char} (hr : IsDirPart root)
    {p : List (List Char)} {b : Bytes} : ∀ {es : List Entry} {total : ℤ}, (p, b) ∈ (loop canWrite tmp root es total).1 →
      ∃ e ∈ es, Selected root e ∧
        p = join (join tmp ((split e.name).1.drop root.length)) (split e.name).2 ∧ b <+: e.data ∧
        (b.length : ℤ) ≤ fileSizeLimit
  | [], _, h => by simp [loop] at h
  | e :: es, total, h => by
    have up : ∀ total, (p, b) ∈ (loop canWrite tmp root es total).1 → ∃ e' ∈ e :: es, Selected root e' ∧
        p = join (join tmp ((split e'.name).1.drop root.length)) (split e'.name).2 ∧ b <+: e'.data ∧
        (b.length : ℤ) ≤ fileSizeLimit := by
      intro t ht
      obtain ⟨x, hx, hx'⟩ := loop_mem hr ht
      exact ⟨x, List.mem_cons_of_mem _ hx, hx'⟩
    rw [loop] at h
    by_cases hd : e.isDir = true
    · rw [if_pos hd] at h; exact up _ h
    rw [if_neg hd] at h
    simp only [] at h
    by_cases hp : root.isPrefixOf (split e.name).1 = false
    · rw [if_pos hp] at h; exact up _ h
    rw [if_neg hp] at h
    split at h
    · exact up _ h
    rename_i hi
    rw [Bool.not_eq_true] at hd hi
    rw [Bool.not_eq_false] at hp
    have hsel := (selected_iff hr e hd).mpr ⟨hp, hi⟩
    by_cases h1 : e.size > fileSizeLimit
    · rw [if_pos h1] at h; simp at h
    rw [if_neg h1] at h
    split at h
    · simp at h
    split at h
    · simp at h
    split at h
    · simp at h
    by_cases h2 : e.size > e.data.length
    · rw [if_pos h2] at h
      simp only [List.mem_singleton, Prod.mk.injEq] at h
      obtain ⟨rfl, rfl⟩ := h
      exact ⟨e, by simp, hsel, rfl, List.prefix_rfl, by omega⟩
    · rw [if_neg h2] at h
      simp only [List.mem_cons, Prod.mk.injEq] at h
      rcases h with ⟨rfl, rfl⟩ | h
      · refine ⟨e, by simp, hsel, rfl, List.take_prefix _ _, ?_⟩
        have hlim : (0 : ℤ) ≤ fileSizeLimit := by decide
        have : (List.take e.size.toNat e.data).length ≤ e.size.toNat := List.length_take_le _ _
        omega
      · exact up _ h

/-- What one selected entry contributes. -/
def written (tmp : List (List Char)) (root : List Char) (e : Entry) : Write :=
  (join (join tmp ((split e.name).1.drop root.length)) (split e.name).2, e.data.take e.size.toNat)

theorem loop_ok {canWrite : List (List Char) → Bool} {tmp : List (List Char)} {root : List Char} (hr : IsDirPart root) :
    ∀ {es : List Entry} {total : ℤ}, (loop canWrite tmp root es total).2 = true →
      ∀ e ∈ es, Selected root e → e.size ≤ e.data.length ∧ written tmp root e ∈ (loop canWrite tmp root es total).1
  | [], _, _ => fun e he => by cases he
  | x :: es, total, h => by
    intro e he hs
    rw [loop] at h ⊢
    by_cases hd : x.isDir = true
    · rw [if_pos hd] at h ⊢
      rcases List.mem_cons.mp he with rfl | he
      · rw [hs.1] at hd; cases hd
      · exact loop_ok hr h e he hs
    rw [if_neg hd] at h ⊢
    simp only [] at h ⊢
    rw [Bool.not_eq_true] at hd
    by_cases hp : root.isPrefixOf (split x.name).1 = false
    · rw [if_pos hp] at h ⊢
      rcases List.mem_cons.mp he with rfl | he
      · have := ((selected_iff hr _ hd).mp hs).1
        rw [hp] at this; cases this
      · exact loop_ok hr h e he hs
    rw [if_neg hp] at h ⊢
    by_cases hi : (hasInfix "__MACOSX".toList ((split x.name).1.drop root.length) ||
        hasInfix "__pycache__".toList ((split x.name).1.drop root.length)) = true
    · rw [if_pos hi] at h ⊢
      rcases List.mem_cons.mp he with rfl | he
      · have := ((selected_iff hr _ hd).mp hs).2
        rw [hi] at this; cases this
      · exact loop_ok hr h e he hs
    rw [if_neg hi] at h ⊢
    split at h
    · cases h
    split at h
    · cases h
    split at h
    · cases h
    split at h
    · cases h
    split at h
    · cases h
    rename_i g1 g2 g3 g4 g5
    rw [if_neg g1, if_neg g2, if_neg g3, if_neg g4, if_neg g5]
    rcases List.mem_cons.mp he with rfl | he
    · exact ⟨by omega, List.mem_cons_self⟩
    · obtain ⟨a, b⟩ := loop_ok hr h e he hs
      exact ⟨a, List.mem_cons_of_mem _ b⟩

theorem loop_size {canWrite : List (List Char) → Bool} {tmp : List (List Char)} {root : List Char} :
    ∀ {es : List Entry} {total : ℤ}, (∀ e ∈ es, 0 ≤ e.size) → total ≤ contentSizeLimit →
      total + (((loop canWrite tmp root es total).1.map (fun w => w.2.length)).sum : ℕ) ≤ contentSizeLimit
  | [], total, _, h => by simpa [loop] using h
  | e :: es, total, hn, h => by
    have up : ∀ t, t ≤ contentSizeLimit →
        t + (((loop canWrite tmp root es t).1.map (fun w => w.2.length)).sum : ℕ) ≤ contentSizeLimit :=
      fun t ht => loop_size (fun x hx => hn x (List.mem_cons_of_mem _ hx)) ht
    have he := hn e (by simp)
    rw [loop]
    split
    · exact up _ h
    simp only []
    split
    · exact up _ h
    split
    · exact up _ h
    split
    · simpa using h
    split
    · simpa using h
    split
    · simpa using h
    split
    · simpa using h
    split
    · simp only [List.map_cons, List.map_nil, List.sum_cons, List.sum_nil]
      rename_i g2 g3 g4 g5
      push_cast
      omega
    · rename_i g2 g3 g4 g5
      simp only [List.map_cons, List.sum_cons]
      have := up (total + e.size) (by omega)
      have hl : (List.take e.size.toNat e.data).length ≤ e.size.toNat := List.length_take_le _ _
      push_cast at this ⊢
      omega

/-! ### Theorems -/

theorem store_root {canWrite : List (List Char) → Bool} {tmp : List (List Char)} {es : List Entry} :
    (store canWrite tmp es = ([], false)) ∨ ∃ root, IsRoot es root ∧ store canWrite tmp es = loop canWrite tmp root es 0 := by
  rw [store]
  cases h : findRoot es with
  | none => exact Or.inl rfl
  | some pkg => exact Or.inr ⟨_, findRoot_spec h, rfl⟩

/-- C46: when no name has a `..` component, whatever is written (also by an unpacking that fails) is a file of the package,
is written at its place below the target directory, and has at most 1 MiB. -/
theorem C46_contained (canWrite : List (List Char) → Bool) (tmp : List (List Char)) (es : List Entry)
    (hdd : ∀ e ∈ es, ['.', '.'] ∉ e.name.splitOn '/') (p : List (List Char)) (b : Bytes)
    (h : (p, b) ∈ (store canWrite tmp es).1) :
    ∃ root, IsRoot es root ∧ ∃ e ∈ es, Selected root e ∧ p = place tmp root e.name ∧ b <+: e.data ∧ b.length ≤ 2 ^ 20 := by
  rcases store_root (canWrite := canWrite) (tmp := tmp) (es := es) with h0 | ⟨root, hr, h0⟩
  · rw [h0] at h; simp at h
  rw [h0] at h
  have hrd : IsDirPart root := by obtain ⟨_, _, _, _, h, _⟩ := hr; exact h
  obtain ⟨e, he, hs, hp, hb, hl⟩ := loop_mem hrd h
  refine ⟨root, hr, e, he, hs, by rw [hp, target_eq hrd hs (hdd e he)], hb, ?_⟩
  rw [fileSizeLimit] at hl
  omega

/-- C46: a successful unpacking writes every file of the package, completely (as many bytes as declared), at its place. -/
theorem C46_complete (canWrite : List (List Char) → Bool) (tmp : List (List Char)) (es : List Entry)
    (hdd : ∀ e ∈ es, ['.', '.'] ∉ e.name.splitOn '/') (h : (store canWrite tmp es).2 = true) :
    ∃ root, IsRoot es root ∧ ∀ e ∈ es, Selected root e →
      e.size ≤ e.data.length ∧ (place tmp root e.name, e.data.take e.size.toNat) ∈ (store canWrite tmp es).1 := by
  rcases store_root (canWrite := canWrite) (tmp := tmp) (es := es) with h0 | ⟨root, hr, h0⟩
  · rw [h0] at h; cases h
  rw [h0] at h ⊢
  have hrd : IsDirPart root := by obtain ⟨_, _, _, _, h, _⟩ := hr; exact h
  refine ⟨root, hr, fun e he hs => ?_⟩
  obtain ⟨a, b⟩ := loop_ok hrd h e he hs
  rw [written, target_eq hrd hs (hdd e he)] at b
  exact ⟨a, b⟩

/-- C46: at most 2 MiB are written in all when no declared size is negative, whatever the archive contains. -/
theorem C46_size (canWrite : List (List Char) → Bool) (tmp : List (List Char)) (es : List Entry) (hn : ∀ e ∈ es, 0 ≤ e.size) :
    ((store canWrite tmp es).1.map (fun w => w.2.length)).sum ≤ 2 ^ 21 := by
  rcases store_root (canWrite := canWrite) (tmp := tmp) (es := es) with h0 | ⟨root, _, h0⟩
  · rw [h0]; simp
  rw [h0]
  have := loop_size (canWrite := canWrite) (tmp := tmp) (root := root) (es := es) (total := 0) hn (by decide)
  rw [contentSizeLimit] at this
  omega

def entry (name : String) (size : ℤ) (data : Bytes) : Entry := ⟨name.toList, false, size, data, true⟩

/-- C46, not prevented: a name with `..` components is written outside of the target directory. -/
theorem C46_escape : ∃ es, store (fun _ => true) ["data".toList, "contract".toList, "tmp-1".toList] es =
    ([(["data".toList, "contract".toList, "tmp-1".toList, "package.json".toList], []),
      (["data".toList, "keystore".toList], [1, 2])], true) :=
  ⟨[entry "package.json" 0 [], entry "../../keystore" 2 [1, 2]], by decide +kernel⟩

/-- C46, not prevented: an entry that declares a negative size (2^63 or more in the header) lets the others exceed the
limit. -/
theorem C46_negative_size (data : Bytes) (hd : data.length = 2 ^ 20) : ∃ es, ∃ ws,
    store (fun _ => true) [] es = (ws, true) ∧ (ws.map (fun w => w.2.length)).sum = 3 * 2 ^ 20 := by
  refine ⟨[entry "package.json" 0 [], entry "n" (-2 ^ 20) [], entry "a" (2 ^ 20) data, entry "b" (2 ^ 20) data,
    entry "c" (2 ^ 20) data], [(["package.json".toList], []), (["n".toList], []), (["a".toList], data), (["b".toList], data),
      (["c".toList], data)], ?_, ?_⟩
  · have hr : findRoot [entry "package.json" 0 [], entry "n" (-2 ^ 20) [], entry "a" (2 ^ 20) data, entry "b" (2 ^ 20) data,
      entry "c" (2 ^ 20) data] = some "package.json".toList := rfl
    rw [store, hr]
    simp only []
    rw [show (split "package.json".toList).1 = [] from by decide]
    have e1 : ∀ (s : String) (z : ℤ) (b : Bytes) (es : List Entry) (t : ℤ), split s.toList = ([], s.toList) →
        join [] s.toList = [s.toList] → z ≤ 2 ^ 20 → t + z ≤ 2 ^ 21 → z ≤ b.length →
        loop (fun _ => true) [] [] (entry s z b :: es) t =
          (([s.toList], b.take z.toNat) :: (loop (fun _ => true) [] [] es (t + z)).1, (loop (fun _ => true) [] [] es (t + z)).2) := by
      intro s z b es t h1 h2 h3 h4 h5
      rw [loop]
      simp only [entry, h1]
      rw [if_neg (by decide), if_neg (by decide), if_neg (by decide), if_neg (by rw [fileSizeLimit]; omega),
        if_neg (by rw [contentSizeLimit]; omega), if_neg (by decide), if_neg (by decide), if_neg (by omega)]
      rw [show join (join [] (List.drop ([] : List Char).length [])) s.toList = join [] s.toList from rfl, h2]
    have ht : List.take (2 ^ 20 : ℤ).toNat data = data := List.take_of_length_le (by rw [hd]; decide)
    rw [e1 _ _ _ _ _ (by decide) (by decide) (by decide) (by decide) (by decide),
      e1 _ _ _ _ _ (by decide) (by decide) (by decide) (by decide) (by decide),
      e1 _ _ _ _ _ (by decide) (by decide) (by decide) (by decide) (by rw [hd]; decide),
      e1 _ _ _ _ _ (by decide) (by decide) (by decide) (by decide) (by rw [hd]; decide),
      e1 _ _ _ _ _ (by decide) (by decide) (by decide) (by decide) (by rw [hd]; decide), loop, ht]
    rfl
  · simp [hd]

example : store (fun _ => true) ["t".toList] [entry "p/package.json" 1 [7], entry "p/a/b.py" 2 [1, 2], entry "x.py" 1 [3],
      entry "p/__pycache__/b.pyc" 1 [3]] =
    ([(["t".toList, "package.json".toList], [7]), (["t".toList, "a".toList, "b.py".toList], [1, 2])], true) := by
  decide +kernel

end Verif.Package.Extract
