import Verif.Package.Model
import Mathlib.Tactic.IntervalCases

/-! # C17: what an accepted contract package can import -/
namespace Verif.Package

/-! ### Specification -/

/-- `Nested c m`: `c` is `m` or a function, class or comprehension body nested in it at any depth. -/
inductive Nested : Code → Code → Prop
  | self (m : Code) : Nested m m
  | inner {is : List (ℕ × ℕ)} {ns : List String} {cs : List Const} {c m : Code} :
      Const.code is ns cs ∈ m.consts → Nested c ⟨is, ns, cs⟩ → Nested c m

/-- What the compiler guarantees of import statements: control enters them at their start only (opcode 108 is the import,
preceded by two loads). -/
def Compiled (c : Code) (T : ℕ → Prop) : Prop :=
  ∀ (i a : ℕ), c.instrs[i]? = some (108, a) → 2 ≤ i ∧ ¬ T i ∧ ¬ T (i - 1)

/-- Every constant can be loaded without a prefix (opcode 144 is the prefix, 100 loads constants). -/
def FewConsts (c : Code) : Prop :=
  ∀ (i a b : ℕ), c.instrs[i]? = some (144, a) → c.instrs[i + 1]? ≠ some (100, b)

/-- A relative import (from the contract's own package). -/
def Relative (level : Val) : Prop := ∃ k, level = .const k ∧ (k = .float true ∨ ∃ n : ℤ, n > 0 ∧ k = .int n)

/-- No name is taken from the module (it is bound as a whole), or all its public names are. -/
def WholeOrStar (fromList : Val) : Prop :=
  fromList = .const .none ∨ fromList = .const .empty ∨ fromList = .const (.tuple []) ∨ fromList = .const (.str "") ∨
    (∃ l, fromList = .const (.tuple ("*" :: l))) ∨ ∃ s l, s.toList = '*' :: l ∧ fromList = .const (.str s)

/-! ### Proofs -/

theorem validateConsts_mem {icon : List String} {k : Const} : ∀ {cs : List Const}, validateConsts icon cs = true → k ∈ cs →
    validateConst icon k = true
  | [], _, h => by cases h
  | c :: cs, h, hm => by
    rw [validateConsts, Bool.and_eq_true] at h
    rcases List.mem_cons.mp hm with rfl | hm
    · exact h.1
    · exact validateConsts_mem h.2 hm

theorem validateModule_nested {icon : List String} {c m : Code} (hn : Nested c m) (h : validateModule icon m = true) :
    validateModule icon c = true := by
  induction hn with
  | self => exact h
  | inner hm _ ih =>
    refine ih ?_
    rw [validateModule, Bool.and_eq_true, Bool.and_eq_true] at h
    have := validateConsts_mem h.1.2 hm
    rw [validateConst] at this
    exact this

/-- What the two instructions before the current one left on the stack. -/
def Inv (c : Code) (T : ℕ → Prop) (f : Frame) : Prop :=
  (f.ext ≠ 0 → ∃ i a, f.pc = i + 1 ∧ c.instrs[i]? = some (144, a)) ∧
  (∀ i a, f.pc = i + 1 → ¬ T (i + 1) → c.instrs[i]? = some (100, a) →
    ∃ st k, f.stack = .const k :: st ∧ c.consts[a]? = some k ∧
      ∀ j b, i = j + 1 → ¬ T (j + 1) → c.instrs[j]? = some (100, b) →
        ∃ st' k', st = .const k' :: st' ∧ c.consts[b]? = some k')

theorem Inv.jump {c : Code} {T : ℕ → Prop} {t : ℕ} {st : List Val} (ht : T t) : Inv c T ⟨t, 0, st⟩ := by
  refine ⟨fun h => absurd rfl h, fun i a hi hn => ?_⟩
  simp only [] at hi
  subst hi
  exact absurd ht hn

theorem inv_step {c : Code} {T : ℕ → Prop} (hc : FewConsts c) {f g : Frame} {e : Option Import} (hi : Inv c T f)
    (hs : Step c T f e g) : Inv c T g := by
  cases hs with
  | ext h =>
    rename_i a
    refine ⟨fun _ => ⟨f.pc, a, rfl, h⟩, fun i b hi' _ hl => ?_⟩
    have : f.pc = i := by simpa using hi'
    rw [← this, h] at hl
    cases hl
  | load h hk =>
    rename_i a k
    refine ⟨fun h => absurd rfl h, fun i b hi' _ hl => ?_⟩
    have hpc : f.pc = i := by simpa using hi'
    subst hpc
    rw [h] at hl
    obtain rfl : a = b := by simpa [LOAD_CONST] using hl
    have hx : f.ext = 0 := by
      by_contra hx
      obtain ⟨j, b, hj, hb⟩ := hi.1 hx
      rw [hj] at h
      exact hc j b _ hb h
    rw [hx, Nat.zero_add] at hk
    refine ⟨f.stack, k, rfl, hk, fun j b hj hT hb => ?_⟩
    obtain ⟨st, k', h1, h2, _⟩ := hi.2 j b hj hT hb
    exact ⟨st, k', h1, h2⟩
  | import_ h hn hst =>
    refine ⟨fun h => absurd rfl h, fun i b hi' _ hl => ?_⟩
    have : f.pc = i := by simpa using hi'
    rw [← this, h] at hl
    cases hl
  | other h h1 h2 h3 =>
    refine ⟨fun h => absurd rfl h, fun i b hi' _ hl => ?_⟩
    have : f.pc = i := by simpa using hi'
    rw [← this, h] at hl
    simp only [Option.some.injEq, Prod.mk.injEq] at hl
    exact absurd hl.1 h2
  | jump h => exact Inv.jump h

theorem reach_inv {c : Code} {T : ℕ → Prop} (hc : FewConsts c) {f : Frame} (h : Reach c T f) : Inv c T f := by
  induction h with
  | start => exact ⟨fun h => absurd rfl h, fun i a hi => by simp at hi⟩
  | step _ hs ih => exact inv_step hc ih hs

theorem lookup_whitelist {name : String} {al : List String} (h : whitelist.lookup name = some al) :
    name = "iconservice" ∧ al = [] := by
  rw [whitelist, List.lookup_cons] at h
  by_cases hn : name == "iconservice"
  · rw [hn] at h
    simp only [Option.some.injEq] at h
    exact ⟨by simpa using hn, h.symm⟩
  · rw [Bool.not_eq_true] at hn
    rw [hn] at h
    simp at h

theorem validateImport_spec {icon : List String} {c : Code} {i nm : ℕ} (hi : 2 ≤ i)
    (hin : c.instrs[i]? = some (IMPORT_NAME, nm)) (h : validateImport icon c i = true) :
    ∃ fl lv name from_ level, c.instrs[i - 1]? = some (100, fl) ∧ c.instrs[i - 2]? = some (100, lv) ∧
      c.names[nm]? = some name ∧ c.consts[fl]? = some from_ ∧ c.consts[lv]? = some level ∧
      (Relative (.const level) ∨ (name = "iconservice" ∧ WholeOrStar (.const from_))) := by
  rw [validateImport, hin] at h
  rcases h0 : c.instrs[i - 2]? with _ | ⟨op0, lv⟩
  · rw [h0] at h; cases h
  rcases h1 : c.instrs[i - 1]? with _ | ⟨op1, fl⟩
  · rw [h0, h1] at h; cases h
  rw [h0, h1] at h
  simp only [] at h
  by_cases hop : op1 ≠ LOAD_CONST ∨ op0 ≠ LOAD_CONST
  · rw [if_pos hop] at h; cases h
  rw [if_neg hop] at h
  push Not at hop
  rcases hn : c.names[nm]? with _ | name
  · rw [hn] at h; cases h
  rcases hf : c.consts[fl]? with _ | from_
  · rw [hn, hf] at h; cases h
  rcases hl : c.consts[lv]? with _ | level
  · rw [hn, hf, hl] at h; cases h
  rw [hn, hf, hl] at h
  simp only [] at h
  refine ⟨fl, lv, name, from_, level, by rw [hop.1]; rfl, by rw [hop.2]; rfl, rfl, hf, hl, ?_⟩
  rcases hp : positive level with _ | b
  · rw [hp] at h; cases h
  rw [hp] at h
  cases b with
  | true =>
    refine Or.inl ⟨level, rfl, ?_⟩
    cases level <;> simp [positive] at hp
    · exact Or.inr ⟨_, hp, rfl⟩
    · exact Or.inl (by rw [hp])
  | false =>
    simp only [] at h
    rcases hw : whitelist.lookup name with _ | al
    · rw [hw] at h; cases h
    rw [hw] at h
    obtain ⟨rfl, rfl⟩ := lookup_whitelist hw
    refine Or.inr ⟨rfl, ?_⟩
    simp only [] at h
    have hgen : ∀ k : Const, (match c.instrs[i + 1]? with
              | none => false
              | some (op, _) =>
                if op = IMPORT_STAR then startsWithStar k
                else if op = IMPORT_FROM then
                  match iterate k with
                  | none => false
                  | some l => l.all (fun x => (([] : List String).contains "*" || ([] : List String).contains x) && icon.contains x)
                else false) = true → startsWithStar k = true ∨ iterate k = some [] := by
      intro k hk
      rcases hx : c.instrs[i + 1]? with _ | ⟨op, x⟩
      · rw [hx] at hk; cases hk
      rw [hx] at hk
      simp only [] at hk
      by_cases hs : op = IMPORT_STAR
      · rw [if_pos hs] at hk; exact Or.inl hk
      rw [if_neg hs] at hk
      by_cases hs : op = IMPORT_FROM
      · rw [if_pos hs] at hk
        rcases hit : iterate k with _ | l
        · rw [hit] at hk; cases hk
        rw [hit] at hk
        cases l with
        | nil => exact Or.inr rfl
        | cons a l => simp at hk
      · rw [if_neg hs] at hk; cases hk
    cases from_ with
    | none => exact Or.inl rfl
    | int n => rcases hgen _ h with h | h <;> cases h
    | float b => rcases hgen _ h with h | h <;> cases h
    | other => rcases hgen _ h with h | h <;> cases h
    | code a b d => rcases hgen _ h with h | h <;> cases h
    | empty => exact Or.inr (Or.inl rfl)
    | tuple l =>
      cases l with
      | nil => exact Or.inr (Or.inr (Or.inl rfl))
      | cons a l =>
        rcases hgen _ h with h | h
        · have : a = "*" := by simpa [startsWithStar] using h
          exact Or.inr (Or.inr (Or.inr (Or.inr (Or.inl ⟨l, by rw [this]⟩))))
        · cases h
    | str s =>
      rcases hgen _ h with h | h
      · refine Or.inr (Or.inr (Or.inr (Or.inr (Or.inr ⟨s, ?_⟩))))
        rw [startsWithStar] at h
        rcases hs : s.toList with _ | ⟨ch, l⟩
        · rw [hs] at h; cases h
        · rw [hs] at h
          have : ch = '*' := by simpa using h
          exact ⟨l, by rw [this], rfl⟩
      · refine Or.inr (Or.inr (Or.inr (Or.inl ?_)))
        have : s.toList = [] := by simpa [iterate] using h
        rw [String.toList_eq_nil_iff.mp this]

/-- C17: whatever code of an accepted module runs, every import it performs is relative (from the contract's own
package) or imports `iconservice`, as a whole or by star. -/
theorem C17_imports (icon : List String) (m c : Code) (T : ℕ → Prop) (hm : validateModule icon m = true)
    (hn : Nested c m) (hT : Compiled c T) (hc : FewConsts c) (name : String) (level fromList : Val)
    (h : Imports c T (name, level, fromList)) :
    Relative level ∨ (name = "iconservice" ∧ WholeOrStar fromList) := by
  have hv := validateModule_nested hn hm
  rw [validateModule, Bool.and_eq_true, Bool.and_eq_true, validateCode, List.all_eq_true] at hv
  obtain ⟨f, g, hr, hs⟩ := h
  have hi := reach_inv hc hr
  cases hs with
  | import_ h hnm hst =>
    rename_i a st v
    obtain ⟨h2, ht, ht'⟩ := hT f.pc a h
    have hlen : f.pc < c.instrs.length := by
      by_contra hlt
      rw [List.getElem?_eq_none (by omega)] at h
      cases h
    have hvi := hv.1.1 f.pc (List.mem_range.mpr hlen)
    rw [if_neg (by rw [headerEnd]; omega), h] at hvi
    simp only [if_true] at hvi
    obtain ⟨fl, lv, nm, from_, lev, e1, e2, e3, e4, e5, e6⟩ := validateImport_spec h2 h hvi
    obtain ⟨j, hj⟩ : ∃ j, f.pc = j + 2 := ⟨f.pc - 2, by omega⟩
    rw [hj] at e1 e2 ht ht'
    have e1' : c.instrs[j + 1]? = some (100, fl) := e1
    have e2' : c.instrs[j]? = some (100, lv) := e2
    obtain ⟨s1, k1, a1, a2, a3⟩ := hi.2 (j + 1) fl hj ht e1'
    obtain ⟨s2, k2, b1, b2⟩ := a3 j lv rfl ht' e2'
    have hx : f.ext = 0 := by
      by_contra hx
      obtain ⟨i, b, hi', hb⟩ := hi.1 hx
      have : i = j + 1 := by omega
      rw [this, e1'] at hb
      cases hb
    rw [hx, Nat.zero_add, e3] at hnm
    rw [hst, b1] at a1
    simp only [List.cons.injEq, Option.some.injEq] at a1 hnm
    rw [e4] at a2
    rw [e5] at b2
    obtain ⟨rfl, rfl, _⟩ := a1
    cases a2
    cases b2
    cases hnm
    exact e6

/-- C17: no code of an accepted module uses one of the forbidden names. -/
theorem C17_names (icon : List String) (m c : Code) (hm : validateModule icon m = true) (hn : Nested c m) :
    "exec" ∉ c.names ∧ "eval" ∉ c.names ∧ "compile" ∉ c.names ∧ "__import__" ∉ c.names := by
  have hv := validateModule_nested hn hm
  rw [validateModule, Bool.and_eq_true, validateNames, List.all_eq_true] at hv
  refine ⟨fun h => ?_, fun h => ?_, fun h => ?_, fun h => ?_⟩ <;>
  · have := hv.2 _ h
    revert this
    decide

/-! ### The package as a whole -/

theorem executeLoop_checks {icon : List String} {files : List File} : ∀ {fs : List File} {loaded : List (List String)},
    (executeLoop icon files fs loaded).2 = true → ∀ f ∈ fs, validateModule icon f.code = true
  | [], _, _ => fun f hf => by cases hf
  | f :: fs, loaded, h => by
    rw [executeLoop] at h
    simp only [] at h
    intro x hx
    split at h
    · split at h
      · rename_i hv
        rw [Bool.and_eq_true] at hv
        rcases List.mem_cons.mp hx with rfl | hx
        · exact hv.2
        · exact executeLoop_checks h x hx
      · cases h
    · cases h

/-- C17: in an accepted package every Python source file passes the checks. -/
theorem C17_all_sources (icon : List String) (files : List File) (h : (execute icon files).2 = true) (f : File) (hf : f ∈ files)
    (he : f.ext = ".py") : validateModule icon f.code = true := by
  refine executeLoop_checks h f ?_
  rw [moduleList, List.mem_filter]
  exact ⟨hf, by simp [he]⟩

theorem importParents_ran {files : List File} {f : File} : ∀ {ps loaded : List (List String)},
    Event.ran f ∈ (importParents files loaded ps).1 → f ∈ files ∧ f.name = "__init__" ∧ f.ext = ".py"
  | [], _, h => by simp [importParents] at h
  | p :: ps, loaded, h => by
    rw [importParents] at h
    split at h
    · exact importParents_ran h
    · rcases hg : files.find? (fun f => f.dir == p && f.name == "__init__" && f.ext == ".py") with _ | g
      · rw [hg] at h; exact importParents_ran h
      rw [hg] at h
      simp only [] at h
      have h1 := List.mem_of_find?_eq_some hg
      have h2 := List.find?_some hg
      simp only [Bool.and_eq_true, beq_iff_eq] at h2
      split at h
      · split at h
        · simp only [List.mem_cons, Event.ran.injEq] at h
          rcases h with rfl | h
          · exact ⟨h1, h2.1.2, h2.2⟩
          · exact importParents_ran h
        · simp only [List.mem_singleton, Event.ran.injEq] at h
          subst h
          exact ⟨h1, h2.1.2, h2.2⟩
      · simp at h

theorem importParents_checked {files : List File} {f : File} : ∀ {ps loaded : List (List String)},
    Event.checked f ∉ (importParents files loaded ps).1
  | [], _ => by simp [importParents]
  | p :: ps, loaded => by
    rw [importParents]
    split
    · exact importParents_checked
    · split
      · exact importParents_checked
      · split
        · split
          · simp only [List.mem_cons, reduceCtorEq, false_or]
            exact importParents_checked
          · simp
        · simp

/-- C17: the only code run while a package is being checked is that of `__init__.py` files. -/
theorem C17_runs_while_checking (icon : List String) (files : List File) (f : File)
    (h : Event.ran f ∈ (execute icon files).1) : f ∈ files ∧ f.name = "__init__" ∧ f.ext = ".py" := by
  rw [execute] at h
  generalize moduleList files = fs at h
  generalize ([] : List (List String)) = loaded at h
  induction fs generalizing loaded with
  | nil => simp [executeLoop] at h
  | cons g fs ih =>
    rw [executeLoop] at h
    simp only [] at h
    split at h
    · split at h
      · simp only [List.mem_append, List.mem_cons, reduceCtorEq, false_or] at h
        rcases h with h | h
        · exact importParents_ran h
        · exact ih _ h
      · simp only [List.mem_append, List.mem_cons, reduceCtorEq, false_or, List.not_mem_nil, or_false] at h
        exact importParents_ran h
    · exact importParents_ran h

theorem importParents_filter {files : List File} : ∀ {ps loaded : List (List String)},
    importParents (moduleList files) loaded ps = importParents files loaded ps
  | [], _ => rfl
  | p :: ps, loaded => by
    have : (moduleList files).find? (fun f => f.dir == p && f.name == "__init__" && f.ext == ".py") =
        files.find? (fun f => f.dir == p && f.name == "__init__" && f.ext == ".py") := by
      rw [moduleList, List.find?_filter]
      congr 1
      funext f
      cases h : f.ext == ".py" <;> simp [Bool.beq_eq_decide_eq]
    rw [importParents, importParents, this, importParents_filter]
    split
    · rfl
    · split
      · exact importParents_filter
      · rw [importParents_filter]

/-- C17: files without the extension `.py` (compiled modules, shared objects) are not looked at. -/
theorem C17_other_files_ignored (icon : List String) (files : List File) :
    execute icon files = execute icon (files.filter (fun f => f.ext == ".py")) := by
  have hl : ∀ fs loaded, executeLoop icon (moduleList files) fs loaded = executeLoop icon files fs loaded := by
    intro fs
    induction fs with
    | nil => intro loaded; rfl
    | cons f fs ih => intro loaded; rw [executeLoop, executeLoop, importParents_filter, ih]
  show execute icon files = execute icon (moduleList files)
  rw [execute, execute, hl]
  congr 1
  simp [moduleList]

/-! ### What is not prevented -/

/-- A module with 258 constants, the last one 0:
`x = None; x = 1; ...; x = 256; import os` (the statements that only put the constants there are left out). -/
def bypass : Code where
  instrs := [(100, 0), (90, 0), (144, 1), (100, 1), (100, 0), (108, 1), (90, 1)]
  names := ["x", "os"]
  consts := Const.none :: ((List.range 256).map (fun (n : ℕ) => Const.int ((n : ℤ) + 1)) ++ [Const.int 0])

theorem bypass_last : bypass.consts[257]? = some (.int 0) := by
  show (Const.none :: ((List.range 256).map (fun (n : ℕ) => Const.int ((n : ℤ) + 1)) ++ [Const.int 0]))[256 + 1]? = _
  rw [List.getElem?_cons_succ, List.getElem?_append_right (by simp)]
  simp

theorem bypass_accepted (icon : List String) : validateModule icon bypass = true := by
  have h1 : validateCode icon bypass = true := by
    simp only [validateCode, show bypass.instrs.length = 7 from rfl, List.all_eq_true, List.mem_range]
    intro i hi
    by_cases h5 : i = 5
    · subst h5
      have a1 : bypass.instrs[5 - 2]? = some (100, 1) := rfl
      have a2 : bypass.instrs[5 - 1]? = some (100, 0) := rfl
      have a3 : bypass.instrs[5]? = some (108, 1) := rfl
      have a4 : bypass.names[1]? = some "os" := rfl
      have a5 : bypass.consts[0]? = some .none := rfl
      have a6 : bypass.consts[1]? = some (.int 1) := by
        show (Const.none :: ((List.range 256).map (fun (n : ℕ) => Const.int ((n : ℤ) + 1)) ++ [Const.int 0]))[0 + 1]? = _
        rw [List.getElem?_cons_succ, List.getElem?_append_left (by simp)]
        simp
      simp only [a3, validateImport, a1, a2, a4, a5, a6]
      rfl
    · interval_cases i <;> first | rfl | exact absurd rfl h5
  have h2 : ∀ l : List ℕ, validateConsts icon (l.map (fun (n : ℕ) => Const.int ((n : ℤ) + 1)) ++ [Const.int 0]) = true := by
    intro l
    induction l with
    | nil => rfl
    | cons a l ih => rw [List.map_cons, List.cons_append, validateConsts, ih]; rfl
  have h2 : validateConsts icon bypass.consts = true := by
    rw [bypass]
    simp only []
    rw [validateConsts, h2]; rfl
  rw [validateModule, h1, h2]
  rfl

/-- C17, not prevented: with more than 256 constants an accepted module can import any module. -/
theorem C17_many_constants_bypass (icon : List String) : validateModule icon bypass = true ∧ Compiled bypass (fun _ => False) ∧
    Imports bypass (fun _ => False) ("os", .const (.int 0), .const .none) := by
  refine ⟨bypass_accepted icon, ?_, ?_⟩
  · intro i a h
    have hi : i < 7 := by
      by_contra hlt
      rw [List.getElem?_eq_none (by simp [bypass]; omega)] at h
      cases h
    refine ⟨?_, id, id⟩
    interval_cases i <;> simp [bypass] at h ⊢
  · have r0 := Reach.start (c := bypass) (T := fun _ => False)
    have r1 := r0.step (.load (a := 0) (k := .none) rfl rfl)
    have r2 := r1.step (.other (op := 90) (a := 0) (st := []) rfl (by decide) (by decide) (by decide))
    have r3 := r2.step (.ext (a := 1) rfl)
    have r4 := r3.step (.load (a := 1) (k := .int 0) rfl bypass_last)
    have r5 := r4.step (.load (a := 0) (k := .none) rfl rfl)
    exact ⟨_, _, r5, .import_ (a := 1) (v := 0) rfl rfl rfl⟩

/-- A package initialiser that imports `os`. -/
def initOs : File :=
  ⟨[], "__init__", ".py", ⟨[(100, 0), (100, 1), (108, 0), (90, 0)], ["os"], [.int 0, .none]⟩, true, true⟩

/-- C17, not prevented: the top level of `__init__.py` is run before it is checked, so a package that is going to be refused
can do any import (and anything else) on the node that checks it. -/
theorem C17_init_runs_unchecked (icon : List String) :
    execute icon [initOs] = ([.ran initOs, .checked initOs], false) ∧
      Imports initOs.code (fun _ => False) ("os", .const (.int 0), .const .none) := by
  constructor
  · rfl
  · have r0 := Reach.start (c := initOs.code) (T := fun _ => False)
    have r1 := r0.step (.load (a := 0) (k := .int 0) rfl rfl)
    have r2 := r1.step (.load (a := 1) (k := .none) rfl rfl)
    exact ⟨_, _, r2, .import_ (a := 0) (v := 0) rfl rfl rfl⟩

/-! ### Non-vacuity -/

/-- `from iconservice import *; from . import a` with a function that does `import iconservice`. -/
def sample : Code where
  instrs := [(100, 0), (100, 1), (108, 0), (84, 0), (100, 2), (100, 3), (108, 1), (109, 1), (90, 1), (1, 0)]
  names := ["iconservice", "a"]
  consts := [.int 0, .tuple ["*"], .int 1, .tuple ["a"],
    .code [(100, 1), (100, 0), (108, 0), (125, 0)] ["iconservice"] [.none, .int 0]]

example : validateModule [] sample = true := rfl
example : FewConsts sample := by
  intro i a b h
  have hi : i < 10 := by
    by_contra hlt
    rw [List.getElem?_eq_none (by simp [sample]; omega)] at h
    cases h
  interval_cases i <;> simp [sample] at h
example : Compiled sample (fun t => t = 4) := by
  intro i a h
  have hi : i < 10 := by
    by_contra hlt
    rw [List.getElem?_eq_none (by simp [sample]; omega)] at h
    cases h
  interval_cases i <;> simp [sample] at h ⊢
example : Imports sample (fun t => t = 4) ("iconservice", .const (.int 0), .const (.tuple ["*"])) := by
  have r0 := Reach.start (c := sample) (T := fun t => t = 4)
  have r1 := r0.step (.load (a := 0) (k := .int 0) rfl rfl)
  have r2 := r1.step (.load (a := 1) (k := .tuple ["*"]) rfl rfl)
  exact ⟨_, _, r2, .import_ (a := 0) (v := 0) rfl rfl rfl⟩

/-- `import os` and `from iconservice import Address` are refused. -/
example : validateModule [] ⟨[(100, 0), (100, 1), (108, 0), (90, 0)], ["os"], [.int 0, .none]⟩ = false := rfl
example : validateModule ["Address"] ⟨[(100, 0), (100, 1), (108, 0), (109, 1)], ["iconservice", "Address"],
    [.int 0, .tuple ["Address"]]⟩ = false := rfl

end Verif.Package
