import Mathlib.Data.Int.Basic
import Mathlib.Data.List.Basic

/-!
# The contract package validator (pyee/pyexec/iconscore/score_package_validator.py)

Code objects are what CPython 3.6-3.10 compiles: instructions are two bytes, opcode and argument.
-/
namespace Verif.Package

/-- Constants of a code object. `float b`: a floating point number that is positive iff `b`; booleans are `int`;
`empty`: an empty iterable other than a string or tuple; `other`: anything that can neither be compared with 0
nor iterated nor indexed by the validator (or whose items are not strings). -/
inductive Const
  | none
  | int (n : ℤ)
  | float (positive : Bool)
  | str (s : String)
  | tuple (l : List String)
  | empty
  | other
  | code (instrs : List (ℕ × ℕ)) (names : List String) (consts : List Const)

/-- A code object: `co_code` as pairs, `co_names`, `co_consts`. -/
structure Code where
  instrs : List (ℕ × ℕ)
  names : List String
  consts : List Const

/-- score_package_validator.py:26-29; CPython `EXTENDED_ARG`. -/
def LOAD_CONST : ℕ := 100
def IMPORT_STAR : ℕ := 84
def IMPORT_NAME : ℕ := 108
def IMPORT_FROM : ℕ := 109
def EXTENDED_ARG : ℕ := 144

/-- `BLACKLIST_RESERVED_KEYWORD` (score_package_validator.py:24). -/
def blacklist : List String := ["exec", "eval", "compile", "__import__"]

/-- `WHITELIST_IMPORT` (score_package_validator.py:42). -/
def whitelist : List (String × List String) := [("iconservice", [])]

/-- `level > 0`; `none` is `TypeError`. -/
def positive : Const → Option Bool
  | .int n => some (decide (n > 0))
  | .float b => some b
  | _ => none

/-- `from_list[0] != '*'` does not hold and does not raise. -/
def startsWithStar : Const → Bool
  | .tuple (x :: _) => x == "*"
  | .str s => match s.toList with
    | ch :: _ => ch == '*'
    | [] => false
  | _ => false

/-- `for import_from in from_list`; `none` is `TypeError`. -/
def iterate : Const → Option (List String)
  | .tuple l => some l
  | .str s => some (s.toList.map (fun ch => String.ofList [ch]))
  | .empty => some []
  | _ => none

/-- `_validate_import` (score_package_validator.py:147-209); `false`: an exception is raised. `icon` is
`ICONSERVICE_WHITELIST`. `import_name in BASE_PACKAGE` is always true here (the name is a key of the whitelist). -/
def validateImport (icon : List String) (c : Code) (i : ℕ) : Bool :=
  match c.instrs[i - 2]?, c.instrs[i - 1]?, c.instrs[i]? with
  | some (op0, lv), some (op1, fl), some (_, nm) =>
    if op1 ≠ LOAD_CONST ∨ op0 ≠ LOAD_CONST then false
    else match c.names[nm]?, c.consts[fl]?, c.consts[lv]? with
      | some name, some from_, some level =>
        match positive level with
        | none => false
        | some true => true
        | some false =>
          match whitelist.lookup name with
          | none => false
          | some allowed =>
            match from_ with
            | .none => true
            | from_ => match c.instrs[i + 1]? with
              | none => false
              | some (op, _) =>
                if op = IMPORT_STAR then startsWithStar from_
                else if op = IMPORT_FROM then
                  match iterate from_ with
                  | none => false
                  | some l => l.all (fun x => (allowed.contains "*" || allowed.contains x) && icon.contains x)
                else false
      | _, _, _ => false
  | _, _, _ => false

/-- `OPCODE_HEADER_END_INDEX / 2` (score_package_validator.py:38). -/
def headerEnd : ℕ := 2

/-- `_validate_import_from_code` (score_package_validator.py:122-134). -/
def validateCode (icon : List String) (c : Code) : Bool :=
  (List.range c.instrs.length).all (fun i =>
    if i < headerEnd then true
    else match c.instrs[i]? with
      | some (op, _) => if op = IMPORT_NAME then validateImport icon c i else true
      | none => true)

/-- `_validate_blacklist_keyword_from_names` (score_package_validator.py:116-120). -/
def validateNames (names : List String) : Bool := names.all (fun n => !blacklist.contains n)

mutual
/-- The body of `_validate_import_from_const` (score_package_validator.py:136-145). -/
def validateConst (icon : List String) : Const → Bool
  | .code is ns cs => validateCode icon ⟨is, ns, cs⟩ && validateConsts icon cs && validateNames ns
  | _ => true

/-- `_validate_import_from_const` (score_package_validator.py:136-145). -/
def validateConsts (icon : List String) : List Const → Bool
  | [] => true
  | c :: cs => validateConst icon c && validateConsts icon cs
end

/-- The checks of one module in `execute` (score_package_validator.py:87-95). -/
def validateModule (icon : List String) (c : Code) : Bool :=
  validateCode icon c && validateConsts icon c.consts && validateNames c.names

/-! ### `execute` -/

/-- A file of a package: directory relative to the package, name, extension (with the dot), the code it
compiles to, whether it can be found and compiled, and whether running its top level ends normally. Simplified: a module
name finds the file it was made of (a package directory shadowing a file of the same name is left out). -/
structure File where
  dir : List String
  name : String
  ext : String
  code : Code
  loads : Bool
  runs : Bool

inductive Event
  | ran (f : File)
  | checked (f : File)

/-- `importlib.util.find_spec` imports the parent packages of the name it is given, that is it runs their
`__init__.py` unless they are loaded already. `n` prefixes of `dir` are left to import. The result: what was run, what is
loaded, and whether it ended normally. -/
def importParents (files : List File) (loaded : List (List String)) : List (List String) → List Event × List (List String) × Bool
  | [] => ([], loaded, true)
  | p :: ps =>
    if loaded.contains p then importParents files loaded ps
    else match files.find? (fun f => f.dir == p && f.name == "__init__" && f.ext == ".py") with
      | none => importParents files (p :: loaded) ps
      | some f =>
        if f.loads then
          if f.runs then
            let r := importParents files (p :: loaded) ps
            (.ran f :: r.1, r.2.1, r.2.2)
          else ([.ran f], loaded, false)
        else ([], loaded, false)

/-- The packages a module in directory `d` is in, the outermost first. -/
def parents (d : List String) : List (List String) := (List.range (d.length + 1)).map (fun n => d.take n)

/-- The loop of `execute` (score_package_validator.py:84-95). -/
def executeLoop (icon : List String) (files : List File) : List File → List (List String) → List Event × Bool
  | [], _ => ([], true)
  | f :: fs, loaded =>
    let r := importParents files loaded (parents f.dir)
    if r.2.2 then
      if f.loads && validateModule icon f.code then
        let r' := executeLoop icon files fs r.2.1
        (r.1 ++ .checked f :: r'.1, r'.2)
      else (r.1 ++ [.checked f], false)
    else (r.1, false)

/-- `_make_custom_import_list` (score_package_validator.py:97-114). -/
def moduleList (files : List File) : List File := files.filter (fun f => f.ext == ".py")

/-- `execute` (score_package_validator.py:72-95): what is run and checked, and whether the package is accepted. -/
def execute (icon : List String) (files : List File) : List Event × Bool :=
  executeLoop icon files (moduleList files) []

/-! ### Running code -/

/-- Values on the stack: constants, or anything else. -/
inductive Val
  | const (c : Const)
  | any (n : ℕ)

structure Frame where
  pc : ℕ
  ext : ℕ
  stack : List Val

/-- An import: name, level, from list. -/
abbrev Import := String × Val × Val

/-- CPython on one code object. `T` are the places control may be transferred to by jumps, loops and exception
handlers; any instruction may do so, with any stack. Instructions other than the three below do anything to the stack. -/
inductive Step (c : Code) (T : ℕ → Prop) : Frame → Option Import → Frame → Prop
  | ext {f : Frame} {a : ℕ} : c.instrs[f.pc]? = some (EXTENDED_ARG, a) →
      Step c T f none ⟨f.pc + 1, (f.ext + a) * 256, f.stack⟩
  | load {f : Frame} {a : ℕ} {k : Const} : c.instrs[f.pc]? = some (LOAD_CONST, a) → c.consts[f.ext + a]? = some k →
      Step c T f none ⟨f.pc + 1, 0, .const k :: f.stack⟩
  | import_ {f : Frame} {a : ℕ} {name : String} {fl lv : Val} {st : List Val} {v : ℕ} :
      c.instrs[f.pc]? = some (IMPORT_NAME, a) → c.names[f.ext + a]? = some name → f.stack = fl :: lv :: st →
      Step c T f (some (name, lv, fl)) ⟨f.pc + 1, 0, .any v :: st⟩
  | other {f : Frame} {op a : ℕ} {st : List Val} : c.instrs[f.pc]? = some (op, a) → op ≠ EXTENDED_ARG →
      op ≠ LOAD_CONST → op ≠ IMPORT_NAME → Step c T f none ⟨f.pc + 1, 0, st⟩
  | jump {f : Frame} {t : ℕ} {st : List Val} : T t → Step c T f none ⟨t, 0, st⟩

/-- Running a code object from its start. -/
inductive Reach (c : Code) (T : ℕ → Prop) : Frame → Prop
  | start : Reach c T ⟨0, 0, []⟩
  | step {f g : Frame} {e : Option Import} : Reach c T f → Step c T f e g → Reach c T g

/-- An import some execution of the code performs. -/
def Imports (c : Code) (T : ℕ → Prop) (e : Import) : Prop := ∃ f g, Reach c T f ∧ Step c T f (some e) g

end Verif.Package
