import Verif.Base.Bytes
import Mathlib.Data.List.Basic

/-!
# Unpacking of Python contract packages (`storePython`, service/contract/contractmanager.go:361-435)

Names are lists of characters, paths of the file system lists of components (absolute). Reading of the zip directory is
the standard library's: an entry is what its header and data say.
-/
namespace Verif.Package.Extract

/-- An entry of the archive: name, `IsDir`, declared size (`FileInfo().Size()`, the 64 bits of the header as a signed
number), what reading it gives, and whether it can be opened. -/
structure Entry where
  name : List Char
  isDir : Bool
  size : ℤ
  data : Bytes
  opens : Bool

/-- The part after the last slash. -/
def afterSlash : List Char → List Char
  | [] => []
  | c :: cs => if '/' ∈ cs then afterSlash cs else if c = '/' then cs else c :: cs

/-- `path.Split`: directory with its slash, file. -/
def split (n : List Char) : List Char × List Char := (n.take (n.length - (afterSlash n).length), afterSlash n)

/-- `FileInfo().Name()`, that is `path.Base`, for names that are not directories (no trailing slash). -/
def baseName (n : List Char) : List Char := afterSlash n

/-- The components between slashes. -/
def splitSlash : List Char → List (List Char)
  | [] => [[]]
  | c :: cs => if c = '/' then [] :: splitSlash cs
    else match splitSlash cs with
      | [] => [[c]]
      | w :: ws => (c :: w) :: ws

/-- One component of `filepath.Clean` on an absolute path. -/
def cleanStep (p : List (List Char)) (c : List Char) : List (List Char) :=
  if c = [] ∨ c = ['.'] then p
  else if c = ['.', '.'] then p.dropLast
  else p ++ [c]

/-- `filepath.Join(p, s)` for an absolute clean `p` (slash is the separator). -/
def join (p : List (List Char)) (s : List Char) : List (List Char) := (splitSlash s).foldl cleanStep p

/-- `strings.Contains`. -/
def hasInfix (w : List Char) : List Char → Bool
  | [] => w.isPrefixOf []
  | c :: cs => w.isPrefixOf (c :: cs) || hasInfix w cs

/-- contractmanager.go:30-31. -/
def fileSizeLimit : ℤ := 1 * 1024 * 1024
def contentSizeLimit : ℤ := 2 * 1024 * 1024

/-- The path of `package.json` (contractmanager.go:379-389). -/
def findRoot (es : List Entry) : Option (List Char) :=
  (es.find? (fun e => baseName e.name == "package.json".toList && !e.isDir)).map (·.name)

/-- A file written. -/
abbrev Write := List (List Char) × Bytes

/-- The loop of `storePython` (contractmanager.go:393-432). `canWrite` says for which paths directories and file can be
made. The result: the files written, in order, and whether it ended normally. `io.CopyN` with a negative count copies
nothing and succeeds; with a count beyond the data it fails after copying what there is. -/
def loop (canWrite : List (List Char) → Bool) (tmp : List (List Char)) (pkgBase : List Char) :
    List Entry → ℤ → List Write × Bool
  | [], _ => ([], true)
  | e :: es, total =>
    if e.isDir then loop canWrite tmp pkgBase es total
    else
      let d := split e.name
      if pkgBase.isPrefixOf d.1 = false then loop canWrite tmp pkgBase es total
      else
        let dir := d.1.drop pkgBase.length
        if hasInfix "__MACOSX".toList dir || hasInfix "__pycache__".toList dir then loop canWrite tmp pkgBase es total
        else if e.size > fileSizeLimit then ([], false)
        else if total + e.size > contentSizeLimit then ([], false)
        else if e.opens = false then ([], false)
        else
          let file := join (join tmp dir) d.2
          if canWrite file = false then ([], false)
          else if e.size > e.data.length then ([(file, e.data)], false)
          else
            let r := loop canWrite tmp pkgBase es (total + e.size)
            ((file, e.data.take e.size.toNat) :: r.1, r.2)

/-- `storePython` up to the final rename; `tmp` is the fresh temporary directory. -/
def store (canWrite : List (List Char) → Bool) (tmp : List (List Char)) (es : List Entry) : List Write × Bool :=
  match findRoot es with
  | none => ([], false)
  | some pkg => loop canWrite tmp (split pkg).1 es 0

end Verif.Package.Extract
