import Verif.IntCodec.Model

/-!
# Numbers as text (common/intconv/string.go)

`big.Int.SetString` and `strconv.ParseInt` are the standard library's (Go 1.20), transcribed here; texts are lists of characters
(bytes outside ASCII are refused by both).
-/
namespace Verif.IntCodec

/-- The value of a digit or letter; letters of both cases count from 10. -/
def digitVal (c : Char) : Option ℕ :=
  if '0' ≤ c ∧ c ≤ '9' then some (c.toNat - 48)
  else if 'a' ≤ c ∧ c ≤ 'z' then some (c.toNat - 87)
  else if 'A' ≤ c ∧ c ≤ 'Z' then some (c.toNat - 55)
  else none

/-- The last character seen by `nat.scan`: nothing, a digit (or prefix), or a separator. -/
inductive Prev | start | digit | sep
  deriving DecidableEq

/-- The loop of `nat.scan` (math/big) in base `b`; `base0`: underscores are separators. `none`: an invalid separator,
or a character that is no digit (then `SetString` fails because of what is left). `count` is the number of digits. -/
def scanLoop (b : ℕ) (base0 : Bool) : Prev → ℕ → ℕ → List Char → Option (ℕ × ℕ)
  | prev, acc, count, [] => if prev = .sep then none else some (acc, count)
  | prev, acc, count, c :: cs =>
    if c = '_' ∧ base0 = true then
      if prev = .digit then scanLoop b base0 .sep acc count cs else none
    else match digitVal c with
      | none => none
      | some d => if d ≥ b then none else scanLoop b base0 .digit (acc * b + d) (count + 1) cs

/-- The number of digits must not be zero. -/
def needDigits : Option (ℕ × ℕ) → Option ℕ
  | some (v, n + 1) => let _ := n; some v
  | _ => none

/-- `nat.scan` of a whole text in base 0 (prefixes, separators) or a given base. -/
def natScan (base : ℕ) (s : List Char) : Option ℕ :=
  if base = 0 then
    match s with
    | '0' :: c :: r =>
      if c = 'b' ∨ c = 'B' then needDigits (scanLoop 2 true .digit 0 0 r)
      else if c = 'o' ∨ c = 'O' then needDigits (scanLoop 8 true .digit 0 0 r)
      else if c = 'x' ∨ c = 'X' then needDigits (scanLoop 16 true .digit 0 0 r)
      else (scanLoop 8 true .digit 0 0 (c :: r)).map (·.1)
    | s => needDigits (scanLoop 10 true .start 0 0 s)
  else needDigits (scanLoop base false .start 0 0 s)

/-- `big.Int.SetString`. -/
def setString (base : ℕ) (s : List Char) : Option ℤ :=
  match s with
  | '-' :: r => (natScan base r).map (fun (n : ℕ) => -(n : ℤ))
  | '+' :: r => (natScan base r).map (fun (n : ℕ) => (n : ℤ))
  | r => (natScan base r).map (fun (n : ℕ) => (n : ℤ))

/-- `underDigit.ReplaceAllString(s, "$1")` (string.go:16, 32): an underscore before a decimal digit is removed. -/
def removeUnder : List Char → List Char
  | [] => []
  | [c] => [c]
  | c :: d :: r => if c = '_' ∧ '0' ≤ d ∧ d ≤ '9' then removeUnder (d :: r) else c :: removeUnder (d :: r)

/-- The text without one leading minus sign. -/
def dropMinus : List Char → List Char
  | '-' :: r => r
  | r => r

/-- `ParseBigInt` (string.go:18-39). -/
def parseBigInt (s : List Char) : Option ℤ :=
  match dropMinus s with
  | '0' :: c :: _ =>
    if c = 'o' ∨ c = 'O' ∨ c = 'X' ∨ c = 'b' ∨ c = 'B' then none
    else if c = 'x' then setString 0 s
    else setString 10 (removeUnder s)
  | _ => setString 0 s

/-- `FormatInt` (string.go:72-81). -/
def formatInt (v : BitVec 64) : List Char :=
  if v.toInt < 0 then encodeHexNumber true (goSizeToBytes (-v)) else encodeHexNumber false (goSizeToBytes v)

/-- `FormatUint` (string.go:83-85). -/
def formatUint (v : BitVec 64) : List Char := encodeHexNumber false (goSizeToBytes v)

/-! ### `strconv` -/

def lower (c : Char) : Char := if 'A' ≤ c ∧ c ≤ 'Z' then Char.ofNat (c.toNat + 32) else c

/-- The digits of `strconv.ParseUint` in base `b`, separators skipped. -/
def uintLoop (b : ℕ) : ℕ → List Char → Option ℕ
  | acc, [] => some acc
  | acc, c :: cs =>
    if c = '_' then uintLoop b acc cs
    else match digitVal c with
      | none => none
      | some d => if d ≥ b then none else uintLoop b (acc * b + d) cs

/-- The loop of `strconv.underscoreOK`; `saw`: start (`^`), digit (`0`), separator (`_`) or other (`!`). -/
def underLoop (hex : Bool) : Char → List Char → Bool
  | saw, [] => saw != '_'
  | saw, c :: cs =>
    if ('0' ≤ c ∧ c ≤ '9') ∨ (hex = true ∧ 'a' ≤ lower c ∧ lower c ≤ 'f') then underLoop hex '0' cs
    else if c = '_' then (if saw = '0' then underLoop hex '_' cs else false)
    else if saw = '_' then false
    else underLoop hex '!' cs

/-- `strconv.underscoreOK` after the sign. -/
def underscoreOK : List Char → Bool
  | '0' :: c :: r =>
    if lower c = 'b' ∨ lower c = 'o' ∨ lower c = 'x' then underLoop (lower c = 'x') '0' r
    else underLoop false '^' ('0' :: c :: r)
  | s => underLoop false '^' s

/-- `strconv.ParseUint(s, 0, bits)` without the range check. -/
def parseUint0 (s : List Char) : Option ℕ :=
  let v := match s with
    | [] => none
    | '0' :: c :: d :: r =>
      if lower c = 'b' then uintLoop 2 0 (d :: r)
      else if lower c = 'o' then uintLoop 8 0 (d :: r)
      else if lower c = 'x' then uintLoop 16 0 (d :: r)
      else uintLoop 8 0 (c :: d :: r)
    | '0' :: r => uintLoop 8 0 r
    | s => uintLoop 10 0 s
  if '_' ∈ s ∧ underscoreOK s = false then none else v

/-- `ParseInt` (string.go:56-62), that is `strconv.ParseInt(s, 0, bits)`. -/
def parseInt (bits : ℕ) (s : List Char) : Option ℤ :=
  match s with
  | '-' :: r => match parseUint0 r with
    | some n => if n ≤ 2 ^ (bits - 1) then some (-(n : ℤ)) else none
    | none => none
  | s => match parseUint0 (match s with | '+' :: r => r | s => s) with
    | some n => if n < 2 ^ (bits - 1) then some n else none
    | none => none

/-- `ParseUint` (string.go:64-70). -/
def parseUint (bits : ℕ) (s : List Char) : Option ℕ :=
  match parseUint0 s with
  | some n => if n < 2 ^ bits then some n else none
  | none => none

end Verif.IntCodec
