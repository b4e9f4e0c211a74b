import Verif.Base.Bytes

/-!
# LZW compression

Model of `common/compress.go` with `common/lzw/writer.go` and `common/lzw/reader.go`, for the only
parameters they are used with: most significant bits first (`lzw.MSB`) and `litWidth = 8`.

`uint32`, `uint16` and `uint` values are natural numbers; shifts to the left are cut to 32 bits as
in Go.  Reading from and writing to a `bytes.Buffer` do not fail except at the end of the data.

The `output` array of the reader is modelled as the list `o` of the bytes accumulated at its start
(`output[:o]`) and the list written from its end to the left (`output[i:]`); the model panics when
the two parts would meet, which Go would not notice but which would destroy data.
-/

namespace Verif.Lzw

open Verif

/-! ## The writer -/

/-- `maxCode`, `common/lzw/writer.go:23`. -/
def maxCode : Nat := 4095

/-- `invalidCode`, `common/lzw/writer.go:24`. -/
def invalidCode : Nat := 4294967295

/-- `tableSize`, `common/lzw/writer.go:27`. -/
def tableSize : Nat := 16384

/-- `tableMask`, `common/lzw/writer.go:28`. -/
def tableMask : Nat := 16383

/-- `Writer`, `common/lzw/writer.go:36-62`; `out` is what was written to the buffer. -/
structure Writer where
  out : Bytes
  bits : Nat
  nBits : Nat
  width : Nat
  hi : Nat
  overflow : Nat
  savedCode : Nat
  table : Nat → Nat

/-- `NewWriter(wb, lzw.MSB, 8)`, `common/lzw/writer.go:239-275`. -/
def newWriter : Writer :=
  { out := [], bits := 0, nBits := 0, width := 9, hi := 257, overflow := 512,
    savedCode := invalidCode, table := fun _ => 0 }

/-- Truncation to `uint32`. -/
def u32 (n : Nat) : Nat := n % 2 ^ 32

/-- The loop of `writeMSB` that writes full bytes, `common/lzw/writer.go:82-88`; `fuel` bounds the
iterations (each takes 8 of `nBits`). -/
def drain : Nat → Bytes → Nat → Nat → Bytes × Nat × Nat
  | 0, out, bits, nBits => (out, bits, nBits)
  | fuel + 1, out, bits, nBits =>
    if 8 ≤ nBits then
      drain fuel (out ++ [UInt8.ofNat (bits >>> 24)]) (u32 (bits <<< 8)) (nBits - 8)
    else (out, bits, nBits)

/-- `(*Writer).writeMSB`, `common/lzw/writer.go:79-90`. -/
def writeMSB (w : Writer) (c : Nat) : Writer :=
  let r := drain (w.nBits + w.width) w.out (w.bits ||| u32 (c <<< (32 - w.width - w.nBits)))
    (w.nBits + w.width)
  { w with out := r.1, bits := r.2.1, nBits := r.2.2 }

/-- `(*Writer).incHi`, `common/lzw/writer.go:99-119`; `true` is `errOutOfCodes`. -/
def incHi (w : Writer) : Writer × Bool :=
  let w := { w with hi := w.hi + 1 }
  let w := if w.hi = w.overflow then { w with width := w.width + 1, overflow := u32 (w.overflow <<< 1) }
    else w
  if w.hi = maxCode then
    let w := writeMSB w 256
    ({ w with width := 9, hi := 257, overflow := 512, table := fun _ => 0 }, true)
  else (w, false)

/-- The hash of a key, `common/lzw/writer.go:149`. -/
def hashKey (key : Nat) : Nat := ((key >>> 12) ^^^ key) &&& tableMask

/-- The search in the hash table, `common/lzw/writer.go:150-157`; `fuel` bounds the probes by the
size of the table. -/
def lookup (table : Nat → Nat) (key : Nat) : Nat → Nat → Option Nat
  | 0, _ => Option.none
  | fuel + 1, h =>
    if table h = 0 then Option.none
    else if key = table h >>> 12 then some (table h &&& maxCode)
    else lookup table key fuel ((h + 1) &&& tableMask)

/-- The insertion into the hash table, `common/lzw/writer.go:173-180`. -/
def insert (table : Nat → Nat) (key hi : Nat) : Nat → Nat → (Nat → Nat)
  | 0, _ => table
  | fuel + 1, h =>
    if table h = 0 then Function.update table h (u32 (key <<< 12) ||| hi)
    else insert table key hi fuel ((h + 1) &&& tableMask)

/-- The loop of `Write`, `common/lzw/writer.go:143-181`. -/
def encLoop (w : Writer) (code : Nat) : Bytes → Writer × Nat
  | [] => (w, code)
  | x :: p =>
    let key := u32 (code <<< 8) ||| x.toNat
    match lookup w.table key tableSize (hashKey key) with
    | some c => encLoop w c p
    | Option.none =>
      let (w1, full) := incHi (writeMSB w code)
      if full then encLoop w1 x.toNat p
      else encLoop { w1 with table := insert w1.table key w1.hi tableSize (hashKey key) } x.toNat p

/-- `(*Writer).Write`, `common/lzw/writer.go:122-184`. -/
def write (w : Writer) (p : Bytes) : Writer :=
  match p with
  | [] => w
  | x :: p' =>
    let (w1, code) :=
      if w.savedCode = invalidCode then encLoop w x.toNat p' else encLoop w w.savedCode (x :: p')
    { w1 with savedCode := code }

/-- `(*Writer).Close`, `common/lzw/writer.go:188-221`; the result is what the buffer then holds. -/
def close (w : Writer) : Bytes :=
  let w := if w.savedCode ≠ invalidCode then (incHi (writeMSB w w.savedCode)).1 else w
  let w := writeMSB w 257
  if 0 < w.nBits then w.out ++ [UInt8.ofNat (w.bits >>> 24)] else w.out

/-- `Compress`, `common/compress.go:10-19`. -/
def compress (bs : Bytes) : Bytes := if bs.length = 0 then [] else close (write newWriter bs)

/-! ## The reader -/

/-- `decoderInvalidCode`, `common/lzw/reader.go:41`. -/
def decInvalid : Nat := 65535

/-- `flushBuffer`, `common/lzw/reader.go:42`. -/
def flushBuffer : Nat := 4096

/-- The length of `output`, `common/lzw/reader.go:84`. -/
def outputSize : Nat := 8192

/-- The bit buffer of a `Reader` and the data not read yet, `common/lzw/reader.go:48-50`. -/
structure RBits where
  bits : Nat
  nBits : Nat
  inp : Bytes
deriving Repr, DecidableEq

/-- The loop of `readMSB` that fills the bit buffer, `common/lzw/reader.go:107-114`; `none` is the
end of the data. -/
def fill (width : Nat) : Nat → RBits → Option RBits
  | 0, r => some r
  | fuel + 1, r =>
    if r.nBits < width then
      match r.inp with
      | [] => Option.none
      | x :: inp =>
        fill width fuel
          { bits := r.bits ||| u32 (x.toNat <<< (24 - r.nBits)), nBits := r.nBits + 8, inp := inp }
    else some r

/-- `(*Reader).readMSB`, `common/lzw/reader.go:106-119`. -/
def readMSB (width : Nat) (r : RBits) : Option (Nat × RBits) :=
  match fill width width r with
  | Option.none => Option.none
  | some r =>
    some (r.bits >>> (32 - width),
      { bits := u32 (r.bits <<< width), nBits := r.nBits - width, inp := r.inp })

/-- The rest of a `Reader`, `common/lzw/reader.go:51-87`: `o` is `output[:o]`, `acc` is what was
returned from `Read` so far. -/
structure Dict where
  width : Nat
  hi : Nat
  overflow : Nat
  last : Nat
  suffix : Nat → UInt8
  pfx : Nat → Nat
  o : Bytes
  acc : Bytes

/-- `NewReader(wb, lzw.MSB, 8)`, `common/lzw/reader.go:254-290`. -/
def newDict : Dict :=
  { width := 9, hi := 257, overflow := 512, last := decInvalid, suffix := fun _ => 0,
    pfx := fun _ => 0, o := [], acc := [] }

/-- The head of an expansion: the loop of `common/lzw/reader.go:176-179`; `none` stands for a loop
that does not end within the size of the table. -/
def headOf (d : Dict) : Nat → Nat → Option Nat
  | 0, _ => Option.none
  | fuel + 1, c => if 256 ≤ c then headOf d fuel (d.pfx c) else some c

/-- The loop of `common/lzw/reader.go:185-190`: `tail` is `output[i+1:]`; the result is the literal
at the end of the chain and `output[i:]`. -/
def expand (d : Dict) : Nat → Nat → Bytes → Option (Nat × Bytes)
  | 0, _, _ => Option.none
  | fuel + 1, c, tail =>
    if 256 ≤ c then expand d fuel (d.pfx c) (d.suffix c :: tail)
    else some (c, UInt8.ofNat c :: tail)

/-- What a round of the loop of `decode` leads to. -/
inductive DStep
  | cont (d : Dict)
  | stop (d : Dict) (eof : Bool)
  | panic

/-- Saving what the code `hi` expands to, `common/lzw/reader.go:156-160, 192-196`. -/
def save (d : Dict) (x : UInt8) : Dict :=
  if d.last ≠ decInvalid then
    { d with suffix := Function.update d.suffix d.hi x, pfx := Function.update d.pfx d.hi d.last }
  else d

/-- The end of a round, `common/lzw/reader.go:201-223`. -/
def endRound (d : Dict) (code : Nat) : DStep :=
  let d := { d with last := code, hi := d.hi + 1 }
  if d.overflow < d.hi then .panic
  else
    let d :=
      if d.overflow ≤ d.hi then
        if d.width = 12 then { d with last := decInvalid, hi := d.hi - 1 }
        else { d with width := d.width + 1, overflow := 2 ^ (d.width + 1) }
      else d
    .cont (if flushBuffer ≤ d.o.length then { d with acc := d.acc ++ d.o, o := [] } else d)

/-- The bytes a code between the special codes and `hi` expands to, with the first of them,
`common/lzw/reader.go:171-190`. -/
def expansion (d : Dict) (code : Nat) : Option (Nat × Bytes) :=
  if code = d.hi ∧ d.last ≠ decInvalid then
    match headOf d flushBuffer d.last with
    | Option.none => Option.none
    | some h => expand d flushBuffer d.last [UInt8.ofNat h]
  else expand d flushBuffer code []

/-- One round of the loop of `(*Reader).decode`, `common/lzw/reader.go:142-219`. -/
def round (d : Dict) (code : Nat) : DStep :=
  if code < 256 then
    if outputSize ≤ d.o.length then .panic
    else endRound (save { d with o := d.o ++ [UInt8.ofNat code] } (UInt8.ofNat code)) code
  else if code = 256 then
    .cont { d with width := 9, hi := 257, overflow := 512, last := decInvalid }
  else if code = 257 then .stop { d with acc := d.acc ++ d.o, o := [] } true
  else if code ≤ d.hi then
    match expansion d code with
    | Option.none => .panic
    | some (c, s) =>
      if outputSize < d.o.length + s.length then .panic
      else endRound (save { d with o := d.o ++ s } (UInt8.ofNat c)) code
  else .stop { d with acc := d.acc ++ d.o, o := [] } false

/-- What `Decompress` sees: the data, and whether the end mark was found; or a panic. -/
inductive Result
  | data (bs : Bytes) (eof : Bool)
  | panic
deriving Repr, DecidableEq

/-- `io.ReadAll` over `(*Reader).Read` and `(*Reader).decode`, `common/lzw/reader.go:122-134, 139-224`:
rounds until an error or the end mark; what was accumulated is returned in any case. `fuel` bounds
the number of codes. -/
def decLoop : Nat → RBits → Dict → Result
  | 0, _, _ => .panic
  | fuel + 1, b, d =>
    match readMSB d.width b with
    | Option.none => .data (d.acc ++ d.o) false
    | some (code, b') =>
      match round d code with
      | .panic => .panic
      | .stop d' eof => .data d'.acc eof
      | .cont d' => decLoop fuel b' d'

/-- `Decompress`, `common/compress.go:21-30`, with the error that it drops. -/
def decompress (bs : Bytes) : Result :=
  if bs.length = 0 then .data [] true
  else decLoop (8 * bs.length + 1) { bits := 0, nBits := 0, inp := bs } newDict

end Verif.Lzw
