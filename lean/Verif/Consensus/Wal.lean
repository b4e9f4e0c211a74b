import Verif.Base.Bytes

/-!
# The write-ahead log of the consensus engine (`consensus/wal.go`)

A log is a group of numbered files `id_0, id_1, …`.  A record is written as a frame: four bytes of CRC-32C of the
payload, four bytes of its length, the payload.  Frames go through a 4 KiB buffer to the last file; `Sync` flushes
the buffer and calls `fsync`.  A housekeeping goroutine starts a new file when the last one is over a limit
and removes the oldest files when all together are over another one.  At the start of a node the records are read
from the oldest file on, and if the log ends in the middle of a record it is cut there (`CloseAndRepair`).

Simplifications.  A file is the bytes written to it together with the number of bytes known to be on the disk; a crash
keeps of every file a prefix that has at least these.  Creation, removal and truncation of files survive a crash
(the code does not `fsync` the directory).  Read and write errors of the file system are not modelled, indices are
unbounded, names with the prefix of the group and without a number are not there.  Times are not
modelled: whether the housekeeper syncs is free.  The checksum is a parameter, every theorem is for all of them.
-/

namespace Verif.Wal

/-- An error of `ReadBytes` (`wal.go:376-400`, `:438-454`). -/
inductive Err
  | eof
  | unexpectedEOF
  | corrupted
  deriving DecidableEq, Repr

/-- A file with the number of its bytes that are on the disk (`synced`), see the head of this file. -/
structure File where
  data : Bytes
  synced : ℕ
  deriving DecidableEq, Repr

/-- The files of the group in the directory. -/
abbrev Disk := List (ℕ × File)

/-- `walInfo` (`wal.go:75-81`); `head` is `none` for the `maxUint64` of an empty directory. -/
structure Info where
  head : Option ℕ
  tail : ℕ
  total : ℕ
  tailSize : ℕ
  sizes : List ℕ
  deriving DecidableEq, Repr

/-- The file of a number (`fileFor`, `os.Open`, `os.Stat`, `wal.go:83-85`). -/
def find (d : Disk) (i : ℕ) : Option File := (d.find? (fun x => x.1 == i)).map (fun x => x.2)

/-- Changes the file of a number. -/
def modify (d : Disk) (i : ℕ) (f : File → File) : Disk := d.map (fun x => if x.1 = i then (x.1, f x.2) else x)

/-- `os.Remove` (`wal.go:334`, `:426`), without the error. -/
def remove (d : Disk) (i : ℕ) : Disk := d.filter (fun x => x.1 != i)

/-- The largest number, and the size of its file: `maxIndex`, `tailSize` (`wal.go:119-122`). -/
def maxStep (m : ℕ × ℕ) (x : ℕ × File) : ℕ × ℕ := if m.1 = 0 ∨ m.1 < x.1 then (x.1, x.2.data.length) else m

/-- The smallest number: `minIndex` (`wal.go:123-125`). -/
def minStep (m : Option ℕ) (x : ℕ × File) : Option ℕ :=
  match m with
  | none => some x.1
  | some i => if x.1 < i then some x.1 else some i

/-- `readWALInfo` (`wal.go:87-145`).  The sizes are those from the smallest to the largest number, zero for a number without a
file (`:128-135`; for an empty directory they are not used). -/
def readInfo (d : Disk) : Info :=
  let m := d.foldl maxStep (0, 0)
  let h := d.foldl minStep none
  { head := h
    tail := m.1
    total := (d.map (fun x => x.2.data.length)).sum
    tailSize := m.2
    sizes := match h with
      | none => []
      | some i => (List.range (m.1 - i + 1)).map (fun k => ((find d (i + k)).map (fun f => f.data.length)).getD 0) }

section
variable (crc : Bytes → UInt32)

/-- The frame of a payload (`WriteBytes`, `wal.go:193-201`). -/
def frame (p : Bytes) : Bytes := beBytes 4 (crc p).toNat ++ beBytes 4 p.length ++ p

/-- `io.ReadAtLeast(r, make([]byte, n), n)`: `io.EOF` if there is nothing to read, `io.ErrUnexpectedEOF` if there is less than
`n` bytes. -/
def readAtLeast (n : ℕ) (bs : Bytes) : Except Err (Bytes × Bytes) :=
  if n ≤ bs.length then .ok (bs.take n, bs.drop n)
  else if bs = [] then .error .eof
  else .error .unexpectedEOF

/-- `ReadBytes` after the header `h` (`wal.go:382-399`): the payload and what is left after it. -/
def readBody (h r : Bytes) : Except Err (Bytes × Bytes) :=
  (readAtLeast (beNat (h.drop 4)) r).bind
    (fun x => if (crc x.1).toNat ≠ beNat (h.take 4) then .error .corrupted else .ok x)

/-- `walReader.ReadBytes` (`wal.go:376-400`) on the bytes that are left. -/
def readBytes (bs : Bytes) : Except Err (Bytes × Bytes) :=
  (readAtLeast 8 bs).bind (fun x => readBody crc x.1 x.2)

/-- One round of the loop below: the result of `ReadBytes` and what the loop does with the rest. -/
def readRound (f : Bytes → List Bytes × Err × ℕ) : Except Err (Bytes × Bytes) → List Bytes × Err × ℕ
  | .error e => ([], e, 0)
  | .ok x => (x.1 :: (f x.2).1, (f x.2).2.1, 8 + x.1.length + (f x.2).2.2)

/-- The loop of the recovery (`consensus.go:1362-1377`, the same at `:1478-1493`, `:1588-1603`): the payloads up to the first error, the error,
and `validOffset` (`wal.go:398`).  Every record takes eight bytes, so `bs.length + 1` rounds are enough. -/
def readLoop : ℕ → Bytes → List Bytes × Err × ℕ
  | 0, _ => ([], .eof, 0)
  | n + 1, bs => readRound (readLoop n) (readBytes crc bs)

/-- All records that can be read. -/
def readAll (bs : Bytes) : List Bytes × Err × ℕ := readLoop crc (bs.length + 1) bs

/-- The bytes of the files with the numbers `i, i + 1, …, i + n - 1`, one after the other; an error if one is missing
(`OpenWALForRead`, `wal.go:363-373`). -/
def concat (d : Disk) : ℕ → ℕ → Option Bytes
  | _, 0 => some []
  | i, n + 1 =>
    match find d i with
    | none => none
    | some f => (concat d (i + 1) n).map (fun bs => f.data ++ bs)

/-- `OpenWALForRead` (`wal.go:347-374`); `none` is an error that satisfies `IsNotExist`. -/
def openRead (d : Disk) : Option (Info × Bytes) :=
  match (readInfo d).head with
  | none => none
  | some h =>
    if (readInfo d).tail < h then none
    else (concat d h ((readInfo d).tail - h + 1)).map (fun bs => (readInfo d, bs))

/-- The loop `for i := idx + 1; i <= tailIdx; i++ { os.Remove(fileFor(id, idx)) }` (`wal.go:425-429`): it removes the file `idx`, not
`i`.  The flag is whether every removal has found a file. -/
def removeLoop : ℕ → ℕ → Disk → Disk × Bool
  | 0, _, d => (d, true)
  | n + 1, idx, d => if (find d idx).isSome then removeLoop n idx (remove d idx) else (d, false)

/-- The loop of `CloseAndRepair` (`wal.go:413-435`). -/
def repairLoop (tail : ℕ) : List ℕ → ℕ → ℕ → Disk → Disk × Bool
  | [], _, _, d => (d, true)
  | s :: ss, left, idx, d =>
    if left ≤ s then
      removeLoop (tail - idx) idx
        (if left < s then modify d idx (fun f => ⟨f.data.take left, min f.synced left⟩) else d)
    else repairLoop tail ss (left - s) (idx + 1) d

/-- `CloseAndRepair` (`wal.go:408-436`). -/
def repair (i : Info) (valid : ℕ) (d : Disk) : Disk × Bool := repairLoop i.tail i.sizes valid (i.head.getD 0) d

/-- The recovery of a log at the start (`consensus.go:1352-1375`, `:1670-1681`): the disk after it, and the records that are taken into
account.  An error `IsNotExist` is ignored, and the log with it (`none`). -/
def recover (d : Disk) : Disk × Option (List Bytes) :=
  match openRead d with
  | none => (d, none)
  | some (i, bs) =>
    if (readAll crc bs).2.1 = .eof then (d, some (readAll crc bs).1)
    else
      ((repair i (readAll crc bs).2.2 d).1,
        if (repair i (readAll crc bs).2.2 d).2 then some (readAll crc bs).1 else none)

/-- `walWriter` (`wal.go:62-73`): the number of the last file and the buffer. -/
structure Writer where
  tail : ℕ
  buf : Bytes
  deriving DecidableEq, Repr

/-- `os.OpenFile(…, O_CREATE|O_WRONLY|O_APPEND, …)` (`wal.go:176`, `:296`): the file is made if it is not there. -/
def create (d : Disk) (i : ℕ) : Disk := if (find d i).isSome then d else d ++ [(i, ⟨[], 0⟩)]

/-- `OpenWALForWrite` (`wal.go:148-188`). -/
def openWrite (d : Disk) : Disk × Writer := (create d (readInfo d).tail, ⟨(readInfo d).tail, []⟩)

/-- `FileLimit` and `TotalLimit` (`wal.go:53-54`). -/
structure Config where
  fileLimit : ℕ
  totalLimit : ℕ

/-- A log with its writer, if the node runs, and the last `walInfo` the housekeeper has read and not used yet (`wal.go:304-309`: it
is read without the lock).  `log`, `gone` and `synced` are for the statements: the records written and not lost in a
crash, how many of them were in files that the housekeeper has removed, and how many of them a successful `Sync` has covered. -/
structure State where
  disk : Disk
  writer : Option Writer
  seen : Option Info
  log : List Bytes
  gone : ℕ
  synced : ℕ

/-- Before the first start. -/
def State.empty : State := ⟨[], none, none, [], 0, 0⟩

/-- `WriteBytes` (`wal.go:190-209`). -/
def State.write (s : State) (p : Bytes) : Option State :=
  match s.writer with
  | none => none
  | some w => some { s with writer := some { w with buf := w.buf ++ frame crc p }, log := s.log ++ [p] }

/-- The buffer gives `k` bytes to the file (`bufio.Writer.Write` when it is full; when and how much is free here). -/
def State.spill (s : State) (k : ℕ) : Option State :=
  match s.writer with
  | none => none
  | some w => some { s with
      disk := modify s.disk w.tail (fun f => { f with data := f.data ++ w.buf.take k })
      writer := some { w with buf := w.buf.drop k } }

/-- `sync` (`wal.go:218-227`): flushes the buffer and calls `fsync`. -/
def State.sync (s : State) : Option State :=
  match s.writer with
  | none => none
  | some w => some { s with
      disk := modify s.disk w.tail (fun f => ⟨f.data ++ w.buf, f.data.length + w.buf.length⟩)
      writer := some { w with buf := [] }
      synced := s.log.length }

/-- `shift` (`wal.go:286-301`). -/
def State.shift (s : State) : Option State :=
  match s.sync with
  | none => none
  | some s =>
    match s.writer with
    | none => none
    | some w => some { s with disk := create s.disk (w.tail + 1), writer := some { w with tail := w.tail + 1 } }

/-- The housekeeper reads the directory (`wal.go:304-308`). -/
def State.look (s : State) : Option State :=
  match s.writer with
  | none => none
  | some _ => some { s with seen := some (readInfo s.disk) }

/-- The loop that removes the oldest files (`wal.go:325-340`); `none` is the `panic` when there is no file.  The number of rounds is bounded by
the number of files. -/
def State.purge : ℕ → ℤ → ℤ → ℕ → State → Option State
  | 0, limit, total, _, s => if limit < total then none else some s
  | n + 1, limit, total, head, s =>
    if limit < total then
      match find s.disk head with
      | none => none
      | some f => State.purge n limit (total - f.data.length) (head + 1)
          { s with disk := remove s.disk head, gone := s.gone + (readAll crc f.data).1.length }
    else some s

/-- `doHousekeeping` after the directory was read (`wal.go:310-341`); `due` is whether the oldest unsynced data is old. -/
def State.house (cfg : Config) (due : Bool) (s : State) : Option State :=
  match s.seen with
  | none => none
  | some i =>
    match (if cfg.fileLimit < i.tailSize then s.shift else if due then s.sync else some s) with
    | none => none
    | some s' => State.purge crc s'.disk.length cfg.totalLimit i.total (i.head.getD 0) { s' with seen := none }

/-- `Close` (`wal.go:248-266`). -/
def State.close (s : State) : Option State :=
  match s.sync with
  | none => none
  | some s => some { s with writer := none, seen := none }

/-- A crash, of the node or of the machine: the buffer is lost, of the file `i` the first `keep i` bytes are left.  What was not
synced before is not synced after it: a later crash may still take it. -/
def State.crash (s : State) (keep : ℕ → ℕ) : State :=
  { s with
    disk := s.disk.map (fun x => (x.1, ⟨x.2.data.take (keep x.1), x.2.synced⟩))
    writer := none
    seen := none }

/-- What `fsync` was called for is left after a crash. -/
def State.Keeps (s : State) (keep : ℕ → ℕ) : Prop := ∀ x ∈ s.disk, x.2.synced ≤ keep x.1

/-- The start of the node: recovery and opening for writing (`consensus.go:1812-1850`).  The records of the log are now those
that were read. -/
def State.start (s : State) : Option State :=
  match s.writer with
  | some _ => none
  | none => some
      { disk := (openWrite (recover crc s.disk).1).1
        writer := some (openWrite (recover crc s.disk).1).2
        seen := none
        log := s.log.take s.gone ++ ((recover crc s.disk).2).getD []
        gone := s.gone
        synced := s.synced }

end

end Verif.Wal
