import Verif.IntCodec.Model

/-! # Database keys: RLP string encoding and key concatenation

pyee/pyexec/database/db.py and common/containerdb/common.go. -/

namespace Verif.Keys

/-- pyee/pyexec/database/db.py:38-42 `rlp_get_bytes`. The code divides with `int(x / 256)` (floating
point, exact for `x < 2^53`); the model divides exactly. -/
def rlpGetBytes (x : Nat) : Bytes :=
  if _h : x = 0 then [] else rlpGetBytes (x / 256) ++ [UInt8.ofNat (x % 256)]
termination_by x
decreasing_by omega

/-- pyee/pyexec/database/db.py:28-35 `rlp_encode_bytes`. -/
def rlpEncode (b : Bytes) : Bytes :=
  if b.length = 1 ∧ (b.headD 0).toNat < 0x80 then b
  else if b.length ≤ 55 then UInt8.ofNat (b.length + 0x80) :: b
  else
    let lb := rlpGetBytes b.length
    UInt8.ofNat (lb.length + 0x80 + 55) :: (lb ++ b)

/-- common/containerdb/common.go:30-36 `rlpCountBytesForSize` (size as a natural number). -/
def goCountBytes (b : Nat) : Nat :=
  if b / 256 = 0 then 1 else goCountBytes (b / 256) + 1
termination_by b
decreasing_by omega

/-- common/containerdb/common.go:38-58 `rlpEncodeBytes`; the loop at 52-55 writes `blen` big-endian in
`tslen` bytes. -/
def goRlpEncode (b : Bytes) : Bytes :=
  if b.length = 1 ∧ (b.headD 0).toNat < 0x80 then b
  else if b.length ≤ 55 then UInt8.ofNat (0x80 + b.length) :: b
  else
    let tslen := goCountBytes b.length
    UInt8.ofNat (0x80 + 55 + tslen) :: (beBytes tslen b.length ++ b)

/-- common/containerdb/common.go:90-118 `rlpReadSize`; `none` is an error. -/
def goReadSize (b : Bytes) (slen : Nat) : Option Nat :=
  if slen > b.length then none
  else
    let s := beNat (b.take slen)
    if s < 56 ∨ b.headD 0 = 0 ∨ s > 2 ^ 63 - 1 then none else some s

/-- common/containerdb/common.go:120-152 `rlpParseBytes`: first item and the rest; `none` is an error
or EOF. -/
def goParse (bs : Bytes) : Option (Bytes × Bytes) :=
  match bs with
  | [] => none
  | tag :: data =>
    if tag.toNat < 0x80 then some ([tag], data)
    else if tag.toNat < 0xB8 then
      let size := tag.toNat - 0x80
      if data.length < size then none else some (data.take size, data.drop size)
    else if tag.toNat < 0xC0 then
      let ts := tag.toNat - 0xb7
      match goReadSize data ts with
      | none => none
      | some size =>
        let data := data.drop ts
        if data.length < size then none else some (data.take size, data.drop size)
    else none

/-- every item consumes at least one byte (needed for the termination of `SplitKeys`) -/
theorem goParse_lt {bs part rest : Bytes} (h : goParse bs = some (part, rest)) :
    rest.length < bs.length := by
  unfold goParse at h
  split at h
  · simp at h
  · split at h
    · simp only [Option.some.injEq, Prod.mk.injEq] at h
      obtain ⟨_, rfl⟩ := h; simp
    · split at h
      · simp only at h
        split at h
        · simp at h
        · simp only [Option.some.injEq, Prod.mk.injEq] at h
          obtain ⟨_, rfl⟩ := h; simp; omega
      · split at h
        · simp only at h
          split at h
          · simp at h
          · split at h
            · simp at h
            · simp only [Option.some.injEq, Prod.mk.injEq] at h
              obtain ⟨_, rfl⟩ := h; simp; omega
        · simp at h

/-- common/containerdb/common.go:154-165 `SplitKeys`. -/
def goSplitKeys (key : Bytes) : Option (List Bytes) :=
  if key = [] then some []
  else
    match _h : goParse key with
    | none => none
    | some (part, remain) =>
      match goSplitKeys remain with
      | none => none
      | some ks => some (part :: ks)
termination_by key.length
decreasing_by exact goParse_lt _h

/-- pyee/pyexec/database/db.py:49-50 `concat_encoded`: joins the parts that are not None. -/
def concatEncoded (parts : List (Option Bytes)) : Bytes := (parts.filterMap id).flatten

/-- common/containerdb/common.go:60-73 `AppendKeys` (on keys already converted by `ToBytes`). -/
def goAppendKeys (key : Bytes) (keys : List Bytes) : Bytes := key ++ (keys.map goRlpEncode).flatten

/-- `IconScoreDatabase` fields relevant to keys, pyee/pyexec/database/db.py:262-281. -/
structure Db where
  tag : Option Bytes
  pfx : Option Bytes
deriving DecidableEq, Repr

/-- the database handed to a SCORE: no tag, no prefix -/
def Db.root : Db := ⟨none, none⟩

/-- pyee/pyexec/database/db.py:307-332 `get_sub_db` (`prefix` not None). -/
def Db.subDb (d : Db) (p : Bytes) (tag : Option Bytes) : Db :=
  let p := rlpEncode p
  let (tag, pfx) : Option Bytes × Option Bytes :=
    match tag, d.tag with
    | some t, none => (some (concatEncoded [some t, some p]), none)
    | _, _ => (d.tag, some p)
  let pfx := match d.pfx with
    | some q => some (concatEncoded [some q, pfx])
    | none => pfx
  ⟨tag, pfx⟩

/-- pyee/pyexec/database/db.py:356-365 `_hash_key` before hashing. -/
def Db.slot (d : Db) (key : Option Bytes) : Bytes :=
  concatEncoded [d.tag, d.pfx, key.map rlpEncode]

end Verif.Keys
