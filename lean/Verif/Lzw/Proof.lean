import Verif.Lzw.Sync

/-! # Properties of the compression (C75) -/

namespace Verif.Lzw

open Verif

/-! ## Round trip -/

theorem enc_start (x : UInt8) :
    Enc newWriter x.toNat newDict (fun _ => Option.none) [x] [x] := by
  refine ⟨⟨clean_zero _, by simp [newWriter]⟩, ?_, ⟨rfl, rfl, rfl, ⟨by norm_num [newWriter],
    by norm_num [newWriter], by norm_num [newWriter], by norm_num [newWriter],
    by norm_num [newWriter], by norm_num [newWriter]⟩, entOk_empty _, tinv_empty,
    (fun _ _ _ h => by simp at h), ?_, by simp [newDict], by norm_num [newWriter], fun _ => rfl,
    by simp [newDict, flushBuffer]⟩⟩
  · have : written newWriter = [] := by simp [written, newWriter, bitsOfBytes, top]
    rw [this]; exact .nil _
  · have := Str.lit (E := fun _ => Option.none) (c := x.toNat) x.toNat_lt
    rwa [UInt8.ofNat_toNat] at this

/-- The last byte only adds bits. -/
theorem pad_bits {bits n : Nat} (h : Clean bits n) (hn : n < 8) :
    ∃ pad, bitsOf 8 (UInt8.ofNat (bits >>> 24)).toNat = top bits n ++ pad := by
  have h8 : Clean bits 8 := ⟨fun i hi => h.low i (by omega), h.lt⟩
  obtain ⟨e, _, hl⟩ := take_bits (w := 8) h8 (le_refl _) (by norm_num)
  have hb : (UInt8.ofNat (bits >>> 24)).toNat = bits >>> (32 - 8) := by
    rw [UInt8.toNat_ofNat']; exact Nat.mod_eq_of_lt hl
  rw [hb]
  have e' : top bits 8 = bitsOf 8 (bits >>> (32 - 8)) := by
    rw [e]; simp [top]
  rw [← e']
  refine ⟨(top bits 8).drop n, ?_⟩
  have : top bits n = (top bits 8).take n := by
    rw [top, top, ← List.map_take, List.take_range, Nat.min_eq_left (by omega)]
  rw [this, List.take_append_drop]

/-- Closing a writer that has consumed a string: the reader gives the string back. -/
theorem close_spec {w : Writer} {d : Dict} {E : Ent} {s consumed : Bytes}
    (I : Enc w w.savedCode d E s consumed) :
    (close w).length ≠ 0 ∧
    decLoop (8 * (close w).length + 1) { bits := 0, nBits := 0, inp := close w } newDict =
      .data consumed true := by
  have hcl := Str.le I.sync.ent I.sync.str
  have htop := I.sync.shape.top
  have hne : w.savedCode ≠ invalidCode := by rw [invalidCode]; omega
  obtain ⟨d1, hb, hr, hacc, hbuf, eh, ew, eo, sh, _, _⟩ := emit_spec I
  have hclose : close w = (fun w => if 0 < (writeMSB w 257).nBits then
      (writeMSB w 257).out ++ [UInt8.ofNat ((writeMSB w 257).bits >>> 24)] else (writeMSB w 257).out)
      (incHi (writeMSB w w.savedCode)).1 := by
    rw [close, if_pos hne]
  rw [hclose]
  revert hb hr eh ew eo sh
  generalize (incHi (writeMSB w w.savedCode)).1 = w1
  intro hb hr eh ew eo sh
  dsimp only
  have h9 := sh.w9
  have h257 : 257 < 2 ^ w1.width := by
    have : 2 ^ 9 ≤ 2 ^ w1.width := Nat.pow_le_pow_right (by norm_num) h9
    norm_num at this; omega
  obtain ⟨b2, wr2, _⟩ := write_spec hb (c := 257) sh.w12 h257
  obtain ⟨pad, hpad⟩ : ∃ pad, bitsOfBytes (if 0 < (writeMSB w1 257).nBits then
      (writeMSB w1 257).out ++ [UInt8.ofNat ((writeMSB w1 257).bits >>> 24)] else (writeMSB w1 257).out)
      = written w1 ++ (bitsOf w1.width 257 ++ pad) := by
    simp only [← List.append_assoc, ← wr2]
    by_cases h : 0 < (writeMSB w1 257).nBits
    · rw [if_pos h]
      obtain ⟨pad, hp⟩ := pad_bits b2.clean b2.n
      refine ⟨pad, ?_⟩
      rw [bitsOfBytes_append, written, List.append_assoc, ← hp]
      simp [bitsOfBytes]
    · rw [if_neg h]
      refine ⟨[], ?_⟩
      have : (writeMSB w1 257).nBits = 0 := by omega
      simp [written, this, top]
  revert hpad
  generalize (if 0 < (writeMSB w1 257).nBits then
      (writeMSB w1 257).out ++ [UInt8.ofNat ((writeMSB w1 257).bits >>> 24)]
      else (writeMSB w1 257).out) = bs
  intro hpad
  have hlen := congrArg List.length hpad
  rw [length_bitsOfBytes] at hlen
  simp only [List.length_append, length_bitsOf] at hlen
  refine ⟨by omega, ?_⟩
  have hstream : stream { bits := 0, nBits := 0, inp := bs } =
      written w1 ++ (bitsOf w1.width 257 ++ pad) := by
    rw [← hpad]; simp [stream, top]
  obtain ⟨r', n, hr', hs', hn, hloop⟩ := hr.loop { bits := 0, nBits := 0, inp := bs } _
    ⟨clean_zero _, by norm_num⟩ hstream
  obtain ⟨r2, e2, _, _⟩ := read_code sh.w12 h9 h257 hr' hs'
  have hfuel : 8 * bs.length + 1 = (8 * bs.length - n) + 1 + n := by omega
  rw [hfuel, hloop]
  simp only [decLoop, ew, e2]
  have hround : round d1 257 = .stop { d1 with acc := d1.acc ++ d1.o, o := [] } true := by
    rw [round, if_neg (by norm_num), if_neg (by norm_num), if_pos rfl]
  rw [hround]
  dsimp only
  rw [hacc]

theorem enc_saved {w : Writer} {code : Nat} {d : Dict} {E : Ent} {s consumed : Bytes}
    (I : Enc w code d E s consumed) (v : Nat) : Enc { w with savedCode := v } code d E s consumed :=
  ⟨⟨I.bits.clean, I.bits.n⟩, I.reads, ⟨I.sync.hi, I.sync.width, I.sync.overflow, I.sync.shape,
    I.sync.ent, I.sync.tab, I.sync.agree, I.sync.str, I.sync.cons, I.sync.behind, I.sync.start,
    I.sync.buf⟩⟩

/-- **Round trip**: decompressing what was compressed gives the original data, and the end mark is
found, for every byte string. -/
theorem roundtrip (bs : Bytes) : decompress (compress bs) = .data bs true := by
  rcases bs with _ | ⟨x, p⟩
  · rfl
  · rw [compress, if_neg (by simp)]
    obtain ⟨d, E, s, I, _⟩ := encLoop_spec p (enc_start x)
    have hw : write newWriter (x :: p) =
        { (encLoop newWriter x.toNat p).1 with savedCode := (encLoop newWriter x.toNat p).2 } := by
      simp only [write]
      have : newWriter.savedCode = invalidCode := rfl
      rw [if_pos this]
    rw [hw]
    obtain ⟨hne, hd⟩ := close_spec (w := { (encLoop newWriter x.toNat p).1 with
      savedCode := (encLoop newWriter x.toNat p).2 }) (enc_saved I _)
    rw [decompress, if_neg hne, hd]
    rfl

/-- Compressed data is never empty unless the data is. -/
theorem compress_nil_iff (bs : Bytes) : compress bs = [] ↔ bs = [] := by
  constructor
  · intro h
    have := roundtrip bs
    rw [h] at this
    have h2 : decompress [] = .data [] true := rfl
    rw [h2] at this
    injection this with h3 _
    exact h3.symm
  · rintro rfl; rfl

/-- **Compression is injective**: different data have different compressed forms. -/
theorem compress_injective {a b : Bytes} (h : compress a = compress b) : a = b := by
  have ha := roundtrip a
  rw [h, roundtrip b] at ha
  injection ha with h1 _
  exact h1.symm

/-- Writing in pieces. -/
def writeAll (w : Writer) (ps : List Bytes) : Writer := ps.foldl write w

theorem writeAll_spec : ∀ (ps : List Bytes) {w : Writer} {d : Dict} {E : Ent} {s consumed : Bytes},
    Enc w w.savedCode d E s consumed → ∃ d' E' s',
      Enc (writeAll w ps) (writeAll w ps).savedCode d' E' s' (consumed ++ ps.flatten) := by
  intro ps
  induction ps with
  | nil => intro w d E s consumed I; exact ⟨d, E, s, by simpa [writeAll] using I⟩
  | cons p ps ih =>
    intro w d E s consumed I
    rcases p with _ | ⟨x, p⟩
    · obtain ⟨d', E', s', h⟩ := ih I
      exact ⟨d', E', s', by simpa [writeAll, write] using h⟩
    · have hcl := Str.le I.sync.ent I.sync.str
      have htop := I.sync.shape.top
      have hne : w.savedCode ≠ invalidCode := by rw [invalidCode]; omega
      obtain ⟨d1, E1, s1, I1, _⟩ := encLoop_spec (x :: p) I
      have hw : write w (x :: p) =
          { (encLoop w w.savedCode (x :: p)).1 with
            savedCode := (encLoop w w.savedCode (x :: p)).2 } := by
        simp only [write]
        rw [if_neg hne]
      obtain ⟨d', E', s', h⟩ := ih (w := write w (x :: p)) (d := d1) (E := E1) (s := s1)
        (consumed := consumed ++ (x :: p)) (by rw [hw]; exact enc_saved I1 _)
      refine ⟨d', E', s', ?_⟩
      have : consumed ++ (x :: p) ++ ps.flatten = consumed ++ ((x :: p) :: ps).flatten := by simp
      rw [this] at h
      exact h

/-- **Round trip of a writer that is fed in pieces**: however the data are cut, the reader gives
them back. -/
theorem roundtrip_pieces (p : Bytes) (ps : List Bytes) (hp : p ≠ []) :
    decompress (close (writeAll newWriter (p :: ps))) = .data (p ++ ps.flatten) true := by
  rcases p with _ | ⟨x, p⟩
  · exact absurd rfl hp
  · obtain ⟨d, E, s, I, _⟩ := encLoop_spec p (enc_start x)
    have hw : write newWriter (x :: p) =
        { (encLoop newWriter x.toNat p).1 with savedCode := (encLoop newWriter x.toNat p).2 } := by
      simp only [write]
      have : newWriter.savedCode = invalidCode := rfl
      rw [if_pos this]
    obtain ⟨d', E', s', I'⟩ := writeAll_spec ps (w := write newWriter (x :: p)) (d := d) (E := E)
      (s := s) (consumed := [x] ++ p) (by rw [hw]; exact enc_saved I _)
    obtain ⟨hne, hd⟩ := close_spec I'
    have : writeAll newWriter ((x :: p) :: ps) = writeAll (write newWriter (x :: p)) ps := rfl
    rw [this, decompress, if_neg hne, hd]
    rfl

/-! ## Arbitrary data, as received from the network -/

/-- The reader on any data. -/
structure DOk (d : Dict) : Prop where
  w9 : 9 ≤ d.width
  w12 : d.width ≤ 12
  ov : d.overflow = 2 ^ d.width
  lt : d.hi < d.overflow
  lo : 257 ≤ d.hi
  pfx : ∀ c, 258 ≤ c → c < d.hi → d.pfx c < c
  last : d.last = decInvalid ∨ d.last < d.hi
  full : d.last = decInvalid → d.hi = 257 ∨ d.pfx d.hi < d.hi
  spec : ∀ c, c = 256 ∨ c = 257 → d.pfx c = 0
  strt : d.hi = 257 → d.last = decInvalid
  buf : d.o.length < flushBuffer

theorem hi_le {d : Dict} (D : DOk d) : d.hi ≤ 4095 := by
  have h1 := D.lt
  have h2 := D.ov
  have : 2 ^ d.width ≤ 2 ^ 12 := Nat.pow_le_pow_right (by norm_num) D.w12
  norm_num at this; omega

/-- Chains end. -/
theorem chain_ends {d : Dict} {m : Nat} (hp : ∀ c, 258 ≤ c → c ≤ m → d.pfx c < c)
    (hs : ∀ c, c = 256 ∨ c = 257 → d.pfx c = 0) :
    ∀ (c : Nat), c ≤ m → ∀ fuel, c + 1 ≤ fuel + 255 ∧ 1 ≤ fuel ∧ 2 ≤ fuel → ∀ tail : Bytes,
      (∃ l s, expand d fuel c tail = some (l, s) ∧ s.length + 255 ≤ tail.length + max c 257) ∧
      ∃ l, headOf d fuel c = some l := by
  intro c
  induction c using Nat.strongRecOn with
  | _ c ih =>
    intro hc fuel hf tail
    obtain ⟨f, rfl⟩ : ∃ f, fuel = f + 1 := ⟨fuel - 1, by omega⟩
    simp only [expand, headOf]
    by_cases h : 256 ≤ c
    · rw [if_pos h, if_pos h]
      by_cases h2 : 258 ≤ c
      · have hlt := hp c h2 hc
        obtain ⟨⟨l, s, e, hl⟩, l', e'⟩ := ih (d.pfx c) hlt (by omega) f (by omega)
          (d.suffix c :: tail)
        refine ⟨⟨l, s, e, ?_⟩, l', e'⟩
        rw [List.length_cons] at hl; omega
      · have e0 := hs c (by omega)
        rw [e0]
        obtain ⟨g, rfl⟩ : ∃ g, f = g + 1 := ⟨f - 1, by omega⟩
        simp only [expand, headOf]
        rw [if_neg (by norm_num), if_neg (by norm_num)]
        exact ⟨⟨0, _, rfl, by simp only [List.length_cons]; omega⟩, 0, rfl⟩
    · rw [if_neg h, if_neg h]
      exact ⟨⟨c, _, rfl, by simp only [List.length_cons]; omega⟩, c, rfl⟩

/-- What a reader has produced. -/
def size (d : Dict) : Nat := d.acc.length + d.o.length

theorem endRound_size {d d1 : Dict} {code : Nat} (h : endRound d code = .cont d1) :
    size d1 = size d := by
  simp only [endRound] at h
  by_cases h1 : d.overflow < d.hi + 1
  · rw [if_pos h1] at h; simp at h
  · rw [if_neg h1] at h
    injection h with h
    have key : ∀ e : Dict, size (if flushBuffer ≤ e.o.length then
        { e with acc := e.acc ++ e.o, o := [] } else e) = size e := by
      intro e
      by_cases hf : flushBuffer ≤ e.o.length
      · rw [if_pos hf]; simp [size]
      · rw [if_neg hf]
    rw [← h, key]
    by_cases h2 : d.overflow ≤ d.hi + 1
    · rw [if_pos h2]
      by_cases h3 : d.width = 12
      · rw [if_pos h3]; rfl
      · rw [if_neg h3]; rfl
    · rw [if_neg h2]; rfl

theorem endRound_ok {d : Dict} (h9 : 9 ≤ d.width) (h12 : d.width ≤ 12) (ho : d.overflow = 2 ^ d.width)
    (hlt : d.hi < d.overflow) (hlo : 257 ≤ d.hi) (code : Nat) (hcode : code ≤ d.hi)
    (hp : ∀ c, 258 ≤ c → c < d.hi → d.pfx c < c) (hph : d.hi = 257 ∨ d.pfx d.hi < d.hi)
    (hsp : ∀ c, c = 256 ∨ c = 257 → d.pfx c = 0) : ∃ d1, endRound d code = .cont d1 ∧ DOk d1 := by
  simp only [endRound]
  rw [if_neg (by omega)]
  refine ⟨_, rfl, ?_⟩
  have hd : ∀ e : Dict, (e.o.length < flushBuffer → DOk e) →
      (∀ e' : Dict, e'.width = e.width → e'.hi = e.hi → e'.overflow = e.overflow → e'.last = e.last →
        e'.pfx = e.pfx → e'.o.length < flushBuffer → DOk e') →
      DOk (if flushBuffer ≤ e.o.length then { e with acc := e.acc ++ e.o, o := [] } else e) := by
    intro e h1 h2
    by_cases hfl : flushBuffer ≤ e.o.length
    · rw [if_pos hfl]
      exact h2 _ rfl rfl rfl rfl rfl (by simp [flushBuffer])
    · rw [if_neg hfl]; exact h1 (by omega)
  have mk : ∀ e : Dict, (∀ e' : Dict, e'.width = e.width → e'.hi = e.hi → e'.overflow = e.overflow →
      e'.last = e.last → e'.pfx = e.pfx → e'.o.length < flushBuffer → DOk e') →
      DOk (if flushBuffer ≤ e.o.length then { e with acc := e.acc ++ e.o, o := [] } else e) :=
    fun e h => hd e (fun hb => h e rfl rfl rfl rfl rfl hb) h
  refine mk _ ?_
  intro e' e1 e2 e3 e4 e5 hb
  have hpx : ∀ c, 258 ≤ c → c ≤ d.hi → d.pfx c < c := by
    intro c h1 h2
    rcases Nat.lt_or_ge c d.hi with h3 | h3
    · exact hp c h1 h3
    · have : c = d.hi := by omega
      subst this
      rcases hph with h4 | h4
      · omega
      · exact h4
  have h4096 : d.overflow ≤ 4096 := by
    rw [ho]
    have : 2 ^ d.width ≤ 2 ^ 12 := Nat.pow_le_pow_right (by norm_num) h12
    norm_num at this; exact this
  by_cases hov : d.overflow ≤ d.hi + 1
  · rw [if_pos hov] at e1 e2 e3 e4 e5
    by_cases hw : d.width = 12
    · rw [if_pos hw] at e1 e2 e3 e4 e5
      dsimp only at e1 e2 e3 e4 e5
      have e2' : e'.hi = d.hi := by omega
      refine ⟨by omega, by omega, by rw [e3, e1]; exact ho, by omega, by omega, ?_, Or.inl e4, ?_, ?_, ?_, hb⟩
      · intro c h1 h2; rw [e5]; exact hp c h1 (by omega)
      · intro _; rw [e2', e5]; exact hph
      · intro c h; rw [e5]; exact hsp c h
      · intro h; first | exact e4 | omega
    · rw [if_neg hw] at e1 e2 e3 e4 e5
      dsimp only at e1 e2 e3 e4 e5
      refine ⟨by omega, by omega, by rw [e3, e1], ?_, by omega, ?_, Or.inr (by omega), ?_, ?_, ?_, hb⟩
      · rw [e2, e3, pow_succ, ← ho]; omega
      · intro c h1 h2; rw [e5]; exact hpx c h1 (by omega)
      · intro h; rw [e4, decInvalid] at h; omega
      · intro c h; rw [e5]; exact hsp c h
      · intro h; first | exact e4 | omega
  · rw [if_neg hov] at e1 e2 e3 e4 e5
    dsimp only at e1 e2 e3 e4 e5
    refine ⟨by omega, by omega, by rw [e3, e1]; exact ho, by omega, by omega, ?_, Or.inr (by omega), ?_,
      ?_, ?_, hb⟩
    · intro c h1 h2; rw [e5]; exact hpx c h1 (by omega)
    · intro h; rw [e4, decInvalid] at h; omega
    · intro c h; rw [e5]; exact hsp c h
    · intro h; first | exact e4 | omega

theorem save_ok {d : Dict} (D : DOk d) (o : Bytes) (x : UInt8) (code : Nat) (hcode : code ≤ d.hi) :
    ∃ d1, endRound (save { d with o := o } x) code = .cont d1 ∧ DOk d1 ∧
      size d1 = d.acc.length + o.length := by
  obtain ⟨f1, f2, f3, f4, f5⟩ := save_fields { d with o := o } x
  suffices h : ∃ d1, endRound (save { d with o := o } x) code = .cont d1 ∧ DOk d1 by
    obtain ⟨d1, e, D1⟩ := h
    exact ⟨d1, e, D1, by rw [endRound_size e, size, f4, f5]⟩
  have hlo := D.lo
  have hsave : ∀ c, (save { d with o := o } x).pfx c =
      if d.last ≠ decInvalid ∧ c = d.hi then d.last else d.pfx c := by
    intro c
    rw [save]
    by_cases h : d.last ≠ decInvalid
    · rw [if_pos h]
      dsimp only
      by_cases hc : c = d.hi
      · subst hc; rw [Function.update_self, if_pos ⟨h, rfl⟩]
      · rw [Function.update_of_ne hc, if_neg (by tauto)]
    · rw [if_neg h, if_neg (by tauto)]
  refine endRound_ok (by rw [f1]; exact D.w9) (by rw [f1]; exact D.w12) (by rw [f1, f3]; exact D.ov)
    (by rw [f2, f3]; exact D.lt) (by rw [f2]; exact D.lo) code (by rw [f2]; exact hcode) ?_ ?_ ?_
  · intro c h1 h2
    rw [f2] at h2
    dsimp only at h2
    rw [hsave, if_neg (by omega)]; exact D.pfx c h1 h2
  · rw [f2, hsave]
    dsimp only
    by_cases h : d.last = decInvalid
    · rw [if_neg (by tauto)]; exact D.full h
    · rw [if_pos ⟨h, rfl⟩]
      rcases D.last with h1 | h1
      · exact absurd h1 h
      · exact Or.inr h1
  · intro c hc
    rw [hsave]
    by_cases h : d.last ≠ decInvalid ∧ c = d.hi
    · exfalso
      exact h.1 (D.strt (by omega))
    · rw [if_neg h]; exact D.spec c hc

/-- A round on any code. -/
theorem round_ok {d : Dict} (D : DOk d) (code : Nat) :
    (∃ d1, round d code = .cont d1 ∧ DOk d1 ∧ size d1 ≤ size d + 3841) ∨
    (∃ eof, round d code = .stop { d with acc := d.acc ++ d.o, o := [] } eof) := by
  have hb := D.buf
  have hlo := D.lo
  have hhi := hi_le D
  rw [flushBuffer] at hb
  simp only [round]
  by_cases h1 : code < 256
  · rw [if_pos h1, if_neg (by rw [outputSize]; omega)]
    obtain ⟨d1, e1, D1, hs⟩ := save_ok D (d.o ++ [UInt8.ofNat code]) (UInt8.ofNat code) code (by omega)
    refine Or.inl ⟨d1, e1, D1, ?_⟩
    rw [hs, size]; simp only [List.length_append, List.length_singleton]; omega
  · rw [if_neg h1]
    by_cases h2 : code = 256
    · rw [if_pos h2]
      left
      exact ⟨_, rfl, ⟨by norm_num, by norm_num, by norm_num, by norm_num, by norm_num,
        (fun c _ _ => by dsimp only at *; omega), Or.inl rfl, fun _ => Or.inl rfl, D.spec,
        fun _ => rfl, D.buf⟩, by simp [size]⟩
    · rw [if_neg h2]
      by_cases h3 : code = 257
      · rw [if_pos h3]; exact Or.inr ⟨true, rfl⟩
      · rw [if_neg h3]
        by_cases h4 : code ≤ d.hi
        · rw [if_pos h4]
          have hexp : ∃ l s, expansion d code = some (l, s) ∧ s.length ≤ 3841 := by
            rw [expansion]
            by_cases h5 : code = d.hi ∧ d.last ≠ decInvalid
            · rw [if_pos h5]
              have hl : d.last < d.hi := by
                rcases D.last with h | h
                · exact absurd h h5.2
                · exact h
              have ch := chain_ends (d := d) (m := d.hi - 1)
                (fun c a b => D.pfx c a (by omega)) D.spec d.last (by omega) flushBuffer
                (by rw [flushBuffer]; omega)
              obtain ⟨_, l, e⟩ := ch []
              rw [e]
              dsimp only
              obtain ⟨⟨l', s, e', hs⟩, _⟩ := ch [UInt8.ofNat l]
              refine ⟨l', s, e', ?_⟩
              simp only [List.length_singleton] at hs; omega
            · rw [if_neg h5]
              have hp : ∀ c, 258 ≤ c → c ≤ code → d.pfx c < c := by
                intro c a b
                rcases Nat.lt_or_ge c d.hi with h6 | h6
                · exact D.pfx c a h6
                · have hce : c = d.hi := by omega
                  have hli : d.last = decInvalid := by
                    by_contra h; exact h5 ⟨by omega, h⟩
                  rcases D.full hli with h7 | h7
                  · omega
                  · rw [hce]; exact h7
              obtain ⟨⟨l', s, e', hs⟩, _⟩ := chain_ends (d := d) (m := code) hp D.spec code
                (le_refl _) flushBuffer (by rw [flushBuffer]; omega) []
              refine ⟨l', s, e', ?_⟩
              simp only [List.length_nil] at hs; omega
          obtain ⟨l, s, e, hs⟩ := hexp
          rw [e]
          dsimp only
          rw [if_neg (by rw [outputSize]; omega)]
          obtain ⟨d1, e1, D1, hsz⟩ := save_ok D (d.o ++ s) (UInt8.ofNat l) code h4
          refine Or.inl ⟨d1, e1, D1, ?_⟩
          rw [hsz, size]; simp only [List.length_append]; omega
        · rw [if_neg h4]; exact Or.inr ⟨false, rfl⟩

theorem dok_new : DOk newDict := by
  refine ⟨by norm_num [newDict], by norm_num [newDict], by norm_num [newDict], by norm_num [newDict],
    by norm_num [newDict], ?_, Or.inl rfl, fun _ => Or.inl rfl, fun _ _ => rfl, fun _ => rfl,
    by simp [newDict, flushBuffer]⟩
  intro c h1 h2; simp only [newDict] at h2; omega

theorem decLoop_total : ∀ (fuel : Nat) (r : RBits) (d : Dict), DOk d → RInv r →
    (stream r).length < fuel → ∃ bs eof, decLoop fuel r d = .data bs eof ∧
      9 * bs.length ≤ 9 * size d + 3841 * (stream r).length := by
  intro fuel
  induction fuel with
  | zero => intro r d _ _ h; omega
  | succ f ih =>
    intro r d D hr hs
    simp only [decLoop]
    rcases read_spec D.w12 D.w9 hr with ⟨e, _⟩ | ⟨c, r', e, hr', _, hst⟩
    · rw [e]; exact ⟨_, _, rfl, by rw [List.length_append, size]; omega⟩
    · rw [e]
      dsimp only
      rcases round_ok D c with ⟨d1, e1, D1, hsz⟩ | ⟨eof, e1⟩
      · rw [e1]
        dsimp only
        have h9 := D.w9
        rw [hst, List.length_append, length_bitsOf] at hs ⊢
        obtain ⟨bs, eof, e2, hpre⟩ := ih r' d1 D1 hr' (by omega)
        refine ⟨bs, eof, e2, ?_⟩
        omega
      · rw [e1]; exact ⟨_, _, rfl, by dsimp only; rw [List.length_append, size]; omega⟩

/-- **No panic on any data, and bounded output**: decompressing any byte string, such as one received
from a peer, ends with some data, at most 3841 bytes for every 9 bits. -/
theorem decompress_total (bs : Bytes) : ∃ out eof, decompress bs = .data out eof ∧
    9 * out.length ≤ 3841 * (8 * bs.length) := by
  rw [decompress]
  by_cases h : bs.length = 0
  · rw [if_pos h]; exact ⟨_, _, rfl, by simp⟩
  · rw [if_neg h]
    have hst : (stream { bits := 0, nBits := 0, inp := bs }).length = 8 * bs.length := by
      have : stream { bits := 0, nBits := 0, inp := bs } = bitsOfBytes bs := by simp [stream, top]
      rw [this, length_bitsOfBytes]
    obtain ⟨out, eof, e, hl⟩ := decLoop_total (8 * bs.length + 1) { bits := 0, nBits := 0, inp := bs }
      newDict dok_new ⟨clean_zero _, by norm_num⟩ (by rw [hst]; omega)
    refine ⟨out, eof, e, ?_⟩
    rw [hst] at hl
    simpa [size, newDict] using hl

/-! ## Concrete cases -/

example : compress [1, 1] = [0, 128, 96, 32] := by decide +kernel
example : compress [1, 1, 1] = [0, 192, 160, 32] := by decide +kernel
-- the code 258 is read before its entry is known
example : decompress [0, 192, 160, 32] = .data [1, 1, 1] true := by decide +kernel
example : decompress (compress [7, 7, 7, 7, 7, 8, 7, 8, 7, 8, 255, 0]) =
    .data [7, 7, 7, 7, 7, 8, 7, 8, 7, 8, 255, 0] true := by decide +kernel
-- a code that is not known yet, and data without end mark
example : decompress [0, 192, 192] = .data [1] false := by decide +kernel
example : decompress [1] = .data [] false := by decide +kernel

end Verif.Lzw
