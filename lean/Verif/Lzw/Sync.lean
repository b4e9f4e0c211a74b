import Verif.Lzw.Table

/-! # Reader and writer stay in step -/

namespace Verif.Lzw

open Verif

/-- The string a code stands for in a dictionary. -/
inductive Str (E : Ent) : Nat → Bytes → Prop
  | lit {c : Nat} (h : c < 256) : Str E c [UInt8.ofNat c]
  | ext {c p : Nat} {x : UInt8} {s : Bytes} (h : E c = some (p, x)) (hs : Str E p s) :
      Str E c (s ++ [x])

theorem Str.mono {E E' : Ent} (h : ∀ c a, E c = some a → E' c = some a) {c : Nat} {s : Bytes}
    (hs : Str E c s) : Str E' c s := by
  induction hs with
  | lit h => exact .lit h
  | ext h1 _ ih => exact .ext (h _ _ h1) ih

theorem Str.length {E : Ent} {hi : Nat} (O : EntOk E hi) {c : Nat} {s : Bytes} (h : Str E c s) :
    s.length + 255 ≤ max c 256 ∧ s ≠ [] := by
  induction h with
  | lit h => simp
  | ext h1 _ ih =>
    have := O.dom _ _ _ h1
    simp only [List.length_append, List.length_singleton]
    exact ⟨by omega, by simp⟩

theorem Str.le {E : Ent} {hi : Nat} (O : EntOk E hi) {c : Nat} {s : Bytes} (h : Str E c s) :
    c < 256 ∨ (258 ≤ c ∧ c ≤ hi) := by
  cases h with
  | lit h => exact Or.inl h
  | ext h1 _ => have := O.dom _ _ _ h1; exact Or.inr ⟨by omega, by omega⟩

/-- The arrays of the reader hold the entries below its `hi`. -/
def Agree (d : Dict) (E : Ent) : Prop :=
  ∀ c p x, E c = some (p, x) → c < d.hi → d.pfx c = p ∧ d.suffix c = x

/-- The reader expands a code it knows to its string. -/
theorem expand_str {E : Ent} {hi : Nat} (O : EntOk E hi) {d : Dict} (A : Agree d E) {c : Nat}
    {s : Bytes} (h : Str E c s) : (c < 256 ∨ c < d.hi) → ∀ (fuel : Nat) (tail : Bytes),
    s.length ≤ fuel → ∃ l s', l < 256 ∧ s = UInt8.ofNat l :: s' ∧
      expand d fuel c tail = some (l, s ++ tail) ∧ headOf d fuel c = some l := by
  induction h with
  | @lit c h =>
    intro _ fuel tail hf
    obtain ⟨f, rfl⟩ : ∃ f, fuel = f + 1 := ⟨fuel - 1, by simp at hf; omega⟩
    refine ⟨c, [], h, rfl, ?_, ?_⟩
    · simp only [expand]; rw [if_neg (by omega)]; rfl
    · simp only [headOf]; rw [if_neg (by omega)]
  | @ext c p x s h1 hs ih =>
    intro hc fuel tail hf
    have hd := O.dom _ _ _ h1
    have hlt : c < d.hi := by omega
    obtain ⟨f, rfl⟩ : ∃ f, fuel = f + 1 := ⟨fuel - 1, by simp at hf; omega⟩
    obtain ⟨e1, e2⟩ := A _ _ _ h1 hlt
    obtain ⟨l, s', hl, hs', he, hh⟩ := ih (Or.inr (by omega)) f (x :: tail) (by simp at hf; omega)
    refine ⟨l, s' ++ [x], hl, by rw [hs']; rfl, ?_, ?_⟩
    · simp only [expand]
      rw [if_pos (by omega), e1, e2, he]; simp
    · simp only [headOf]
      rw [if_pos (by omega), e1, hh]

/-- Width and highest code. -/
structure Shape (width hi overflow : Nat) : Prop where
  w9 : 9 ≤ width
  w12 : width ≤ 12
  ov : overflow = 2 ^ width
  lt : hi < overflow
  lo : 257 ≤ hi
  top : hi ≤ 4094

/-- The reader is one entry behind the writer, which is about to say `code` for `s`. -/
structure Sync (w : Writer) (code : Nat) (d : Dict) (E : Ent) (s consumed : Bytes) : Prop where
  hi : d.hi = w.hi
  width : d.width = w.width
  overflow : d.overflow = w.overflow
  shape : Shape w.width w.hi w.overflow
  ent : EntOk E w.hi
  tab : TInv w.table E
  agree : Agree d E
  str : Str E code s
  cons : consumed = d.acc ++ d.o ++ s
  behind : 258 ≤ w.hi → d.last < w.hi ∧ ∃ x s', s = x :: s' ∧ E w.hi = some (d.last, x)
  start : w.hi = 257 → d.last = decInvalid
  buf : d.o.length < flushBuffer

/-- The highest code moves by one. -/
structure Moved (d d1 : Dict) : Prop where
  hi : d1.hi = d.hi + 1
  width : d1.width = if d.hi + 1 = d.overflow then d.width + 1 else d.width
  overflow : d1.overflow = if d.hi + 1 = d.overflow then 2 ^ (d.width + 1) else d.overflow

theorem endRound_spec {d : Dict} {width hi overflow : Nat} (S : Shape width hi overflow)
    (e1 : d.width = width) (e2 : d.hi = hi) (e3 : d.overflow = overflow) (code : Nat) :
    ∃ d1, endRound d code = .cont d1 ∧ Moved d d1 ∧ d1.last = code ∧ d1.suffix = d.suffix ∧
      d1.pfx = d.pfx ∧ d1.acc ++ d1.o = d.acc ++ d.o ∧ d1.o.length < flushBuffer := by
  obtain ⟨h9, h12, ho, hlt, _, ht⟩ := S
  subst e1; subst e2; subst e3
  simp only [endRound]
  rw [if_neg (by omega)]
  have h12' : d.hi + 1 = d.overflow → d.width ≠ 12 := by
    intro h hw; rw [hw] at ho; norm_num at ho; omega
  refine ⟨_, rfl, ?_⟩
  by_cases hov : d.hi + 1 = d.overflow
  · rw [if_pos (show d.overflow ≤ d.hi + 1 by omega), if_neg (h12' hov)]
    by_cases hfl : flushBuffer ≤ d.o.length
    · rw [if_pos hfl]
      exact ⟨⟨rfl, by rw [if_pos hov], by rw [if_pos hov]⟩, rfl, rfl, rfl, by simp,
        by simp [flushBuffer]⟩
    · rw [if_neg hfl]
      exact ⟨⟨rfl, by rw [if_pos hov], by rw [if_pos hov]⟩, rfl, rfl, rfl, rfl, by dsimp only; omega⟩
  · rw [if_neg (show ¬ d.overflow ≤ d.hi + 1 by omega)]
    by_cases hfl : flushBuffer ≤ d.o.length
    · rw [if_pos hfl]
      exact ⟨⟨rfl, by rw [if_neg hov], by rw [if_neg hov]⟩, rfl, rfl, rfl, by simp,
        by simp [flushBuffer]⟩
    · rw [if_neg hfl]
      exact ⟨⟨rfl, by rw [if_neg hov], by rw [if_neg hov]⟩, rfl, rfl, rfl, rfl, by dsimp only; omega⟩

theorem save_fields (d : Dict) (x : UInt8) : (save d x).width = d.width ∧ (save d x).hi = d.hi ∧
    (save d x).overflow = d.overflow ∧ (save d x).o = d.o ∧ (save d x).acc = d.acc := by
  rw [save]
  by_cases h : d.last ≠ decInvalid
  · rw [if_pos h]; exact ⟨rfl, rfl, rfl, rfl, rfl⟩
  · rw [if_neg h]; exact ⟨rfl, rfl, rfl, rfl, rfl⟩

/-- After reading the code the writer says, the reader has the string and knows one more entry. -/
theorem round_sync {w : Writer} {code : Nat} {d : Dict} {E : Ent} {s consumed : Bytes}
    (S : Sync w code d E s consumed) :
    ∃ d1, round d code = .cont d1 ∧ Moved d d1 ∧ d1.last = code ∧ Agree d1 E ∧
      d1.acc ++ d1.o = consumed ∧ d1.o.length < flushBuffer := by
  have hsh := S.shape
  have hlen := Str.length S.ent S.str
  have hbuf := S.buf
  have hcode := Str.le S.ent S.str
  have htop := hsh.top
  -- what saving brings
  have hsave : ∀ (o : Bytes) (x : UInt8) (s' : Bytes), s = x :: s' →
      ∀ d1 : Dict, d1.suffix = (save { d with o := o } x).suffix →
        d1.pfx = (save { d with o := o } x).pfx → d1.hi = d.hi + 1 → Agree d1 E := by
    intro o x s' hs d1 es ep eh c p y hE hc
    rw [eh, S.hi] at hc
    rw [es, ep]
    by_cases hlo : 258 ≤ w.hi
    · obtain ⟨hl, x', s'', hs', hEhi⟩ := S.behind hlo
      have hx : x' = x := by rw [hs] at hs'; injection hs' with h _; exact h.symm
      subst hx
      have hli : d.last ≠ decInvalid := by rw [decInvalid]; omega
      rw [save, if_pos hli]
      dsimp only
      by_cases hce : c = w.hi
      · subst hce
        rw [hEhi] at hE
        injection hE with hE; injection hE with e1 e2
        rw [S.hi, Function.update_self, Function.update_self]; exact ⟨e1, e2⟩
      · rw [S.hi, Function.update_of_ne hce, Function.update_of_ne hce]
        exact S.agree c p y hE (by rw [S.hi]; omega)
    · have := S.ent.dom _ _ _ hE
      omega
  rcases hcode with hc | ⟨hc1, hc2⟩
  · -- a literal
    have hs : s = [UInt8.ofNat code] := by
      cases S.str with
      | lit _ => rfl
      | ext h _ => have := S.ent.dom _ _ _ h; omega
    obtain ⟨f1, f2, f3, f4, f5⟩ := save_fields { d with o := d.o ++ [UInt8.ofNat code] } (UInt8.ofNat code)
    obtain ⟨d1, e, m, hl, es, ep, hacc, hb⟩ :=
      endRound_spec (d := save { d with o := d.o ++ [UInt8.ofNat code] } (UInt8.ofNat code)) hsh
        (f1.trans S.width) (f2.trans S.hi) (f3.trans S.overflow) code
    refine ⟨d1, ?_, ⟨by rw [m.hi, f2], by rw [m.width, f1, f2, f3], by rw [m.overflow, f1, f2, f3]⟩, hl,
      hsave _ _ _ hs d1 es ep (by rw [m.hi, f2]), ?_, hb⟩
    · rw [round, if_pos hc, if_neg (by rw [outputSize]; rw [flushBuffer] at hbuf; omega), e]
    · rw [hacc, f4, f5, S.cons, hs]; simp
  · -- a longer string
    have hlo : 258 ≤ w.hi := by omega
    have hexp : ∃ l s', l < 256 ∧ s = UInt8.ofNat l :: s' ∧ expansion d code = some (l, s) := by
      rw [expansion]
      by_cases hh : code = d.hi
      · obtain ⟨hl, x, s', hs', hE⟩ := S.behind hlo
        have hli : d.last ≠ decInvalid := by rw [decInvalid]; omega
        rw [if_pos ⟨hh, hli⟩]
        rw [S.hi] at hh
        have hstr := S.str
        rw [hh] at hstr
        generalize hst : s = st at hstr
        cases hstr with
        | lit h => omega
        | @ext _ p y t h1 ht =>
          rw [hE] at h1
          injection h1 with h1; injection h1 with e1 e2
          subst e1; subst e2
          have hlt := Str.length S.ent ht
          have hpl := Str.le S.ent ht
          have hlast : d.last < 256 ∨ d.last < d.hi := by right; rw [S.hi]; exact hl
          have hfu : t.length ≤ flushBuffer := by rw [flushBuffer]; omega
          obtain ⟨l, t', hl', ht', he, hhd⟩ := expand_str S.ent S.agree ht hlast flushBuffer
            [x] hfu
          have hx : x = UInt8.ofNat l := by
            rw [hs', ht'] at hst
            injection hst with h _
          rw [hhd]
          dsimp only
          rw [← hx, he]
          exact ⟨l, t' ++ [x], hl', by rw [ht']; rfl, rfl⟩
      · rw [if_neg (by tauto)]
        have hfu : s.length ≤ flushBuffer := by rw [flushBuffer]; omega
        obtain ⟨l, t', hl', ht', he, _⟩ := expand_str S.ent S.agree S.str
          (Or.inr (by rw [S.hi]; rw [S.hi] at hh; omega)) flushBuffer [] hfu
        exact ⟨l, t', hl', ht', by rw [he]; simp⟩
    obtain ⟨l, s', hl, hs, he⟩ := hexp
    obtain ⟨f1, f2, f3, f4, f5⟩ := save_fields { d with o := d.o ++ s } (UInt8.ofNat l)
    obtain ⟨d1, e, m, hlast, es, ep, hacc, hb⟩ :=
      endRound_spec (d := save { d with o := d.o ++ s } (UInt8.ofNat l)) hsh
        (f1.trans S.width) (f2.trans S.hi) (f3.trans S.overflow) code
    refine ⟨d1, ?_, ⟨by rw [m.hi, f2], by rw [m.width, f1, f2, f3], by rw [m.overflow, f1, f2, f3]⟩,
      hlast, hsave _ _ _ hs d1 es ep (by rw [m.hi, f2]), ?_, hb⟩
    · rw [round, if_neg (by omega), if_neg (by omega), if_neg (by omega),
        if_pos (by rw [S.hi]; exact hc2), he]
      dsimp only
      rw [if_neg (by rw [outputSize]; rw [flushBuffer] at hbuf; omega), e]
    · rw [hacc, f4, f5, S.cons]; simp

/-- The reader reads a sequence of codes off a bit string. -/
inductive Reads : Dict → List Bool → Dict → Prop
  | nil (d : Dict) : Reads d [] d
  | snoc {d d1 d2 : Dict} {bs : List Bool} {c : Nat} (h : Reads d bs d1) (h9 : 9 ≤ d1.width)
      (h12 : d1.width ≤ 12) (hc : c < 2 ^ d1.width) (hr : round d1 c = .cont d2) :
      Reads d (bs ++ bitsOf d1.width c) d2

/-- The loop of the reader follows. -/
theorem Reads.loop {d d' : Dict} {bs : List Bool} (h : Reads d bs d') : ∀ (r : RBits)
    (rest : List Bool), RInv r → stream r = bs ++ rest → ∃ r' n, RInv r' ∧ stream r' = rest ∧
      n ≤ bs.length ∧ ∀ f, decLoop (f + n) r d = decLoop f r' d' := by
  induction h with
  | nil => intro r rest hr hs; exact ⟨r, 0, hr, by simpa using hs, by simp, fun f => rfl⟩
  | @snoc d1 d2 bs c h h9 h12 hc hr ih =>
    intro r rest hri hs
    rw [List.append_assoc] at hs
    obtain ⟨r1, n, h1, h2, h3, h4⟩ := ih r _ hri hs
    obtain ⟨r2, e, h5, h6⟩ := read_code h12 h9 hc h1 h2
    refine ⟨r2, n + 1, h5, h6, by simp; omega, fun f => ?_⟩
    rw [show f + (n + 1) = (f + 1) + n by omega, h4]
    simp only [decLoop, e, hr]

/-- The state of a writer after some input. -/
structure Enc (w : Writer) (code : Nat) (d : Dict) (E : Ent) (s consumed : Bytes) : Prop where
  bits : WBits w
  reads : Reads newDict (written w) d
  sync : Sync w code d E s consumed

/-- Saying the code and advancing: the reader has all that was consumed. -/
theorem emit_spec {w : Writer} {code : Nat} {d : Dict} {E : Ent} {s consumed : Bytes}
    (I : Enc w code d E s consumed) :
    ∃ d', WBits (incHi (writeMSB w code)).1 ∧
      Reads newDict (written (incHi (writeMSB w code)).1) d' ∧
      d'.acc ++ d'.o = consumed ∧ d'.o.length < flushBuffer ∧
      d'.hi = (incHi (writeMSB w code)).1.hi ∧ d'.width = (incHi (writeMSB w code)).1.width ∧
      d'.overflow = (incHi (writeMSB w code)).1.overflow ∧
      Shape (incHi (writeMSB w code)).1.width (incHi (writeMSB w code)).1.hi
        (incHi (writeMSB w code)).1.overflow ∧
      (incHi (writeMSB w code)).1.savedCode = w.savedCode ∧
      (((incHi (writeMSB w code)).2 = true ∧ (incHi (writeMSB w code)).1.hi = 257 ∧
          d'.last = decInvalid ∧ (incHi (writeMSB w code)).1.table = fun _ => 0) ∨
       ((incHi (writeMSB w code)).2 = false ∧ (incHi (writeMSB w code)).1.hi = w.hi + 1 ∧
          d'.last = code ∧ (incHi (writeMSB w code)).1.table = w.table ∧ Agree d' E)) := by
  obtain ⟨hb, hr, S⟩ := I
  have sh := S.shape
  have h12 := sh.w12
  have h9 := sh.w9
  have hov := sh.ov
  have hlt := sh.lt
  have htop := sh.top
  have hcl := Str.le S.ent S.str
  have hc : code < 2 ^ w.width := by
    rw [← hov]
    have : 2 ^ 9 ≤ 2 ^ w.width := Nat.pow_le_pow_right (by norm_num) h9
    rw [← hov] at this
    norm_num at this
    omega
  obtain ⟨b1, wr1, e1, e2, e3, e4, e5⟩ := write_spec hb h12 hc
  obtain ⟨d1, er, m, hl, ag, hacc, hbuf⟩ := round_sync S
  have hr1 : Reads newDict (written (writeMSB w code)) d1 := by
    rw [wr1, ← S.width]
    exact Reads.snoc hr (by rw [S.width]; exact h9) (by rw [S.width]; exact h12)
      (by rw [S.width]; exact hc) er
  revert b1 wr1 e1 e2 e3 e4 e5 hr1
  generalize writeMSB w code = w1
  intro b1 wr1 e1 e2 e3 e4 e5 hr1
  -- the widening
  have hw12 : w.hi + 1 = w.overflow → w.width < 12 := by
    intro h
    rcases Nat.lt_or_ge w.width 12 with h' | h'
    · exact h'
    · have : w.width = 12 := by omega
      rw [this] at hov; norm_num at hov; omega
  obtain ⟨w2, hw2, hh, hwd, ho, ht, hs, hbits, hn, hout⟩ : ∃ w2 : Writer,
      (if w1.hi + 1 = w1.overflow then
        ({ w1 with hi := w1.hi + 1, width := w1.width + 1, overflow := u32 (w1.overflow <<< 1) } : Writer)
       else { w1 with hi := w1.hi + 1 }) = w2 ∧ w2.hi = w.hi + 1 ∧
      w2.width = (if w.hi + 1 = w.overflow then w.width + 1 else w.width) ∧
      w2.overflow = (if w.hi + 1 = w.overflow then 2 ^ (w.width + 1) else w.overflow) ∧
      w2.table = w.table ∧ w2.savedCode = w.savedCode ∧ w2.bits = w1.bits ∧ w2.nBits = w1.nBits ∧
      w2.out = w1.out := by
    refine ⟨_, rfl, ?_⟩
    by_cases h : w.hi + 1 = w.overflow
    · rw [if_pos (by rw [e2, e3]; exact h), if_pos h, if_pos h]
      refine ⟨by dsimp only; rw [e2], by dsimp only; rw [e1], ?_, e4, e5, rfl, rfl, rfl⟩
      dsimp only
      have := hw12 h
      rw [e3, hov, u32, Nat.shiftLeft_eq, ← pow_add]
      exact Nat.mod_eq_of_lt (Nat.pow_lt_pow_right (by norm_num) (by omega))
    · rw [if_neg (by rw [e2, e3]; exact h), if_neg h, if_neg h]
      exact ⟨by dsimp only; rw [e2], e1, e3, e4, e5, rfl, rfl, rfl⟩
  have hinc : incHi w1 = if w2.hi = maxCode then
      ({ writeMSB w2 256 with width := 9, hi := 257, overflow := 512, table := fun _ => 0 }, true)
      else (w2, false) := by
    rw [← hw2]; rfl
  have hb2 : WBits w2 := ⟨by rw [hbits, hn]; exact b1.clean, by rw [hn]; exact b1.n⟩
  have hwr2 : written w2 = written w1 := by simp only [written, hbits, hn, hout]
  have dw : d1.width = w2.width := by rw [m.width, hwd, S.hi, S.overflow, S.width]
  have dh : d1.hi = w2.hi := by rw [m.hi, hh, S.hi]
  have dov : d1.overflow = w2.overflow := by rw [m.overflow, ho, S.hi, S.overflow, S.width]
  have w2w : 9 ≤ w2.width ∧ w2.width ≤ 12 := by
    rw [hwd]
    by_cases h : w.hi + 1 = w.overflow
    · rw [if_pos h]; have := hw12 h; omega
    · rw [if_neg h]; omega
  have w2o : w2.overflow = 2 ^ w2.width := by
    rw [hwd, ho]
    by_cases h : w.hi + 1 = w.overflow
    · rw [if_pos h, if_pos h]
    · rw [if_neg h, if_neg h]; exact hov
  have w2lt : w2.hi < w2.overflow := by
    rw [hh, ho]
    by_cases h : w.hi + 1 = w.overflow
    · rw [if_pos h, pow_succ, ← hov, h]; omega
    · rw [if_neg h]; omega
  have sl := sh.lo
  by_cases hfull : w2.hi = maxCode
  · rw [hinc, if_pos hfull]
    have h256 : 256 < 2 ^ w2.width := by
      have : 2 ^ 9 ≤ 2 ^ w2.width := Nat.pow_le_pow_right (by norm_num) w2w.1
      norm_num at this; omega
    obtain ⟨b3, wr3, _, _, _, _, s3⟩ := write_spec hb2 (c := 256) w2w.2 h256
    refine ⟨{ d1 with width := 9, hi := 257, overflow := 512, last := decInvalid }, ⟨b3.clean, b3.n⟩,
      ?_, hacc, hbuf, rfl, rfl, rfl, ⟨by norm_num, by norm_num, by norm_num, by norm_num, by norm_num,
        by norm_num⟩, s3.trans hs, Or.inl ⟨rfl, rfl, rfl, rfl⟩⟩
    change Reads newDict (written (writeMSB w2 256)) _
    rw [wr3, hwr2, ← dw]
    refine Reads.snoc hr1 (by rw [dw]; exact w2w.1) (by rw [dw]; exact w2w.2) (by rw [dw]; exact h256) ?_
    rw [round, if_neg (by norm_num), if_pos rfl]
  · rw [hinc, if_neg hfull]
    have : w2.hi ≠ 4095 := hfull
    exact ⟨d1, hb2, by rw [hwr2]; exact hr1, hacc, hbuf, dh, dw, dov,
      ⟨w2w.1, w2w.2, w2o, w2lt, (by dsimp only; omega), (by dsimp only; omega)⟩, hs,
      Or.inr ⟨rfl, hh, hl, ht, ag⟩⟩

/-- The loop of the writer. -/
theorem encLoop_spec : ∀ (p : Bytes) {w : Writer} {code : Nat} {d : Dict} {E : Ent}
    {s consumed : Bytes}, Enc w code d E s consumed → ∃ d' E' s',
      Enc (encLoop w code p).1 (encLoop w code p).2 d' E' s' (consumed ++ p) ∧
      (encLoop w code p).1.savedCode = w.savedCode := by
  intro p
  induction p with
  | nil => intro w code d E s consumed I; exact ⟨d, E, s, by simpa [encLoop] using I, rfl⟩
  | cons x p ih =>
    intro w code d E s consumed I
    have S := I.sync
    have hcl := Str.le S.ent S.str
    have htop := S.shape.top
    have hlo := S.shape.lo
    have hx : Str E x.toNat [x] := by
      have := Str.lit (E := E) (c := x.toNat) x.toNat_lt
      rwa [UInt8.ofNat_toNat] at this
    have happ : ∀ c : Bytes, c ++ x :: p = (c ++ [x]) ++ p := by simp
    rw [happ]
    simp only [encLoop]
    rw [key_eq (by omega)]
    rcases hlk : lookup w.table (code * 256 + x.toNat) tableSize (hashKey (code * 256 + x.toNat))
      with _ | c
    · dsimp only
      obtain ⟨d1, hb, hr, hacc, hbuf, eh, ew, eo, sh, hsv, hor⟩ := emit_spec I
      revert hb hr eh ew eo sh hsv hor
      generalize incHi (writeMSB w code) = P
      obtain ⟨w1, full⟩ := P
      dsimp only
      intro hb hr eh ew eo sh hsv hor
      rcases hor with ⟨hf, h257, hlast, htab⟩ | ⟨hf, hhi, hlast, htab, hag⟩
      · subst hf
        rw [if_pos rfl]
        have I' : Enc w1 x.toNat d1 (fun _ => Option.none) [x] (consumed ++ [x]) := by
          refine ⟨hb, hr, ⟨eh, ew, eo, sh, entOk_empty _, by rw [htab]; exact tinv_empty,
            (fun _ _ _ h => by simp at h), ?_, by rw [hacc], (fun h => by omega), fun _ => hlast, hbuf⟩⟩
          have := Str.lit (E := fun _ => Option.none) (c := x.toNat) x.toNat_lt
          rwa [UInt8.ofNat_toNat] at this
        obtain ⟨d', E', s', h1, h2⟩ := ih I'
        exact ⟨d', E', s', h1, h2.trans hsv⟩
      · subst hf
        rw [if_neg (by simp)]
        have hnew : ∀ c, E c ≠ some (code, x) := by
          intro c h
          rw [lookup_some S.ent (by omega) S.tab h] at hlk
          simp at hlk
        obtain ⟨O', T'⟩ := insert_spec S.ent (by omega) hlo S.tab (p := code) (x := x)
          (by omega) hnew
        rw [htab, hhi]
        have hmono : ∀ c a, E c = some a → Function.update E (w.hi + 1) (some (code, x)) c = some a := by
          intro c a h
          have : c ≠ w.hi + 1 := by
            obtain ⟨a1, a2⟩ := a
            have := S.ent.dom _ _ _ h; omega
          rw [Function.update_of_ne this]; exact h
        have I' : Enc { w1 with table := (insert w.table (code * 256 + x.toNat) (w.hi + 1) tableSize
            (hashKey (code * 256 + x.toNat))) } x.toNat d1
            (Function.update E (w.hi + 1) (some (code, x))) [x] (consumed ++ [x]) := by
          refine ⟨⟨hb.clean, hb.n⟩, hr, ⟨eh, ew, eo, sh, by dsimp only; rw [hhi]; exact O', T', ?_,
            Str.mono hmono hx, by rw [hacc], ?_, (fun h => by dsimp only at h; omega), hbuf⟩⟩
          · intro c p' y h hc
            have : c ≠ w.hi + 1 := by rw [eh, hhi] at hc; omega
            rw [Function.update_of_ne this] at h
            exact hag c p' y h hc
          · intro _
            dsimp only
            rw [hhi, hlast]
            exact ⟨by omega, x, [], rfl, Function.update_self ..⟩
        obtain ⟨d', E', s', h1, h2⟩ := ih I'
        rw [hhi] at h1 h2
        exact ⟨d', E', s', h1, h2.trans hsv⟩
    · dsimp only
      have hE := lookup_sound S.ent (by omega) S.tab _ _ (hash_lt _) hlk
      refine ih (s := s ++ [x]) (d := d) (E := E) ⟨I.bits, I.reads, ⟨S.hi, S.width, S.overflow, S.shape, S.ent, S.tab, S.agree,
        Str.ext hE S.str, by rw [S.cons]; simp, ?_, S.start, S.buf⟩⟩
      intro h
      obtain ⟨h1, y, s', h2, h3⟩ := S.behind h
      exact ⟨h1, y, s' ++ [x], by rw [h2]; rfl, h3⟩

end Verif.Lzw
