import Verif.Consensus.Wal

/-! # Lemmas about reading and about groups of consecutive files (`Verif.Consensus.Wal`) -/

namespace Verif.Wal

section
variable (crc : Bytes → UInt32)

/-- The frames of some records, one after the other. -/
def frames (rs : List Bytes) : Bytes := (rs.map (frame crc)).flatten

/-- What is left of a record that was not written to its end: less than its frame. -/
def Torn (t : Bytes) : Prop := ∃ p : Bytes, p.length < 2 ^ 32 ∧ t <+: frame crc p ∧ t.length < (frame crc p).length

variable {crc}

@[simp] theorem frames_nil : frames crc [] = [] := rfl

theorem frames_cons (p : Bytes) (rs : List Bytes) : frames crc (p :: rs) = frame crc p ++ frames crc rs := rfl

theorem frames_append (a b : List Bytes) : frames crc (a ++ b) = frames crc a ++ frames crc b := by
  simp [frames]

theorem frame_length (p : Bytes) : (frame crc p).length = 8 + p.length := by
  simp [frame]; omega

theorem torn_nil : Torn crc [] := ⟨[], by simp, List.nil_prefix, by simp [frame_length]⟩

theorem uint32_lt (x : UInt32) : x.toNat < 256 ^ 4 := by
  have h := x.toNat_lt
  have e : (256 : ℕ) ^ 4 = 4294967296 := by norm_num
  have e2 : (2 : ℕ) ^ 32 = 4294967296 := by norm_num
  omega

theorem readBytes_frame (p r : Bytes) (hp : p.length < 2 ^ 32) : readBytes crc (frame crc p ++ r) = .ok (p, r) := by
  have h8 : readAtLeast 8 (frame crc p ++ r) = .ok (beBytes 4 (crc p).toNat ++ beBytes 4 p.length, p ++ r) := by
    unfold readAtLeast
    have : 8 ≤ (frame crc p ++ r).length := by rw [List.length_append, frame_length]; omega
    rw [if_pos this]
    have e : frame crc p ++ r = (beBytes 4 (crc p).toNat ++ beBytes 4 p.length) ++ (p ++ r) := by simp [frame]
    have l : (beBytes 4 (crc p).toNat ++ beBytes 4 p.length).length = 8 := by rw [List.length_append, beBytes_length, beBytes_length]
    rw [e, List.take_left' l, List.drop_left' l]
  have l4 : (beBytes 4 (crc p).toNat).length = 4 := beBytes_length _ _
  have hL : beNat (beBytes 4 p.length) = p.length := beNat_beBytes_of_lt (by
    have e : (256 : ℕ) ^ 4 = 2 ^ 32 := by norm_num
    rw [e]; exact hp)
  have hC : beNat (beBytes 4 (crc p).toNat) = (crc p).toNat := beNat_beBytes_of_lt (uint32_lt _)
  have h2 : readAtLeast p.length (p ++ r) = .ok (p, r) := by
    unfold readAtLeast
    rw [if_pos (by rw [List.length_append]; omega), List.take_left' rfl, List.drop_left' rfl]
  unfold readBytes
  rw [h8, Except.bind]
  dsimp only
  unfold readBody
  rw [List.drop_left' l4, List.take_left' l4, hL, hC, h2, Except.bind]
  dsimp only
  rw [if_neg (by simp)]

/-- What `ReadBytes` says at what is left of a record. -/
def tornErr (t : Bytes) : Err := if t = [] ∨ t.length = 8 then .eof else .unexpectedEOF

theorem readBytes_torn {t : Bytes} (h : Torn crc t) : readBytes crc t = .error (tornErr t) := by
  obtain ⟨p, hp, ⟨u, hu⟩, hl⟩ := h
  unfold readBytes tornErr
  by_cases h8 : 8 ≤ t.length
  · have ht : t.take 8 = beBytes 4 (crc p).toNat ++ beBytes 4 p.length := by
      have : (t ++ u).take 8 = t.take 8 := by rw [List.take_append_of_le_length h8]
      rw [← this, hu, frame, List.take_left' (by simp)]
    have e1 : readAtLeast 8 t = .ok (beBytes 4 (crc p).toNat ++ beBytes 4 p.length, t.drop 8) := by
      unfold readAtLeast; rw [if_pos h8, ht]
    have l4 : (beBytes 4 (crc p).toNat).length = 4 := beBytes_length _ _
    have hL : beNat (beBytes 4 p.length) = p.length := beNat_beBytes_of_lt (by
      have e : (256 : ℕ) ^ 4 = 2 ^ 32 := by norm_num
      rw [e]; exact hp)
    have hlen : (t.drop 8).length < p.length := by
      rw [frame_length] at hl; simp; omega
    have e2 : readAtLeast p.length (t.drop 8) = .error (if t.drop 8 = [] then .eof else .unexpectedEOF) := by
      unfold readAtLeast
      rw [if_neg (by omega)]
      split <;> rfl
    rw [e1, Except.bind]
    dsimp only
    unfold readBody
    rw [List.drop_left' l4, hL, e2, Except.bind]
    by_cases h0 : t.drop 8 = []
    · have : t.length = 8 := by
        have := congrArg List.length h0; simp at this; omega
      rw [if_pos h0, if_pos (Or.inr this)]
    · rw [if_neg h0, if_neg]
      rintro (e | e)
      · subst e; simp at h8
      · apply h0; exact List.drop_eq_nil_of_le (by omega)
  · have e1 : readAtLeast 8 t = .error (if t = [] then .eof else .unexpectedEOF) := by
      unfold readAtLeast
      rw [if_neg h8]
      split <;> rfl
    rw [e1, Except.bind]
    by_cases h0 : t = []
    · simp [h0]
    · rw [if_neg h0, if_neg]
      rintro (e | e)
      · exact h0 e
      · omega

theorem readLoop_frames (rs : List Bytes) (hrs : ∀ p ∈ rs, p.length < 2 ^ 32) {t : Bytes} (ht : Torn crc t) :
    ∀ n, rs.length < n → readLoop crc n (frames crc rs ++ t) = (rs, tornErr t, (frames crc rs).length) := by
  induction rs with
  | nil =>
    intro n hn
    obtain ⟨n, rfl⟩ : ∃ k, n = k + 1 := ⟨n - 1, by simp at hn; omega⟩
    simp only [frames_nil, List.nil_append, readLoop]
    rw [readBytes_torn ht, readRound]
    simp
  | cons p rs ih =>
    intro n hn
    obtain ⟨n, rfl⟩ : ∃ k, n = k + 1 := ⟨n - 1, by simp at hn; omega⟩
    simp only [readLoop]
    rw [frames_cons, List.append_assoc, readBytes_frame p _ (hrs p (by simp)), readRound]
    dsimp only
    rw [ih (fun q hq => hrs q (List.mem_cons_of_mem _ hq)) n (by simp at hn; omega)]
    simp [frame_length]

theorem length_frames_ge (rs : List Bytes) : rs.length ≤ (frames crc rs).length := by
  induction rs with
  | nil => simp
  | cons p rs ih => rw [frames_cons]; simp [frame_length]; omega

theorem readAll_frames (rs : List Bytes) (hrs : ∀ p ∈ rs, p.length < 2 ^ 32) {t : Bytes} (ht : Torn crc t) :
    readAll crc (frames crc rs ++ t) = (rs, tornErr t, (frames crc rs).length) := by
  unfold readAll
  apply readLoop_frames rs hrs ht
  have := length_frames_ge (crc := crc) rs
  simp; omega

/-- A prefix of some frames: whole frames and a part of the next. -/
theorem cut (rs : List Bytes) (hrs : ∀ p ∈ rs, p.length < 2 ^ 32) : ∀ d : Bytes, d <+: frames crc rs →
    ∃ k t, k ≤ rs.length ∧ d = frames crc (rs.take k) ++ t ∧ Torn crc t ∧
      ∀ m ≤ rs.length, (frames crc (rs.take m)).length ≤ d.length → m ≤ k := by
  induction rs with
  | nil =>
    intro d hd
    have : d = [] := by simpa using hd
    subst this
    exact ⟨0, [], by simp, by simp, torn_nil, fun m hm _ => by simpa using hm⟩
  | cons p rs ih =>
    intro d hd
    rw [frames_cons] at hd
    by_cases hl : d.length < (frame crc p).length
    · refine ⟨0, d, by simp, by simp, ⟨p, hrs p (by simp), ?_, hl⟩, ?_⟩
      · exact List.prefix_of_prefix_length_le hd (List.prefix_append _ _) (by omega)
      · intro m hm hle
        by_contra hc
        obtain ⟨m, rfl⟩ : ∃ k, m = k + 1 := ⟨m - 1, by omega⟩
        rw [List.take_succ_cons, frames_cons] at hle
        simp at hle; omega
    · obtain ⟨d', rfl⟩ : frame crc p <+: d :=
        List.prefix_of_prefix_length_le (List.prefix_append _ _) hd (by omega)
      have hd' : d' <+: frames crc rs := by simpa using hd
      obtain ⟨k, t, hk, e, ht, hm⟩ := ih (fun q hq => hrs q (List.mem_cons_of_mem _ hq)) d' hd'
      refine ⟨k + 1, t, by simp; omega, ?_, ht, ?_⟩
      · rw [List.take_succ_cons, frames_cons, List.append_assoc, ← e]
      · intro m hm1 hle
        cases m with
        | zero => omega
        | succ m =>
          rw [List.take_succ_cons, frames_cons] at hle
          simp at hle hm1
          have := hm m hm1 hle
          omega

end

/-! ## Consecutive files -/

/-- Files with the numbers from `h` on. -/
def number : ℕ → List File → Disk
  | _, [] => []
  | h, f :: fs => (h, f) :: number (h + 1) fs

theorem number_append (a b : List File) : ∀ h, number h (a ++ b) = number h a ++ number (h + a.length) b := by
  induction a with
  | nil => intro h; simp [number]
  | cons f a ih => intro h; simp [number, ih, Nat.add_assoc, Nat.add_comm 1]

theorem number_length (a : List File) : ∀ h, (number h a).length = a.length := by
  induction a with
  | nil => intro h; rfl
  | cons f a ih => intro h; simp [number, ih]

theorem number_idx {a : List File} : ∀ {h x}, x ∈ number h a → h ≤ x.1 ∧ x.1 < h + a.length := by
  induction a with
  | nil => intro h x hx; cases hx
  | cons f a ih =>
    intro h x hx
    rcases List.mem_cons.mp hx with e | e
    · subst e; simp
    · have := ih e; simp; omega

theorem number_map (a : List File) (g : File → File) : ∀ h,
    (number h a).map (fun x => (x.1, g x.2)) = number h (a.map g) := by
  induction a with
  | nil => intro h; rfl
  | cons f a ih => intro h; simp [number, ih]

theorem find_number (a : List File) : ∀ h i, find (number h a) (h + i) = a[i]? := by
  induction a with
  | nil => intro h i; rfl
  | cons f a ih =>
    intro h i
    cases i with
    | zero => simp [find, number]
    | succ i =>
      have := ih (h + 1) i
      rw [show h + 1 + i = h + (i + 1) by omega] at this
      simp only [List.getElem?_cons_succ, ← this]
      unfold find
      rw [number, List.find?_cons_of_neg (by simp)]

theorem find_below (a : List File) (h i : ℕ) (hi : i < h) : find (number h a) i = none := by
  unfold find
  rw [Option.map_eq_none_iff, List.find?_eq_none]
  intro x hx
  have := number_idx hx
  simp; omega

theorem modify_not (d : Disk) (i : ℕ) (g : File → File) (h : ∀ x ∈ d, x.1 ≠ i) : modify d i g = d := by
  unfold modify
  conv_rhs => rw [← List.map_id d]
  apply List.map_congr_left
  intro x hx
  rw [if_neg (h x hx)]; rfl

theorem modify_last (a : List File) (f : File) (g : File → File) (h : ℕ) :
    modify (number h (a ++ [f])) (h + a.length) g = number h (a ++ [g f]) := by
  rw [number_append, number_append]
  have e : modify (number h a ++ number (h + a.length) [f]) (h + a.length) g =
      modify (number h a) (h + a.length) g ++ modify (number (h + a.length) [f]) (h + a.length) g := by
    simp [modify]
  rw [e, modify_not _ _ _ (fun x hx => by have := number_idx hx; omega)]
  simp [modify, number]

theorem remove_head (f : File) (a : List File) (h : ℕ) : remove (number h (f :: a)) h = number (h + 1) a := by
  unfold remove
  rw [number, List.filter_cons_of_neg (by simp), List.filter_eq_self.mpr]
  intro x hx
  have := number_idx hx
  simp; omega

theorem create_new (a : List File) (h : ℕ) :
    create (number h a) (h + a.length) = number h (a ++ [⟨[], 0⟩]) := by
  unfold create
  rw [find_number, if_neg (by simp), number_append]
  rfl

theorem create_old (a : List File) (h i : ℕ) (hi : i < a.length) : create (number h a) (h + i) = number h a := by
  unfold create
  rw [find_number, if_pos (by simp [hi])]

theorem minStep_number (a : List File) : ∀ (h i : ℕ), i < h → (number h a).foldl minStep (some i) = some i := by
  induction a with
  | nil => intro h i hi; rfl
  | cons f a ih =>
    intro h i hi
    rw [number, List.foldl_cons]
    have : minStep (some i) (h, f) = some i := by simp [minStep]; omega
    rw [this, ih _ _ (by omega)]

theorem maxStep_number (a : List File) (f : File) : ∀ (h : ℕ) (m : ℕ × ℕ), (m.1 = 0 ∨ m.1 < h) →
    (number h (a ++ [f])).foldl maxStep m = (h + a.length, f.data.length) := by
  induction a with
  | nil =>
    intro h m hm
    simp only [List.nil_append, number, List.foldl_cons, List.foldl_nil, maxStep, if_pos hm]
    simp
  | cons g a ih =>
    intro h m hm
    rw [List.cons_append, number, List.foldl_cons, ih (h + 1) _ ?_]
    · simp; omega
    · right
      simp only [maxStep, if_pos hm]; omega

theorem sum_number (a : List File) : ∀ h, ((number h a).map (fun x => x.2.data.length)).sum =
    (a.map (fun f => f.data.length)).sum := by
  induction a with
  | nil => intro h; rfl
  | cons f a ih => intro h; simp [number, ih]

theorem readInfo_number (a : List File) (f : File) (h : ℕ) : readInfo (number h (a ++ [f])) =
    { head := some h
      tail := h + a.length
      total := ((a ++ [f]).map (fun f => f.data.length)).sum
      tailSize := f.data.length
      sizes := (a ++ [f]).map (fun f => f.data.length) } := by
  have hm := maxStep_number a f h (0, 0) (Or.inl rfl)
  have hh : (number h (a ++ [f])).foldl minStep none = some h := by
    cases a with
    | nil => simp [number, minStep]
    | cons g a =>
      rw [List.cons_append, number, List.foldl_cons]
      exact minStep_number _ _ _ (by omega)
  unfold readInfo
  dsimp only
  rw [hm, hh, sum_number]
  dsimp only
  congr 1
  apply List.ext_getElem?
  intro i
  by_cases hi : i < a.length + 1
  · rw [List.getElem?_map, List.getElem?_range (by omega), Option.map_some, find_number, List.getElem?_map]
    rw [List.getElem?_eq_getElem (by simpa using hi)]
    simp
  · rw [List.getElem?_eq_none (by simp; omega), List.getElem?_eq_none (by simp; omega)]

theorem concat_number (a : List File) : ∀ h (pre : List File),
    concat (number h (pre ++ a)) (h + pre.length) a.length = some (a.flatMap (fun f => f.data)) := by
  induction a with
  | nil => intro h pre; simp [concat]
  | cons f a ih =>
    intro h pre
    simp only [List.length_cons, concat]
    rw [find_number]
    have := ih h (pre ++ [f])
    rw [List.append_assoc, List.singleton_append] at this
    simp only [List.getElem?_append_right (le_refl _), Nat.sub_self, List.getElem?_cons_zero]
    rw [show h + pre.length + 1 = h + (pre ++ [f]).length by simp; omega, this]
    simp

theorem openRead_number (a : List File) (f : File) (h : ℕ) : openRead (number h (a ++ [f])) =
    some (readInfo (number h (a ++ [f])), (a ++ [f]).flatMap (fun f => f.data)) := by
  unfold openRead
  have hi := readInfo_number a f h
  rw [hi]
  dsimp only
  rw [if_neg (by omega)]
  have := concat_number (a ++ [f]) h []
  simp only [List.nil_append, List.length_nil, Nat.add_zero] at this
  rw [show h + a.length - h + 1 = (a ++ [f]).length by simp, this]
  rfl

theorem openWrite_number (a : List File) (f : File) (h : ℕ) : openWrite (number h (a ++ [f])) =
    (number h (a ++ [f]), ⟨h + a.length, []⟩) := by
  unfold openWrite
  rw [readInfo_number]
  dsimp only
  rw [create_old _ _ _ (by simp)]

end Verif.Wal
