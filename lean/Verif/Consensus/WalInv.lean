import Verif.Consensus.WalDisk

/-! # Invariant of the write-ahead log over all histories (`Verif.Consensus.Wal`) -/

namespace Verif.Wal

section
variable (crc : Bytes → UInt32) (cfg : Config)

/-- The last file does not end in a place where the repair goes wrong: if it ends in a torn record, then it has at least one whole record or
it is the only file, and the torn record is not exactly its header. -/
def Lucky (d : Disk) : Prop :=
  ∀ x ∈ d, (∀ y ∈ d, y.1 ≤ x.1) → ∀ rs t, (∀ p ∈ rs, p.length < 2 ^ 32) → x.2.data = frames crc rs ++ t → Torn crc t →
    t = [] ∨ (t.length ≠ 8 ∧ (rs = [] → d.length = 1))

/-- What can happen to a log. -/
inductive Step : State → State → Prop
  | write {s s' : State} (p : Bytes) (hp : p.length < 2 ^ 32) (e : s.write crc p = some s') : Step s s'
  | spill {s s' : State} (k : ℕ) (e : s.spill k = some s') : Step s s'
  | sync {s s' : State} (e : s.sync = some s') : Step s s'
  | look {s s' : State} (e : s.look = some s') : Step s s'
  | house {s s' : State} (due : Bool) (e : s.house crc cfg due = some s') : Step s s'
  | close {s s' : State} (e : s.close = some s') : Step s s'
  | crash {s : State} (keep : ℕ → ℕ) (hk : s.Keeps keep) (hl : Lucky crc (s.crash keep).disk) : Step s (s.crash keep)
  | start {s s' : State} (e : s.start crc = some s') : Step s s'

/-- Some steps. -/
inductive Steps : State → State → Prop
  | refl (s : State) : Steps s s
  | tail {s s' s'' : State} (h : Steps s s') (e : Step crc cfg s' s'') : Steps s s''

/-- The histories of a log. -/
def Reach (s : State) : Prop := Steps crc cfg State.empty s

/-- A whole file with some records. -/
def whole (rs : List Bytes) : File := ⟨frames crc rs, (frames crc rs).length⟩

/-- Files from the number `h` on: whole ones with the records `older`, and a last one. -/
structure Files (s : State) (h : ℕ) (older : List (List Bytes)) (t : List Bytes) (tf : File) : Prop where
  disk : s.disk = number h (older.map (whole crc) ++ [tf])
  log : s.log.drop s.gone = older.flatten ++ t
  gone : s.gone ≤ s.log.length
  short : ∀ p ∈ s.log, p.length < 2 ^ 32
  full : ∀ rs ∈ older, rs ≠ []
  data : tf.synced ≤ tf.data.length
  pre : tf.data <+: frames crc t
  syn : ∃ m ≤ t.length, (frames crc (t.take m)).length ≤ tf.synced ∧ s.synced + t.length ≤ s.log.length + m
  old : s.gone + older.flatten.length ≤ s.synced

/-- The log of a node that runs. -/
structure Up (s : State) (h : ℕ) (older : List (List Bytes)) (t : List Bytes) (tf : File) (buf : Bytes) : Prop
    extends Files crc s h older t tf where
  writer : s.writer = some ⟨h + older.length, buf⟩
  buf : tf.data ++ buf = frames crc t
  seen : ∀ i, s.seen = some i → i.head = some h ∧ i.total = (frames crc older.flatten).length + i.tailSize ∧
    i.tailSize ≤ tf.data.length

/-- The log of a node that does not run. -/
structure Down (s : State) (h : ℕ) (older : List (List Bytes)) (t : List Bytes) (tf : File) : Prop
    extends Files crc s h older t tf where
  writer : s.writer = none
  seen : s.seen = none

/-- Before the first start. -/
def Fresh (s : State) : Prop :=
  s.disk = [] ∧ s.writer = none ∧ s.seen = none ∧ s.log = [] ∧ s.gone = 0 ∧ s.synced = 0

/-- The invariant. -/
def Inv (s : State) : Prop :=
  Fresh s ∨ (∃ h older t tf buf, Up crc s h older t tf buf) ∨
    (∃ h older t tf, Down crc s h older t tf ∧ Lucky crc s.disk)

variable {crc cfg}

theorem short_of (F : Files crc s h older t tf) : ∀ p ∈ older.flatten ++ t, p.length < 2 ^ 32 := by
  intro p hp
  rw [← F.log] at hp
  exact F.short p (List.mem_of_mem_drop hp)

theorem short_t (F : Files crc s h older t tf) : ∀ p ∈ t, p.length < 2 ^ 32 :=
  fun p hp => short_of F p (List.mem_append_right _ hp)

theorem short_old (F : Files crc s h older t tf) {rs : List Bytes} (hrs : rs ∈ older) : ∀ p ∈ rs, p.length < 2 ^ 32 :=
  fun p hp => short_of F p (List.mem_append_left _ (List.mem_flatten_of_mem hrs hp))

theorem log_length (F : Files crc s h older t tf) : s.log.length = s.gone + older.flatten.length + t.length := by
  have := congrArg List.length F.log
  rw [List.length_drop, List.length_append] at this
  have := F.gone
  omega

theorem flat_data (older : List (List Bytes)) :
    (older.map (whole crc)).flatMap (fun f => f.data) = frames crc older.flatten := by
  induction older with
  | nil => rfl
  | cons a l ih => rw [List.map_cons, List.flatMap_cons, ih, List.flatten_cons, frames_append]; rfl

theorem sum_sizes (older : List (List Bytes)) :
    ((older.map (whole crc)).map (fun f => f.data.length)).sum = (frames crc older.flatten).length := by
  rw [← flat_data, List.length_flatMap]

theorem repairLoop_skip (tail : ℕ) (a rest : List ℕ) : ∀ (l idx : ℕ) (d : Disk), 0 < l →
    repairLoop tail (a ++ rest) (a.sum + l) idx d = repairLoop tail rest l (idx + a.length) d := by
  induction a with
  | nil => intro l idx d hl; simp
  | cons s a ih =>
    intro l idx d hl
    rw [List.cons_append, repairLoop, if_neg (by simp; omega)]
    rw [show (s :: a).sum + l - s = a.sum + l by simp; omega, ih _ _ _ hl]
    congr 1
    simp; omega

/-- The files after the recovery. -/
def cutTo (rs : List Bytes) (f : File) : File := ⟨frames crc rs, min f.synced (frames crc rs).length⟩

/-- The recovery reads the whole records; it cuts the last file at the end of them, unless it takes a torn record for the end of the log, or removes
the file before the last one. -/
theorem recover_files (F : Files crc s h older t tf) : ∃ k tt, k ≤ t.length ∧ tf.data = frames crc (t.take k) ++ tt ∧
    Torn crc tt ∧ (∀ m ≤ t.length, (frames crc (t.take m)).length ≤ tf.data.length → m ≤ k) ∧
    (recover crc s.disk).2 = some (older.flatten ++ t.take k) ∧
    (tt = [] ∨ tt.length = 8 → (recover crc s.disk).1 = s.disk) ∧
    (tt ≠ [] → tt.length ≠ 8 → (t.take k ≠ [] ∨ older = []) →
      (recover crc s.disk).1 = number h (older.map (whole crc) ++ [cutTo (crc := crc) (t.take k) tf])) ∧
    (tt ≠ [] → tt.length ≠ 8 → t.take k = [] → older ≠ [] →
      (recover crc s.disk).1 = remove s.disk (h + older.length - 1)) := by
  obtain ⟨k, tt, hk, hd, ht, hm⟩ := cut t (short_t F) tf.data F.pre
  refine ⟨k, tt, hk, hd, ht, hm, ?_⟩
  have hbs : (older.map (whole crc) ++ [tf]).flatMap (fun f => f.data) =
      frames crc (older.flatten ++ t.take k) ++ tt := by
    rw [List.flatMap_append, flat_data, frames_append, List.append_assoc, ← hd]; simp
  have hshort : ∀ p ∈ older.flatten ++ t.take k, p.length < 2 ^ 32 := by
    intro p hp
    apply short_of F p
    rcases List.mem_append.mp hp with e | e
    · exact List.mem_append_left _ e
    · exact List.mem_append_right _ (List.mem_of_mem_take e)
  have hread := readAll_frames (crc := crc) _ hshort ht
  have hopen : openRead s.disk = some (readInfo s.disk, frames crc (older.flatten ++ t.take k) ++ tt) := by
    rw [F.disk, openRead_number, hbs]
  have hinfo := readInfo_number (older.map (whole crc)) tf h
  rw [← F.disk] at hinfo
  have hrec : recover crc s.disk = if tornErr tt = .eof then (s.disk, some (older.flatten ++ t.take k))
      else ((repair (readInfo s.disk) (frames crc (older.flatten ++ t.take k)).length s.disk).1,
        if (repair (readInfo s.disk) (frames crc (older.flatten ++ t.take k)).length s.disk).2
          then some (older.flatten ++ t.take k) else none) := by
    unfold recover
    rw [hopen]
    dsimp only
    rw [hread]
  by_cases he : tt = [] ∨ tt.length = 8
  · have : tornErr tt = .eof := by unfold tornErr; rw [if_pos he]
    rw [if_pos this] at hrec
    rw [hrec]
    refine ⟨rfl, fun _ => rfl, fun h1 h2 => ?_, fun h1 h2 => ?_⟩
    · rcases he with e | e
      · exact absurd e h1
      · exact absurd e h2
    · rcases he with e | e
      · exact absurd e h1
      · exact absurd e h2
  · have hne : tornErr tt = .unexpectedEOF := by unfold tornErr; rw [if_neg he]
    rw [hne, if_neg (by simp)] at hrec
    have tt0 : tt ≠ [] := fun e => he (Or.inl e)
    have ttl : 0 < tt.length := List.length_pos_iff.mpr tt0
    have hsz : tf.data.length = (frames crc (t.take k)).length + tt.length := by rw [hd, List.length_append]
    have hvalid : (frames crc (older.flatten ++ t.take k)).length =
        ((older.map (whole crc)).map (fun f => f.data.length)).sum + (frames crc (t.take k)).length := by
      rw [frames_append, List.length_append, sum_sizes]
    have hrep : repair (readInfo s.disk) (frames crc (older.flatten ++ t.take k)).length s.disk =
        repairLoop (h + older.length) ((older.map (whole crc)).map (fun f => f.data.length) ++ [tf.data.length])
          (((older.map (whole crc)).map (fun f => f.data.length)).sum + (frames crc (t.take k)).length) h s.disk := by
      unfold repair
      rw [hinfo, hvalid]
      simp
    -- the last file is cut
    have good : (t.take k ≠ [] ∨ older = []) →
        repair (readInfo s.disk) (frames crc (older.flatten ++ t.take k)).length s.disk =
          (number h (older.map (whole crc) ++ [cutTo (crc := crc) (t.take k) tf]), true) := by
      intro hg
      have hgo : repair (readInfo s.disk) (frames crc (older.flatten ++ t.take k)).length s.disk =
          repairLoop (h + older.length) [tf.data.length] (frames crc (t.take k)).length (h + older.length) s.disk := by
        rw [hrep]
        by_cases h0 : t.take k = []
        · have := hg.resolve_left (fun e => e h0)
          subst this
          simp
        · rw [repairLoop_skip _ _ _ _ _ _ (by
            have := length_frames_ge (crc := crc) (t.take k)
            have := List.length_pos_iff.mpr h0
            omega)]
          simp
      rw [hgo, repairLoop, if_pos (by omega), if_pos (by omega), Nat.sub_self, removeLoop, F.disk]
      have := modify_last (older.map (whole crc)) tf
        (fun f => ⟨f.data.take (frames crc (t.take k)).length, min f.synced (frames crc (t.take k)).length⟩) h
      rw [List.length_map] at this
      rw [this]
      congr 4
      unfold cutTo
      rw [hd, List.take_left' rfl]
    -- the file before the last is removed
    have bad : t.take k = [] → older ≠ [] →
        repair (readInfo s.disk) (frames crc (older.flatten ++ t.take k)).length s.disk =
          (remove s.disk (h + older.length - 1), true) := by
      intro h0 ho
      obtain ⟨a, b, rfl⟩ : ∃ a b, older = a ++ [b] := ⟨_, _, (List.dropLast_concat_getLast ho).symm⟩
      have hb := F.full b (by simp)
      rw [hrep, h0]
      have e1 : ((List.map (whole crc) (a ++ [b])).map (fun f => f.data.length) ++ [tf.data.length]) =
          ((a.map (whole crc)).map (fun f => f.data.length)) ++ [(frames crc b).length, tf.data.length] := by
        simp [whole]
      have e2 : ((List.map (whole crc) (a ++ [b])).map (fun f => f.data.length)).sum + (frames crc []).length =
          ((a.map (whole crc)).map (fun f => f.data.length)).sum + (frames crc b).length := by
        simp [whole]
      rw [e1, e2, repairLoop_skip _ _ _ _ _ _ (by
        have := length_frames_ge (crc := crc) b
        have := List.length_pos_iff.mpr hb
        omega)]
      rw [repairLoop, if_pos (le_refl _), if_neg (by omega)]
      have e3 : h + (a ++ [b]).length - (h + (List.map (fun f => f.data.length) (List.map (whole crc) a)).length) = 1 := by
        simp; omega
      have e4 : h + (List.map (fun f => f.data.length) (List.map (whole crc) a)).length = h + (a ++ [b]).length - 1 := by
        simp
      rw [e3, e4]
      have hf : (find s.disk (h + (a ++ [b]).length - 1)).isSome = true := by
        rw [F.disk, ← e4, find_number]
        simp
      rw [removeLoop, if_pos hf, removeLoop]
    rw [hrec]
    refine ⟨?_, fun e => absurd e he, fun _ _ hg => by rw [good hg], fun _ _ h0 ho => by rw [bad h0 ho]⟩
    by_cases hg : t.take k ≠ [] ∨ older = []
    · rw [good hg]; simp
    · push Not at hg
      rw [bad hg.1 hg.2]; simp

end

end Verif.Wal
