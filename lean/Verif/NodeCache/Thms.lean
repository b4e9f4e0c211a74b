import Verif.NodeCache.Model
import Mathlib.Data.List.Induction
import Mathlib.Tactic.ByContra

/-! # What the cache gives was put for that hash -/

namespace Verif.NodeCache

theorem index_append (a : List Nat) (n : Nat) : index (a ++ [n]) = index a * 16 + n + 1 := by
  unfold index
  rw [List.foldl_append]
  rfl

/-- Different places of the trie have different indices. -/
theorem index_inj {a b : List Nat} (ha : ∀ n ∈ a, n < 16) (hb : ∀ n ∈ b, n < 16) (h : index a = index b) : a = b := by
  induction a using List.reverseRecOn generalizing b with
  | nil =>
    rcases List.eq_nil_or_concat b with rfl | ⟨t, n, rfl⟩
    · rfl
    · rw [List.concat_eq_append, index_append] at h
      have h0 : index [] = 0 := rfl
      omega
  | append_singleton a n ih =>
    rcases List.eq_nil_or_concat b with rfl | ⟨t, m, rfl⟩
    · rw [index_append] at h
      have h0 : index [] = 0 := rfl
      omega
    · rw [List.concat_eq_append] at hb h ⊢
      rw [index_append, index_append] at h
      have h1 := ha n (by simp)
      have h2 := hb m (by simp)
      have h3 : n = m := by omega
      have h4 : index a = index t := by omega
      rw [h3, ih (fun x hx => ha x (by simp [hx])) (fun x hx => hb x (by simp [hx])) h4]

theorem size_zero : sizeByDepth 0 = 0 := rfl

theorem size_succ (d : Nat) : sizeByDepth (d + 1) = 16 * sizeByDepth d + 1 := by
  have key : ∀ d, ∃ k, 16 ^ d = 15 * k + 1 := by
    intro d
    induction d with
    | zero => exact ⟨0, rfl⟩
    | succ d ih =>
      obtain ⟨k, hk⟩ := ih
      exact ⟨16 * k + 1, by rw [Nat.pow_succ, hk]; omega⟩
  obtain ⟨k, hk⟩ := key d
  unfold sizeByDepth
  rw [Nat.pow_succ, hk]
  omega

theorem size_mono {a b : Nat} (h : a ≤ b) : sizeByDepth a ≤ sizeByDepth b := by
  induction h with
  | refl => exact Nat.le_refl _
  | step _ ih => rw [size_succ]; omega

/-- The first `d` levels of the trie are exactly the indices below `sizeByDepth d`. -/
theorem index_level {ns : List Nat} (hn : ∀ n ∈ ns, n < 16) (d : Nat) : index ns < sizeByDepth d ↔ ns.length < d := by
  have hb : sizeByDepth ns.length ≤ index ns ∧ index ns < sizeByDepth (ns.length + 1) := by
    induction ns using List.reverseRecOn with
    | nil => exact ⟨Nat.le_refl _, by decide⟩
    | append_singleton a n ih =>
      obtain ⟨h1, h2⟩ := ih (fun x hx => hn x (by simp [hx]))
      have h3 := hn n (by simp)
      rw [List.length_append, List.length_singleton, index_append, size_succ (a.length + 1)]
      rw [size_succ] at h2 ⊢
      omega
  constructor
  · intro h
    by_contra hc
    have := size_mono (show d ≤ ns.length from by omega)
    omega
  · intro h
    have := size_mono (show ns.length + 1 ≤ d from by omega)
    omega

/-- What is in a place of the file. -/
def slot (f : File) (i : Nat) : Option (List Nat × List Nat) → Prop
  | none => ∀ x, i * 566 ≤ x → x < i * 566 + 566 → f.data x = 0
  | some (h, s) => h.length = 32 ∧ s.length ≤ 532 ∧ (∀ j, j < 34 + s.length →
      f.data (i * 566 + j) = ([(32 + s.length) / 256 % 256, (32 + s.length) % 256] ++ h ++ s).getD j 0)

theorem slot_read {c : Cache} {idx : Nat} {o : Option (List Nat × List Nat)} (hs : slot c.f (idx - c.offset) o) :
    c.read idx = if c.f.len < (idx - c.offset) * 566 + 566 then none else o := by
  unfold Cache.read File.readAt
  split_ifs with h
  · rfl
  · dsimp only
    have hget : ∀ j, j < 566 → ((List.range 566).map fun i => c.f.data ((idx - c.offset) * 566 + i)).getD j 0 =
        c.f.data ((idx - c.offset) * 566 + j) := by
      intro j hj
      rw [List.getD_eq_getElem?_getD, List.getElem?_map, List.getElem?_range hj]
      rfl
    rw [hget 0 (by omega), hget 1 (by omega)]
    cases o with
    | none =>
      have h0 := hs ((idx - c.offset) * 566 + 0) (by omega) (by omega)
      have h1 := hs ((idx - c.offset) * 566 + 1) (by omega) (by omega)
      rw [h0, h1, if_pos (by omega)]
    | some p =>
      obtain ⟨hh, s⟩ := p
      obtain ⟨h1, h2, h3⟩ := hs
      have e0 := h3 0 (by omega)
      have e1 := h3 1 (by omega)
      simp only [List.cons_append, List.getD_cons_zero, List.getD_cons_succ] at e0 e1
      have hv : c.f.data ((idx - c.offset) * 566 + 0) * 256 + c.f.data ((idx - c.offset) * 566 + 1) = 32 + s.length := by
        rw [e0, e1]; omega
      rw [hv, if_neg (by omega), if_neg (by omega)]
      have htake : (((List.range 566).map fun i => c.f.data ((idx - c.offset) * 566 + i)).drop 2).take (32 + s.length) = hh ++ s := by
        apply List.ext_getElem?
        intro j
        by_cases hj : j < 32 + s.length
        · rw [List.getElem?_take, if_pos hj, List.getElem?_drop, List.getElem?_map, List.getElem?_range (by omega)]
          show some (c.f.data ((idx - c.offset) * 566 + (2 + j))) = _
          rw [h3 (2 + j) (by omega), show 2 + j = j + 1 + 1 from by omega]
          simp only [List.cons_append, List.nil_append, List.getD_cons_succ]
          rw [List.getD_eq_getElem?_getD, List.getElem?_eq_getElem (by rw [List.length_append]; omega)]
          rfl
        · rw [List.getElem?_eq_none (by rw [List.length_take]; omega), List.getElem?_eq_none (by rw [List.length_append]; omega)]
      have ht32 : (((List.range 566).map fun i => c.f.data ((idx - c.offset) * 566 + i)).drop 2).take 32 = hh := by
        have := congrArg (List.take 32) htake
        rw [List.take_take, Nat.min_eq_left (by omega), List.take_left' h1] at this
        exact this
      rw [ht32, htake, List.drop_left' h1]

theorem slot_write {f : File} {i : Nat} {h s : List Nat} (hl : h.length = 32) (hs : s.length ≤ 532) :
    slot (f.writeAt ([(32 + s.length) / 256 % 256, (32 + s.length) % 256] ++ h ++ s) (i * 566)) i (some (h, s)) := by
  refine ⟨hl, hs, ?_⟩
  intro j hj
  unfold File.writeAt
  dsimp only
  rw [if_pos (by simp only [List.length_append, List.length_cons, List.length_nil]; omega), Nat.add_sub_cancel_left]

theorem slot_other {f : File} {i k : Nat} (hik : k ≠ i) {b : List Nat} (hb : b.length ≤ 566) {o : Option (List Nat × List Nat)}
    (h : slot f k o) : slot (f.writeAt b (i * 566)) k o := by
  have hd : ∀ j < 566, (f.writeAt b (i * 566)).data (k * 566 + j) = f.data (k * 566 + j) := by
    intro j hj
    unfold File.writeAt
    dsimp only
    rw [if_neg]
    rintro ⟨h1, h2⟩
    rcases Nat.lt_or_gt_of_ne hik with h | h
    · omega
    · omega
  cases o with
  | none =>
    intro x h1 h2
    have := hd (x - k * 566) (by omega)
    rw [show k * 566 + (x - k * 566) = x from by omega] at this
    rw [this]
    exact h x h1 h2
  | some p =>
    obtain ⟨h1, h2, h3⟩ := h
    refine ⟨h1, h2, ?_⟩
    intro j hj
    rw [hd j (by omega)]
    exact h3 j hj

/-- What was last put at a place (and can be kept). -/
def lastAt (ps : List (Option (List Nat) × List Nat × List Nat)) (nibs : List Nat) : Option (List Nat × List Nat) :=
  (ps.find? fun p => decide (p.1 = some nibs) && decide (p.2.2.length ≤ 532)).map Prod.snd

/-- What a cache holds. -/
structure Inv (depth fdepth : Nat) (c : Cache) (ps : List (Option (List Nat) × List Nat × List Nat)) : Prop where
  offset : c.offset = sizeByDepth depth
  deep : c.depth = depth + fdepth
  place : ∀ ns : List Nat, (∀ n ∈ ns, n < 16) → ns.length < c.depth →
    if index ns < c.offset then c.nodes (index ns) = lastAt ps ns else slot c.f (index ns - c.offset) (lastAt ps ns)

theorem lastAt_cons (ps : List (Option (List Nat) × List Nat × List Nat)) (p : Option (List Nat) × List Nat × List Nat) (ns : List Nat) :
    lastAt (p :: ps) ns = if p.1 = some ns ∧ p.2.2.length ≤ 532 then some p.2 else lastAt ps ns := by
  unfold lastAt
  rw [List.find?_cons]
  by_cases h : p.1 = some ns ∧ p.2.2.length ≤ 532
  · rw [if_pos h, h.1]
    simp [h.2]
  · rw [if_neg h]
    have : (decide (p.1 = some ns) && decide (p.2.2.length ≤ 532)) = false := by
      rw [Bool.and_eq_false_iff]
      by_cases h1 : p.1 = some ns
      · right; simpa using fun h2 => h ⟨h1, h2⟩
      · left; simpa using h1
    rw [this]

theorem Run.inv {depth fdepth : Nat} {c : Cache} {ps : List (Option (List Nat) × List Nat × List Nat)} (r : Run depth fdepth c ps) :
    Inv depth fdepth c ps := by
  induction r with
  | new =>
    refine ⟨rfl, rfl, ?_⟩
    intro ns _ _
    split_ifs
    · rfl
    · intro x _ _; rfl
  | @put c ps nibs h s _ hn hh I =>
    unfold Cache.put
    cases nibs with
    | none =>
      refine ⟨I.offset, I.deep, ?_⟩
      intro ns h1 h2
      have hla : lastAt ((none, h, s) :: ps) ns = lastAt ps ns := by
        rw [lastAt_cons, if_neg]
        rintro ⟨e, -⟩
        cases e
      rw [hla]
      exact I.place ns h1 h2
    | some nb =>
      have hnb := hn nb rfl
      dsimp only
      by_cases hbig : 532 < s.length ∨ c.depth ≤ nb.length
      · rw [if_pos hbig]
        refine ⟨I.offset, I.deep, ?_⟩
        intro ns h1 h2
        have hla : lastAt ((some nb, h, s) :: ps) ns = lastAt ps ns := by
          rw [lastAt_cons, if_neg]
          rintro ⟨e, h3⟩
          dsimp only at e h3
          rw [Option.some.injEq] at e
          rw [e] at hbig
          omega
        rw [hla]
        exact I.place ns h1 h2
      · rw [if_neg hbig]
        have hs : s.length ≤ 532 := by omega
        by_cases hi : index nb < c.offset
        · rw [if_pos hi]
          refine ⟨I.offset, I.deep, ?_⟩
          intro ns h1 h2
          rw [lastAt_cons]
          have hp := I.place ns h1 h2
          dsimp only
          by_cases he : ns = nb
          · subst he
            rw [if_pos hi, if_pos rfl, if_pos ⟨rfl, hs⟩]
          · have hne : index ns ≠ index nb := fun e => he (index_inj h1 hnb e)
            rw [if_neg (c := some nb = some ns ∧ s.length ≤ 532) (by rintro ⟨e, -⟩; rw [Option.some.injEq] at e; exact he e.symm)]
            rw [if_neg hne]
            exact hp
        · rw [if_neg hi]
          unfold Cache.write
          refine ⟨I.offset, I.deep, ?_⟩
          intro ns h1 h2
          rw [lastAt_cons]
          have hp := I.place ns h1 h2
          dsimp only
          by_cases he : ns = nb
          · subst he
            rw [if_neg hi, if_pos ⟨rfl, hs⟩]
            exact slot_write hh hs
          · have hne : index ns ≠ index nb := fun e => he (index_inj h1 hnb e)
            rw [if_neg (c := some nb = some ns ∧ s.length ≤ 532) (by rintro ⟨e, -⟩; rw [Option.some.injEq] at e; exact he e.symm)]
            by_cases hi2 : index ns < c.offset
            · rw [if_pos hi2] at hp ⊢
              exact hp
            · rw [if_neg hi2] at hp ⊢
              refine slot_other (by omega) ?_ hp
              simp only [List.length_append, List.length_cons, List.length_nil]
              omega

/-- What is got was put for this place and this hash, as the last one that is not too long. -/
theorem cache_sound {depth fdepth : Nat} {c : Cache} {ps : List (Option (List Nat) × List Nat × List Nat)} (r : Run depth fdepth c ps)
    {ns h s : List Nat} (hn : ∀ n ∈ ns, n < 16) (hg : (c.get (some ns) h).1 = some s) :
    (ps.find? fun p => decide (p.1 = some ns) && decide (p.2.2.length ≤ 532)) = some (some ns, h, s) := by
  have I := r.inv
  unfold Cache.get at hg
  dsimp only at hg
  by_cases hd : c.depth ≤ ns.length
  · rw [if_pos hd] at hg; cases hg
  · rw [if_neg hd] at hg
    have hp := I.place ns hn (by omega)
    have hl : lastAt ps ns = some (h, s) := by
      by_cases hi : index ns < c.offset
      · rw [if_pos hi] at hp
        simp only [if_pos hi, hp] at hg
        cases hla : lastAt ps ns with
        | none => simp only [hla] at hg; cases hg
        | some p =>
          simp only [hla] at hg
          split_ifs at hg with e
          rw [Option.some.injEq] at hg
          rw [← e, ← hg]
      · rw [if_neg hi] at hp
        simp only [if_neg hi, slot_read hp] at hg
        by_cases hlen : c.f.len < (index ns - c.offset) * 566 + 566
        · simp only [if_pos hlen] at hg; cases hg
        · simp only [if_neg hlen] at hg
          cases hla : lastAt ps ns with
          | none => simp only [hla] at hg; cases hg
          | some p =>
            simp only [hla] at hg
            split_ifs at hg with e
            rw [Option.some.injEq] at hg
            rw [← e, ← hg]
    unfold lastAt at hl
    rw [Option.map_eq_some_iff] at hl
    obtain ⟨p, h1, h2⟩ := hl
    rw [h1]
    have := List.find?_some h1
    simp only [Bool.and_eq_true, decide_eq_true_eq] at this
    rw [Option.some.injEq]
    exact Prod.ext this.1 h2

/-- What was last put at a place of the part in memory is got; and so it is in the file, once the file goes to the end of the place. -/
theorem cache_complete {depth fdepth : Nat} {c : Cache} {ps : List (Option (List Nat) × List Nat × List Nat)} (r : Run depth fdepth c ps)
    {ns h s : List Nat} (hn : ∀ n ∈ ns, n < 16) (hd : ns.length < depth + fdepth)
    (hp : (ps.find? fun p => decide (p.1 = some ns) && decide (p.2.2.length ≤ 532)) = some (some ns, h, s))
    (hf : ns.length < depth ∨ (index ns - sizeByDepth depth) * 566 + 566 ≤ c.f.len) : c.get (some ns) h = (some s, true) := by
  have I := r.inv
  have hl : lastAt ps ns = some (h, s) := by unfold lastAt; rw [hp]; rfl
  have hdd := I.deep
  rw [← index_level hn, ← I.offset] at hf
  have hpl := I.place ns hn (by omega)
  unfold Cache.get
  dsimp only
  rw [if_neg (by omega)]
  by_cases hi : index ns < c.offset
  · rw [if_pos hi] at hpl
    simp only [if_pos hi, hpl, hl, if_true]
  · rw [if_neg hi] at hpl
    simp only [if_neg hi, slot_read hpl, hl]
    rw [if_neg (by omega)]
    simp only [if_true]

/-- There are such runs: the root in memory, and a child in the file, which is found only when the file goes on behind it. -/
example : ∃ c, Run 1 1 c [(some [1], List.replicate 32 5, List.replicate 532 6), (some [0], List.replicate 32 3, [4]),
      (some [], List.replicate 32 1, [2])] ∧ (c.get (some []) (List.replicate 32 1)).1 = some [2] ∧
      (c.get (some [0]) (List.replicate 32 3)).1 = some [4] ∧ (c.get (some [0]) (List.replicate 32 1)).1 = none := by
  have h1 := Run.put (nibs := some []) (h := List.replicate 32 1) (s := [2]) (Run.new (depth := 1) (fdepth := 1)) (by simp) (by decide)
  have h2 := Run.put (nibs := some [0]) (h := List.replicate 32 3) (s := [4]) h1 (by simp) (by decide)
  have h3 := Run.put (nibs := some [1]) (h := List.replicate 32 5) (s := List.replicate 532 6) h2 (by simp) (by decide)
  exact ⟨_, h3, by decide +kernel, by decide +kernel, by decide +kernel⟩

end Verif.NodeCache
