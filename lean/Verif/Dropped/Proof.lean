import Verif.Dropped.Inv
import Mathlib.Data.List.Dedup
import Mathlib.Data.Int.Interval
import Mathlib.Algebra.BigOperators.Group.Finset.Basic

/-! # Properties of the cache of dropped transactions (C74) -/

namespace Verif.Dropped

open Verif

/-! ## The specification -/

theorem floor_nonneg : ∀ ops : List Op, 0 ≤ Spec.floorTs ops
  | [] => le_refl _
  | .add _ _ :: l => by simpa [Spec.floorTs] using floor_nonneg l
  | .expire ts :: l => by have := floor_nonneg l; simp only [Spec.floorTs]; omega

theorem floor_append (a b : List Op) :
    Spec.floorTs (a ++ b) = max (Spec.floorTs a) (Spec.floorTs b) := by
  induction a with
  | nil => have := floor_nonneg b; simp [Spec.floorTs, this]
  | cons op a ih =>
    cases op with
    | add id ts => simpa [Spec.floorTs] using ih
    | expire ts => simp only [List.cons_append, Spec.floorTs, ih]; omega

theorem held_append (dur size k : Int) : ∀ (a b : List Op) (m : Int) (h : List Bytes), 0 ≤ m →
    Spec.held dur size k m h (a ++ b) =
      Spec.held dur size k (max m (Spec.floorTs a)) (Spec.held dur size k m h a) b := by
  intro a
  induction a with
  | nil => intro b m h hm; simp [Spec.floorTs, Spec.held, hm]
  | cons op a ih =>
    intro b m h hm
    rw [List.cons_append]
    rcases op with ⟨_ | x, ts⟩ | ts
    · simp only [Spec.held, Spec.floorTs]; exact ih b m h hm
    · simp only [Spec.held, Spec.floorTs]
      by_cases h1 : m ≤ ts ∧ ts / dur = k
      · rw [if_pos h1, if_pos h1]
        by_cases h2 : x ∈ h
        · rw [if_pos h2, if_pos h2]; exact ih _ _ _ hm
        · rw [if_neg h2, if_neg h2]
          by_cases h3 : (h.length : Int) < size
          · rw [if_pos h3, if_pos h3]; exact ih _ _ _ hm
          · rw [if_neg h3, if_neg h3]; exact ih _ _ _ hm
      · rw [if_neg h1, if_neg h1]; exact ih _ _ _ hm
    · simp only [Spec.held, Spec.floorTs]
      by_cases h1 : m < ts
      · have e : max m (max ts (Spec.floorTs a)) = max ts (Spec.floorTs a) := by omega
        rw [if_pos h1, if_pos h1, e]
        by_cases h2 : k < ts / dur
        · rw [if_pos h2, if_pos h2]; exact ih _ _ _ (by omega)
        · rw [if_neg h2, if_neg h2]; exact ih _ _ _ (by omega)
      · have e : max m (max ts (Spec.floorTs a)) = max m (Spec.floorTs a) := by omega
        rw [if_neg h1, if_neg h1, e]; exact ih _ _ _ hm

theorem held_sound (dur size k : Int) (x : Bytes) : ∀ (ops : List Op) (m : Int) (h : List Bytes),
    0 ≤ m → x ∈ Spec.held dur size k m h ops →
    x ∈ h ∨ ∃ pre ts post, ops = pre ++ Op.add (some x) ts :: post ∧ ts / dur = k ∧
      max m (Spec.floorTs pre) ≤ ts := by
  intro ops
  induction ops with
  | nil => intro m h _ hx; exact Or.inl hx
  | cons op ops ih =>
    intro m h hm hx
    have lift : ∀ m', 0 ≤ m' → (max m (Spec.floorTs [op]) ≤ m' ) →
        (∃ pre ts post, ops = pre ++ Op.add (some x) ts :: post ∧ ts / dur = k ∧
          max m' (Spec.floorTs pre) ≤ ts) →
        ∃ pre ts post, op :: ops = pre ++ Op.add (some x) ts :: post ∧ ts / dur = k ∧
          max m (Spec.floorTs pre) ≤ ts := by
      rintro m' _ h2 ⟨pre, ts, post, e, hk, ht⟩
      refine ⟨op :: pre, ts, post, by rw [e]; rfl, hk, ?_⟩
      have := floor_append [op] pre
      rw [List.singleton_append] at this
      rw [this]; omega
    rcases op with ⟨_ | y, ts⟩ | ts
    · simp only [Spec.held] at hx
      rcases ih m h hm hx with h1 | h1
      · exact Or.inl h1
      · exact Or.inr (lift m hm (by simp [Spec.floorTs, hm]) h1)
    · have hl := lift m hm (by simp [Spec.floorTs, hm])
      simp only [Spec.held] at hx
      by_cases h1 : m ≤ ts ∧ ts / dur = k
      · rw [if_pos h1] at hx
        have here : y = x → ∃ pre ts' post, Op.add (some y) ts :: ops =
            pre ++ Op.add (some x) ts' :: post ∧ ts' / dur = k ∧ max m (Spec.floorTs pre) ≤ ts' := by
          rintro rfl
          exact ⟨[], ts, ops, rfl, h1.2, by simp only [Spec.floorTs]; omega⟩
        by_cases h2 : y ∈ h
        · rw [if_pos h2] at hx
          rcases ih m h hm hx with h3 | h3
          · exact Or.inl h3
          · exact Or.inr (hl h3)
        · rw [if_neg h2] at hx
          by_cases h3 : (h.length : Int) < size
          · rw [if_pos h3] at hx
            rcases ih m _ hm hx with h4 | h4
            · rcases List.mem_cons.mp h4 with h5 | h5
              · exact Or.inr (here h5.symm)
              · exact Or.inl h5
            · exact Or.inr (hl h4)
          · rw [if_neg h3] at hx
            rcases ih m _ hm hx with h4 | h4
            · exact Or.inr (here (List.mem_singleton.mp h4).symm)
            · exact Or.inr (hl h4)
      · rw [if_neg h1] at hx
        rcases ih m h hm hx with h3 | h3
        · exact Or.inl h3
        · exact Or.inr (hl h3)
    · simp only [Spec.held] at hx
      by_cases h1 : m < ts
      · rw [if_pos h1] at hx
        have hl := lift ts (by omega) (by simp only [Spec.floorTs]; omega)
        by_cases h2 : k < ts / dur
        · rw [if_pos h2] at hx
          rcases ih ts _ (by omega) hx with h3 | h3
          · simp at h3
          · exact Or.inr (hl h3)
        · rw [if_neg h2] at hx
          rcases ih ts _ (by omega) hx with h3 | h3
          · exact Or.inl h3
          · exact Or.inr (hl h3)
      · rw [if_neg h1] at hx
        rcases ih m h hm hx with h3 | h3
        · exact Or.inl h3
        · exact Or.inr (lift m hm (by simp only [Spec.floorTs]; omega) h3)

theorem held_keep (dur size k : Int) (hd : 0 < dur) (S : List Bytes) (hS : (S.length : Int) ≤ size) :
    ∀ (ops : List Op) (m : Int) (h : List Bytes), h.Nodup → (∀ x ∈ h, x ∈ S) →
    (∀ x ∈ Spec.addedTo dur k ops, x ∈ S) → Spec.floorTs ops / dur ≤ k →
    ∀ x ∈ h, x ∈ Spec.held dur size k m h ops := by
  intro ops
  induction ops with
  | nil => intro m h _ _ _ _ x hx; exact hx
  | cons op ops ih =>
    intro m h hn hh ha hf x hx
    rcases op with ⟨_ | y, ts⟩ | ts
    · simp only [Spec.held]; exact ih m h hn hh ha hf x hx
    · simp only [Spec.held]
      simp only [Spec.addedTo] at ha
      by_cases h1 : m ≤ ts ∧ ts / dur = k
      · rw [if_pos h1]
        rw [if_pos h1.2] at ha
        have ha' : ∀ x ∈ Spec.addedTo dur k ops, x ∈ S := fun x hx => ha x (by simp [hx])
        by_cases h2 : y ∈ h
        · rw [if_pos h2]; exact ih m h hn hh ha' hf x hx
        · rw [if_neg h2]
          have hn' : (y :: h).Nodup := List.nodup_cons.mpr ⟨h2, hn⟩
          have hs' : ∀ z ∈ y :: h, z ∈ S := by
            intro z hz
            rcases List.mem_cons.mp hz with rfl | hz
            · exact ha _ (by simp)
            · exact hh z hz
          have hle := (List.subperm_of_subset hn' hs').length_le
          rw [List.length_cons] at hle
          rw [if_pos (by omega)]
          exact ih m _ hn' hs' ha' hf x (by simp [hx])
      · rw [if_neg h1]
        refine ih m h hn hh ?_ hf x hx
        intro z hz
        by_cases h2 : ts / dur = k
        · rw [if_pos h2] at ha; exact ha z (by simp [hz])
        · rw [if_neg h2] at ha; exact ha z hz
    · simp only [Spec.held]
      simp only [Spec.addedTo] at ha
      simp only [Spec.floorTs] at hf
      have hf1 : ts / dur ≤ k :=
        le_trans (Int.ediv_le_ediv hd (le_max_left _ _)) hf
      have hf2 : Spec.floorTs ops / dur ≤ k :=
        le_trans (Int.ediv_le_ediv hd (le_max_right _ _)) hf
      by_cases h1 : m < ts
      · rw [if_pos h1, if_neg (by omega)]; exact ih ts h hn hh ha hf2 x hx
      · rw [if_neg h1]; exact ih m h hn hh ha hf2 x hx

/-! ## The cache -/

theorem run_facts {dur size : Int} (hd : 0 < dur) (ops : List Op) :
    Inv (run dur size ops) ∧ (run dur size ops).dur = dur ∧ (run dur size ops).size = size ∧
    (run dur size ops).minTs = Spec.floorTs ops ∧
    ∀ k, view (run dur size ops) k = Spec.slot dur size ops k := by
  have h := fun k => foldl_spec k ops (inv_new dur size) hd
  obtain ⟨a, b, d, e, _⟩ := h 0
  refine ⟨a, b, d, ?_, fun k => ?_⟩
  · have := floor_nonneg ops
    rw [run, e]; simp [newCache, this]
  · exact (h k).2.2.2.2

/-- **Exactness**: after any history, `Contains(id, ts)` answers `true` exactly when the timestamp
is not below the floor and the id is among those the history leaves in the time slot of `ts`. -/
theorem contains_exact {dur size : Int} (hd : 0 < dur) (ops : List Op) (x : Bytes) (ts : Int) :
    contains (run dur size ops) (some x) ts = true ↔
      Spec.floorTs ops ≤ ts ∧ x ∈ Spec.slot dur size ops (ts / dur) := by
  obtain ⟨I, e1, e2, e3, hv⟩ := run_facts (size := size) hd ops
  rw [← hv, ← e3]
  revert I e1 e2 e3 hv
  generalize run dur size ops = c
  intro I e1 e2 e3 hv
  simp only [contains]
  by_cases h : c.minTs ≤ ts
  · rw [if_neg (by simp [verifyTx, h]), slotId_eq (le_trans I.min0 h), e1]
    simp only [view]
    rcases c.smap (ts / dur) with _ | r
    · simp
    · simp [h]
  · rw [if_pos (by simp [verifyTx, h])]
    simp [h]

/-- `nil` ids are never reported. -/
theorem contains_nil (c : Cache) (ts : Int) : contains c Option.none ts = false := rfl

/-- **Nothing is invented**: a reported id was added, for a timestamp of the same slot that was not
below the floor at that time, and the timestamp asked is not below the floor now. -/
theorem reported_was_added {dur size : Int} (hd : 0 < dur) (ops : List Op) (x : Bytes) (ts : Int)
    (h : contains (run dur size ops) (some x) ts = true) :
    Spec.floorTs ops ≤ ts ∧ ∃ pre ts' post, ops = pre ++ Op.add (some x) ts' :: post ∧
      ts' / dur = ts / dur ∧ Spec.floorTs pre ≤ ts' := by
  obtain ⟨h1, h2⟩ := (contains_exact hd ops x ts).mp h
  refine ⟨h1, ?_⟩
  rcases held_sound dur size (ts / dur) x ops 0 [] (le_refl _) h2 with h3 | ⟨pre, ts', post, e, hk, ht⟩
  · simp at h3
  · exact ⟨pre, ts', post, e, hk, by omega⟩

theorem slot_snoc (dur size : Int) (pre : List Op) (op : Op) (k : Int) :
    Spec.slot dur size (pre ++ [op]) k =
      Spec.held dur size k (Spec.floorTs pre) (Spec.slot dur size pre k) [op] := by
  have := floor_nonneg pre
  rw [Spec.slot, held_append _ _ _ _ _ _ _ (le_refl _)]
  rw [max_eq_right this]; rfl

/-- **Recorded at once**: right after `Add(id, ts)` with a timestamp not below the floor the id is
reported, for whatever size. -/
theorem recorded {dur size : Int} (hd : 0 < dur) (ops : List Op) (x : Bytes) (ts : Int)
    (h : Spec.floorTs ops ≤ ts) :
    contains (run dur size (ops ++ [.add (some x) ts])) (some x) ts = true := by
  refine (contains_exact hd _ x ts).mpr ⟨?_, ?_⟩
  · rw [floor_append]; have := floor_nonneg ops; simp only [Spec.floorTs]; omega
  · rw [slot_snoc]
    simp only [Spec.held]
    rw [if_pos ⟨h, trivial⟩]
    by_cases h2 : x ∈ Spec.slot dur size ops (ts / dur)
    · rw [if_pos h2]; exact h2
    · rw [if_neg h2]
      by_cases h3 : ((Spec.slot dur size ops (ts / dur)).length : Int) < size
      · rw [if_pos h3]; simp
      · rw [if_neg h3]; simp

theorem view_nodup {dur size : Int} (hd : 0 < dur) (ops : List Op) (k : Int) :
    (Spec.slot dur size ops k).Nodup ∧ ((Spec.slot dur size ops k).length : Int) ≤ max size 1 := by
  obtain ⟨I, e1, e2, e3, hv⟩ := run_facts (size := size) hd ops
  rw [← hv]
  simp only [view]
  rcases hm : (run dur size ops).smap k with _ | r
  · simp
  · have := ((I.map k r).mp hm).1
    refine ⟨I.nodup r this, ?_⟩
    have h := I.bound r this
    rw [e2] at h
    exact h

/-- **Retained**: an id that was added stays reported until its timestamp falls below the floor, as
long as the distinct ids ever added for its time slot fit into a slot. -/
theorem retained {dur size : Int} (hd : 0 < dur) (pre post : List Op) (x : Bytes) (ts : Int)
    (hf : Spec.floorTs (pre ++ .add (some x) ts :: post) ≤ ts)
    (hs : ((Spec.addedTo dur (ts / dur) (pre ++ .add (some x) ts :: post)).dedup.length : Int)
      ≤ size) :
    contains (run dur size (pre ++ .add (some x) ts :: post)) (some x) ts = true := by
  refine (contains_exact hd _ x ts).mpr ⟨hf, ?_⟩
  have e : pre ++ Op.add (some x) ts :: post = (pre ++ [Op.add (some x) ts]) ++ post := by simp
  have hfl := floor_append (pre ++ [Op.add (some x) ts]) post
  have hfl2 := floor_append pre [Op.add (some x) ts]
  have hfl3 := floor_append pre (Op.add (some x) ts :: post)
  have hrec := ((contains_exact (size := size) hd _ x ts).mp (recorded hd pre x ts (by omega))).2
  rw [e] at hf hs hfl3 ⊢
  rw [Spec.slot, held_append _ _ _ _ _ _ _ (le_refl _)]
  change x ∈ Spec.held dur size (ts / dur) _ (Spec.slot dur size (pre ++ [Op.add (some x) ts]) (ts / dur)) post
  have happ : ∀ a b : List Op, Spec.addedTo dur (ts / dur) (a ++ b) =
      Spec.addedTo dur (ts / dur) a ++ Spec.addedTo dur (ts / dur) b := by
    intro a b
    induction a with
    | nil => rfl
    | cons op a ih =>
      rcases op with ⟨_ | y, t⟩ | t
      · simpa [Spec.addedTo] using ih
      · simp only [List.cons_append, Spec.addedTo]
        by_cases h : t / dur = ts / dur
        · rw [if_pos h, if_pos h, ih]; rfl
        · rw [if_neg h, if_neg h, ih]
      · simpa [Spec.addedTo] using ih
  refine held_keep dur size (ts / dur) hd _ hs post _ _ (view_nodup hd _ _).1 ?_ ?_ ?_ x hrec
  · intro y hy
    rw [List.mem_dedup, happ]
    refine List.mem_append.mpr (Or.inl ?_)
    rcases held_sound dur size (ts / dur) y _ 0 [] (le_refl _) hy with h3 | ⟨p, t, q, e', hk, _⟩
    · simp at h3
    · rw [e', happ]
      refine List.mem_append.mpr (Or.inr ?_)
      simp only [Spec.addedTo]
      rw [if_pos hk]; simp
  · intro y hy
    rw [List.mem_dedup, happ]
    exact List.mem_append.mpr (Or.inr hy)
  · refine Int.ediv_le_ediv hd ?_
    omega

/-- **Forgotten only for two reasons**: a call after which a reported id is no longer reported
either raised the floor above the timestamp or added another id to the full slot of that id. -/
theorem forgotten_why {dur size : Int} (hd : 0 < dur) (ops : List Op) (op : Op) (x : Bytes) (ts : Int)
    (h1 : contains (run dur size ops) (some x) ts = true)
    (h2 : contains (run dur size (ops ++ [op])) (some x) ts = false) :
    (∃ t, op = .expire t ∧ ts < t) ∨
    (∃ y t, op = .add (some y) t ∧ y ≠ x ∧ t / dur = ts / dur ∧
      size ≤ ((Spec.slot dur size ops (ts / dur)).length : Int)) := by
  obtain ⟨a1, a2⟩ := (contains_exact hd ops x ts).mp h1
  have b : ¬ (Spec.floorTs (ops ++ [op]) ≤ ts ∧ x ∈ Spec.slot dur size (ops ++ [op]) (ts / dur)) := by
    rw [← contains_exact hd]; simp [h2]
  rw [slot_snoc, floor_append] at b
  rcases op with ⟨_ | y, t⟩ | t
  · exfalso; apply b
    refine ⟨by have := floor_nonneg ops; simp only [Spec.floorTs]; omega, a2⟩
  · right
    refine ⟨y, t, rfl, ?_⟩
    have hfl : max (Spec.floorTs ops) (Spec.floorTs [Op.add (some y) t]) ≤ ts := by
      have := floor_nonneg ops; simp only [Spec.floorTs]; omega
    simp only [hfl, true_and, Spec.held] at b
    by_cases h3 : Spec.floorTs ops ≤ t ∧ t / dur = ts / dur
    · rw [if_pos h3] at b
      by_cases h4 : y ∈ Spec.slot dur size ops (ts / dur)
      · rw [if_pos h4] at b; exact absurd a2 b
      · rw [if_neg h4] at b
        refine ⟨fun e => h4 (e ▸ a2), h3.2, ?_⟩
        by_contra h5
        rw [if_pos (by omega)] at b
        exact b (by simp [a2])
    · rw [if_neg h3] at b; exact absurd a2 b
  · left
    refine ⟨t, rfl, ?_⟩
    by_contra h3
    apply b
    have hfl : max (Spec.floorTs ops) (Spec.floorTs [Op.expire t]) ≤ ts := by
      have := floor_nonneg ops; simp only [Spec.floorTs]; omega
    refine ⟨hfl, ?_⟩
    simp only [Spec.held]
    by_cases h4 : Spec.floorTs ops < t
    · rw [if_pos h4, if_neg]
      · exact a2
      · have : t / dur ≤ ts / dur := Int.ediv_le_ediv hd (by omega)
        omega
    · rw [if_neg h4]; exact a2

/-! ## Its size -/

theorem order_sum {c : Cache} (I : Inv c) :
    c.cnt = ((c.order.map (fun r => (c.heap r).id)).map (fun k => ((view c k).length : Int))).sum := by
  rw [I.cnt, List.map_map]
  congr 1
  refine List.map_congr_left (fun r hr => ?_)
  have := (I.map (c.heap r).id r).mpr ⟨hr, rfl⟩
  simp [view, this]

theorem ids_nodup {c : Cache} (I : Inv c) : (c.order.map (fun r => (c.heap r).id)).Nodup := by
  rw [List.Nodup, List.pairwise_map]
  exact I.sorted.imp (fun h => by omega)

theorem sum_cover {f : Int → Int} {l1 l2 : List Int} (h1 : l1.Nodup) (h2 : l2.Nodup)
    (c1 : ∀ k, f k ≠ 0 → k ∈ l1) (c2 : ∀ k, f k ≠ 0 → k ∈ l2) :
    (l1.map f).sum = (l2.map f).sum := by
  rw [← List.sum_toFinset f h1, ← List.sum_toFinset f h2]
  refine Finset.sum_congr_of_eq_on_inter ?_ ?_ ?_
  · intro a _ h; by_contra h0; exact h (by simpa using c2 a h0)
  · intro a _ h; by_contra h0; exact h (by simpa using c1 a h0)
  · intro a _ _; rfl

/-- **`Len` counts what is held**: over any enumeration of the time slots that covers the non-empty
ones. -/
theorem len_exact {dur size : Int} (hd : 0 < dur) (ops : List Op) (ks : List Int) (hn : ks.Nodup)
    (hc : ∀ k, Spec.slot dur size ops k ≠ [] → k ∈ ks) :
    len (run dur size ops) = (ks.map (fun k => ((Spec.slot dur size ops k).length : Int))).sum := by
  obtain ⟨I, e1, e2, e3, hv⟩ := run_facts (size := size) hd ops
  have hs : len (run dur size ops) = _ := order_sum I
  simp only [hv] at hs
  rw [hs]
  refine sum_cover (ids_nodup I) hn ?_ ?_
  · intro k hk
    have hk' : view (run dur size ops) k ≠ [] := by
      rw [hv]; intro e; rw [e] at hk; exact hk rfl
    simp only [view] at hk'
    rcases hm : (run dur size ops).smap k with _ | r
    · rw [hm] at hk'; exact absurd rfl hk'
    · obtain ⟨h1, h2⟩ := (I.map k r).mp hm
      exact List.mem_map.mpr ⟨r, h1, h2⟩
  · intro k hk
    exact hc k (by intro e; rw [e] at hk; exact hk rfl)

/-- The slot numbers a call may bring in. -/
theorem add_ids {c : Cache} (I : Inv c) (hd : 0 < c.dur) (id : Option Bytes) (ts : Int) :
    ∀ r ∈ (add c id ts).order, ((add c id ts).heap r).id = ts / c.dur ∨
      ∃ r' ∈ c.order, (c.heap r').id = ((add c id ts).heap r).id := by
  rcases id with _ | x
  · intro r hr; exact Or.inr ⟨r, hr, rfl⟩
  simp only [add]
  by_cases hv : c.minTs ≤ ts
  · rw [if_neg (by simp [verifyTx, hv]), slotId_eq (le_trans I.min0 hv)]
    have key : ∀ r ∈ (getOrNewSlot c (ts / c.dur)).1.order,
        ((getOrNewSlot c (ts / c.dur)).1.heap r).id = ts / c.dur ∨
        ∃ r' ∈ c.order, (c.heap r').id = ((getOrNewSlot c (ts / c.dur)).1.heap r).id := by
      rcases hm : c.smap (ts / c.dur) with _ | r0
      · obtain ⟨L1, L2, ho, _, _, e⟩ := newSlot_spec I hm
        have hg : getOrNewSlot c (ts / c.dur) = newSlot c (ts / c.dur) := by
          simp only [getOrNewSlot, hm]
        rw [hg, e]
        intro r hr
        dsimp only at hr ⊢
        by_cases hr' : r = c.next
        · subst hr'; left; rw [Function.update_self]
        · right
          refine ⟨r, ?_, by rw [Function.update_of_ne hr']⟩
          rw [ho]
          simp only [List.mem_append, List.mem_cons] at hr ⊢
          tauto
      · have hg : getOrNewSlot c (ts / c.dur) = (c, r0) := by simp only [getOrNewSlot, hm]
        rw [hg]; intro r hr; exact Or.inr ⟨r, hr, rfl⟩
    revert key
    generalize getOrNewSlot c (ts / c.dur) = P
    obtain ⟨c1, r1⟩ := P
    dsimp only
    intro key
    by_cases hx : (c1.heap r1).ids.contains x = true
    · rw [if_pos hx]; exact key
    · rw [if_neg hx]
      have ho : (putId (flushSlotIfFull c1 r1) r1 x).order = c1.order := by
        rw [putId, flushSlotIfFull]
        by_cases hf : ((c1.heap r1).ids.length : Int) < c1.size
        · rw [if_pos hf]
        · rw [if_neg hf]
      have hi : ∀ r, ((putId (flushSlotIfFull c1 r1) r1 x).heap r).id = (c1.heap r).id := by
        intro r
        rw [putId, flushSlotIfFull]
        by_cases hf : ((c1.heap r1).ids.length : Int) < c1.size
        · rw [if_pos hf]
          by_cases e : r = r1
          · subst e; simp
          · simp [Function.update_of_ne e]
        · rw [if_neg hf]
          by_cases e : r = r1
          · subst e; simp
          · simp [Function.update_of_ne e]
      intro r hr
      rw [ho] at hr
      rw [hi]; exact key r hr
  · rw [if_pos (by simp [verifyTx, hv])]
    intro r hr; exact Or.inr ⟨r, hr, rfl⟩

theorem removeLoop_ids (sid : Int) : ∀ (l : List Nat) (c : Cache), c.order = l →
    (∀ r ∈ (removeLoop c sid l).order, r ∈ c.order) ∧ (removeLoop c sid l).heap = c.heap := by
  intro l
  induction l with
  | nil => intro c ho; exact ⟨fun r hr => hr, rfl⟩
  | cons r rest ih =>
    intro c ho
    simp only [removeLoop]
    by_cases h : sid ≤ (c.heap r).id
    · rw [if_pos h]; exact ⟨fun r hr => hr, rfl⟩
    · rw [if_neg h]
      obtain ⟨a, b⟩ := ih { c with
          order := rest
          smap := Function.update c.smap (c.heap r).id Option.none
          cnt := c.cnt - (c.heap r).ids.length } rfl
      refine ⟨fun x hx => ?_, b⟩
      have hx' : x ∈ rest := a x hx
      rw [ho]; simp [hx']

/-- The highest timestamp used in a history is at most `M`. -/
def Below (M : Int) (ops : List Op) : Prop := ∀ id ts, Op.add id ts ∈ ops → ts ≤ M

theorem ids_below {M dur : Int} (hd : 0 < dur) : ∀ (ops : List Op) {c : Cache}, Inv c → c.dur = dur →
    Below M ops → (∀ r ∈ c.order, (c.heap r).id ≤ M / dur) →
    ∀ r ∈ (ops.foldl step c).order, ((ops.foldl step c).heap r).id ≤ M / dur := by
  intro ops
  induction ops with
  | nil => intro c _ _ _ h; exact h
  | cons op ops ih =>
    intro c I e hb h
    obtain ⟨I', e1, _⟩ := step_inv I (by omega) op
    refine ih I' (by omega) (fun id ts hm => hb id ts (by simp [hm])) ?_
    intro r hr
    cases op with
    | add id ts =>
      have hts := hb id ts (by simp)
      simp only [step] at hr ⊢
      rcases add_ids I (by omega) id ts r hr with h1 | ⟨r', h1, h2⟩
      · rw [h1, e]; exact Int.ediv_le_ediv hd hts
      · rw [← h2]; exact h r' h1
    | expire ts =>
      simp only [step, removeOld] at hr ⊢
      by_cases hm : ts ≤ c.minTs
      · rw [if_pos hm] at hr ⊢; exact h r hr
      · rw [if_neg hm] at hr ⊢
        obtain ⟨a, b⟩ := removeLoop_ids (getSlotId c ts) c.order c rfl
        dsimp only at hr ⊢
        rw [b]; exact h r (a r hr)

/-- **Bounded memory, slots**: the number of slots kept is at most the number of time slots between
the floor and the newest timestamp added. -/
theorem slots_bound {dur size M : Int} (hd : 0 < dur) (ops : List Op) (hb : Below M ops) :
    (run dur size ops).order.length ≤ (M / dur + 1 - Spec.floorTs ops / dur).toNat := by
  obtain ⟨I, e1, e2, e3, hv⟩ := run_facts (size := size) hd ops
  have hup := ids_below hd ops (inv_new dur size) rfl hb (by simp [newCache])
  have hsub : (((run dur size ops).order.map (fun r => ((run dur size ops).heap r).id)).toFinset) ⊆
      Finset.Icc (Spec.floorTs ops / dur) (M / dur) := by
    intro k hk
    obtain ⟨r, hr, rfl⟩ := List.mem_map.mp (List.mem_toFinset.mp hk)
    rw [Finset.mem_Icc]
    have hl := I.low r hr
    rw [e1, e3] at hl
    exact ⟨hl, hup r hr⟩
  have hc := Finset.card_le_card hsub
  rw [List.toFinset_card_of_nodup (ids_nodup I), List.length_map, Int.card_Icc] at hc
  exact hc

theorem sum_le_mul (l : List Nat) (f : Nat → Int) (b : Int) (h : ∀ r ∈ l, f r ≤ b) :
    (l.map f).sum ≤ l.length * b := by
  induction l with
  | nil => simp
  | cons a l ih =>
    have h1 := h a (by simp)
    have h2 := ih (fun r hr => h r (by simp [hr]))
    simp only [List.map_cons, List.sum_cons, List.length_cons]
    push_cast
    have : ((l.length : Int) + 1) * b = l.length * b + b := by ring
    omega

/-- **Bounded memory, ids**: `Len` is not negative and at most the capacity of the slots between the
floor and the newest timestamp. -/
theorem len_bound {dur size M : Int} (hd : 0 < dur) (ops : List Op) (hb : Below M ops) :
    0 ≤ len (run dur size ops) ∧
    len (run dur size ops) ≤
      ((M / dur + 1 - Spec.floorTs ops / dur).toNat : Int) * max size 1 := by
  obtain ⟨I, e1, e2, e3, hv⟩ := run_facts (size := size) hd ops
  have hs := slots_bound (size := size) hd ops hb
  constructor
  · rw [len, I.cnt]
    induction (run dur size ops).order with
    | nil => simp
    | cons a l ih => simp only [List.map_cons, List.sum_cons]; omega
  · rw [len, I.cnt]
    refine le_trans (sum_le_mul _ _ (max size 1) ?_) ?_
    · intro r hr; have := I.bound r hr; rw [e2] at this; exact this
    · refine Int.mul_le_mul_of_nonneg_right ?_ (by omega)
      exact_mod_cast hs

/-! ## The check before a transaction enters the pool -/

/-- The calls a manager makes on its cache. -/
def cacheOps : List MOp → List Op
  | [] => []
  | .drop id ts :: l => .add id ts :: cacheOps l
  | .commit .normal ts th :: l => .expire (ts - th) :: cacheOps l
  | .commit .patch _ _ :: l => cacheOps l
  | .setTh _ :: l => cacheOps l

theorem mfold_cache : ∀ (ops : List MOp) (m : Mgr),
    (ops.foldl mstep m).cache = (cacheOps ops).foldl step m.cache := by
  intro ops
  induction ops with
  | nil => intro m; rfl
  | cons op ops ih =>
    intro m
    rw [List.foldl_cons, ih]
    rcases op with ⟨id, ts⟩ | ⟨g, ts, th⟩ | th
    · rfl
    · cases g
      · simp [cacheOps, mstep, onCommit]
      · simp [cacheOps, mstep, onCommit, step]
    · rfl

theorem mrun_cache (dur size : Int) (ops : List MOp) :
    (mrun dur size ops).cache = run dur size (cacheOps ops) := mfold_cache _ _

/-- **What is let in**: a transaction passes the check exactly when its timestamp is inside the
window of its group, it is not a remembered drop (normal group) and the chain's records answer that
they do not contain it. -/
theorem check_ok_iff (m : Mgr) (now : Int) (g : Group) (id : Option Bytes) (ts : Int) (loc : Loc) :
    checkTXForAdd m now g id ts loc = .ok ↔
      (m.commitTS g - (if g = .normal then m.th else 60000000) < ts ∧ ts ≤ now + m.th) ∧
      ¬ (g = .normal ∧ contains m.cache id ts = true) ∧ loc = .has false := by
  have hl : checkLoc loc = .ok ↔ loc = .has false := by
    rcases loc with _ | (_ | _) <;> simp [checkLoc]
  have ht : (if g = .normal then m.th else 60000000) = txThreshold m g := by
    cases g <;> simp [txThreshold, patchThreshold]
  rw [ht]
  simp only [checkTXForAdd, checkTs]
  by_cases h1 : ts ≤ m.commitTS g - txThreshold m g
  · rw [if_pos h1]
    simp only [reduceCtorEq, false_iff]
    intro h; omega
  · rw [if_neg h1]
    by_cases h2 : now + m.th < ts
    · rw [if_pos h2]
      simp only [reduceCtorEq, false_iff]
      intro h; omega
    · rw [if_neg h2]
      by_cases h3 : g = .normal ∧ contains m.cache id ts = true
      · simp [h3]
      · dsimp only
        rw [if_neg h3, hl]
        constructor
        · intro h; exact ⟨⟨by omega, by omega⟩, h3, h⟩
        · exact fun h => h.2.2

theorem mrun_snoc (dur size : Int) (ops : List MOp) (op : MOp) :
    mrun dur size (ops ++ [op]) = mstep (mrun dur size ops) op := by
  simp only [mrun, List.foldl_append, List.foldl_cons, List.foldl_nil]

theorem mrun_commitTS (dur size : Int) (g : Group) (ops : List MOp) :
    (mrun dur size ops).commitTS g = Spec.lastCommit g ops := by
  induction ops using List.reverseRecOn with
  | nil => rfl
  | append_singleton ops op ih =>
    rw [mrun_snoc]
    rcases op with ⟨id, ts⟩ | ⟨g', ts, th⟩ | th
    · simpa [mstep, addDropped, Spec.lastCommit] using ih
    · by_cases h : g' = g
      · subst h; simp [mstep, onCommit, Spec.lastCommit]
      · simp only [mstep, onCommit, Function.update_of_ne (Ne.symm h), ih]
        simp [Spec.lastCommit, h]
    · simpa [mstep, Spec.lastCommit] using ih

theorem mrun_th (dur size : Int) (ops : List MOp) :
    (mrun dur size ops).th = Spec.lastTh ops := by
  induction ops using List.reverseRecOn with
  | nil => rfl
  | append_singleton ops op ih =>
    rw [mrun_snoc]
    rcases op with ⟨id, ts⟩ | ⟨g', ts, th⟩ | th
    · simpa [mstep, addDropped, Spec.lastTh] using ih
    · simpa [mstep, onCommit, Spec.lastTh] using ih
    · simp [mstep, Spec.lastTh]

/-- **What is let in after a history**: the window of a normal transaction is open above the last
normal block's timestamp minus the threshold set last, that of a patch above the last patch commit
minus one minute; both end at the present time plus the threshold. -/
theorem let_in_iff {dur size : Int} (hd : 0 < dur) (ops : List MOp) (now : Int) (g : Group) (x : Bytes)
    (ts : Int) (loc : Loc) :
    checkTXForAdd (mrun dur size ops) now g (some x) ts loc = .ok ↔
      Spec.lastCommit g ops - (if g = .normal then Spec.lastTh ops else 60000000) < ts ∧
      ts ≤ now + Spec.lastTh ops ∧
      ¬ (g = .normal ∧ Spec.floorTs (cacheOps ops) ≤ ts ∧
        x ∈ Spec.slot dur size (cacheOps ops) (ts / dur)) ∧
      loc = .has false := by
  rw [check_ok_iff, mrun_commitTS, mrun_th, mrun_cache, contains_exact hd]
  tauto

/-- Membership in the chain's own history of a floor. -/
theorem floor_from (ops : List Op) : Spec.floorTs ops = 0 ∨ Op.expire (Spec.floorTs ops) ∈ ops := by
  induction ops with
  | nil => exact Or.inl rfl
  | cons op ops ih =>
    cases op with
    | add id ts =>
      rcases ih with h | h
      · exact Or.inl h
      · exact Or.inr (by simpa [Spec.floorTs] using h)
    | expire ts =>
      simp only [Spec.floorTs]
      rcases le_total ts (Spec.floorTs ops) with h | h
      · rw [max_eq_right h]
        rcases ih with h1 | h1
        · exact Or.inl h1
        · exact Or.inr (by simp [h1])
      · rw [max_eq_left h]; exact Or.inr (by simp)

theorem mem_cacheOps_expire {ops : List MOp} {t : Int} (h : Op.expire t ∈ cacheOps ops) :
    ∃ ts th, MOp.commit .normal ts th ∈ ops ∧ t = ts - th := by
  induction ops with
  | nil => simp [cacheOps] at h
  | cons op ops ih =>
    have lift : (∃ ts th, MOp.commit .normal ts th ∈ ops ∧ t = ts - th) →
        ∃ ts th, MOp.commit .normal ts th ∈ op :: ops ∧ t = ts - th := by
      rintro ⟨a, b, h1, h2⟩; exact ⟨a, b, by simp [h1], h2⟩
    rcases op with ⟨id, ts⟩ | ⟨g, ts, th⟩ | th
    · simp only [cacheOps, List.mem_cons, reduceCtorEq, false_or] at h; exact lift (ih h)
    · cases g
      · simp only [cacheOps] at h; exact lift (ih h)
      · simp only [cacheOps, List.mem_cons, Op.expire.injEq] at h
        rcases h with h | h
        · exact ⟨ts, th, by simp, h⟩
        · exact lift (ih h)
    · simp only [cacheOps] at h; exact lift (ih h)

theorem cacheOps_append (a b : List MOp) : cacheOps (a ++ b) = cacheOps a ++ cacheOps b := by
  induction a with
  | nil => rfl
  | cons op a ih =>
    rcases op with ⟨id, ts⟩ | ⟨g, ts, th⟩ | th
    · simp [cacheOps, ih]
    · cases g <;> simp [cacheOps, ih]
    · simp [cacheOps, ih]

/-- **A dropped transaction stays out**: after the pool dropped a normal transaction, the check
never lets it in again, whatever happened in between, provided

* the window never moved backwards: every normal block committed so far left its lower end at or
  below the present one (block timestamps do not decrease and the threshold was not enlarged),
* the ids dropped for its time slot fit into one slot. -/
theorem dropped_stays_out {dur size : Int} (hd : 0 < dur) (pre post : List MOp) (x : Bytes) (ts : Int)
    (hts : 0 ≤ ts)
    (hw : ∀ bts th, MOp.commit .normal bts th ∈ pre ++ .drop (some x) ts :: post →
      bts - th ≤ (mrun dur size (pre ++ .drop (some x) ts :: post)).commitTS .normal -
        (mrun dur size (pre ++ .drop (some x) ts :: post)).th)
    (hs : ((Spec.addedTo dur (ts / dur)
      (cacheOps (pre ++ .drop (some x) ts :: post))).dedup.length : Int) ≤ size)
    (now : Int) (loc : Loc) :
    checkTXForAdd (mrun dur size (pre ++ .drop (some x) ts :: post)) now .normal (some x) ts loc
      ≠ .ok := by
  intro h
  obtain ⟨⟨h1, _⟩, h2, _⟩ := (check_ok_iff _ _ _ _ _ _).mp h
  rw [if_pos rfl] at h1
  apply h2
  refine ⟨rfl, ?_⟩
  rw [mrun_cache]
  have hf : Spec.floorTs (cacheOps (pre ++ .drop (some x) ts :: post)) ≤ ts := by
    rcases floor_from (cacheOps (pre ++ .drop (some x) ts :: post)) with h3 | h3
    · omega
    · obtain ⟨bts, th, h4, h5⟩ := mem_cacheOps_expire h3
      have := hw bts th h4
      omega
  have e : cacheOps (pre ++ .drop (some x) ts :: post) =
      cacheOps pre ++ .add (some x) ts :: cacheOps post := by
    rw [cacheOps_append]; rfl
  rw [e] at hf hs ⊢
  exact retained hd _ _ x ts hf hs

/-- **The cache refuses only dropped transactions**: a `dropped` verdict means that the pool did drop
this id, for a timestamp of the same time slot. -/
theorem refused_was_dropped {dur size : Int} (hd : 0 < dur) (ops : List MOp) (now : Int) (g : Group)
    (x : Bytes) (ts : Int) (loc : Loc)
    (h : checkTXForAdd (mrun dur size ops) now g (some x) ts loc = .dropped) :
    g = .normal ∧ ∃ ts', MOp.drop (some x) ts' ∈ ops ∧ ts' / dur = ts / dur := by
  have hl : checkLoc loc ≠ .dropped := by rcases loc with _ | (_ | _) <;> simp [checkLoc]
  simp only [checkTXForAdd, checkTs] at h
  have hc : g = .normal ∧ contains (mrun dur size ops).cache (some x) ts = true := by
    by_contra h3
    by_cases h1 : ts ≤ (mrun dur size ops).commitTS g - txThreshold (mrun dur size ops) g
    · rw [if_pos h1] at h; simp at h
    · rw [if_neg h1] at h
      by_cases h2 : now + (mrun dur size ops).th < ts
      · rw [if_pos h2] at h; simp at h
      · rw [if_neg h2] at h
        simp only [if_neg h3] at h
        exact hl h
  refine ⟨hc.1, ?_⟩
  have hc2 := hc.2
  rw [mrun_cache] at hc2
  obtain ⟨hfl, p, ts', q, e, hk, _⟩ := reported_was_added hd _ x ts hc2
  refine ⟨ts', ?_, hk⟩
  have hm : Op.add (some x) ts' ∈ cacheOps ops := by rw [e]; simp
  clear h hc hc2 e hfl
  induction ops with
  | nil => simp [cacheOps] at hm
  | cons op ops ih =>
    rcases op with ⟨id, t⟩ | ⟨g', t, th⟩ | th
    · simp only [cacheOps, List.mem_cons, Op.add.injEq] at hm
      rcases hm with ⟨rfl, rfl⟩ | hm
      · simp
      · have := ih hm; simp [this]
    · cases g'
      · simp only [cacheOps] at hm; have := ih hm; simp [this]
      · simp only [cacheOps, List.mem_cons, reduceCtorEq, false_or] at hm
        have := ih hm; simp [this]
    · simp only [cacheOps] at hm; have := ih hm; simp [this]

/-! ## Committing a logger -/

/-- **A block's ids are committed once**: over any sequence of `Commit` calls on a logger, the manager
is told exactly once if some call's tracker commit would have succeeded, and never otherwise; and a
call reports success only when the manager has been told. -/
theorem commit_once (oks : List Bool) :
    (oks.foldl (fun l ok => (logCommit l ok).1) ⟨false, 0⟩).told = (if true ∈ oks then 1 else 0) := by
  have gen : ∀ (oks : List Bool) (l : Logger), (l = ⟨false, 0⟩ ∨ l = ⟨true, 1⟩) →
      (oks.foldl (fun l ok => (logCommit l ok).1) l).told =
        (if true ∈ oks ∨ l.flag = true then 1 else 0) := by
    intro oks
    induction oks with
    | nil => rintro l (rfl | rfl) <;> simp
    | cons ok oks ih =>
      rintro l (rfl | rfl)
      · cases ok
        · rw [List.foldl_cons, ih _ (by simp [logCommit])]; simp [logCommit]
        · rw [List.foldl_cons, ih _ (by simp [logCommit])]; simp [logCommit]
      · rw [List.foldl_cons, ih _ (by simp [logCommit])]; simp [logCommit]
  rw [gen oks _ (Or.inl rfl)]; simp

/-- A call of `Commit` that reports success leaves the manager told. -/
theorem commit_success (oks : List Bool) (ok : Bool)
    (h : (logCommit (oks.foldl (fun l ok => (logCommit l ok).1) ⟨false, 0⟩) ok).2 = true) :
    true ∈ oks ∨ ok = true := by
  have gen : ∀ (oks : List Bool) (l : Logger),
      (oks.foldl (fun l ok => (logCommit l ok).1) l).flag = true → true ∈ oks ∨ l.flag = true := by
    intro oks
    induction oks with
    | nil => intro l h; exact Or.inr h
    | cons o oks ih =>
      intro l h
      rcases ih _ h with h1 | h1
      · simp [h1]
      · cases o
        · simp only [logCommit] at h1
          by_cases hf : l.flag = true
          · exact Or.inr hf
          · simp [hf] at h1
        · simp
  rcases hfl : (oks.foldl (fun l ok => (logCommit l ok).1) ⟨false, 0⟩).flag with _ | _
  · cases ok
    · rw [logCommit, if_neg (by rw [hfl]; simp)] at h
      simp at h
    · exact Or.inr rfl
  · rcases gen oks _ hfl with h1 | h1
    · exact Or.inl h1
    · simp at h1

/-! ## Concrete cases -/

def exOps : List Op :=
  [.add (some [1]) 2500, .add (some [2]) 900, .add (some [3]) 2600, .add Option.none 10,
   .expire 1500, .add (some [4]) 1000, .add (some [5]) 2999]

example : contains (run 1000 2 exOps) (some [5]) 2000 = true := by decide
-- the full slot was flushed by the third id
example : contains (run 1000 2 exOps) (some [1]) 2500 = false := by decide
example : contains (run 1000 3 exOps) (some [1]) 2500 = true := by decide
example : contains (run 1000 3 exOps) (some [2]) 900 = false := by decide
example : len (run 1000 3 exOps) = 3 := by decide
example : len (run 1000 2 exOps) = 1 := by decide
example : Below 2999 exOps := by
  intro id ts h
  simp only [exOps, List.mem_cons, Op.add.injEq, reduceCtorEq, List.not_mem_nil, or_false,
    false_or] at h
  rcases h with ⟨_, rfl⟩ | ⟨_, rfl⟩ | ⟨_, rfl⟩ | ⟨_, rfl⟩ | ⟨_, rfl⟩ | ⟨_, rfl⟩ <;> omega

/-- A history of a manager that meets the hypotheses of `dropped_stays_out`. -/
def exM : List MOp :=
  [.setTh 5000, .commit .normal 10000 5000, .drop (some [7]) 12345, .commit .normal 11000 5000,
   .commit .patch 11500 60, .drop (some [8]) 12500]

example : checkTXForAdd (mrun 1000 100 exM) 13000 .normal (some [7]) 12345 (.has false) = .dropped := by
  decide
example : checkTXForAdd (mrun 1000 100 exM) 13000 .normal (some [9]) 12345 (.has false) = .ok := by
  decide
example : ∀ bts th, MOp.commit .normal bts th ∈ exM →
    bts - th ≤ (mrun 1000 100 exM).commitTS .normal - (mrun 1000 100 exM).th := by
  have e : (mrun 1000 100 exM).commitTS .normal - (mrun 1000 100 exM).th = 6000 := by decide
  rw [e]
  intro bts th h
  simp only [exM, List.mem_cons, MOp.commit.injEq, reduceCtorEq, List.not_mem_nil, or_false,
    false_or, true_and, false_and] at h
  rcases h with ⟨rfl, rfl⟩ | ⟨rfl, rfl⟩ <;> omega

/-- The window condition is needed: when the threshold is enlarged after a commit, a transaction that
was dropped and then forgotten by age is let in again. -/
example : checkTXForAdd (mrun 1000 100
    [.setTh 1000, .commit .normal 10000 1000, .drop (some [7]) 9500, .commit .normal 12000 1000,
     .setTh 5000]) 13000 .normal (some [7]) 9500 (.has false) = .ok := by decide

/-- The capacity condition is needed: one more id in a full slot forgets the others. -/
example : checkTXForAdd (mrun 1000 1
    [.commit .normal 300010000 300000000, .drop (some [7]) 300010500, .drop (some [8]) 300010600])
    300011000 .normal (some [7]) 300010500 (.has false) = .ok := by decide

end Verif.Dropped
