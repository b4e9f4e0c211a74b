import Verif.LayerDB.Spec
import Mathlib.Data.List.Induction
import Mathlib.Data.List.Nodup
import Mathlib.Tactic.SplitIfs

/-!
# The layer is a database with pending writes
-/

namespace Verif.LayerDB

/-! ### Histories of writes -/

/-- Two writes are to the same key of the same bucket. -/
def Same (x w : Wr) : Prop := x.id = w.id ∧ x.key = w.key

instance (x w : Wr) : Decidable (Same x w) := by unfold Same; infer_instance

theorem after_append (d : Nat → Key → Option Val) (a b : List Wr) : after d (a ++ b) = after (after d a) b := by
  simp [after, List.foldl_append]

theorem after_not_mem (ws : List Wr) (d : Nat → Key → Option Val) (i : Nat) (k : Key)
    (h : ∀ w ∈ ws, ¬ (i = w.id ∧ k = w.key)) : after d ws i k = d i k := by
  induction ws generalizing d with
  | nil => rfl
  | cons w t ih =>
    have := ih (fun i k => if i = w.id ∧ k = w.key then w.val else d i k)
      (fun x hx => h x (List.mem_cons_of_mem _ hx))
    show after _ t i k = _
    rw [this, if_neg (h w (List.mem_cons_self ..))]

theorem after_congr (ws : List Wr) (d d' : Nat → Key → Option Val) (i : Nat) (k : Key)
    (h : ∃ w ∈ ws, i = w.id ∧ k = w.key) : after d ws i k = after d' ws i k := by
  induction ws generalizing d d' with
  | nil => simp at h
  | cons w t ih =>
    show after _ t i k = after _ t i k
    by_cases ht : ∃ w ∈ t, i = w.id ∧ k = w.key
    · exact ih _ _ ht
    · have hn : ∀ w ∈ t, ¬ (i = w.id ∧ k = w.key) := fun w hw hc => ht ⟨w, hw, hc⟩
      rw [after_not_mem t _ i k hn, after_not_mem t _ i k hn]
      obtain ⟨x, hx, hxe⟩ := h
      rcases List.mem_cons.1 hx with rfl | hx'
      · dsimp only
        rw [if_pos hxe, if_pos hxe]
      · exact absurd hxe (hn x hx')

theorem newest_sub (ws : List Wr) : ∀ w ∈ newest ws, w ∈ ws := by
  induction ws with
  | nil => simp [newest]
  | cons x t ih =>
    intro w hw
    unfold newest at hw
    split_ifs at hw
    · exact List.mem_cons_of_mem _ (ih w hw)
    · rcases List.mem_cons.1 hw with h | h
      · rw [h]; exact List.mem_cons_self ..
      · exact List.mem_cons_of_mem _ (ih w h)

theorem newest_covers (ws : List Wr) : ∀ w ∈ ws, ∃ x ∈ newest ws, Same x w := by
  induction ws with
  | nil => simp
  | cons y t ih =>
    intro w hw
    unfold newest
    by_cases hc : ∃ x ∈ t, x.id = y.id ∧ x.key = y.key
    · rw [if_pos hc]
      rcases List.mem_cons.1 hw with h | h
      · obtain ⟨x, hx, hxe⟩ := hc
        obtain ⟨z, hz, hze⟩ := ih x hx
        subst h
        exact ⟨z, hz, hze.1.trans hxe.1, hze.2.trans hxe.2⟩
      · exact ih w h
    · rw [if_neg hc]
      rcases List.mem_cons.1 hw with h | h
      · subst h; exact ⟨w, List.mem_cons_self .., rfl, rfl⟩
      · obtain ⟨z, hz, hze⟩ := ih w h
        exact ⟨z, List.mem_cons_of_mem _ hz, hze⟩

theorem after_newest (ws : List Wr) (d : Nat → Key → Option Val) : after d (newest ws) = after d ws := by
  induction ws generalizing d with
  | nil => rfl
  | cons w t ih =>
    unfold newest
    by_cases hc : ∃ x ∈ t, x.id = w.id ∧ x.key = w.key
    · rw [if_pos hc, ih]
      funext i k
      show _ = after (fun i k => if i = w.id ∧ k = w.key then w.val else d i k) t i k
      by_cases hm : ∃ x ∈ t, i = x.id ∧ k = x.key
      · exact after_congr t _ _ i k hm
      · have hn : ∀ x ∈ t, ¬ (i = x.id ∧ k = x.key) := fun x hx h => hm ⟨x, hx, h⟩
        rw [after_not_mem t _ i k hn, after_not_mem t _ i k hn]
        rw [if_neg]
        rintro ⟨h1, h2⟩
        obtain ⟨x, hx, hxe⟩ := hc
        exact hn x hx ⟨by rw [h1, hxe.1], by rw [h2, hxe.2]⟩
    · rw [if_neg hc]
      show after _ (newest t) = after _ t
      exact ih _

/-- One more write. -/
theorem newest_snoc (ws : List Wr) (w : Wr) :
    newest (ws ++ [w]) = (newest ws).filter (fun x => !decide (Same x w)) ++ [w] := by
  induction ws with
  | nil => simp [newest]
  | cons y t ih =>
    rw [List.cons_append]
    unfold newest
    rw [ih]
    by_cases hc : ∃ x ∈ t, x.id = y.id ∧ x.key = y.key
    · have hc' : ∃ x ∈ t ++ [w], x.id = y.id ∧ x.key = y.key := by
        obtain ⟨x, hx, h⟩ := hc
        exact ⟨x, List.mem_append_left _ hx, h⟩
      rw [if_pos hc, if_pos hc']
    · rw [if_neg hc]
      by_cases hw : w.id = y.id ∧ w.key = y.key
      · have hc' : ∃ x ∈ t ++ [w], x.id = y.id ∧ x.key = y.key := ⟨w, by simp, hw⟩
        rw [if_pos hc']
        have : Same y w := ⟨hw.1.symm, hw.2.symm⟩
        rw [List.filter_cons, if_neg (by simp [this])]
      · have hc' : ¬ ∃ x ∈ t ++ [w], x.id = y.id ∧ x.key = y.key := by
          rintro ⟨x, hx, h⟩
          rcases List.mem_append.1 hx with hx | hx
          · exact hc ⟨x, hx, h⟩
          · have : x = w := by simpa using hx
            subst this
            exact hw h
        rw [if_neg hc']
        have : ¬ Same y w := fun h => hw ⟨h.1.symm, h.2.symm⟩
        rw [List.filter_cons, if_pos (by simp [this])]
        rfl

theorem newest_pairwise (ws : List Wr) : (newest ws).Pairwise (fun x y => ¬ Same x y) := by
  induction ws with
  | nil => simp [newest]
  | cons w t ih =>
    unfold newest
    by_cases hc : ∃ x ∈ t, x.id = w.id ∧ x.key = w.key
    · rw [if_pos hc]; exact ih
    · rw [if_neg hc, List.pairwise_cons]
      refine ⟨fun x hx hs => hc ⟨x, newest_sub t x hx, hs.1.symm, hs.2.symm⟩, ih⟩

/-- In a list without two writes to one key, a write decides. -/
theorem after_mem (ws : List Wr) (hp : ws.Pairwise (fun x y => ¬ Same x y)) (d : Nat → Key → Option Val) (w : Wr)
    (hw : w ∈ ws) : after d ws w.id w.key = w.val := by
  induction ws generalizing d with
  | nil => simp at hw
  | cons x t ih =>
    rw [List.pairwise_cons] at hp
    rcases List.mem_cons.1 hw with h | h
    · subst h
      show after _ t _ _ = _
      rw [after_not_mem t _ _ _ (fun y hy hc => hp.1 y hy hc)]
      dsimp only
      rw [if_pos ⟨rfl, rfl⟩]
    · exact ih hp.2 _ h

/-! ### The refinement -/

/-- An item as a write. -/
def Item.wr (i : Item) : Wr := ⟨i.bk, i.key, i.value⟩

structure Rel (s : DB) (g : List Handle) (a : Spec) : Prop where
  disk : s.real = a.disk
  flag : s.flushed = a.direct
  off : s.flushed = true → s.list = [] ∧ a.pending = [] ∧ ∀ i : Nat, s.buckets i = none ∨ s.buckets i = some none
  on : s.flushed = false → ∀ i : Nat, s.buckets i ≠ some none
  items : s.list.map (fun e => (s.heap e).wr) = newest a.pending
  nodup : s.list.Nodup
  lt : ∀ e ∈ s.list, e < s.next
  idx : s.flushed = false → ∀ (i : Nat) (data : Key → Option Nat), s.buckets i = some (some data) →
    ∀ (k : Key) (e : Nat), data k = some e ↔ (e ∈ s.list ∧ (s.heap e).bk = i ∧ (s.heap e).key = k)
  bks : ∀ e ∈ s.list, s.buckets (s.heap e).bk ≠ none
  hl : ∀ i : Nat, Handle.layer i ∈ g → s.buckets i ≠ none
  hr : ∀ i : Nat, Handle.real i ∈ g → s.flushed = true

theorem Rel.init (d : Nat → Key → Option Val) : Rel (DB.new d) [] ⟨d, [], false⟩ where
  disk := rfl
  flag := rfl
  off := fun h => by simp [DB.new] at h
  on := fun _ i => by simp [DB.new]
  items := rfl
  nodup := by simp [DB.new]
  lt := fun e h => by simp [DB.new] at h
  idx := fun _ i data h => by simp [DB.new] at h
  bks := fun e h => by simp [DB.new] at h
  hl := fun i h => by simp at h
  hr := fun i h => by simp at h

theorem wr_same {w x : Wr} (h : Same x w) : ∀ i k, (i = x.id ∧ k = x.key) ↔ (i = w.id ∧ k = w.key) := by
  intro i k; rw [h.1, h.2]

/-- What the maps say is what a reader should see. -/
theorem Rel.read {s : DB} {g : List Handle} {a : Spec} (R : Rel s g a) {i : Nat} {data : Key → Option Nat}
    (hb : s.buckets i = some (some data)) (k : Key) :
    a.view i k = match data k with
      | some e => (s.heap e).value
      | none => s.real i k := by
  have hf : s.flushed = false := by
    cases h : s.flushed with
    | false => rfl
    | true =>
      rcases (R.off h).2.2 i with h' | h' <;> rw [hb] at h' <;> simp at h'
  have hidx := R.idx hf i data hb k
  unfold Spec.view
  rw [← after_newest, ← R.items, R.disk]
  rcases hd : data k with _ | e
  · apply after_not_mem
    intro w hw hc
    obtain ⟨e, he, rfl⟩ := List.mem_map.1 hw
    have := (hidx e).2 ⟨he, hc.1.symm, hc.2.symm⟩
    rw [hd] at this; simp at this
  · obtain ⟨h1, h2, h3⟩ := (hidx e).1 hd
    have hp : (s.list.map (fun e => (s.heap e).wr)).Pairwise (fun x y => ¬ Same x y) := by
      rw [R.items]; exact newest_pairwise _
    have := after_mem _ hp a.disk (s.heap e).wr (List.mem_map.2 ⟨e, h1, rfl⟩)
    have this' : after a.disk (s.list.map (fun e => (s.heap e).wr)) (s.heap e).bk (s.heap e).key =
        (s.heap e).value := this
    rw [h2, h3] at this'
    exact this'

theorem Rel.through {s : DB} {g : List Handle} {a : Spec} (R : Rel s g a) (hf : s.flushed = true) (i : Nat) (k : Key) :
    a.view i k = s.real i k := by
  unfold Spec.view
  rw [(R.off hf).2.1, R.disk]; rfl

theorem Rel.bucket {s : DB} {g : List Handle} {a : Spec} (R : Rel s g a) {i : Nat} (hg : Handle.layer i ∈ g) :
    (s.flushed = false ∧ ∃ data, s.buckets i = some (some data)) ∨ (s.flushed = true ∧ s.buckets i = some none) := by
  have h1 := R.hl i hg
  cases hf : s.flushed with
  | true =>
    right
    rcases (R.off hf).2.2 i with h | h
    · exact absurd h h1
    · exact ⟨rfl, h⟩
  | false =>
    left
    refine ⟨rfl, ?_⟩
    rcases hb : s.buckets i with _ | o
    · exact absurd hb h1
    · rcases o with _ | data
      · exact absurd hb (R.on hf i)
      · exact ⟨data, rfl⟩

theorem get_view {s : DB} {g : List Handle} {a : Spec} (R : Rel s g a) {h : Handle} (hg : h ∈ g) (k : Key) :
    get s h k = a.view h.id k := by
  cases h with
  | real i => exact (R.through (R.hr i hg) i k).symm
  | layer i =>
    rcases R.bucket hg with ⟨_, data, hb⟩ | ⟨hf, hb⟩
    · simp only [get]
      rw [hb]
      exact (R.read hb k).symm
    · simp only [get]
      rw [hb]
      exact (R.through hf i k).symm

theorem has_view {s : DB} {g : List Handle} {a : Spec} (R : Rel s g a) {h : Handle} (hg : h ∈ g) (k : Key) :
    has s h k = (a.view h.id k).isSome := by
  rw [← get_view R hg]
  cases h with
  | real i => rfl
  | layer i =>
    simp only [has, get]
    rcases s.buckets i with _ | _ | data
    · rfl
    · rfl
    · dsimp only
      cases data k <;> rfl

/-- A database write when writes go through. -/
theorem Rel.rawWrite {s : DB} {g : List Handle} {a : Spec} (R : Rel s g a) (i : Nat) (k : Key) (v : Option Val) :
    Rel { s with real := (writeReal s.real i k v true).1 } g { a with disk := after a.disk [⟨i, k, v⟩] } where
  disk := by
    show (writeReal s.real i k v true).1 = after a.disk [⟨i, k, v⟩]
    rw [R.disk]; rfl
  flag := R.flag
  off := R.off
  on := R.on
  items := R.items
  nodup := R.nodup
  lt := R.lt
  idx := R.idx
  bks := R.bks
  hl := R.hl
  hr := R.hr

theorem touch_rel {s : DB} {g : List Handle} {a : Spec} (R : Rel s g a) (hf : s.flushed = false) {i : Nat}
    {data : Key → Option Nat} (hb : s.buckets i = some (some data)) {k : Key} {e : Nat} (hd : data k = some e)
    (v : Option Val) : Rel (touch s e v) g { a with pending := a.pending ++ [⟨i, k, v⟩] } := by
  obtain ⟨h1, h2, h3⟩ := (R.idx hf i data hb k e).1 hd
  have hmem : ∀ x, x ∈ (touch s e v).list ↔ x ∈ s.list := by
    intro x
    simp only [touch, List.mem_append, List.mem_singleton, R.nodup.mem_erase_iff]
    constructor
    · rintro (h | h)
      · exact h.2
      · rw [h]; exact h1
    · intro h
      by_cases hx : x = e
      · exact Or.inr hx
      · exact Or.inl ⟨hx, h⟩
  have hhp : ∀ x, ((touch s e v).heap x).bk = (s.heap x).bk ∧ ((touch s e v).heap x).key = (s.heap x).key := by
    intro x
    simp only [touch]
    split_ifs <;> exact ⟨rfl, rfl⟩
  exact {
    disk := R.disk
    flag := R.flag
    off := fun h => by
      have h' : s.flushed = true := h
      rw [hf] at h'; simp at h'
    on := R.on
    items := by
      show (s.list.erase e ++ [e]).map (fun x => ((touch s e v).heap x).wr) = newest (a.pending ++ [⟨i, k, v⟩])
      rw [newest_snoc, ← R.items, List.map_append, List.filter_map]
      have e1 : [e].map (fun x => ((touch s e v).heap x).wr) = [⟨i, k, v⟩] := by
        simp only [List.map_cons, List.map_nil, touch, if_true, Item.wr]
        rw [h2, h3]
      rw [e1, R.nodup.erase_eq_filter]
      congr 1
      have e2 : s.list.filter ((fun x => !decide (Same x ⟨i, k, v⟩)) ∘ fun x => (s.heap x).wr) =
          s.list.filter (fun x => x != e) := by
        apply List.filter_congr
        intro x hx
        have : Same ((s.heap x).wr) ⟨i, k, v⟩ ↔ x = e := by
          constructor
          · rintro ⟨q1, q2⟩
            have := (R.idx hf i data hb k x).2 ⟨hx, q1, q2⟩
            rw [hd] at this
            simpa using this.symm
          · rintro rfl; exact ⟨h2, h3⟩
        by_cases hxe : x = e
        · have q := this.2 hxe
          subst hxe
          simp [Function.comp, q]
        · have q : ¬ Same ((s.heap x).wr) ⟨i, k, v⟩ := fun h => hxe (this.1 h)
          simp only [Function.comp, q, decide_false]
          simp [hxe]
      rw [e2]
      apply List.map_congr_left
      intro x hx
      have : x ≠ e := by
        have := (List.mem_filter.1 hx).2
        simpa using this
      simp [touch, this]
    nodup := by
      show (s.list.erase e ++ [e]).Nodup
      refine List.Nodup.append (R.nodup.erase e) (by simp) ?_
      intro x hx hy
      have : x = e := by simpa using hy
      subst this
      exact (R.nodup.mem_erase_iff.1 hx).1 rfl
    lt := fun x hx => R.lt x ((hmem x).1 hx)
    idx := fun _ i' data' hb' k' e' => by
      rw [hmem, (hhp e').1, (hhp e').2]
      exact R.idx hf i' data' hb' k' e'
    bks := fun x hx => by
      rw [(hhp x).1]; exact R.bks x ((hmem x).1 hx)
    hl := R.hl
    hr := R.hr }

theorem push_rel {s : DB} {g : List Handle} {a : Spec} (R : Rel s g a) (hf : s.flushed = false) {i : Nat}
    {data : Key → Option Nat} (hb : s.buckets i = some (some data)) {k : Key} (hd : data k = none)
    (v : Option Val) : Rel (push s i data k v) g { a with pending := a.pending ++ [⟨i, k, v⟩] } := by
  have hold : ∀ x ∈ s.list, (push s i data k v).heap x = s.heap x := by
    intro x hx
    have := R.lt x hx
    simp only [push]
    rw [if_neg (by omega)]
  have hnew : (push s i data k v).heap s.next = ⟨i, k, v⟩ := by simp [push]
  have hmem : ∀ x, x ∈ (push s i data k v).list ↔ (x ∈ s.list ∨ x = s.next) := by
    intro x; simp [push]
  have hfr : s.next ∉ s.list := fun h => absurd (R.lt _ h) (by omega)
  exact {
    disk := R.disk
    flag := R.flag
    off := fun h => by
      have h' : s.flushed = true := h
      rw [hf] at h'; simp at h'
    on := fun _ j => by
      simp only [push]
      split_ifs
      · simp
      · exact R.on hf j
    items := by
      show (s.list ++ [s.next]).map (fun x => ((push s i data k v).heap x).wr) = newest (a.pending ++ [⟨i, k, v⟩])
      rw [newest_snoc, ← R.items, List.map_append]
      have e1 : [s.next].map (fun x => ((push s i data k v).heap x).wr) = [⟨i, k, v⟩] := by
        simp only [List.map_cons, List.map_nil, hnew, Item.wr]
      rw [e1]
      congr 1
      rw [List.filter_eq_self.2]
      · apply List.map_congr_left
        intro x hx
        rw [hold x hx]
      · intro w hw
        obtain ⟨x, hx, rfl⟩ := List.mem_map.1 hw
        have : ¬ Same ((s.heap x).wr) ⟨i, k, v⟩ := by
          rintro ⟨q1, q2⟩
          have := (R.idx hf i data hb k x).2 ⟨hx, q1, q2⟩
          rw [hd] at this; simp at this
        simp [this]
    nodup := by
      show (s.list ++ [s.next]).Nodup
      refine List.Nodup.append R.nodup (by simp) ?_
      intro x hx hy
      have : x = s.next := by simpa using hy
      subst this
      exact hfr hx
    lt := fun x hx => by
      show x < s.next + 1
      rcases (hmem x).1 hx with h | h
      · have := R.lt x h; omega
      · omega
    idx := fun _ i' data' hb' k' e' => by
      rw [hmem]
      have hb'' : (if i' = i then some (some fun j => if j = k then some s.next else data j) else s.buckets i') =
          some (some data') := hb'
      by_cases hi : i' = i
      · subst hi
        rw [if_pos rfl] at hb''
        simp only [Option.some.injEq] at hb''
        subst hb''
        dsimp only
        by_cases hk : k' = k
        · subst hk
          rw [if_pos rfl]
          constructor
          · intro h
            simp only [Option.some.injEq] at h
            subst h
            rw [hnew]; exact ⟨Or.inr rfl, rfl, rfl⟩
          · rintro ⟨h | h, q1, q2⟩
            · rw [hold e' h] at q1 q2
              have := (R.idx hf i' data hb k' e').2 ⟨h, q1, q2⟩
              rw [hd] at this; simp at this
            · rw [h]
        · rw [if_neg hk, R.idx hf i' data hb k' e']
          constructor
          · rintro ⟨h, q⟩
            rw [hold e' h]; exact ⟨Or.inl h, q⟩
          · rintro ⟨h | h, q1, q2⟩
            · rw [hold e' h] at q1 q2; exact ⟨h, q1, q2⟩
            · rw [h, hnew] at q2; exact absurd q2.symm hk
      · rw [if_neg hi] at hb''
        rw [R.idx hf i' data' hb'' k' e']
        constructor
        · rintro ⟨h, q⟩
          rw [hold e' h]; exact ⟨Or.inl h, q⟩
        · rintro ⟨h | h, q1, q2⟩
          · rw [hold e' h] at q1 q2; exact ⟨h, q1, q2⟩
          · rw [h, hnew] at q1; exact absurd q1.symm hi
    bks := fun x hx => by
      rcases (hmem x).1 hx with h | h
      · rw [hold x h]
        simp only [push]
        split_ifs
        · simp
        · exact R.bks x h
      · rw [h, hnew]
        simp [push]
    hl := fun j hj => by
      simp only [push]
      split_ifs
      · simp
      · exact R.hl j hj
    hr := R.hr }

theorem writeAll_spec (heap : Nat → Item) (l : List Nat) (n : Nat) (r : Nat → Key → Option Val) :
    writeAll heap l n r = (after r ((l.map (fun e => (heap e).wr)).take n), !decide (n < l.length)) := by
  induction l generalizing n r with
  | nil => cases n <;> simp [writeAll, after]
  | cons e t ih =>
    cases n with
    | zero => simp [writeAll, after]
    | succ n =>
      unfold writeAll
      dsimp only
      rw [ih]
      simp only [List.map_cons, List.take_succ_cons, List.length_cons, Nat.add_lt_add_iff_right]
      rfl

/-- `set` and `delete` in one. -/
def put (s : DB) (h : Handle) (k : Key) (v : Option Val) (ok : Bool) : DB × Bool :=
  match h with
  | .real id => ({ s with real := (writeReal s.real id k v ok).1 }, ok)
  | .layer id =>
    match s.buckets id with
    | some (some data) =>
      match data k with
      | some e => (touch s e v, true)
      | none => (push s id data k v, true)
    | _ => ({ s with real := (writeReal s.real id k v ok).1 }, ok)

theorem set_put (s : DB) (h : Handle) (k : Key) (v : Val) (ok : Bool) : set s h k v ok = put s h k (some v) ok := rfl

theorem delete_put (s : DB) (h : Handle) (k : Key) (ok : Bool) : delete s h k ok = put s h k none ok := rfl

/-- A write through a handle. -/
theorem write_rel {s : DB} {g : List Handle} {a : Spec} (R : Rel s g a) {h : Handle} (hg : h ∈ g) (k : Key)
    (v : Option Val) (ok : Bool) (P : DB × Bool) (hP : P = put s h k v ok) :
    Rel P.1 g (a.write ⟨h.id, k, v⟩ ok).1 ∧ Out.bool P.2 = (a.write ⟨h.id, k, v⟩ ok).2 := by
  have direct : ∀ i : Nat, s.flushed = true →
      Rel { s with real := (writeReal s.real i k v ok).1 } g (a.write ⟨i, k, v⟩ ok).1 ∧
      Out.bool ok = (a.write ⟨i, k, v⟩ ok).2 := by
    intro i hf
    have ha : a.direct = true := by rw [← R.flag]; exact hf
    unfold Spec.write
    rw [if_pos ha]
    cases ok with
    | true => exact ⟨R.rawWrite i k v, rfl⟩
    | false => exact ⟨R, rfl⟩
  cases h with
  | real i =>
    simp only [put] at hP
    subst hP
    exact direct i (R.hr i hg)
  | layer i =>
    simp only [put] at hP
    rcases R.bucket hg with ⟨hf, data, hb⟩ | ⟨hf, hb⟩
    · have ha : a.direct = false := by rw [← R.flag]; exact hf
      rw [hb] at hP
      dsimp only at hP
      have ew : a.write ⟨i, k, v⟩ ok = ({ a with pending := a.pending ++ [⟨i, k, v⟩] }, .bool true) := by
        unfold Spec.write; rw [ha]; rfl
      show Rel P.1 g (a.write ⟨i, k, v⟩ ok).1 ∧ _ = (a.write ⟨i, k, v⟩ ok).2
      rw [ew]
      rcases hd : data k with _ | e
      · rw [hd] at hP; dsimp only at hP; subst hP
        exact ⟨push_rel R hf hb hd v, rfl⟩
      · rw [hd] at hP; dsimp only at hP; subst hP
        exact ⟨touch_rel R hf hb hd v, rfl⟩
    · rw [hb] at hP
      dsimp only at hP
      subst hP
      exact direct i hf

/-- One event. -/
theorem step_rel {s : DB} {g : List Handle} {a : Spec} (R : Rel s g a) (e : Ev) (ha : Allowed g e) :
    Rel (step s e).1 (given g (step s e).2) (a.step e).1 ∧
      (match (a.step e).2 with
       | some o => (step s e).2 = o
       | none => ∃ (id : Nat) (h : Handle), e = .open id ∧ (step s e).2 = .handle h ∧ h.id = id) := by
  cases e with
  | «open» id =>
    show Rel (getBucket s id).1 ((getBucket s id).2 :: g) a ∧ _
    unfold getBucket
    rcases hb : s.buckets id with _ | o
    · dsimp only
      by_cases hf : s.flushed = true
      · rw [if_pos hf]
        refine ⟨?_, id, .real id, rfl, ?_, rfl⟩
        · exact { R with
            hl := fun i hi => by
              rcases List.mem_cons.1 hi with h | h
              · simp at h
              · exact R.hl i h
            hr := fun i _ => hf }
        · show Out.handle (getBucket s id).2 = _
          unfold getBucket; rw [hb]; dsimp only; rw [if_pos hf]
      · rw [if_neg hf]
        have hf' : s.flushed = false := by simpa using hf
        refine ⟨?_, id, .layer id, rfl, ?_, rfl⟩
        · exact {
            disk := R.disk
            flag := R.flag
            off := fun h => absurd h hf
            on := fun _ i => by
              dsimp only
              split_ifs
              · simp
              · exact R.on hf' i
            items := R.items
            nodup := R.nodup
            lt := R.lt
            idx := fun _ i data hd k e => by
              dsimp only at hd
              by_cases hi : i = id
              · subst hi
                rw [if_pos rfl] at hd
                simp only [Option.some.injEq] at hd
                subst hd
                constructor
                · intro h; simp at h
                · rintro ⟨h1, h2, _⟩
                  exact absurd (by rw [h2]; exact hb) (R.bks e h1)
              · rw [if_neg hi] at hd
                exact R.idx hf' i data hd k e
            bks := fun x hx => by
              dsimp only
              split_ifs
              · simp
              · exact R.bks x hx
            hl := fun i hi => by
              dsimp only
              split_ifs with h
              · simp
              · rcases List.mem_cons.1 hi with h' | h'
                · simp only [Handle.layer.injEq] at h'
                  exact absurd h' h
                · exact R.hl i h'
            hr := fun i hi => by
              rcases List.mem_cons.1 hi with h | h
              · simp at h
              · exact R.hr i h }
        · show Out.handle (getBucket s id).2 = _
          unfold getBucket; rw [hb]; dsimp only; rw [if_neg hf]
    · dsimp only
      refine ⟨?_, id, .layer id, rfl, ?_, rfl⟩
      · exact { R with
          hl := fun i hi => by
            rcases List.mem_cons.1 hi with h | h
            · simp only [Handle.layer.injEq] at h
              subst h; rw [hb]; simp
            · exact R.hl i h
          hr := fun i hi => by
            rcases List.mem_cons.1 hi with h | h
            · simp at h
            · exact R.hr i h }
      · show Out.handle (getBucket s id).2 = _
        unfold getBucket; rw [hb]
  | get h k => exact ⟨R, by show Out.value _ = _; rw [get_view R ha]⟩
  | has h k => exact ⟨R, by show Out.bool _ = _; rw [has_view R ha]⟩
  | set h k v ok => exact write_rel R ha k (some v) ok _ (set_put s h k v ok)
  | delete h k ok => exact write_rel R ha k none ok _ (delete_put s h k ok)
  | flush w n =>
    show Rel (flush s w n).1 g (a.step (.flush w n)).1 ∧ _
    cases hf : s.flushed with
    | true =>
      have hd : a.direct = true := by rw [← R.flag]; exact hf
      have e1 : flush s w n = (s, w) := by unfold flush; rw [if_pos hf]
      cases w with
      | true =>
        have e2 : a.step (.flush true n) = (a, some (.bool true)) := by
          show (if a.direct = true then _ else _) = _
          rw [if_pos hd]
        rw [e2]
        exact ⟨by rw [e1]; exact R, by show Out.bool (flush s true n).2 = _; rw [e1]⟩
      | false =>
        have e2 : a.step (.flush false n) = (a, some (.bool false)) := by
          show (if a.direct = true then _ else _) = _
          rw [if_pos hd]
        rw [e2]
        exact ⟨by rw [e1]; exact R, by show Out.bool (flush s false n).2 = _; rw [e1]⟩
    | false =>
      have hd : a.direct = false := by rw [← R.flag]; exact hf
      have hdn : ¬ a.direct = true := by rw [hd]; simp
      have hfn : ¬ s.flushed = true := by rw [hf]; simp
      cases w with
      | false =>
        have e2 : a.step (.flush false n) = ({ a with pending := [] }, some (.bool true)) := by
          show (if a.direct = true then _ else _) = _
          rw [if_neg hdn]
        have e1 : flush s false n = ({ s with
            buckets := fun i => (s.buckets i).map fun _ => some fun _ => none, list := [], flushed := false }, true) := by
          unfold flush; rw [if_neg hfn]; rfl
        rw [e2]
        refine ⟨?_, by show Out.bool (flush s false n).2 = _; rw [e1]⟩
        rw [e1]
        exact {
          disk := R.disk
          flag := hd.symm
          off := fun h => by simp at h
          on := fun _ i => by
            dsimp only
            cases s.buckets i <;> simp
          items := rfl
          nodup := List.nodup_nil
          lt := fun e h => by simp at h
          idx := fun _ i data h k e => by
            dsimp only at h
            rcases hb : s.buckets i with _ | o
            · rw [hb] at h; simp at h
            · rw [hb] at h
              simp only [Option.map_some, Option.some.injEq] at h
              subst h
              simp
          bks := fun e h => by simp at h
          hl := fun i hi => by
            dsimp only
            have := R.hl i hi
            cases hb : s.buckets i with
            | none => exact absurd hb this
            | some o => simp
          hr := fun i hi => absurd (R.hr i hi) hfn }
      | true =>
        have hw := writeAll_spec s.heap s.list n s.real
        rw [R.items] at hw
        have hlen : s.list.length = (newest a.pending).length := by rw [← R.items, List.length_map]
        by_cases hn : n < (newest a.pending).length
        · have e2 : a.step (.flush true n) =
              ({ a with disk := after a.disk ((newest a.pending).take n) }, some (.bool false)) := by
            show (if a.direct = true then _ else _) = _
            rw [if_neg hdn, if_pos hn]
          have e1 : flush s true n = ({ s with real := after s.real ((newest a.pending).take n) }, false) := by
            unfold flush
            rw [if_neg hfn, if_pos rfl, hw, hlen]
            simp [hn]
          rw [e2]
          refine ⟨?_, by show Out.bool (flush s true n).2 = _; rw [e1]⟩
          rw [e1]
          exact { R with
            disk := by
              show after s.real _ = after a.disk _
              rw [R.disk] }
        · have e2 : a.step (.flush true n) =
              ({ disk := a.view, pending := [], direct := true }, some (.bool true)) := by
            show (if a.direct = true then _ else _) = _
            rw [if_neg hdn, if_neg hn]
          have e1 : flush s true n = ({ s with
              real := after s.real ((newest a.pending).take n)
              buckets := fun i => (s.buckets i).map fun _ => none
              list := []
              flushed := true }, true) := by
            unfold flush
            rw [if_neg hfn, if_pos rfl, hw, hlen]
            simp [hn]
          rw [e2]
          refine ⟨?_, by show Out.bool (flush s true n).2 = _; rw [e1]⟩
          rw [e1]
          exact {
            disk := by
              show after s.real _ = after a.disk a.pending
              rw [List.take_of_length_le (by omega), after_newest, R.disk]
            flag := rfl
            off := fun _ => ⟨rfl, rfl, fun i => by
              dsimp only
              cases s.buckets i <;> simp⟩
            on := fun h => by simp at h
            items := rfl
            nodup := List.nodup_nil
            lt := fun e h => by simp at h
            idx := fun h => by simp at h
            bks := fun e h => by simp at h
            hl := fun i hi => by
              dsimp only
              have := R.hl i hi
              cases hb : s.buckets i with
              | none => exact absurd hb this
              | some o => simp
            hr := fun _ _ => rfl }
  | raw id k v => exact ⟨R.rawWrite id k v, rfl⟩

theorem Run.rel {d : Nat → Key → Option Val} {s : DB} {g : List Handle} {a : Spec} (R : Run d s g a) : Rel s g a := by
  induction R with
  | init => exact Rel.init d
  | step e _ ha ih => exact (step_rel ih e ha).1

/-! ### The theorems -/

/-- The layer answers every call as the specification does, and what is on the disk is what the specification says. -/
theorem refines {d : Nat → Key → Option Val} {s : DB} {g : List Handle} {a : Spec} (R : Run d s g a) :
    s.real = a.disk ∧ ∀ e : Ev, Allowed g e →
      (match (a.step e).2 with
       | some o => (step s e).2 = o
       | none => ∃ (id : Nat) (h : Handle), e = .open id ∧ (step s e).2 = .handle h ∧ h.id = id) :=
  ⟨R.rel.disk, fun e ha => (step_rel R.rel e ha).2⟩

/-- A write seen by the readers: the key written has the new value, no other one changes; if writes go through and the
disk refuses, nothing changes. -/
theorem read_write {d : Nat → Key → Option Val} {s : DB} {g : List Handle} {a : Spec} (R : Run d s g a) {h h' : Handle}
    (hg : h ∈ g) (hg' : h' ∈ g) (k k' : Key) (v : Option Val) (ok : Bool) :
    let p := match v with
      | some x => set s h k x ok
      | none => delete s h k ok
    p.2 = (ok || !s.flushed) ∧
    get p.1 h' k' = if p.2 = true ∧ h'.id = h.id ∧ k' = k then v else get s h' k' := by
  have key : ∀ P : DB × Bool, P = put s h k v ok → P.2 = (ok || !s.flushed) ∧
      get P.1 h' k' = if P.2 = true ∧ h'.id = h.id ∧ k' = k then v else get s h' k' := by
    intro P hP
    obtain ⟨r, ho⟩ := write_rel R.rel hg k v ok P hP
    rw [get_view r hg', get_view R.rel hg']
    unfold Spec.write at ho ⊢
    have hfl := R.rel.flag
    by_cases hd : a.direct = true
    · rw [if_pos hd] at ho ⊢
      have hp : a.pending = [] := (R.rel.off (by rw [hfl]; exact hd)).2.1
      have ho' : P.2 = ok := by simpa using ho
      rw [ho', hfl, hd]
      refine ⟨by simp, ?_⟩
      cases ok with
      | false => simp
      | true =>
        simp only [if_true, true_and]
        unfold Spec.view
        rw [hp]
        rfl
    · rw [if_neg hd] at ho ⊢
      have hd' : a.direct = false := by simpa using hd
      have ho' : P.2 = true := by simpa using ho
      rw [ho', hfl, hd']
      refine ⟨by simp, ?_⟩
      simp only [true_and]
      unfold Spec.view
      rw [after_append]
      rfl
  cases v with
  | some x => exact key _ (set_put s h k x ok)
  | none => exact key _ (delete_put s h k ok)

/-- Before a flush, writes do not reach the disk. -/
theorem write_held (s : DB) (g : List Handle) {d : Nat → Key → Option Val} {a : Spec} (R : Run d s g a)
    (hf : s.flushed = false) {h : Handle} (hg : h ∈ g) (k : Key) (v : Val) (ok : Bool) :
    (set s h k v ok).1.real = s.real ∧ (delete s h k ok).1.real = s.real ∧
    (set s h k v ok).1.flushed = false ∧ (delete s h k ok).1.flushed = false := by
  have key : ∀ v : Option Val, (put s h k v ok).1.real = s.real ∧ (put s h k v ok).1.flushed = false := by
    intro v
    obtain ⟨r, -⟩ := write_rel R.rel hg k v ok _ rfl
    have hd : ¬ a.direct = true := by rw [← R.rel.flag, hf]; simp
    have e : (a.write ⟨h.id, k, v⟩ ok).1 = { a with pending := a.pending ++ [⟨h.id, k, v⟩] } := by
      unfold Spec.write; rw [if_neg hd]
    rw [e] at r
    refine ⟨by rw [r.disk, R.rel.disk], ?_⟩
    rw [r.flag]
    simpa using hd
  exact ⟨(key (some v)).1, (key none).1, (key (some v)).2, (key none).2⟩

/-- `Flush(true)` that succeeds: what readers saw is on the disk, on every key, readers see the same, and from now on
writes go to the disk. -/
theorem flush_ok {d : Nat → Key → Option Val} {s : DB} {g : List Handle} {a : Spec} (R : Run d s g a) (n : Nat)
    (h : (flush s true n).2 = true) :
    (flush s true n).1.flushed = true ∧
    (∀ (i : Nat) (k : Key), (flush s true n).1.real i k = a.view i k) ∧
    ∀ x ∈ g, ∀ k : Key, (flush s true n).1.real x.id k = get s x k ∧ get (flush s true n).1 x k = get s x k := by
  obtain ⟨r, ho⟩ := step_rel R.rel (.flush true n) trivial
  have r' : Rel (flush s true n).1 g (a.step (.flush true n)).1 := r
  have ho' : match (a.step (.flush true n)).2 with
       | some o => Out.bool (flush s true n).2 = o
       | none => ∃ (id : Nat) (h : Handle), Ev.flush true n = .open id ∧ (step s (.flush true n)).2 = .handle h ∧ h.id = id := ho
  have e : (a.step (.flush true n)).1.disk = a.view ∧ (a.step (.flush true n)).1.direct = true ∧
      (a.step (.flush true n)).1.view = a.view := by
    by_cases hd : a.direct = true
    · have e2 : a.step (.flush true n) = (a, some (.bool true)) := by
        show (if a.direct = true then _ else _) = _
        rw [if_pos hd]
      rw [e2]
      have hp : a.pending = [] := (R.rel.off (by rw [R.rel.flag]; exact hd)).2.1
      refine ⟨?_, hd, rfl⟩
      unfold Spec.view; rw [hp]; rfl
    · by_cases hn : n < (newest a.pending).length
      · have e2 : a.step (.flush true n) =
            ({ a with disk := after a.disk ((newest a.pending).take n) }, some (.bool false)) := by
          show (if a.direct = true then _ else _) = _
          rw [if_neg hd, if_pos hn]
        rw [e2, h] at ho'
        simp at ho'
      · have e2 : a.step (.flush true n) =
            ({ disk := a.view, pending := [], direct := true }, some (.bool true)) := by
          show (if a.direct = true then _ else _) = _
          rw [if_neg hd, if_neg hn]
        rw [e2]
        exact ⟨rfl, rfl, rfl⟩
  refine ⟨by rw [r'.flag]; exact e.2.1, fun i k => by rw [r'.disk, e.1], fun x hx k => ?_⟩
  rw [get_view r' hx, get_view R.rel hx, r'.disk, e.1, e.2.2]
  exact ⟨rfl, rfl⟩

/-- A `Flush(true)` that fails after `n` writes: each key on the disk has its old value, or the one that readers see;
readers see what they saw; nothing is forgotten: another `Flush(true)` without a failure puts all of it on the disk. -/
theorem flush_fail {d : Nat → Key → Option Val} {s : DB} {g : List Handle} {a : Spec} (R : Run d s g a) (n : Nat)
    (h : (flush s true n).2 = false) :
    (flush s true n).1.flushed = false ∧
    (∀ (i : Nat) (k : Key), (flush s true n).1.real i k = s.real i k ∨ (flush s true n).1.real i k = a.view i k) ∧
    (∀ (i : Nat) (k : Key), (∃ w ∈ (newest a.pending).take n, i = w.id ∧ k = w.key) →
      (flush s true n).1.real i k = a.view i k) ∧
    (∀ x ∈ g, ∀ k : Key, get (flush s true n).1 x k = get s x k) ∧
    ∀ m : Nat, (flush (flush s true n).1 true m).2 = true →
      ∀ (i : Nat) (k : Key), (flush (flush s true n).1 true m).1.real i k = a.view i k := by
  have R' : Run d (flush s true n).1 g (a.step (.flush true n)).1 := Run.step (.flush true n) R trivial
  obtain ⟨r, ho⟩ := step_rel R.rel (.flush true n) trivial
  have ho' : match (a.step (.flush true n)).2 with
       | some o => Out.bool (flush s true n).2 = o
       | none => ∃ (id : Nat) (h : Handle), Ev.flush true n = .open id ∧ (step s (.flush true n)).2 = .handle h ∧ h.id = id := ho
  have hd : ¬ a.direct = true := by
    intro hd
    have e2 : a.step (.flush true n) = (a, some (.bool true)) := by
      show (if a.direct = true then _ else _) = _
      rw [if_pos hd]
    rw [e2, h] at ho'
    simp at ho'
  have hn : n < (newest a.pending).length := by
    by_contra hn
    have e2 : a.step (.flush true n) = ({ disk := a.view, pending := [], direct := true }, some (.bool true)) := by
      show (if a.direct = true then _ else _) = _
      rw [if_neg hd, if_neg hn]
    rw [e2, h] at ho'
    simp at ho'
  have e2 : a.step (.flush true n) =
      ({ a with disk := after a.disk ((newest a.pending).take n) }, some (.bool false)) := by
    show (if a.direct = true then _ else _) = _
    rw [if_neg hd, if_pos hn]
  rw [e2] at R'
  have hreal : (flush s true n).1.real = after a.disk ((newest a.pending).take n) := R'.rel.disk
  have hmem : ∀ (i : Nat) (k : Key), (∃ w ∈ (newest a.pending).take n, i = w.id ∧ k = w.key) →
      after a.disk ((newest a.pending).take n) i k = a.view i k := by
    rintro i k ⟨w, hw, rfl, rfl⟩
    have hp := newest_pairwise a.pending
    unfold Spec.view
    rw [← after_newest a.pending, after_mem _ hp a.disk w (List.mem_of_mem_take hw)]
    exact after_mem _ (hp.sublist (List.take_sublist ..)) a.disk w hw
  have hview : Spec.view { a with disk := after a.disk ((newest a.pending).take n) } = a.view := by
    funext i k
    unfold Spec.view
    dsimp only
    by_cases hm : ∃ w ∈ a.pending, i = w.id ∧ k = w.key
    · exact after_congr _ _ _ i k hm
    · have hno : ∀ w ∈ a.pending, ¬ (i = w.id ∧ k = w.key) := fun w hw hc => hm ⟨w, hw, hc⟩
      rw [after_not_mem _ _ i k hno, after_not_mem _ a.disk i k hno]
      exact after_not_mem _ _ i k fun w hw => hno w (newest_sub _ w (List.mem_of_mem_take hw))
  refine ⟨?_, ?_, ?_, ?_, ?_⟩
  · rw [R'.rel.flag]; simpa using hd
  · intro i k
    rw [hreal]
    by_cases hm : ∃ w ∈ (newest a.pending).take n, i = w.id ∧ k = w.key
    · exact Or.inr (hmem i k hm)
    · refine Or.inl ?_
      rw [R.rel.disk]
      exact after_not_mem _ _ i k fun w hw hc => hm ⟨w, hw, hc⟩
  · intro i k hm
    rw [hreal]; exact hmem i k hm
  · intro x hx k
    rw [get_view R'.rel hx, get_view R.rel hx, hview]
  · intro m hm i k
    rw [(flush_ok R' m hm).2.1 i k, hview]

/-- `Flush(false)`: the writes are gone, readers see the disk, which is as it was; once a `Flush(true)` has succeeded
there is nothing to throw away, and it is refused. -/
theorem flush_drop {d : Nat → Key → Option Val} {s : DB} {g : List Handle} {a : Spec} (R : Run d s g a) (n : Nat) :
    (flush s false n).2 = !s.flushed ∧ (flush s false n).1.real = s.real ∧
    (flush s false n).1.flushed = s.flushed ∧
    ∀ x ∈ g, ∀ k : Key, get (flush s false n).1 x k = s.real x.id k := by
  have R' : Run d (flush s false n).1 g (a.step (.flush false n)).1 := Run.step (.flush false n) R trivial
  have e : (a.step (.flush false n)).1 = { a with pending := [] } := by
    by_cases hd : a.direct = true
    · have hp : a.pending = [] := (R.rel.off (by rw [R.rel.flag]; exact hd)).2.1
      show (if a.direct = true then _ else _ : Spec × Option Out).1 = _
      rw [if_pos hd]
      obtain ⟨x, y, z⟩ := a
      simp only at hp
      simp [hp]
    · show (if a.direct = true then _ else _ : Spec × Option Out).1 = _
      rw [if_neg hd]
  rw [e] at R'
  refine ⟨?_, ?_, ?_, fun x hx k => ?_⟩
  · unfold flush
    cases s.flushed <;> rfl
  · rw [R'.rel.disk, R.rel.disk]
  · rw [R'.rel.flag, R.rel.flag]
  · rw [get_view R'.rel hx, R.rel.disk]; rfl

/-- Writes that go through stay so. -/
theorem direct_stays (s : DB) (e : Ev) (h : s.flushed = true) : (step s e).1.flushed = true := by
  cases e with
  | «open» id =>
    show (getBucket s id).1.flushed = true
    unfold getBucket
    split
    · exact h
    · rw [if_pos h]; exact h
  | get _ _ => exact h
  | has _ _ => exact h
  | set x k v ok =>
    show (set s x k v ok).1.flushed = true
    unfold set
    split
    · exact h
    · split
      · split
        · exact h
        · exact h
      · exact h
  | delete x k ok =>
    show (delete s x k ok).1.flushed = true
    unfold delete
    split
    · exact h
    · split
      · split
        · exact h
        · exact h
      · exact h
  | flush w n =>
    show (flush s w n).1.flushed = true
    unfold flush
    rw [if_pos h]; exact h
  | raw _ _ _ => exact h

/-- What readers see on a key is the last of the pending writes to it, or the disk. -/
theorem view_is (a : Spec) (i : Nat) (k : Key) :
    ((∀ w ∈ a.pending, ¬ (w.id = i ∧ w.key = k)) ∧ a.view i k = a.disk i k) ∨
    ∃ (p q : List Wr) (w : Wr), a.pending = p ++ w :: q ∧ w.id = i ∧ w.key = k ∧
      (∀ x ∈ q, ¬ (x.id = i ∧ x.key = k)) ∧ a.view i k = w.val := by
  unfold Spec.view
  generalize a.pending = l
  induction l using List.reverseRecOn with
  | nil => exact Or.inl ⟨by simp, rfl⟩
  | append_singleton t w ih =>
    rw [after_append]
    have e : after (after a.disk t) [w] i k = if i = w.id ∧ k = w.key then w.val else after a.disk t i k := rfl
    rw [e]
    by_cases hw : i = w.id ∧ k = w.key
    · rw [if_pos hw]
      exact Or.inr ⟨t, [], w, rfl, hw.1.symm, hw.2.symm, by simp, rfl⟩
    · rw [if_neg hw]
      have hw' : ¬ (w.id = i ∧ w.key = k) := fun h => hw ⟨h.1.symm, h.2.symm⟩
      rcases ih with ⟨h1, h2⟩ | ⟨p, q, x, h1, h2, h3, h4, h5⟩
      · refine Or.inl ⟨fun y hy => ?_, h2⟩
        rcases List.mem_append.1 hy with h | h
        · exact h1 y h
        · rw [List.mem_singleton.1 h]; exact hw'
      · refine Or.inr ⟨p, q ++ [w], x, by rw [h1]; simp, h2, h3, fun y hy => ?_, h5⟩
        rcases List.mem_append.1 hy with h | h
        · exact h4 y h
        · rw [List.mem_singleton.1 h]; exact hw'

end Verif.LayerDB
