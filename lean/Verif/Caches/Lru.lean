import Mathlib.Data.List.Basic
import Mathlib.Data.List.Nodup
import Mathlib.Algebra.BigOperators.Group.List.Basic
import Mathlib.Tactic.SplitIfs

/-!
# A cache that throws out what was not used for the longest time

Models `common/cache/costerlru.go`.

Simplifications: an element of `container/list` is a number, and `el` is what it holds; costs are not negative and do not
change while a value is in the cache; `int` does not overflow.
-/

namespace Verif.Caches

variable {K V : Type} [DecidableEq K]

/-- A `CosterLRU` (costerlru.go:32-37): the map has elements, the list has them in order, the most recently used one first. -/
structure Lru (K V : Type) where
  cap : Nat
  sum : Nat
  kv : K → Option Nat
  mru : List Nat
  el : Nat → Option (K × V)
  next : Nat

/-- `MakeCosterLRU`, `NewCosterLRU` (costerlru.go:39-51). -/
def Lru.new (cap : Nat) : Lru K V := ⟨cap, 0, fun _ => none, [], fun _ => none, 0⟩

/-- The body of the loop of `Put` (costerlru.go:71-74); none: a panic. -/
def Lru.evict (cost : V → Nat) (c : Lru K V) : Option (Lru K V) :=
  match c.mru.getLast? with
  | none => none
  | some p =>
    match c.el p with
    | none => none
    | some e => some { c with
        sum := c.sum - cost e.2
        kv := fun x => if x = e.1 then none else c.kv x
        mru := c.mru.dropLast }

/-- The loop of `Put` (costerlru.go:70-75). The first argument bounds the rounds: each makes the list shorter. -/
def Lru.shrink (cost : V → Nat) : Nat → Lru K V → Option (Lru K V)
  | 0, c => if c.cap < c.sum then none else some c
  | n + 1, c =>
    if c.cap < c.sum then
      match c.evict cost with
      | none => none
      | some c' => Lru.shrink cost n c'
    else some c

/-- `Put` (costerlru.go:53-76). -/
def Lru.put (cost : V → Nat) (c : Lru K V) (key : K) (v : V) : Option (Lru K V) :=
  if c.cap < cost v then some c
  else
    let c1 : Option (Lru K V) :=
      match c.kv key with
      | some p =>
        match c.el p with
        | none => none
        | some o => some { c with
            sum := c.sum - cost o.2
            el := fun q => if q = p then some (key, v) else c.el q
            mru := p :: c.mru.erase p }
      | none => some { c with
            el := fun q => if q = c.next then some (key, v) else c.el q
            mru := c.next :: c.mru
            kv := fun x => if x = key then some c.next else c.kv x
            next := c.next + 1 }
    match c1 with
    | none => none
    | some c2 => Lru.shrink cost c2.mru.length { c2 with sum := c2.sum + cost v }

/-- `Get` (costerlru.go:78-85). -/
def Lru.get (c : Lru K V) (key : K) : Lru K V × Option V :=
  match c.kv key with
  | some p => ({ c with mru := p :: c.mru.erase p }, (c.el p).map Prod.snd)
  | none => (c, none)

/-- A cache and its uses, the last one first: values put that are not too costly, and values that were there. -/
inductive LruRun (cost : V → Nat) (cap : Nat) : Lru K V → List (K × V) → Prop
  | new : LruRun cost cap (.new cap) []
  | put {c c' : Lru K V} {us : List (K × V)} {k : K} {v : V} : LruRun cost cap c us → c.put cost k v = some c' →
      LruRun cost cap c' (if cost v ≤ cap then (k, v) :: us else us)
  | get {c : Lru K V} {us : List (K × V)} {k : K} : LruRun cost cap c us →
      LruRun cost cap (c.get k).1 (match (c.get k).2 with | some v => (k, v) :: us | none => us)

/-- The cache is this list of elements, keys and values. -/
structure Lru.Inv (cost : V → Nat) (c : Lru K V) (Z : List (Nat × K × V)) : Prop where
  mru : c.mru = Z.map (·.1)
  el : ∀ z ∈ Z, c.el z.1 = some z.2
  ptr : (Z.map (·.1)).Nodup
  keys : (Z.map (·.2.1)).Nodup
  kv : ∀ k p, c.kv k = some p ↔ ∃ v, (p, k, v) ∈ Z
  fresh : ∀ z ∈ Z, z.1 < c.next
  sum : c.sum = (Z.map fun z => cost z.2.2).sum

theorem Lru.Inv.new (cost : V → Nat) (cap : Nat) : (Lru.new cap : Lru K V).Inv cost [] :=
  ⟨rfl, by simp, by simp, by simp, by intro k p; simp [Lru.new], by simp, by simp [Lru.new]⟩

theorem Lru.Inv.evict {cost : V → Nat} {c : Lru K V} {Z : List (Nat × K × V)} {z : Nat × K × V} (I : c.Inv cost (Z ++ [z])) :
    ∃ c', c.evict cost = some c' ∧ c'.cap = c.cap ∧ c'.Inv cost Z := by
  have hl : c.mru.getLast? = some z.1 := by rw [I.mru]; simp
  have he := I.el z (by simp)
  have hk := I.keys
  have hp := I.ptr
  rw [List.map_append, List.nodup_append] at hk hp
  have hk2 : ∀ x ∈ Z, x.2.1 ≠ z.2.1 := fun x hx => hk.2.2 _ (List.mem_map.2 ⟨x, hx, rfl⟩) _ (by simp)
  have hev : c.evict cost = some { c with
        sum := c.sum - cost z.2.2
        kv := fun x => if x = z.2.1 then none else c.kv x
        mru := c.mru.dropLast } := by
    unfold Lru.evict
    simp only [hl, he]
  refine ⟨_, hev, rfl, ?_, fun x hx => I.el x (by simp [hx]), hp.1, hk.1, ?_,
    fun x hx => I.fresh x (by simp [hx]), ?_⟩
  · dsimp only
    rw [I.mru, List.map_append]; simp
  · intro k p
    dsimp only
    by_cases h : k = z.2.1
    · rw [if_pos h]
      constructor
      · intro h; cases h
      · rintro ⟨v, hv⟩
        exact absurd h (hk2 _ hv)
    · rw [if_neg h, I.kv]
      constructor
      · rintro ⟨v, hv⟩
        rcases List.mem_append.1 hv with hv | hv
        · exact ⟨v, hv⟩
        · rw [List.mem_singleton] at hv
          exact absurd (by rw [← hv]) h
      · rintro ⟨v, hv⟩
        exact ⟨v, by simp [hv]⟩
  · dsimp only
    rw [I.sum, List.map_append, List.sum_append]
    simp

/-- What the loop leaves: a first part of the list that fits, and the next one would not. -/
theorem Lru.Inv.shrink {cost : V → Nat} (n : Nat) : ∀ {c : Lru K V} {Z : List (Nat × K × V)}, c.Inv cost Z → Z.length ≤ n →
    ∃ c' Z', Lru.shrink cost n c = some c' ∧ c'.cap = c.cap ∧ c'.Inv cost Z' ∧ Z' <+: Z ∧ c'.sum ≤ c'.cap ∧
      ∀ X, X <+: Z → (X.map fun z => cost z.2.2).sum ≤ c.cap → X <+: Z' := by
  induction n with
  | zero =>
    intro c Z I hn
    have : Z = [] := List.eq_nil_of_length_eq_zero (by omega)
    subst this
    have hs := I.sum
    have hs0 : c.sum = 0 := by rw [hs]; simp
    exact ⟨c, [], by unfold Lru.shrink; rw [if_neg (by omega)], rfl, I, List.nil_prefix, by omega, fun X h _ => h⟩
  | succ n ih =>
    intro c Z I hn
    unfold Lru.shrink
    by_cases h : c.cap < c.sum
    · rw [if_pos h]
      rcases List.eq_nil_or_concat Z with rfl | ⟨t, z, rfl⟩
      · have := I.sum
        simp at this
        omega
      · rw [List.concat_eq_append] at I hn ⊢
        obtain ⟨c1, e1, hc1, I1⟩ := I.evict
        rw [List.length_append, List.length_singleton] at hn
        obtain ⟨c2, Z2, e2, hc2, I2, hp, hs, hx⟩ := ih I1 (by omega)
        refine ⟨c2, Z2, by rw [e1]; exact e2, hc2.trans hc1, I2, hp.trans (List.prefix_append _ _), hs, ?_⟩
        intro X hX hXs
        apply hx X _ (by rw [hc1]; exact hXs)
        obtain ⟨r, hr⟩ := hX
        rcases List.eq_nil_or_concat r with rfl | ⟨r', y, rfl⟩
        · exfalso
          rw [List.append_nil] at hr
          rw [hr, ← I.sum] at hXs
          omega
        · rw [List.concat_eq_append, ← List.append_assoc] at hr
          have := List.append_inj_left' hr rfl
          exact ⟨r', this⟩
    · rw [if_neg h]
      exact ⟨c, Z, rfl, rfl, I, List.prefix_refl _, by omega, fun X h _ => h⟩

theorem Lru.Inv.erase {cost : V → Nat} {c : Lru K V} {Z : List (Nat × K × V)} (I : c.Inv cost Z) {p : Nat} {k : K} {v : V}
    (h : (p, k, v) ∈ Z) : c.mru.erase p = (Z.filter fun z => decide (z.2.1 ≠ k)).map (·.1) ∧
      (∀ z ∈ Z.filter (fun z => decide (z.2.1 ≠ k)), z.1 ≠ p) ∧
      (Z.map fun z => cost z.2.2).sum = cost v + ((Z.filter fun z => decide (z.2.1 ≠ k)).map fun z => cost z.2.2).sum := by
  have hp := I.ptr
  have hk := I.keys
  rw [I.mru]
  clear I
  induction Z with
  | nil => simp at h
  | cons y Z ih =>
    rw [List.map_cons, List.nodup_cons] at hp hk
    rcases List.mem_cons.1 h with he | h
    · subst he
      have hf : Z.filter (fun z => decide (z.2.1 ≠ k)) = Z := by
        rw [List.filter_eq_self]
        intro z hz
        simp only [decide_eq_true_eq]
        intro e
        exact hk.1 (List.mem_map.2 ⟨z, hz, e⟩)
      rw [List.filter_cons_of_neg (by simp), hf]
      refine ⟨by simp, ?_, by simp⟩
      intro z hz e
      exact hp.1 (List.mem_map.2 ⟨z, hz, e⟩)
    · obtain ⟨h1, h2, h3⟩ := ih h hp.2 hk.2
      have hyk : y.2.1 ≠ k := fun e => hk.1 (List.mem_map.2 ⟨_, h, e.symm⟩)
      have hyp : y.1 ≠ p := fun e => hp.1 (List.mem_map.2 ⟨_, h, e.symm⟩)
      rw [List.filter_cons_of_pos (by simpa using hyk)]
      refine ⟨?_, ?_, ?_⟩
      · rw [List.map_cons, List.erase_cons_tail (by simpa using hyp), h1, List.map_cons]
      · intro z hz
        rcases List.mem_cons.1 hz with rfl | hz
        · exact hyp
        · exact h2 z hz
      · rw [List.map_cons, List.sum_cons, List.map_cons, List.sum_cons, h3]
        omega

/-- An element moved to the front, with a value. -/
theorem Lru.Inv.front {cost : V → Nat} {c : Lru K V} {Z : List (Nat × K × V)} (I : c.Inv cost Z) {p : Nat} {k : K} {v : V}
    (h : (p, k, v) ∈ Z) (w : V) :
    ({ c with
        sum := c.sum - cost v + cost w
        el := fun q => if q = p then some (k, w) else c.el q
        mru := p :: c.mru.erase p } : Lru K V).Inv cost ((p, k, w) :: Z.filter fun z => decide (z.2.1 ≠ k)) := by
  obtain ⟨h1, h2, h3⟩ := I.erase h
  refine ⟨by dsimp only; rw [h1]; rfl, ?_, ?_, ?_, ?_, ?_, ?_⟩
  · intro z hz
    dsimp only
    rcases List.mem_cons.1 hz with rfl | hz
    · rw [if_pos rfl]
    · rw [if_neg (h2 z hz)]
      exact I.el z (List.mem_of_mem_filter hz)
  · rw [List.map_cons, List.nodup_cons]
    refine ⟨?_, I.ptr.sublist (List.filter_sublist.map _)⟩
    intro hm
    obtain ⟨z, hz, e⟩ := List.mem_map.1 hm
    exact h2 z hz e
  · rw [List.map_cons, List.nodup_cons]
    refine ⟨?_, I.keys.sublist (List.filter_sublist.map _)⟩
    intro hm
    obtain ⟨z, hz, e⟩ := List.mem_map.1 hm
    exact absurd e (by simpa using (List.mem_filter.1 hz).2)
  · intro x q
    dsimp only
    rw [I.kv]
    by_cases hx : x = k
    · subst hx
      have hq : ∀ u q, (q, x, u) ∈ Z → q = p := by
        intro u q hm
        have := List.inj_on_of_nodup_map I.keys hm h rfl
        rw [Prod.mk.injEq] at this
        exact this.1
      constructor
      · rintro ⟨u, hu⟩
        exact ⟨w, by rw [hq u q hu]; exact List.mem_cons_self⟩
      · rintro ⟨u, hu⟩
        rcases List.mem_cons.1 hu with hu | hu
        · rw [Prod.mk.injEq] at hu
          exact ⟨v, by rw [hu.1]; exact h⟩
        · exact absurd (rfl : x = x) (by simpa using (List.mem_filter.1 hu).2)
    · constructor
      · rintro ⟨u, hu⟩
        exact ⟨u, List.mem_cons_of_mem _ (List.mem_filter.2 ⟨hu, by simpa using hx⟩)⟩
      · rintro ⟨u, hu⟩
        rcases List.mem_cons.1 hu with hu | hu
        · rw [Prod.mk.injEq, Prod.mk.injEq] at hu
          exact absurd hu.2.1 hx
        · exact ⟨u, List.mem_of_mem_filter hu⟩
  · intro z hz
    rcases List.mem_cons.1 hz with rfl | hz
    · exact I.fresh (p, k, v) h
    · exact I.fresh z (List.mem_of_mem_filter hz)
  · dsimp only
    rw [I.sum, h3, List.map_cons, List.sum_cons]
    dsimp only
    omega

theorem Lru.Inv.add {cost : V → Nat} {c : Lru K V} {Z : List (Nat × K × V)} (I : c.Inv cost Z) {k : K} (h : c.kv k = none) (w : V) :
    ({ c with
        sum := c.sum + cost w
        el := fun q => if q = c.next then some (k, w) else c.el q
        mru := c.next :: c.mru
        kv := fun x => if x = k then some c.next else c.kv x
        next := c.next + 1 } : Lru K V).Inv cost ((c.next, k, w) :: Z) ∧ ∀ z ∈ Z, z.2.1 ≠ k := by
  have hk : ∀ z ∈ Z, z.2.1 ≠ k := by
    intro z hz e
    have := (I.kv k z.1).2 ⟨z.2.2, by rw [← e]; exact hz⟩
    rw [h] at this
    cases this
  have hp : ∀ z ∈ Z, z.1 ≠ c.next := fun z hz => by have := I.fresh z hz; omega
  refine ⟨⟨by dsimp only; rw [I.mru]; rfl, ?_, ?_, ?_, ?_, ?_, ?_⟩, hk⟩
  · intro z hz
    dsimp only
    rcases List.mem_cons.1 hz with rfl | hz
    · rw [if_pos rfl]
    · rw [if_neg (hp z hz)]
      exact I.el z hz
  · rw [List.map_cons, List.nodup_cons]
    refine ⟨?_, I.ptr⟩
    intro hm
    obtain ⟨z, hz, e⟩ := List.mem_map.1 hm
    exact hp z hz e
  · rw [List.map_cons, List.nodup_cons]
    refine ⟨?_, I.keys⟩
    intro hm
    obtain ⟨z, hz, e⟩ := List.mem_map.1 hm
    exact hk z hz e
  · intro x q
    dsimp only
    by_cases hx : x = k
    · subst hx
      rw [if_pos rfl]
      constructor
      · intro e
        rw [Option.some.injEq] at e
        exact ⟨w, by rw [e]; exact List.mem_cons_self⟩
      · rintro ⟨u, hu⟩
        rcases List.mem_cons.1 hu with hu | hu
        · rw [Prod.mk.injEq] at hu
          rw [hu.1]
        · exact absurd rfl (hk _ hu)
    · rw [if_neg hx, I.kv]
      constructor
      · rintro ⟨u, hu⟩
        exact ⟨u, List.mem_cons_of_mem _ hu⟩
      · rintro ⟨u, hu⟩
        rcases List.mem_cons.1 hu with hu | hu
        · rw [Prod.mk.injEq, Prod.mk.injEq] at hu
          exact absurd hu.2.1 hx
        · exact ⟨u, hu⟩
  · intro z hz
    dsimp only
    rcases List.mem_cons.1 hz with rfl | hz
    · exact Nat.lt_succ_self _
    · have := I.fresh z hz
      omega
  · dsimp only
    rw [I.sum, List.map_cons, List.sum_cons]
    dsimp only
    omega

/-- `Put`: the value in front, without what the key had, and of that the longest first part that fits. -/
theorem Lru.Inv.put {cost : V → Nat} {c : Lru K V} {Z : List (Nat × K × V)} (I : c.Inv cost Z) (k : K) (v : V) (hv : cost v ≤ c.cap) :
    ∃ c' Z' p, c.put cost k v = some c' ∧ c'.cap = c.cap ∧ c'.Inv cost Z' ∧ c'.sum ≤ c'.cap ∧
      Z' <+: (p, k, v) :: Z.filter (fun z => decide (z.2.1 ≠ k)) ∧
      ∀ X, X <+: (p, k, v) :: Z.filter (fun z => decide (z.2.1 ≠ k)) → (X.map fun z => cost z.2.2).sum ≤ c.cap → X <+: Z' := by
  unfold Lru.put
  rw [if_neg (by omega)]
  cases hk : c.kv k with
  | some p =>
    obtain ⟨o, ho⟩ := (I.kv k p).1 hk
    have hel := I.el _ ho
    dsimp only at hel ⊢
    simp only [hel]
    have I1 := I.front ho v
    obtain ⟨c2, Z2, e, hc, I2, hp, hs, hx⟩ := I1.shrink (p :: c.mru.erase p).length (by
      have := congrArg List.length I1.mru
      rw [List.length_map] at this
      exact Nat.le_of_eq this.symm)
    exact ⟨c2, Z2, p, e, hc, I2, hs, hp, hx⟩
  | none =>
    dsimp only
    obtain ⟨I1, hne⟩ := I.add hk v
    have hf : Z.filter (fun z => decide (z.2.1 ≠ k)) = Z := by
      rw [List.filter_eq_self]
      intro z hz
      simpa using hne z hz
    obtain ⟨c2, Z2, e, hc, I2, hp, hs, hx⟩ := I1.shrink (c.next :: c.mru).length (by
      have := congrArg List.length I1.mru
      rw [List.length_map] at this
      exact Nat.le_of_eq this.symm)
    refine ⟨c2, Z2, c.next, e, hc, I2, hs, ?_, ?_⟩
    · rw [hf]; exact hp
    · rw [hf]; exact hx

theorem Lru.Inv.get {cost : V → Nat} {c : Lru K V} {Z : List (Nat × K × V)} (I : c.Inv cost Z) (k : K) :
    ((c.get k).2 = none ∧ (c.get k).1 = c ∧ ∀ z ∈ Z, z.2.1 ≠ k) ∨
    ∃ p v, (p, k, v) ∈ Z ∧ (c.get k).2 = some v ∧ (c.get k).1.cap = c.cap ∧ (c.get k).1.sum = c.sum ∧
      (c.get k).1.Inv cost ((p, k, v) :: Z.filter fun z => decide (z.2.1 ≠ k)) := by
  unfold Lru.get
  cases hk : c.kv k with
  | none =>
    refine .inl ⟨rfl, rfl, ?_⟩
    intro z hz e
    have := (I.kv k z.1).2 ⟨z.2.2, by rw [← e]; exact hz⟩
    rw [hk] at this
    cases this
  | some p =>
    obtain ⟨v, hv⟩ := (I.kv k p).1 hk
    have hel := I.el _ hv
    dsimp only at hel
    refine .inr ⟨p, v, hv, by dsimp only; rw [hel]; rfl, rfl, rfl, ?_⟩
    have I1 := I.front hv v
    have h1 : (fun q => if q = p then some (k, v) else c.el q) = c.el := by
      funext q
      split_ifs with h
      · rw [h, hel]
      · rfl
    have h2 : c.sum - cost v + cost v = c.sum := by
      have := (I.erase hv).2.2
      have := I.sum
      omega
    rw [h1, h2] at I1
    exact I1

/-- The keys that were used, each with its last use, the last one first. -/
def recent : List (K × V) → List (K × V)
  | [] => []
  | u :: us => u :: (recent us).filter fun x => decide (x.1 ≠ u.1)

theorem filter_prefix {α : Type} {a b : List α} (f : α → Bool) (h : a <+: b) : a.filter f <+: b.filter f := by
  obtain ⟨t, rfl⟩ := h
  rw [List.filter_append]
  exact List.prefix_append _ _

theorem map_filter_key (Z : List (Nat × K × V)) (k : K) :
    (Z.filter fun z => decide (z.2.1 ≠ k)).map Prod.snd = (Z.map Prod.snd).filter fun x => decide (x.1 ≠ k) := by
  rw [List.filter_map]; rfl

/-- What is in the cache are the last used keys. -/
theorem LruRun.inv {cost : V → Nat} {cap : Nat} {c : Lru K V} {us : List (K × V)} (r : LruRun cost cap c us) :
    ∃ Z, c.Inv cost Z ∧ c.cap = cap ∧ c.sum ≤ cap ∧ Z.map Prod.snd <+: recent us := by
  induction r with
  | new => exact ⟨[], .new cost cap, rfl, Nat.zero_le _, List.nil_prefix⟩
  | @put c c' us k v _ hp ih =>
    obtain ⟨Z, I, hc, hs, hz⟩ := ih
    split_ifs with h
    · obtain ⟨c2, Z2, p, e, hc2, I2, hs2, hp2, -⟩ := I.put k v (by omega)
      rw [e, Option.some.injEq] at hp
      subst hp
      refine ⟨Z2, I2, by omega, by omega, (hp2.map Prod.snd).trans ?_⟩
      rw [List.map_cons, map_filter_key]
      exact List.cons_prefix_cons.2 ⟨rfl, filter_prefix _ hz⟩
    · unfold Lru.put at hp
      rw [if_pos (by omega), Option.some.injEq] at hp
      subst hp
      exact ⟨Z, I, hc, hs, hz⟩
  | @get c us k _ ih =>
    obtain ⟨Z, I, hc, hs, hz⟩ := ih
    rcases I.get k with ⟨h1, h2, -⟩ | ⟨p, v, -, h2, h3, h4, I2⟩
    · rw [h1, h2]
      exact ⟨Z, I, hc, hs, hz⟩
    · rw [h2]
      refine ⟨_, I2, by omega, by omega, ?_⟩
      rw [List.map_cons, map_filter_key]
      exact List.cons_prefix_cons.2 ⟨rfl, filter_prefix _ hz⟩

theorem mem_recent {us : List (K × V)} {k : K} {v : V} : (k, v) ∈ recent us ↔ us.find? (fun x => decide (x.1 = k)) = some (k, v) := by
  induction us with
  | nil => simp [recent]
  | cons u us ih =>
    unfold recent
    rw [List.mem_cons, List.mem_filter, ih, List.find?_cons]
    by_cases h : u.1 = k
    · simp only [h, decide_true, Option.some.injEq]
      constructor
      · rintro (e | ⟨-, e⟩)
        · exact e.symm
        · simp at e
      · intro e; exact .inl e.symm
    · have h' : k ≠ u.1 := fun e => h e.symm
      simp only [h, decide_false, h', ne_eq, not_false_eq_true, decide_true, and_true]
      constructor
      · rintro (e | e)
        · rw [← e] at h; exact absurd rfl h
        · exact e
      · exact .inr

theorem Lru.Inv.get_iff {cost : V → Nat} {c : Lru K V} {Z : List (Nat × K × V)} (I : c.Inv cost Z) (k : K) (v : V) :
    (c.get k).2 = some v ↔ (k, v) ∈ Z.map Prod.snd := by
  rcases I.get k with ⟨h1, -, h3⟩ | ⟨p, w, hw, h2, -⟩
  · rw [h1]
    constructor
    · intro h; cases h
    · intro h
      obtain ⟨z, hz, e⟩ := List.mem_map.1 h
      exact absurd (by rw [e]) (h3 z hz)
  · rw [h2, Option.some.injEq]
    constructor
    · rintro rfl
      exact List.mem_map.2 ⟨_, hw, rfl⟩
    · intro h
      obtain ⟨z, hz, e⟩ := List.mem_map.1 h
      have := List.inj_on_of_nodup_map I.keys hw hz (by rw [e])
      rw [← this] at e
      rw [Prod.mk.injEq] at e
      exact e.2

/-- No operation panics, and a value that is too costly changes nothing. -/
theorem lru_total {cost : V → Nat} {cap : Nat} {c : Lru K V} {us : List (K × V)} (r : LruRun cost cap c us) (k : K) (v : V) :
    (∃ c', c.put cost k v = some c' ∧ (cost v ≤ cap → (c'.get k).2 = some v)) ∧ (cap < cost v → c.put cost k v = some c) := by
  obtain ⟨Z, I, hc, -, -⟩ := r.inv
  refine ⟨?_, fun h => by unfold Lru.put; rw [if_pos (by omega)]⟩
  by_cases h : cost v ≤ cap
  · obtain ⟨c2, Z2, p, e, hc2, I2, hs2, -, hx⟩ := I.put k v (by omega)
    refine ⟨c2, e, fun _ => (I2.get_iff k v).2 ?_⟩
    have := hx [(p, k, v)] (List.cons_prefix_cons.2 ⟨rfl, List.nil_prefix⟩) (by simp; omega)
    exact List.mem_map.2 ⟨_, this.subset (List.mem_singleton.2 rfl), rfl⟩
  · exact ⟨c, by unfold Lru.put; rw [if_pos (by omega)], fun h' => absurd h' h⟩

/-- What is got is what was last put for the key (and was not too costly). -/
theorem lru_last {cost : V → Nat} {cap : Nat} {c : Lru K V} {us : List (K × V)} (r : LruRun cost cap c us) (k : K) (v : V)
    (h : (c.get k).2 = some v) : us.find? (fun x => decide (x.1 = k)) = some (k, v) := by
  obtain ⟨Z, I, -, -, hz⟩ := r.inv
  exact mem_recent.1 (hz.subset ((I.get_iff k v).1 h))

/-- The values in the cache fit. -/
theorem lru_fits {cost : V → Nat} {cap : Nat} {c : Lru K V} {us : List (K × V)} (r : LruRun cost cap c us) :
    ∃ S : List (K × V), (S.map Prod.fst).Nodup ∧ (S.map fun x => cost x.2).sum ≤ cap ∧ ∀ k v, (c.get k).2 = some v ↔ (k, v) ∈ S := by
  obtain ⟨Z, I, -, hs, -⟩ := r.inv
  refine ⟨Z.map Prod.snd, by rw [List.map_map]; exact I.keys, ?_, I.get_iff⟩
  rw [List.map_map]
  rw [I.sum] at hs
  exact hs

/-- Where the last use of a key is. -/
theorem recent_split {us : List (K × V)} {k k' : K} {v v' : V} {i j : Nat} (hi : us[i]? = some (k', v'))
    (hi' : ∀ m < i, ∀ x, us[m]? = some x → x.1 ≠ k') (hj : us[j]? = some (k, v)) (hj' : ∀ m < j, ∀ x, us[m]? = some x → x.1 ≠ k)
    (hij : i < j) : ∃ A B C, recent us = A ++ (k', v') :: B ++ (k, v) :: C := by
  induction us generalizing i j with
  | nil => simp at hi
  | cons u us ih =>
    cases j with
    | zero => omega
    | succ j =>
      have hu := hj' 0 (by omega) u (by simp)
      rw [List.getElem?_cons_succ] at hj
      have hj2 : ∀ m < j, ∀ x, us[m]? = some x → x.1 ≠ k := fun m hm x hx => hj' (m + 1) (by omega) x (by simpa using hx)
      cases i with
      | zero =>
        rw [List.getElem?_cons_zero, Option.some.injEq] at hi
        have hm : (k, v) ∈ (recent us).filter fun x => decide (x.1 ≠ u.1) := by
          rw [List.mem_filter]
          refine ⟨mem_recent.2 ?_, by simpa using fun e => hu e.symm⟩
          rw [List.find?_eq_some_iff_getElem]
          refine ⟨by simp, j, (List.getElem?_eq_some_iff.1 hj).1, (List.getElem?_eq_some_iff.1 hj).2, ?_⟩
          intro m hm
          have := hj2 m hm _ (List.getElem?_eq_getElem (by have := (List.getElem?_eq_some_iff.1 hj).1; omega))
          simpa using this
        obtain ⟨B, C, h⟩ := List.append_of_mem hm
        exact ⟨[], B, C, by unfold recent; rw [h, hi]; rfl⟩
      | succ i =>
        have hu' := hi' 0 (by omega) u (by simp)
        rw [List.getElem?_cons_succ] at hi
        obtain ⟨A, B, C, h⟩ := ih hi (fun m hm x hx => hi' (m + 1) (by omega) x (by simpa using hx)) hj hj2 (by omega)
        refine ⟨u :: A.filter (fun x => decide (x.1 ≠ u.1)), B.filter (fun x => decide (x.1 ≠ u.1)),
          C.filter (fun x => decide (x.1 ≠ u.1)), ?_⟩
        unfold recent
        rw [h, List.filter_append, List.filter_append, List.filter_cons_of_pos (by simpa using fun e => hu' e.symm),
          List.filter_cons_of_pos (by simpa using fun e => hu e.symm)]
        rfl

theorem recent_keys (us : List (K × V)) : ((recent us).map Prod.fst).Nodup := by
  induction us with
  | nil => simp [recent]
  | cons u us ih =>
    unfold recent
    rw [List.map_cons, List.nodup_cons]
    refine ⟨?_, ih.sublist (List.filter_sublist.map _)⟩
    intro h
    obtain ⟨x, hx, e⟩ := List.mem_map.1 h
    exact absurd e (by simpa using (List.mem_filter.1 hx).2)

/-- The least recently used goes first: what was last used later than something that is there is there too. -/
theorem lru_order {cost : V → Nat} {cap : Nat} {c : Lru K V} {us : List (K × V)} (r : LruRun cost cap c us) {k k' : K} {v v' : V}
    {i j : Nat} (hi : us[i]? = some (k', v')) (hi' : ∀ m < i, ∀ x, us[m]? = some x → x.1 ≠ k') (hj : us[j]? = some (k, v))
    (hj' : ∀ m < j, ∀ x, us[m]? = some x → x.1 ≠ k) (hij : i < j) (h : (c.get k).2 ≠ none) : (c.get k').2 = some v' := by
  obtain ⟨Z, I, -, -, hz⟩ := r.inv
  obtain ⟨A, B, C, e⟩ := recent_split hi hi' hj hj' hij
  obtain ⟨w, hw⟩ := Option.ne_none_iff_exists'.1 h
  rw [I.get_iff] at hw ⊢
  obtain ⟨t, ht⟩ := hz
  have hnd := recent_keys us
  rw [e] at ht hnd
  -- the key is not behind the part that is there
  have h1 : k ∉ t.map Prod.fst := by
    intro hm
    rw [← ht, List.map_append] at hnd
    exact (List.nodup_append.1 hnd).2.2 k (List.mem_map.2 ⟨_, hw, rfl⟩) k hm rfl
  rcases List.append_eq_append_iff.1 ht with ⟨a, h2, h3⟩ | ⟨a, h2, h3⟩
  · rw [h3] at h1
    simp at h1
  · rw [h2]; simp

theorem recent_before {us : List (K × V)} {k : K} {v : V} {j : Nat} (hj : us[j]? = some (k, v))
    (hj' : ∀ m < j, ∀ x, us[m]? = some x → x.1 ≠ k) :
    ∃ A B, recent us = A ++ (k, v) :: B ∧ (∀ x ∈ A, x ∈ us.take j) ∧ ∀ x ∈ A, x.1 ≠ k := by
  induction us generalizing j with
  | nil => simp at hj
  | cons u us ih =>
    cases j with
    | zero =>
      rw [List.getElem?_cons_zero, Option.some.injEq] at hj
      exact ⟨[], (recent us).filter (fun x => decide (x.1 ≠ u.1)), by rw [recent, hj]; rfl, by simp, by simp⟩
    | succ j =>
      have hu := hj' 0 (by omega) u (by simp)
      rw [List.getElem?_cons_succ] at hj
      obtain ⟨A, B, e, h1, h2⟩ := ih hj fun m hm x hx => hj' (m + 1) (by omega) x (by simpa using hx)
      refine ⟨u :: A.filter (fun x => decide (x.1 ≠ u.1)), B.filter (fun x => decide (x.1 ≠ u.1)), ?_, ?_, ?_⟩
      · unfold recent
        rw [e, List.filter_append, List.filter_cons_of_pos (by simpa using fun e => hu e.symm)]
        rfl
      · intro x hx
        rw [List.take_succ_cons]
        rcases List.mem_cons.1 hx with rfl | hx
        · exact List.mem_cons_self
        · exact List.mem_cons_of_mem _ (h1 x (List.mem_of_mem_filter hx))
      · intro x hx
        rcases List.mem_cons.1 hx with rfl | hx
        · exact hu
        · exact h2 x (List.mem_of_mem_filter hx)

theorem sum_sub {α : Type} (f : α → Nat) (X S : List α) (hn : X.Nodup) (h : ∀ x ∈ X, x ∈ S) : (X.map f).sum ≤ (S.map f).sum := by
  induction X generalizing S with
  | nil => simp
  | cons x X ih =>
    obtain ⟨h1, h2⟩ := List.nodup_cons.1 hn
    obtain ⟨a, b, rfl⟩ := List.append_of_mem (h x (by simp))
    have := ih (a ++ b) h2 (by
      intro y hy
      have := h y (List.mem_cons_of_mem _ hy)
      rcases List.mem_append.1 this with h | h
      · exact List.mem_append_left _ h
      · rcases List.mem_cons.1 h with rfl | h
        · exact absurd hy h1
        · exact List.mem_append_right _ h)
    rw [List.map_append, List.sum_append] at this ⊢
    rw [List.map_cons, List.sum_cons, List.map_cons, List.sum_cons]
    omega

theorem prefix_map {α β : Type} (f : α → β) {Z : List α} {X : List β} (h : X <+: Z.map f) : ∃ Y, Y <+: Z ∧ Y.map f = X := by
  refine ⟨Z.take X.length, List.take_prefix _ _, ?_⟩
  rw [List.map_take]
  exact (List.prefix_iff_eq_take.1 h).symm

/-- What was used stays, as long as it fits with all that was used since. -/
theorem lru_stays {cost : V → Nat} {cap : Nat} {c : Lru K V} {us : List (K × V)} (r : LruRun cost cap c us) {k : K} {v : V} {j : Nat}
    (hj : us[j]? = some (k, v)) (hj' : ∀ m < j, ∀ x, us[m]? = some x → x.1 ≠ k) (S : List (K × V)) (hS : ∀ x ∈ us.take (j + 1), x ∈ S)
    (hf : (S.map fun x => cost x.2).sum ≤ cap) : (c.get k).2 = some v := by
  induction r generalizing j with
  | new => simp at hj
  | @put c c' us k' v' r hp ih =>
    split_ifs at hj hj' hS with h
    · obtain ⟨Z, I, hc, -, hz⟩ := r.inv
      obtain ⟨c2, Z2, p, e, hc2, I2, hs2, -, hx⟩ := I.put k' v' (by omega)
      rw [e, Option.some.injEq] at hp
      subst hp
      rw [I2.get_iff]
      cases j with
      | zero =>
        rw [List.getElem?_cons_zero, Option.some.injEq] at hj
        have := hx [(p, k', v')] (List.cons_prefix_cons.2 ⟨rfl, List.nil_prefix⟩) (by simp; omega)
        exact List.mem_map.2 ⟨_, this.subset (List.mem_singleton.2 rfl), hj⟩
      | succ j =>
        have hu : k' ≠ k := hj' 0 (by omega) _ rfl
        rw [List.getElem?_cons_succ] at hj
        rw [List.take_succ_cons] at hS
        have hj2 : ∀ m < j, ∀ x, us[m]? = some x → x.1 ≠ k := fun m hm x hx => hj' (m + 1) (by omega) x (by simpa using hx)
        have hin := ih hj hj2 (fun x hx => hS x (List.mem_cons_of_mem _ hx))
        rw [I.get_iff] at hin
        obtain ⟨A, B, e1, h1, h2⟩ := recent_before hj hj2
        have hpre : A ++ [(k, v)] <+: Z.map Prod.snd := by
          have h3 : A ++ [(k, v)] <+: recent us := ⟨B, by rw [e1]; simp⟩
          rcases List.prefix_or_prefix_of_prefix h3 hz with h4 | h4
          · exact h4
          · rcases List.prefix_concat_iff.1 h4 with h5 | h5
            · rw [h5]
              exact List.prefix_refl _
            · exact absurd rfl (h2 _ (h5.subset hin))
        obtain ⟨Y, hY, hYe⟩ := prefix_map Prod.snd hpre
        have hX := hx ((p, k', v') :: Y.filter fun z => decide (z.2.1 ≠ k'))
          (List.cons_prefix_cons.2 ⟨rfl, filter_prefix _ hY⟩) (by
            have hn : ((k', v') :: (A ++ [(k, v)]).filter fun x => decide (x.1 ≠ k')).Nodup := by
              rw [List.nodup_cons]
              refine ⟨?_, ?_⟩
              · intro hm
                exact absurd (rfl : k' = k') (by simpa using (List.mem_filter.1 hm).2)
              · refine List.Nodup.filter _ ?_
                have hk := (hpre.sublist.map Prod.fst).nodup (by rw [List.map_map]; exact I.keys)
                exact List.Nodup.of_map _ hk
            have := sum_sub (fun x : K × V => cost x.2) _ S hn (by
              intro x hx
              rcases List.mem_cons.1 hx with rfl | hx
              · exact hS _ List.mem_cons_self
              · refine hS _ (List.mem_cons_of_mem _ ?_)
                rcases List.mem_append.1 (List.mem_of_mem_filter hx) with hx | hx
                · exact (List.take_prefix_take_left (by omega)).subset (h1 x hx)
                · rw [List.mem_singleton] at hx
                  rw [hx]
                  refine List.mem_of_getElem? (i := j) ?_
                  rw [List.getElem?_take, if_pos (by omega)]
                  exact hj)
            rw [← hYe, ← map_filter_key, List.map_cons, List.map_map] at this
            rw [List.map_cons]
            exact Nat.le_trans this (by omega))
        have hm : (k, v) ∈ Y.map Prod.snd := by rw [hYe]; simp
        obtain ⟨z, hz1, hz2⟩ := List.mem_map.1 hm
        refine List.mem_map.2 ⟨z, hX.subset (List.mem_cons_of_mem _ (List.mem_filter.2 ⟨hz1, ?_⟩)), hz2⟩
        rw [hz2]
        simpa using fun e => hu e.symm
    · unfold Lru.put at hp
      have hc := r.inv.choose_spec.2.1
      rw [if_pos (by omega), Option.some.injEq] at hp
      subst hp
      exact ih hj hj' hS
  | @get c us k' r ih =>
    obtain ⟨Z, I, hc, -, hz⟩ := r.inv
    rcases I.get k' with ⟨h1, h2, -⟩ | ⟨p, v', -, h2, h3, h4, I2⟩
    · rw [h1] at hj hj' hS
      rw [h2]
      exact ih hj hj' hS
    · rw [h2] at hj hj' hS
      rw [I2.get_iff]
      cases j with
      | zero =>
        rw [List.getElem?_cons_zero, Option.some.injEq] at hj
        rw [List.map_cons]
        dsimp only
        rw [hj]
        exact List.mem_cons_self
      | succ j =>
        have hu : k' ≠ k := hj' 0 (by omega) _ rfl
        rw [List.getElem?_cons_succ] at hj
        rw [List.take_succ_cons] at hS
        have hj2 : ∀ m < j, ∀ x, us[m]? = some x → x.1 ≠ k := fun m hm x hx => hj' (m + 1) (by omega) x (by simpa using hx)
        have hin := ih hj hj2 (fun x hx => hS x (List.mem_cons_of_mem _ hx))
        rw [I.get_iff] at hin
        rw [List.map_cons, map_filter_key]
        exact List.mem_cons_of_mem _ (List.mem_filter.2 ⟨hin, by simpa using fun e => hu e.symm⟩)

/-- A value that is too costly does not replace the one that is there: the old one is still got. -/
theorem lru_stale : ∃ (c c' : Lru Nat Nat) (us : List (Nat × Nat)), LruRun id 10 c us ∧ c.put id 1 11 = some c' ∧ (c'.get 1).2 = some 4 := by
  have h1 : LruRun (K := Nat) (V := Nat) id 10 _ _ := .put (k := 1) (v := 4) .new rfl
  exact ⟨_, _, _, h1, rfl, by decide +kernel⟩

/-- There are such runs: a get keeps the first key, and the second one goes. -/
example : ∃ c : Lru Nat Nat, LruRun id 10 c [(3, 5), (1, 4), (2, 3), (1, 4)] ∧ (c.get 1).2 = some 4 ∧ (c.get 2).2 = none ∧
    (c.get 3).2 = some 5 := by
  have h1 : LruRun (K := Nat) (V := Nat) id 10 _ _ := .put (k := 1) (v := 4) .new rfl
  have h2 := LruRun.put (k := 2) (v := 3) h1 rfl
  have h3 := LruRun.get (k := 1) h2
  have h4 := LruRun.put (k := 3) (v := 5) h3 rfl
  exact ⟨_, h4, by decide +kernel, by decide +kernel, by decide +kernel⟩

end Verif.Caches
