import Mathlib.Data.List.Basic
import Mathlib.Data.List.Nodup
import Mathlib.Algebra.BigOperators.Group.List.Basic
import Mathlib.Tactic.SplitIfs

/-!
# A cache that throws out at random

Models `common/cache/costerrandom.go`.

Simplifications: costs are not negative and do not change while a value is in the cache; `int` does not overflow.
-/

namespace Verif.Caches

variable {K V : Type} [DecidableEq K]

/-- A `CosterRandom` (costerrandom.go:27-33); the map as a function. -/
structure Rand (K V : Type) where
  cap : Nat
  sum : Nat
  kv : K → Option V
  keys : List K

/-- `MakeCosterRandom` (costerrandom.go:36-45). -/
def Rand.new (cap : Nat) : Rand K V := ⟨cap, 0, fun _ => none, []⟩

def costOf (cost : V → Nat) : Option V → Nat
  | none => 0
  | some v => cost v

/-- The body of the loop of `Put` (costerrandom.go:71-84); `r`: the random number. None: a panic (division by zero). -/
def Rand.evict (cost : V → Nat) (c : Rand K V) (key : K) (r : Nat) : Option (Rand K V) :=
  match c.keys.getLast? with
  | none => none
  | some last =>
    if c.keys.length - 1 = 0 then none
    else
      let ei := r % (c.keys.length - 1)
      match c.keys[ei]? with
      | none => none
      | some k =>
        let ek := if k = key then last else k
        let ks := if k = key then c.keys else c.keys.set ei last
        some { c with
          keys := ks.dropLast
          sum := c.sum - costOf cost (c.kv ek)
          kv := fun x => if x = ek then none else c.kv x }

/-- The loop of `Put` (costerrandom.go:70-85). The first argument bounds the rounds: each makes the list of keys shorter, so
its length is enough. -/
def Rand.shrink (cost : V → Nat) : Nat → Rand K V → K → (Nat → Nat) → Option (Rand K V)
  | 0, c, _, _ => if c.cap < c.sum then none else some c
  | n + 1, c, key, r =>
    if c.cap < c.sum then
      match c.evict cost key (r n) with
      | none => none
      | some c' => Rand.shrink cost n c' key r
    else some c

/-- `Put` (costerrandom.go:58-86). -/
def Rand.put (cost : V → Nat) (c : Rand K V) (key : K) (v : V) (r : Nat → Nat) : Option (Rand K V) :=
  if c.cap < cost v then some c
  else
    let c1 : Rand K V := match c.kv key with
      | some o => { c with sum := c.sum - cost o }
      | none => { c with keys := c.keys ++ [key] }
    let c2 : Rand K V := { c1 with sum := c1.sum + cost v, kv := fun x => if x = key then some v else c1.kv x }
    Rand.shrink cost c2.keys.length c2 key r

/-- `Get` (costerrandom.go:88-91). -/
def Rand.get (c : Rand K V) (key : K) : Option V := c.kv key

/-- What the cache is: the keys are those of the map, once each, and the sum is that of the costs. -/
structure Rand.Inv (cost : V → Nat) (c : Rand K V) : Prop where
  nodup : c.keys.Nodup
  mem : ∀ k, k ∈ c.keys ↔ c.kv k ≠ none
  sum : c.sum = (c.keys.map fun k => costOf cost (c.kv k)).sum

theorem Rand.Inv.new (cost : V → Nat) (cap : Nat) : (Rand.new cap : Rand K V).Inv cost :=
  ⟨List.nodup_nil, by intro k; simp [Rand.new], by simp [Rand.new]⟩

theorem sum_perm {f : K → Nat} {l l' : List K} (h : l.Perm l') : (l.map f).sum = (l'.map f).sum := (h.map f).sum_eq

theorem set_last {l : List K} {last k : K} (hl : l.getLast? = some last) {i : Nat} (hi : i < l.length - 1)
    (hk : l[i]? = some k) : (k :: (l.set i last).dropLast).Perm l := by
  obtain ⟨t, rfl⟩ : ∃ t, l = t ++ [last] := by
    refine ⟨l.dropLast, ?_⟩
    have hne : l ≠ [] := by intro h; rw [h] at hl; simp at hl
    have := List.dropLast_append_getLast hne
    rw [List.getLast?_eq_getLast_of_ne_nil hne, Option.some.injEq] at hl
    rw [← hl]; exact this.symm
  rw [List.length_append, List.length_singleton, Nat.add_sub_cancel] at hi
  rw [List.getElem?_append_left hi] at hk
  rw [List.set_append_left _ _ hi, List.dropLast_concat]
  have h1 : (k :: t.set i last).Perm (last :: t) := by
    clear hl
    induction t generalizing i with
    | nil => simp at hi
    | cons a t ih =>
      cases i with
      | zero =>
        simp only [List.getElem?_cons_zero, Option.some.injEq] at hk
        subst hk
        simp only [List.set_cons_zero]
        exact List.Perm.swap _ _ _
      | succ i =>
        simp only [List.getElem?_cons_succ] at hk
        simp only [List.length_cons] at hi
        have := ih (by omega) hk
        simp only [List.set_cons_succ]
        exact (List.Perm.swap _ _ _).trans ((this.cons a).trans (List.Perm.swap _ _ _))
  exact h1.trans (List.perm_append_comm (l₁ := [last]) (l₂ := t))

/-- A round of the loop: another key goes. -/
theorem Rand.Inv.evict {cost : V → Nat} {c : Rand K V} (I : c.Inv cost) {key : K} (hm : key ∈ c.keys)
    (h2 : 2 ≤ c.keys.length) (r : Nat) : ∃ c' ek, c.evict cost key r = some c' ∧ c'.Inv cost ∧ ek ≠ key ∧
      c'.keys.length + 1 = c.keys.length ∧ c'.cap = c.cap ∧ (∀ x, c'.kv x = if x = ek then none else c.kv x) := by
  have hne : c.keys ≠ [] := by intro h; rw [h] at h2; simp at h2
  obtain ⟨last, hlast⟩ : ∃ last, c.keys.getLast? = some last := ⟨_, List.getLast?_eq_getLast_of_ne_nil hne⟩
  have hei : r % (c.keys.length - 1) < c.keys.length - 1 := Nat.mod_lt _ (by omega)
  generalize hg : r % (c.keys.length - 1) = ei at hei
  have hk : c.keys[ei]? = some (c.keys[ei]'(by omega)) := List.getElem?_eq_getElem (by omega)
  generalize hkk : c.keys[ei]'(by omega) = k at hk
  -- what is left, and what goes
  obtain ⟨ek, ks, hek, hks, hp, hneq, hlen⟩ : ∃ ek ks, (if k = key then last else k) = ek ∧
      (if k = key then c.keys else c.keys.set ei last).dropLast = ks ∧ (ek :: ks).Perm c.keys ∧ ek ≠ key ∧
      ks.length + 1 = c.keys.length := by
    refine ⟨_, _, rfl, rfl, ?_⟩
    by_cases hkey : k = key
    · rw [if_pos hkey, if_pos hkey]
      have he := List.dropLast_append_getLast hne
      rw [List.getLast?_eq_getLast_of_ne_nil hne, Option.some.injEq] at hlast
      rw [hlast] at he
      refine ⟨?_, ?_, ?_⟩
      · have h1 := List.perm_append_comm (l₁ := [last]) (l₂ := c.keys.dropLast)
        rw [he] at h1
        exact h1
      · intro hc
        have h1 : c.keys[c.keys.length - 1]? = some last := by
          rw [← hlast, ← List.getLast?_eq_getLast_of_ne_nil hne, List.getLast?_eq_getElem?]
        have := (List.nodup_iff_getElem?_ne_getElem?.1 I.nodup) ei (c.keys.length - 1) (by omega) (by omega)
        rw [hk, h1, hc, hkey] at this
        exact this rfl
      · rw [List.length_dropLast]; omega
    · rw [if_neg hkey, if_neg hkey]
      exact ⟨set_last hlast (by omega) hk, hkey, by rw [List.length_dropLast, List.length_set]; omega⟩
  refine ⟨{ c with keys := ks, sum := c.sum - costOf cost (c.kv ek), kv := fun x => if x = ek then none else c.kv x }, ek,
    ?_, ?_, hneq, hlen, ?_, ?_⟩
  · unfold Rand.evict
    rw [hlast]
    dsimp only
    rw [if_neg (by omega), hg, hk]
    dsimp only
    rw [hek, hks]
  · have hnd : (ek :: ks).Nodup := hp.nodup_iff.2 I.nodup
    refine ⟨(List.nodup_cons.1 hnd).2, ?_, ?_⟩
    · intro x
      dsimp only
      by_cases hx : x = ek
      · rw [if_pos hx, hx]
        have := (List.nodup_cons.1 hnd).1
        simp [this]
      · rw [if_neg hx, ← I.mem x, ← hp.mem_iff]
        simp [hx]
    · dsimp only
      rw [I.sum, ← sum_perm hp, List.map_cons, List.sum_cons, Nat.add_sub_cancel_left]
      congr 1
      apply List.map_congr_left
      intro x hx
      have : x ≠ ek := by
        rintro rfl
        exact (List.nodup_cons.1 hnd).1 hx
      rw [if_neg this]
  · rfl
  · intro x; rfl

theorem Rand.Inv.shrink {cost : V → Nat} (n : Nat) : ∀ {c : Rand K V}, c.Inv cost → ∀ {key : K} {v : V}, c.kv key = some v →
    cost v ≤ c.cap → c.keys.length ≤ n → ∀ r : Nat → Nat,
    ∃ c', c.shrink cost n key r = some c' ∧ c'.Inv cost ∧ c'.sum ≤ c'.cap ∧ c'.cap = c.cap ∧ c'.kv key = some v ∧
      ∀ x, c'.kv x = none ∨ c'.kv x = c.kv x := by
  induction n with
  | zero =>
    intro c I key v hv _ hl
    have := (I.mem key).2 (by rw [hv]; simp)
    rw [List.length_eq_zero_iff.1 (by omega : c.keys.length = 0)] at this
    simp at this
  | succ n ih =>
    intro c I key v hv hc hl r
    unfold Rand.shrink
    by_cases h : c.cap < c.sum
    · rw [if_pos h]
      have hm := (I.mem key).2 (by rw [hv]; simp)
      have h2 : 2 ≤ c.keys.length := by
        by_contra hcon
        have h1 : c.keys = [key] := by
          match hk : c.keys, hm with
          | [], h => simp at h
          | [a], h => simp at h; rw [h]
          | a :: b :: t, _ => rw [hk] at hcon; simp at hcon
        have := I.sum
        rw [h1] at this
        simp only [List.map_cons, List.map_nil, List.sum_cons, List.sum_nil, hv, costOf] at this
        omega
      obtain ⟨c1, ek, e1, I1, hne, hlen, hcap, hkv⟩ := I.evict hm h2 (r n)
      rw [e1]
      dsimp only
      obtain ⟨c2, e2, I2, hs, hcap2, hv2, hx⟩ := ih I1 (key := key) (v := v) (by rw [hkv, if_neg hne.symm, hv])
        (by rw [hcap]; exact hc) (by omega) r
      refine ⟨c2, e2, I2, hs, hcap2.trans hcap, hv2, ?_⟩
      intro x
      rcases hx x with h | h
      · exact .inl h
      · rw [hkv x] at h
        by_cases hxe : x = ek
        · rw [if_pos hxe] at h; exact .inl h
        · rw [if_neg hxe] at h; exact .inr h
    · rw [if_neg h]
      exact ⟨c, rfl, I, by omega, rfl, hv, fun x => .inr rfl⟩

/-- `Put` never panics; what is put is there, unless it costs more than the cap; the rest stays as it was or goes; the cap is
kept. -/
theorem Rand.Inv.put {cost : V → Nat} {c : Rand K V} (I : c.Inv cost) (hs : c.sum ≤ c.cap) (key : K) (v : V) (r : Nat → Nat) :
    ∃ c', c.put cost key v r = some c' ∧ c'.Inv cost ∧ c'.sum ≤ c'.cap ∧ c'.cap = c.cap ∧
      (cost v ≤ c.cap → c'.get key = some v) ∧ (c.cap < cost v → c' = c) ∧
      ∀ x, x ≠ key → c'.get x = none ∨ c'.get x = c.get x := by
  unfold Rand.put
  by_cases hc : c.cap < cost v
  · rw [if_pos hc]
    exact ⟨c, rfl, I, hs, rfl, fun h => by omega, fun _ => rfl, fun x _ => .inr rfl⟩
  · rw [if_neg hc]
    cases ho : c.kv key with
    | some o =>
      dsimp only
      have hm := (I.mem key).2 (by rw [ho]; simp)
      let c2 : Rand K V := { c with
        sum := c.sum - cost o + cost v
        kv := fun x => if x = key then some v else c.kv x }
      have I2 : c2.Inv cost := by
        refine ⟨I.nodup, ?_, ?_⟩
        · intro x
          show x ∈ c.keys ↔ (if x = key then some v else c.kv x) ≠ none
          by_cases hx : x = key
          · rw [if_pos hx, hx]; simp [hm]
          · rw [if_neg hx]; exact I.mem x
        · show c.sum - cost o + cost v = (c.keys.map fun k => costOf cost (if k = key then some v else c.kv k)).sum
          obtain ⟨s, t, hst⟩ := List.append_of_mem hm
          have hnd := I.nodup
          have hsum := I.sum
          rw [hst] at hnd hsum ⊢
          have hp : (s ++ key :: t).Perm (key :: (s ++ t)) := List.perm_middle
          have hnd' := hp.nodup_iff.1 hnd
          rw [sum_perm hp, List.map_cons, List.sum_cons, ho] at hsum
          rw [sum_perm hp, List.map_cons, List.sum_cons, if_pos rfl]
          have : (s ++ t).map (fun k => costOf cost (if k = key then some v else c.kv k)) =
              (s ++ t).map fun k => costOf cost (c.kv k) := by
            apply List.map_congr_left
            intro x hx
            rw [if_neg]
            rintro rfl
            exact (List.nodup_cons.1 hnd').1 hx
          rw [this]
          simp only [costOf] at hsum ⊢
          omega
      obtain ⟨c', e, I', hs', hcap, hv, hx⟩ := I2.shrink c2.keys.length (key := key) (v := v) (by show (if key = key then _ else _) = _; rw [if_pos rfl])
        (by show cost v ≤ c.cap; omega) (Nat.le_refl _) r
      refine ⟨c', e, I', hs', hcap, fun _ => hv, fun h => absurd h hc, ?_⟩
      intro x hxk
      rcases hx x with h | h
      · exact .inl h
      · right
        show c'.kv x = c.kv x
        rw [h]
        show (if x = key then _ else _) = _
        rw [if_neg hxk]
    | none =>
      dsimp only
      have hm : key ∉ c.keys := fun h => (I.mem key).1 h ho
      let c2 : Rand K V := { c with
        keys := c.keys ++ [key]
        sum := c.sum + cost v
        kv := fun x => if x = key then some v else c.kv x }
      have I2 : c2.Inv cost := by
        refine ⟨?_, ?_, ?_⟩
        · show (c.keys ++ [key]).Nodup
          rw [List.nodup_append]
          refine ⟨I.nodup, by simp, ?_⟩
          intro a ha b hb
          rw [List.mem_singleton] at hb
          rintro rfl
          exact hm (hb ▸ ha)
        · intro x
          show x ∈ c.keys ++ [key] ↔ (if x = key then some v else c.kv x) ≠ none
          by_cases hx : x = key
          · rw [if_pos hx, hx]; simp
          · rw [if_neg hx, ← I.mem x]; simp [hx]
        · show c.sum + cost v = ((c.keys ++ [key]).map fun k => costOf cost (if k = key then some v else c.kv k)).sum
          rw [List.map_append, List.sum_append]
          have : c.keys.map (fun k => costOf cost (if k = key then some v else c.kv k)) =
              c.keys.map fun k => costOf cost (c.kv k) := by
            apply List.map_congr_left
            intro x hx
            rw [if_neg]
            rintro rfl
            exact hm hx
          rw [this, ← I.sum]
          simp [costOf]
      obtain ⟨c', e, I', hs', hcap, hv, hx⟩ := I2.shrink c2.keys.length (key := key) (v := v) (by show (if key = key then _ else _) = _; rw [if_pos rfl])
        (by show cost v ≤ c.cap; omega) (Nat.le_refl _) r
      refine ⟨c', e, I', hs', hcap, fun _ => hv, fun h => absurd h hc, ?_⟩
      intro x hxk
      rcases hx x with h | h
      · exact .inl h
      · right
        show c'.kv x = c.kv x
        rw [h]
        show (if x = key then _ else _) = _
        rw [if_neg hxk]

end Verif.Caches
