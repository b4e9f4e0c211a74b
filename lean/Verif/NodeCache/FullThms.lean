import Verif.NodeCache.Full
import Verif.NodeCache.Thms

/-! # The full cache never fails after a migration, and what it gives was put -/

namespace Verif.NodeCache

/-- What a full cache holds. -/
structure FInv (c : Full) (ps : List (Option (List Nat) × List Nat × List Nat)) : Prop where
  len : sizeByDepth 5 ≤ c.nodes.length
  place : ∀ ns : List Nat, (∀ n ∈ ns, n < 16) → ns.length < 5 →
    c.nodes[index ns]? = some ((ps.find? fun p => decide (p.1 = some ns)).map Prod.snd)
  deep : ∀ e ∈ c.lru, ∃ p ∈ ps, p.2 = e
  few : c.lru.length ≤ 80000
  nodup : (c.lru.map Prod.fst).Nodup

theorem touch_len {l : List (List Nat × List Nat)} {h : List Nat} {e : List Nat × List Nat}
    (hf : (l.find? fun e => decide (e.1 = h)) = some e) : ((l.filter fun x => decide (x.1 ≠ h)) ++ [e]).length ≤ l.length := by
  have h1 := List.mem_of_find?_eq_some hf
  have h2 := List.find?_some hf
  rw [List.length_append, List.length_singleton]
  have : (l.filter fun x => decide (x.1 ≠ h)).length < l.length :=
    List.length_filter_lt_length_iff_exists.mpr ⟨e, h1, by simpa using h2⟩
  omega

theorem touch_nodup {l : List (List Nat × List Nat)} {h : List Nat} {e : List Nat × List Nat} (hn : (l.map Prod.fst).Nodup)
    (hf : (l.find? fun e => decide (e.1 = h)) = some e) :
    (((l.filter fun x => decide (x.1 ≠ h)) ++ [e]).map Prod.fst).Nodup := by
  have h2 : e.1 = h := by simpa using List.find?_some hf
  rw [List.map_append, List.nodup_append]
  refine ⟨hn.sublist (List.filter_sublist.map _), by simp, ?_⟩
  intro a ha b hb
  rw [List.mem_map] at ha
  obtain ⟨x, hx, rfl⟩ := ha
  have := (List.mem_filter.mp hx).2
  simp only [List.map_cons, List.map_nil, List.mem_singleton] at hb
  rw [hb, h2]
  simpa using this

theorem FInv.touch {c : Full} {ps : List (Option (List Nat) × List Nat × List Nat)} {h : List Nat} {e : List Nat × List Nat}
    (I : FInv c ps) (hf : (c.lru.find? fun e => decide (e.1 = h)) = some e) :
    FInv { c with lru := (c.lru.filter fun x => decide (x.1 ≠ h)) ++ [e] } ps := by
  refine ⟨I.len, I.place, ?_, Nat.le_trans (touch_len hf) I.few, touch_nodup I.nodup hf⟩
  intro x hx
  rw [List.mem_append, List.mem_singleton] at hx
  rcases hx with hx | rfl
  · exact I.deep x (List.mem_filter.mp hx).1
  · exact I.deep _ (List.mem_of_find?_eq_some hf)

theorem FRun.inv {c : Full} {ps : List (Option (List Nat) × List Nat × List Nat)} (r : FRun c ps) : FInv c ps := by
  induction r with
  | new =>
    refine ⟨by simp [Full.new], ?_, by simp [Full.new], by simp [Full.new], by simp [Full.new]⟩
    intro ns h1 h2
    rw [← index_level h1] at h2
    unfold Full.new
    rw [List.getElem?_replicate, if_pos h2]
    rfl
  | @migrate depth fdepth bc ps r hd =>
    have I := r.inv
    have hnodes : ∀ i, i < sizeByDepth 5 → (Full.ofBranch bc).nodes[i]? = some (if i < bc.offset then bc.nodes i else none) := by
      intro i hi
      unfold Full.ofBranch
      by_cases h5 : bc.depth = 5
      · have := I.deep
        have h6 : depth = 5 := by omega
        have h7 := I.offset
        rw [h6] at h7
        rw [if_pos h5, List.getElem?_map, List.getElem?_range (by omega), if_pos (by omega)]
        rfl
      · rw [if_neg h5, List.getElem?_map, List.getElem?_range hi]
        rfl
    have hlru : (Full.ofBranch bc).lru = [] := by unfold Full.ofBranch; split_ifs <;> rfl
    refine ⟨?_, ?_, by simp [hlru], by simp [hlru], by simp [hlru]⟩
    · by_contra hc
      have := hnodes (Full.ofBranch bc).nodes.length (by omega)
      rw [List.getElem?_eq_none (Nat.le_refl _)] at this
      cases this
    · intro ns h1 h2
      rw [hnodes _ ((index_level h1 5).mpr h2), List.find?_filter]
      have hidx := index_level h1 depth
      rw [← I.offset] at hidx
      by_cases hi : index ns < bc.offset
      · have hlen := hidx.mp hi
        have hp := I.place ns h1 (by have := I.deep; omega)
        rw [if_pos hi] at hp
        rw [if_pos hi, hp]
        unfold lastAt
        congr 2
        congr 1
        funext p
        by_cases h3 : p.1 = some ns
        · have : ∀ ns', p.1 = some ns' → ns'.length < depth := by
            intro ns' h4
            rw [h3, Option.some.injEq] at h4
            rw [← h4]; exact hlen
          simp [h3, hlen]
        · simp [h3]
      · rw [if_neg hi]
        rw [List.find?_eq_none.mpr]
        · rfl
        · intro p _ h3
          simp only [Bool.and_eq_true, decide_eq_true_eq] at h3
          exact hi (hidx.mpr (h3.1.2 ns h3.2))
  | @get c c' ps nibs h r _ hg I =>
    unfold Full.get at hg
    cases nibs with
    | none => dsimp only at hg; rw [Option.some.injEq, Prod.mk.injEq] at hg; rw [← hg.1]; exact I
    | some ns =>
      dsimp only at hg
      by_cases hi : index ns < sizeByDepth 5
      · rw [if_pos hi] at hg
        have : c = c' := by
          revert hg
          split
          · intro h; cases h
          · intro h; rw [Option.some.injEq, Prod.mk.injEq] at h; exact h.1
          · split_ifs <;> (intro h; rw [Option.some.injEq, Prod.mk.injEq] at h; exact h.1)
        rw [← this]; exact I
      · rw [if_neg hi, Option.some.injEq, Prod.mk.injEq] at hg
        rw [← hg.1]
        unfold Full.getNode
        split
        · exact I.touch (by assumption)
        · exact I
  | @put c c' ps nibs h v _ hn hp I =>
    unfold Full.put at hp
    have hmono : ∀ e, (∃ p ∈ ps, p.2 = e) → ∃ p ∈ (nibs, h, v) :: ps, p.2 = e :=
      fun e ⟨p, h1, h2⟩ => ⟨p, List.mem_cons_of_mem _ h1, h2⟩
    have hplace : ∀ ns : List Nat, nibs ≠ some ns → ((nibs, h, v) :: ps).find? (fun p => decide (p.1 = some ns)) =
        ps.find? fun p => decide (p.1 = some ns) := by
      intro ns hne
      rw [List.find?_cons]
      simp [hne]
    cases nibs with
    | none =>
      dsimp only at hp
      rw [Option.some.injEq] at hp
      rw [← hp]
      refine ⟨I.len, ?_, fun e he => hmono e (I.deep e he), I.few, I.nodup⟩
      intro ns h1 h2
      rw [hplace ns (by simp)]
      exact I.place ns h1 h2
    | some nb =>
      dsimp only at hp
      by_cases hi : index nb < sizeByDepth 5
      · have hl := I.len
        rw [if_pos hi, if_pos (by omega), Option.some.injEq] at hp
        rw [← hp]
        refine ⟨by rw [List.length_set]; exact I.len, ?_, fun e he => hmono e (I.deep e he), I.few, I.nodup⟩
        intro ns h1 h2
        dsimp only
        by_cases he : nb = ns
        · subst he
          rw [List.getElem?_set_self (by omega), List.find?_cons]
          simp
        · rw [List.getElem?_set_ne (fun e => he (index_inj (hn nb rfl) h1 e)), hplace ns (by simpa using he)]
          exact I.place ns h1 h2
      · rw [if_neg hi, Option.some.injEq] at hp
        rw [← hp]
        have hpl : ∀ ns : List Nat, (∀ n ∈ ns, n < 16) → ns.length < 5 →
            c.nodes[index ns]? = some ((((some nb, h, v) :: ps).find? fun p => decide (p.1 = some ns)).map Prod.snd) := by
          intro ns h1 h2
          rw [hplace ns]
          · exact I.place ns h1 h2
          · intro e
            rw [Option.some.injEq] at e
            rw [e] at hi
            exact hi ((index_level h1 5).mpr h2)
        unfold Full.putNode
        split
        · have T := I.touch (by assumption)
          exact ⟨T.len, hpl, fun e he => hmono e (T.deep e he), T.few, T.nodup⟩
        · rename_i hf
          rw [List.find?_eq_none] at hf
          have hsub : (if 80000 ≤ c.lru.length then c.lru.tail else c.lru).Sublist c.lru := by
            split_ifs
            · exact List.tail_sublist _
            · exact List.Sublist.refl _
          refine ⟨I.len, hpl, ?_, ?_, ?_⟩
          · intro e he
            rw [List.mem_append, List.mem_singleton] at he
            rcases he with he | rfl
            · exact hmono e (I.deep e (hsub.subset he))
            · exact ⟨_, List.mem_cons_self, rfl⟩
          · have := I.few
            dsimp only
            split_ifs
            · rw [List.length_append, List.length_tail, List.length_singleton]; omega
            · rw [List.length_append, List.length_singleton]; omega
          · dsimp only
            rw [List.map_append, List.nodup_append]
            refine ⟨I.nodup.sublist (hsub.map _), by simp, ?_⟩
            intro a ha b hb
            rw [List.mem_map] at ha
            obtain ⟨x, hx, rfl⟩ := ha
            simp only [List.map_cons, List.map_nil, List.mem_singleton] at hb
            rw [hb]
            simpa using hf x (hsub.subset hx)

/-- No operation fails. -/
theorem full_safe {c : Full} {ps : List (Option (List Nat) × List Nat × List Nat)} (r : FRun c ps) (nibs : Option (List Nat))
    (h v : List Nat) : c.get nibs h ≠ none ∧ c.put nibs h v ≠ none := by
  have I := r.inv
  have hl := I.len
  cases nibs with
  | none => exact ⟨by simp [Full.get], by simp [Full.put]⟩
  | some ns =>
    unfold Full.get Full.put
    dsimp only
    by_cases hi : index ns < sizeByDepth 5
    · rw [if_pos hi, if_pos hi, if_pos (by omega)]
      refine ⟨?_, by simp⟩
      rw [List.getElem?_eq_getElem (by omega)]
      split
      · rename_i h; cases h
      · simp
      · split_ifs <;> simp
    · rw [if_neg hi, if_neg hi]
      exact ⟨by simp, by simp⟩

/-- With five levels some of which are in the file, the cache that comes out of the migration fails at the levels that were in the
file. -/
theorem full_panic {depth fdepth : Nat} {bc : Cache} {ps : List (Option (List Nat) × List Nat × List Nat)} (r : Run depth fdepth bc ps)
    (h5 : depth + fdepth = 5) {ns : List Nat} (hn : ∀ n ∈ ns, n < 16) (hd : depth ≤ ns.length) (hd5 : ns.length < 5) (h v : List Nat) :
    (Full.ofBranch bc).get (some ns) h = none ∧ (Full.ofBranch bc).put (some ns) h v = none := by
  have I := r.inv
  have h1 := I.deep
  have h2 := I.offset
  have h3 := index_level hn depth
  have h4 := (index_level hn 5).mpr hd5
  unfold Full.get Full.put Full.ofBranch
  dsimp only
  rw [if_pos h4, if_pos h4, if_pos (by omega)]
  dsimp only
  rw [List.getElem?_eq_none (by rw [List.length_map, List.length_range]; omega), if_neg]
  · exact ⟨rfl, rfl⟩
  · rw [List.length_map, List.length_range]; omega

/-- In the first five levels, what is got is exactly what was put last, if its hash is the same. -/
theorem full_shallow {c : Full} {ps : List (Option (List Nat) × List Nat × List Nat)} (r : FRun c ps) {ns : List Nat}
    (hn : ∀ n ∈ ns, n < 16) (hd : ns.length < 5) (h s : List Nat) :
    (∃ c', c.get (some ns) h = some (c', some s, true)) ↔
      (ps.find? fun p => decide (p.1 = some ns)) = some (some ns, h, s) := by
  have hp := r.inv.place ns hn hd
  unfold Full.get
  dsimp only
  rw [if_pos ((index_level hn 5).mpr hd), hp]
  cases hf : ps.find? fun p => decide (p.1 = some ns) with
  | none => simp
  | some p =>
    obtain ⟨a, b, d⟩ := p
    have h1 : a = some ns := by simpa using List.find?_some hf
    subst h1
    dsimp only [Option.map_some]
    by_cases e : b = h
    · simp [e]
    · simp [e]

/-- Deeper, what is got was put for this hash. -/
theorem full_deep {c c' : Full} {ps : List (Option (List Nat) × List Nat × List Nat)} (r : FRun c ps) {ns : List Nat}
    (hn : ∀ n ∈ ns, n < 16) (hd : 5 ≤ ns.length) {h s : List Nat} {b : Bool} (hg : c.get (some ns) h = some (c', some s, b)) :
    ∃ p ∈ ps, p.2 = (h, s) := by
  have I := r.inv
  have h5 := index_level hn 5
  unfold Full.get at hg
  dsimp only at hg
  rw [if_neg (by omega), Option.some.injEq, Prod.mk.injEq, Prod.mk.injEq] at hg
  have h1 := hg.2.1
  unfold Full.getNode at h1
  cases hf : c.lru.find? fun e => decide (e.1 = h) with
  | none => rw [hf] at h1; cases h1
  | some e =>
    rw [hf] at h1
    have h2 : e.1 = h := by simpa using List.find?_some hf
    obtain ⟨p, h3, h4⟩ := I.deep e (List.mem_of_find?_eq_some hf)
    refine ⟨p, h3, ?_⟩
    rw [h4, ← h2, ← Option.some.inj h1]

/-- At most 80000 nodes are kept besides the first levels, each once. -/
theorem full_few {c : Full} {ps : List (Option (List Nat) × List Nat × List Nat)} (r : FRun c ps) :
    c.lru.length ≤ 80000 ∧ (c.lru.map Prod.fst).Nodup := ⟨r.inv.few, r.inv.nodup⟩

/-- A step: a get or a put. -/
inductive FStep : Full → Full → Prop
  | get {c c' : Full} {nibs : Option (List Nat)} {h : List Nat} {r : Option (List Nat) × Bool} : c.get nibs h = some (c', r) → FStep c c'
  | put {c c' : Full} {nibs : Option (List Nat)} {h v : List Nat} : c.put nibs h v = some c' → FStep c c'

/-- A number of steps. -/
inductive FSteps : Nat → Full → Full → Prop
  | zero {c : Full} : FSteps 0 c c
  | step {n : Nat} {a b c : Full} : FSteps n a b → FStep b c → FSteps (n + 1) a c

/-- At most `k` nodes were used after that of the hash. -/
def Within (c : Full) (h : List Nat) (k : Nat) : Prop := ∃ a v b, c.lru = a ++ (h, v) :: b ∧ b.length ≤ k

theorem within_touch {c : Full} {h x : List Nat} {k : Nat} {e : List Nat × List Nat} (w : Within c h k)
    (hf : (c.lru.find? fun e => decide (e.1 = x)) = some e) :
    Within { c with lru := (c.lru.filter fun y => decide (y.1 ≠ x)) ++ [e] } h (k + 1) := by
  obtain ⟨a, v, b, h1, h2⟩ := w
  have he : e.1 = x := by simpa using List.find?_some hf
  by_cases hx : x = h
  · refine ⟨c.lru.filter fun y => decide (y.1 ≠ x), e.2, [], ?_, Nat.zero_le _⟩
    dsimp only
    rw [← hx, ← he]
  · refine ⟨a.filter fun y => decide (y.1 ≠ x), v, (b.filter fun y => decide (y.1 ≠ x)) ++ [e], ?_, ?_⟩
    · dsimp only
      rw [h1, List.filter_append, List.filter_cons_of_pos (by simpa using Ne.symm hx), List.append_assoc, List.cons_append]
    · have := List.length_filter_le (fun y : List Nat × List Nat => decide (y.1 ≠ x)) b
      rw [List.length_append, List.length_singleton]; omega

theorem within_mono {c : Full} {h : List Nat} {k : Nat} (w : Within c h k) : Within c h (k + 1) := by
  obtain ⟨a, v, b, h1, h2⟩ := w
  exact ⟨a, v, b, h1, by omega⟩

theorem within_step {c c' : Full} {h : List Nat} {k : Nat} (w : Within c h k) (hk : k + 1 < 80000) (s : FStep c c') :
    Within c' h (k + 1) := by
  cases s with
  | @get nibs x r hg =>
    unfold Full.get at hg
    cases nibs with
    | none => dsimp only at hg; rw [Option.some.injEq, Prod.mk.injEq] at hg; rw [← hg.1]; exact within_mono w
    | some ns =>
      dsimp only at hg
      by_cases hi : index ns < sizeByDepth 5
      · rw [if_pos hi] at hg
        have : c = c' := by
          revert hg
          split
          · intro h; cases h
          · intro h; rw [Option.some.injEq, Prod.mk.injEq] at h; exact h.1
          · split_ifs <;> (intro h; rw [Option.some.injEq, Prod.mk.injEq] at h; exact h.1)
        rw [← this]; exact within_mono w
      · rw [if_neg hi, Option.some.injEq, Prod.mk.injEq] at hg
        rw [← hg.1]
        unfold Full.getNode
        split
        · exact within_touch w (by assumption)
        · exact within_mono w
  | @put nibs x v hp =>
    unfold Full.put at hp
    cases nibs with
    | none => dsimp only at hp; rw [Option.some.injEq] at hp; rw [← hp]; exact within_mono w
    | some ns =>
      dsimp only at hp
      by_cases hi : index ns < sizeByDepth 5
      · rw [if_pos hi] at hp
        by_cases hl : index ns < c.nodes.length
        · rw [if_pos hl, Option.some.injEq] at hp
          rw [← hp]
          exact within_mono w
        · rw [if_neg hl] at hp; cases hp
      · rw [if_neg hi, Option.some.injEq] at hp
        rw [← hp]
        unfold Full.putNode
        split
        · exact within_touch w (by assumption)
        · obtain ⟨a, v', b, h1, h2⟩ := w
          by_cases hlen : 80000 ≤ c.lru.length
          · cases a with
            | nil => rw [h1] at hlen; simp only [List.nil_append, List.length_cons] at hlen; omega
            | cons y a =>
              refine ⟨a, v', b ++ [(x, v)], ?_, by rw [List.length_append, List.length_singleton]; omega⟩
              dsimp only
              rw [if_pos hlen, h1, List.cons_append, List.tail_cons, List.append_assoc, List.cons_append]
          · refine ⟨a, v', b ++ [(x, v)], ?_, by rw [List.length_append, List.length_singleton]; omega⟩
            dsimp only
            rw [if_neg hlen, h1, List.append_assoc, List.cons_append]

/-- A deep node that was put is there for the next 79999 operations at least. -/
theorem full_recent {c c1 c2 : Full} {ns h v : List Nat} (hn : ∀ n ∈ ns, n < 16) (hd : 5 ≤ ns.length)
    (hp : c.put (some ns) h v = some c1) {n : Nat} (hs : FSteps n c1 c2) (hlt : n < 80000) :
    ∃ c3 s, c2.get (some ns) h = some (c3, some s, true) := by
  have h5 := index_level hn 5
  have w0 : Within c1 h 0 := by
    unfold Full.put at hp
    dsimp only at hp
    rw [if_neg (by omega), Option.some.injEq] at hp
    rw [← hp]
    unfold Full.putNode
    split
    · rename_i e hf
      have he : e.1 = h := by simpa using List.find?_some hf
      refine ⟨c.lru.filter fun y => decide (y.1 ≠ h), e.2, [], ?_, Nat.le_refl _⟩
      dsimp only
      rw [← he]
    · exact ⟨_, v, [], rfl, Nat.le_refl _⟩
  have w : Within c2 h n := by
    clear hp
    induction hs with
    | zero => exact w0
    | step _ st ih => exact within_step (ih (by omega) w0) hlt st
  obtain ⟨a, v', b, h1, -⟩ := w
  unfold Full.get
  dsimp only
  rw [if_neg (by omega)]
  unfold Full.getNode
  cases hf : c2.lru.find? fun e => decide (e.1 = h) with
  | none =>
    rw [List.find?_eq_none] at hf
    have := hf (h, v') (by rw [h1]; simp)
    simp at this
  | some e => exact ⟨_, _, rfl⟩

/-- Such runs: the root is there after a migration, and a deep node that was put after it. -/
example : ∃ bc c, Run 5 1 bc [(some [], List.replicate 32 1, [2])] ∧ (Full.ofBranch bc).put (some [1, 2, 3, 4, 5]) [7] [8] = some c ∧
    FRun c [(some [1, 2, 3, 4, 5], [7], [8]), (some [], List.replicate 32 1, [2])] ∧
    (∃ c', c.get (some []) (List.replicate 32 1) = some (c', some [2], true)) ∧
    ∃ c', c.get (some [5, 4, 3, 2, 1]) [7] = some (c', some [8], true) := by
  have h1 := Run.put (nibs := some []) (h := List.replicate 32 1) (s := [2]) (Run.new (depth := 5) (fdepth := 1)) (by simp) (by decide)
  have m := FRun.migrate h1 (by decide)
  obtain ⟨c, hc⟩ := Option.ne_none_iff_exists'.mp (full_safe m (some [1, 2, 3, 4, 5]) [7] [8]).2
  have p := FRun.put m (by simp) hc
  refine ⟨_, c, h1, hc, by simpa using p, (full_shallow p (by simp) (by simp) _ _).mpr (by simp), ?_⟩
  have hl : c.lru = [([7], [8])] := by
    unfold Full.put at hc
    have hx : ¬ index [1, 2, 3, 4, 5] < sizeByDepth 5 := by decide
    dsimp only at hc
    rw [if_neg hx, Option.some.injEq] at hc
    rw [← hc]
    rfl
  unfold Full.get
  have hx : ¬ index [5, 4, 3, 2, 1] < sizeByDepth 5 := by decide
  dsimp only
  rw [if_neg hx]
  unfold Full.getNode
  rw [hl]
  exact ⟨_, rfl⟩

/-- The failure: three levels in memory and two in the file. -/
example : (Full.ofBranch (Cache.new 3 2)).get (some [1, 2, 3]) [7] = none :=
  (full_panic (.new (depth := 3) (fdepth := 2)) rfl (by simp) (by decide) (by decide) [7] []).1

end Verif.NodeCache
