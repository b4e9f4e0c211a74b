import Verif.Havah.Validators.PropsVotes
import Mathlib.Data.List.Rotate

/-! # C34: the active validator set -/
namespace Verif.Havah.Val
open Verif.Havah Spec

/-! ### The round-robin scan -/

/-- The node an owner contributes to the scan, if it is eligible. -/
def pick (s : St) (hasKey isActive : Addr → Bool) (o : Addr) : Option Addr :=
  match s.info o, s.status o with
  | some vi, some st =>
    if isActive vi.node = false ∧ st.enabled = true ∧ hasKey vi.node = true then some vi.node
    else none
  | _, _ => none

theorem rotate_take_succ (l : List Addr) (i f : ℕ) (hi : i < l.length) (hf : f < l.length) :
    (l.rotate i).take (f + 1) = l[i] :: (l.rotate ((i + 1) % l.length)).take f := by
  apply List.ext_getElem
  · simp; omega
  · intro n h1 h2
    cases n with
    | zero => simp [List.getElem_rotate, Nat.mod_eq_of_lt hi]
    | succ n =>
      simp only [List.getElem_take, List.getElem_cons_succ, List.getElem_rotate]
      congr 1
      rw [Nat.add_mod n ((i + 1) % l.length), Nat.mod_mod, ← Nat.add_mod]
      congr 1; omega

/-- The scan examines the sub validators cyclically from the index, stops as soon as enough
are found, and never fails in a consistent registry. -/
theorem scan_spec {s : St} (hr : Reg s) (hasKey isActive : Addr → Bool) (count : ℕ) :
    ∀ (fuel idx : ℕ) (acc : List Addr) (e : Bool), fuel ≤ s.sub.length → idx < s.sub.length →
      acc.length ≤ count →
      ∃ j err, j ≤ fuel ∧
        scan s hasKey isActive count fuel idx acc e =
          .ok (acc ++ ((s.sub.rotate idx).take j).filterMap (pick s hasKey isActive),
            (idx + j) % s.sub.length, err) ∧
        (acc ++ ((s.sub.rotate idx).take j).filterMap (pick s hasKey isActive)).length ≤ count ∧
        (j = fuel ∨
          count ≤ (acc ++ ((s.sub.rotate idx).take j).filterMap (pick s hasKey isActive)).length)
  | 0, idx, acc, e, _, hi, hacc =>
      ⟨0, e, le_rfl, by simp [scan, Nat.mod_eq_of_lt hi], by simpa using hacc, .inl rfl⟩
  | fuel + 1, idx, acc, e, hf, hi, hacc => by
      by_cases hlt : acc.length < count
      swap
      · refine ⟨0, e, Nat.zero_le _, ?_, by simpa using hacc, .inr (by simpa using hlt)⟩
        unfold scan
        rw [if_neg hlt]
        simp [Nat.mod_eq_of_lt hi]
      have hmem : s.sub[idx] ∈ s.sub := List.getElem_mem hi
      obtain ⟨vi, st, hvi, hst, _, _⟩ := (hr.subIff _).mp hmem
      have hnext : (idx + 1) % s.sub.length < s.sub.length := Nat.mod_lt _ (by omega)
      -- one step of the loop
      have hone : ∀ e', ∃ e'', scan s hasKey isActive count (fuel + 1) idx acc e' =
          scan s hasKey isActive count fuel ((idx + 1) % s.sub.length)
            (acc ++ (pick s hasKey isActive s.sub[idx]).toList) e'' := by
        intro e'
        unfold pick
        rw [scan, if_pos hlt]
        simp only [List.getElem?_eq_getElem hi, hvi, hst]
        by_cases h1 : isActive vi.node = true
        · refine ⟨false, ?_⟩; simp [h1]
        · have h1' : isActive vi.node = false := by simpa using h1
          by_cases h2 : st.enabled = true
          · by_cases h3 : hasKey vi.node = true
            · refine ⟨false, ?_⟩; simp [h1', h2, h3]
            · refine ⟨true, ?_⟩; simp [h1', h2, h3]
          · refine ⟨false, ?_⟩; simp [h1', h2]
      obtain ⟨e'', hone⟩ := hone e
      have hacc' : (acc ++ (pick s hasKey isActive s.sub[idx]).toList).length ≤ count := by
        cases pick s hasKey isActive s.sub[idx] <;> simp <;> omega
      obtain ⟨j, err, hj, h1, h2, h3⟩ := scan_spec hr hasKey isActive count fuel
        ((idx + 1) % s.sub.length) (acc ++ (pick s hasKey isActive s.sub[idx]).toList) e''
        (by omega) hnext hacc'
      have hcat : acc ++ (pick s hasKey isActive s.sub[idx]).toList ++
          ((s.sub.rotate ((idx + 1) % s.sub.length)).take j).filterMap (pick s hasKey isActive) =
          acc ++ ((s.sub.rotate idx).take (j + 1)).filterMap (pick s hasKey isActive) := by
        rw [rotate_take_succ s.sub idx j hi (by omega), List.append_assoc]
        congr 1
        cases hp : pick s hasKey isActive s.sub[idx] with
        | none => rw [List.filterMap_cons_none hp]; rfl
        | some v => rw [List.filterMap_cons_some hp]; rfl
      rw [hcat] at h1 h2 h3
      refine ⟨j + 1, err, by omega, ?_, h2, ?_⟩
      · rw [hone, h1]
        congr 3
        rw [Nat.mod_add_mod]
        congr 1; omega
      · rcases h3 with h3 | h3
        · exact .inl (by omega)
        · exact .inr h3

theorem pick_some {s : St} {hasKey isActive : Addr → Bool} {o n : Addr}
    (h : pick s hasKey isActive o = some n) :
    ∃ vi, s.info o = some vi ∧ vi.node = n ∧ Enabled s o ∧ hasKey n = true ∧
      isActive n = false := by
  unfold pick at h
  split at h
  · rename_i vi st hvi hst
    split_ifs at h with hc
    cases h
    exact ⟨vi, hvi, rfl, enabled_iff.mpr ⟨st, hst, hc.2.1⟩, hc.2.2, hc.1⟩
  · cases h

theorem pick_mem {s : St} (hr : Reg s) {hasKey isActive : Addr → Bool} {l : List Addr}
    (hl : ∀ o ∈ l, o ∈ s.sub) {act : List Addr} (ha : ∀ n, isActive n = decide (n ∈ act))
    {n : Addr} (h : n ∈ l.filterMap (pick s hasKey isActive)) : Eligible s hasKey act n := by
  obtain ⟨o, ho, hp⟩ := List.mem_filterMap.mp h
  obtain ⟨vi, hvi, hn, hen, hk, hna⟩ := pick_some hp
  obtain ⟨vi', _, hvi', _, hg, _⟩ := (hr.subIff o).mp (hl o ho)
  rw [hvi] at hvi'; cases hvi'
  refine ⟨o, vi, hvi, hn, hg, hen, hk, ?_⟩
  rw [ha] at hna
  simpa using hna

theorem eligible_pick {s : St} (hr : Reg s) {hasKey isActive : Addr → Bool}
    {act : List Addr} (ha : ∀ n, isActive n = decide (n ∈ act)) {n : Addr}
    (h : Eligible s hasKey act n) : n ∈ s.sub.filterMap (pick s hasKey isActive) := by
  obtain ⟨o, vi, hvi, hn, hg, hen, hk, hna⟩ := h
  obtain ⟨st, hst, hse⟩ := enabled_iff.mp hen
  have hq : st.disqualified = false := by
    unfold VStatus.enabled at hse; simp at hse; exact hse.2
  refine List.mem_filterMap.mpr ⟨o, (hr.subIff o).mpr ⟨vi, st, hvi, hst, hg, hq⟩, ?_⟩
  unfold pick
  simp only [hvi, hst]
  rw [if_pos]
  · rw [hn]
  · rw [hn]
    exact ⟨by rw [ha]; simpa using hna, hse, hk⟩

theorem picks_nodup {s : St} (hr : Reg s) (hasKey isActive : Addr → Bool) {l : List Addr}
    (hl : l.Nodup) : (l.filterMap (pick s hasKey isActive)).Nodup := by
  refine List.Nodup.filterMap ?_ hl
  intro a a' b h1 h2
  obtain ⟨v1, hv1, hn1, _⟩ := pick_some (Option.mem_def.mp h1)
  obtain ⟨v2, hv2, hn2, _⟩ := pick_some (Option.mem_def.mp h2)
  have e1 := hr.nodeOwner a v1 hv1
  have e2 := hr.nodeOwner a' v2 hv2
  rw [hn1] at e1; rw [hn2, e1] at e2
  exact Option.some.inj e2

/-- What a successful choice of new active validators returns. -/
theorem getNextActive_spec {s t : St} (hr : Reg s) {hasKey isActive : Addr → Bool}
    {act : List Addr} (ha : ∀ n, isActive n = decide (n ∈ act)) {n : ℤ} {l : List Addr}
    (h : getNextActive s hasKey isActive n = .ok (t, l)) :
    l.Nodup ∧ (l.length : ℤ) ≤ n ∧ (∀ x ∈ l, Eligible s hasKey act x) ∧
      ((l.length : ℤ) < n → ∀ x, Eligible s hasKey act x → x ∈ l) := by
  have hpos : 0 ≤ n := by
    by_contra hneg
    unfold getNextActive at h
    rw [if_pos (by omega)] at h; cases h
  rcases getNextActive_ok h with ⟨rfl, rfl, hz⟩ | ⟨hn, hsub, idx, err, hscan, _, _⟩
  · refine ⟨List.nodup_nil, by simpa using hpos, by simp, fun hlt x hx => ?_⟩
    rcases hz with rfl | hsub
    · simp at hlt
    · have := eligible_pick hr ha hx
      rw [hsub] at this; simp at this
  · have hlen : 0 < s.sub.length := List.length_pos_iff.mpr hsub
    obtain ⟨j, err', hj, h1, h2, h3⟩ := scan_spec hr hasKey isActive
      (min n.toNat s.sub.length) s.sub.length
      (if s.svIndex ≥ s.sub.length then 0 else s.svIndex) [] false le_rfl
      (by split_ifs <;> omega) (Nat.zero_le _)
    rw [hscan] at h1
    simp only [List.nil_append, Except.ok.injEq, Prod.mk.injEq] at h1 h2 h3
    obtain ⟨hl, _, _⟩ := h1
    rw [← hl] at h2 h3
    generalize hrot : s.sub.rotate (if s.svIndex ≥ s.sub.length then 0 else s.svIndex) = rot at *
    have hrotlen : rot.length = s.sub.length := by rw [← hrot]; exact List.length_rotate _ _
    have hrotmem : ∀ x, x ∈ rot ↔ x ∈ s.sub := by
      intro x; rw [← hrot]; exact List.mem_rotate
    have hrotnd : rot.Nodup := by rw [← hrot]; exact List.nodup_rotate.mpr hr.subNodup
    refine ⟨?_, ?_, fun x hx => ?_, fun hlt x hx => ?_⟩
    · rw [hl]
      exact picks_nodup hr _ _ (hrotnd.sublist (List.take_sublist _ _))
    · have : l.length ≤ n.toNat := le_trans h2 (min_le_left _ _)
      omega
    · rw [hl] at hx
      exact pick_mem hr (fun o ho => (hrotmem o).mp (List.mem_of_mem_take ho)) ha hx
    · -- the whole list has been examined
      have hjall : j = s.sub.length := by
        rcases h3 with h3 | h3
        · exact h3
        · have hlj : l.length ≤ j := by
            rw [hl]
            refine (List.length_filterMap_le _ _).trans ?_
            rw [List.length_take]; exact min_le_left _ _
          omega
      have hx' := eligible_pick hr ha hx
      obtain ⟨o, ho, hp⟩ := List.mem_filterMap.mp hx'
      rw [hl, hjall, ← hrotlen, List.take_length]
      exact List.mem_filterMap.mpr ⟨o, (hrotmem o).mpr ho, hp⟩

/-- **C34 (choice of replacements).** The validators chosen to fill free places are distinct
nodes of enabled sub validators with their keys, not active yet; there are at most as many as
places, and fewer only if every eligible validator has been chosen. -/
theorem C34_choice {c : Config} {s t : St} (hr : Reachable c s) (hasKey : Addr → Bool) {n : ℤ}
    {l : List Addr}
    (h : getNextActive s hasKey (fun x => decide (x ∈ s.active)) n = .ok (t, l)) :
    l.Nodup ∧ (l.length : ℤ) ≤ n ∧ (∀ x ∈ l, Eligible s hasKey s.active x) ∧
      ((l.length : ℤ) < n → ∀ x, Eligible s hasKey s.active x → x ∈ l) :=
  getNextActive_spec hr.reg (fun _ => rfl) h

/-! ### The map of penalised indices -/

theorem penalizedMap_spec {active : List Addr} (hn : active.Nodup) (pen : List Addr) :
    (∀ i n, (i, n) ∈ penalizedMap active pen ↔ n ∈ pen ∧ active[i]? = some n) ∧
      ((penalizedMap active pen).map Prod.fst).Nodup := by
  unfold penalizedMap
  induction pen using List.reverseRecOn with
  | nil => exact ⟨fun i n => by simp, List.nodup_nil⟩
  | append_singleton pen p ih =>
    rw [List.foldl_append]
    simp only [List.foldl_cons, List.foldl_nil]
    generalize List.foldl (fun m n => match indexOf active n with
      | none => m
      | some i => List.filter (fun e => decide (e.1 ≠ i)) m ++ [(i, n)]) [] pen = m at *
    obtain ⟨ih1, ih2⟩ := ih
    split
    · rename_i hnone
      refine ⟨fun i n => ?_, ih2⟩
      rw [ih1, List.mem_append, List.mem_singleton]
      constructor
      · rintro ⟨h1, h2⟩; exact ⟨.inl h1, h2⟩
      · rintro ⟨h1 | rfl, h2⟩
        · exact ⟨h1, h2⟩
        · exact absurd (List.mem_of_getElem? h2) (indexOf_none.mp hnone)
    · rename_i k hk
      obtain ⟨hmem, hidx, hget⟩ := indexOf_some hk
      have huniq : ∀ i n, active[i]? = some n → (i = k ↔ n = p) := by
        intro i n h
        constructor
        · rintro rfl; rw [hget] at h; exact (Option.some.inj h).symm
        · rintro rfl
          obtain ⟨hi, hi'⟩ := List.getElem?_eq_some_iff.mp h
          obtain ⟨hk1, hk'⟩ := List.getElem?_eq_some_iff.mp hget
          exact (List.Nodup.getElem_inj_iff hn).mp (hi'.trans hk'.symm)
      refine ⟨fun i n => ?_, ?_⟩
      · simp only [List.mem_append, List.mem_filter, ih1, List.mem_singleton, Prod.mk.injEq,
          decide_eq_true_eq]
        constructor
        · rintro (⟨⟨h1, h2⟩, _⟩ | ⟨rfl, rfl⟩)
          · exact ⟨.inl h1, h2⟩
          · exact ⟨.inr rfl, hget⟩
        · rintro ⟨h1, h2⟩
          by_cases e : n = p
          · exact .inr ⟨(huniq i n h2).mpr e, e⟩
          · refine .inl ⟨⟨?_, h2⟩, fun hik => e ((huniq i n h2).mp hik)⟩
            rcases h1 with h1 | h1
            · exact h1
            · exact absurd h1 e
      · rw [List.map_append, List.nodup_append]
        refine ⟨ih2.sublist (List.filter_sublist.map _), by simp, ?_⟩
        intro a ha b hb
        simp only [List.map_cons, List.map_nil, List.mem_singleton] at hb
        obtain ⟨e, he, rfl⟩ := List.mem_map.mp ha
        have := (List.mem_filter.mp he).2
        simp only [decide_eq_true_eq] at this
        rw [hb]; exact this

/-! ### The replacement loop -/

/-- The loop succeeds; whatever the order of the entries, the members of the result are the
non-penalised ones and the replacements; with as many replacements as penalised validators,
all others keep their positions. -/
theorem replaceLoop_spec (s : St) : ∀ (m : List (ℕ × Addr)) (adds active : List Addr),
    active.Nodup → (∀ e ∈ m, active[e.1]? = some e.2) → (m.map Prod.fst).Nodup →
    adds.Nodup → (∀ a ∈ adds, a ∉ active) → (∀ a ∈ adds, (s.nodeOwner a).isSome) →
    adds.length ≤ m.length →
    ∃ r, replaceLoop s m adds active = .ok r ∧ r.Nodup ∧
      (∀ x, x ∈ r ↔ (x ∈ active ∧ x ∉ m.map Prod.snd) ∨ x ∈ adds) ∧
      r.length + m.length = active.length + adds.length ∧
      (adds.length = m.length → ∀ i, i ∉ m.map Prod.fst → r[i]? = active[i]?)
  | [], adds, active, hn, _, _, _, _, _, hl => by
      have : adds = [] := List.length_eq_zero_iff.mp (by simpa using hl)
      subst this
      exact ⟨active, rfl, hn, by simp, by simp, fun _ _ _ => rfl⟩
  | (i, n) :: m, a :: adds, active, hn, hm, hk, had, hna, how, hl => by
      have hget : active[i]? = some n := hm (i, n) (by simp)
      have haact : a ∉ active := hna a (by simp)
      have hne : n ≠ a := fun e => haact (e ▸ List.mem_of_getElem? hget)
      have hmem := mem_set_iff (o := n) hn hget haact
      obtain ⟨hki, hk'⟩ := List.nodup_cons.mp (by simpa using hk :
        (i :: m.map Prod.fst).Nodup)
      obtain ⟨hai, had'⟩ := List.nodup_cons.mp had
      obtain ⟨hi, _⟩ := List.getElem?_eq_some_iff.mp hget
      have hset : vsSetAt active i a = .ok (active.set i a) := by
        unfold vsSetAt; simp only [hget, if_neg hne, if_neg haact]
      obtain ⟨ow, how1⟩ := Option.isSome_iff_exists.mp (how a (by simp))
      have hown : getOwnerByNode s a = .ok ow := getOwner_ok.mpr how1
      have hm' : ∀ e ∈ m, (active.set i a)[e.1]? = some e.2 := by
        intro e he
        have : i ≠ e.1 := by
          rintro rfl; exact hki (List.mem_map.mpr ⟨e, he, rfl⟩)
        rw [List.getElem?_set_ne this]; exact hm e (by simp [he])
      obtain ⟨r, h1, h2, h3, h4, h5⟩ := replaceLoop_spec s m adds (active.set i a)
        (nodup_set hn haact) hm' hk' had'
        (fun b hb hbm => by
          rcases (hmem b).mp hbm with rfl | ⟨h, _⟩
          · exact hai hb
          · exact hna b (by simp [hb]) h)
        (fun b hb => how b (by simp [hb])) (by simpa using hl)
      have hnm : n ∉ m.map Prod.snd ∧ a ∉ m.map Prod.snd := by
        constructor
        · intro h
          obtain ⟨e, he, rfl⟩ := List.mem_map.mp h
          have h1 := hm' e he
          have h2 := (hmem e.2).mp (List.mem_of_getElem? h1)
          rcases h2 with h2 | h2
          · exact hne h2
          · exact h2.2 rfl
        · intro h
          obtain ⟨e, he, rfl⟩ := List.mem_map.mp h
          exact haact (List.mem_of_getElem? (hm e (by simp [he])))
      refine ⟨r, ?_, h2, fun x => ?_, ?_, fun hlen j hj => ?_⟩
      · unfold replaceLoop
        rw [hown]
        show (vsSetAt active i a >>= fun a1 => replaceLoop s m adds a1) = _
        rw [hset]; exact h1
      · rw [h3, hmem]
        simp only [List.map_cons, List.mem_cons, not_or]
        constructor
        · rintro (⟨rfl | ⟨h, h'⟩, h''⟩ | h)
          · exact .inr (.inl rfl)
          · exact .inl ⟨h, h', h''⟩
          · exact .inr (.inr h)
        · rintro (⟨h, h', h''⟩ | rfl | h)
          · exact .inl ⟨.inr ⟨h, h'⟩, h''⟩
          · exact .inl ⟨.inl rfl, hnm.2⟩
          · exact .inr h
      · simp only [List.length_cons, List.length_set] at h4 ⊢; omega
      · simp only [List.map_cons, List.mem_cons, not_or] at hj
        rw [h5 (by simpa using hlen) j hj.2, List.getElem?_set_ne (Ne.symm hj.1)]
  | (i, n) :: m, [], active, hn, hm, hk, _, _, _, _ => by
      -- only removals from here on
      have rem : ∀ (m : List (ℕ × Addr)) (active : List Addr), active.Nodup →
          (∀ e ∈ m, e.2 ∈ active) → (m.map Prod.snd).Nodup →
          ∃ r, replaceLoop s m [] active = .ok r ∧ r.Nodup ∧
            (∀ x, x ∈ r ↔ x ∈ active ∧ x ∉ m.map Prod.snd) ∧
            r.length + m.length = active.length := by
        intro m
        induction m with
        | nil => intro active hn _ _; exact ⟨active, rfl, hn, by simp, by simp⟩
        | cons e m ih =>
          obtain ⟨i, n⟩ := e
          intro active hn hm hk
          obtain ⟨hki, hk'⟩ := List.nodup_cons.mp (by simpa using hk :
            (n :: m.map Prod.snd).Nodup)
          have hnact : n ∈ active := hm (i, n) (by simp)
          obtain ⟨r, h1, h2, h3, h4⟩ := ih (active.erase n) (hn.erase n) (fun e he => by
            have hne : e.2 ≠ n := by rintro rfl; exact hki (List.mem_map.mpr ⟨e, he, rfl⟩)
            exact (List.mem_erase_of_ne hne).mpr (hm e (by simp [he]))) hk'
          refine ⟨r, by unfold replaceLoop; exact h1, h2, fun x => ?_, ?_⟩
          · rw [h3, hn.mem_erase_iff]
            simp only [List.map_cons, List.mem_cons, not_or]
            tauto
          · have := List.length_erase_of_mem hnact
            have hpos : 0 < active.length := List.length_pos_of_mem hnact
            simp only [List.length_cons]; omega
      have hsnd : (((i, n) :: m).map Prod.snd).Nodup := by
        -- distinct indices hold distinct nodes
        have gen : ∀ (l : List (ℕ × Addr)), (∀ e ∈ l, active[e.1]? = some e.2) →
            (l.map Prod.fst).Nodup → (l.map Prod.snd).Nodup := by
          intro l
          induction l with
          | nil => intro _ _; exact List.nodup_nil
          | cons e l ih =>
            intro h1 h2
            obtain ⟨h3, h4⟩ := List.nodup_cons.mp (by simpa using h2 :
              (e.1 :: l.map Prod.fst).Nodup)
            rw [List.map_cons, List.nodup_cons]
            refine ⟨fun hmem => ?_, ih (fun x hx => h1 x (by simp [hx])) h4⟩
            obtain ⟨e', he', heq⟩ := List.mem_map.mp hmem
            have a1 := h1 e (by simp)
            have a2 := h1 e' (by simp [he'])
            rw [heq] at a2
            obtain ⟨b1, b1'⟩ := List.getElem?_eq_some_iff.mp a1
            obtain ⟨b2, b2'⟩ := List.getElem?_eq_some_iff.mp a2
            have : e.1 = e'.1 := (List.Nodup.getElem_inj_iff hn).mp (b1'.trans b2'.symm)
            exact h3 (List.mem_map.mpr ⟨e', he', this.symm⟩)
        exact gen _ hm hk
      obtain ⟨r, h1, h2, h3, h4⟩ := rem ((i, n) :: m) active hn
        (fun e he => List.mem_of_getElem? (hm e he)) hsnd
      exact ⟨r, h1, h2, fun x => by rw [h3]; simp, by simpa using h4, fun h => by simp at h⟩

theorem eligible_owner {s : St} (hr : Reg s) {k : Addr → Bool} {act : List Addr} {n : Addr}
    (h : Eligible s k act n) : (s.nodeOwner n).isSome := by
  obtain ⟨o, vi, hvi, rfl, _⟩ := h
  rw [hr.nodeOwner o vi hvi]; rfl

theorem perm_of_members {l l' : List Addr} (h1 : l.Nodup) (h2 : l'.Nodup)
    (h : ∀ x, x ∈ l ↔ x ∈ l') : l.Perm l' := (List.perm_ext_iff_of_nodup h1 h2).mpr h

/-- **C34 (replacement).** The validators to add are determined by the state alone; for every
iteration order of the Go map, the replacement succeeds as soon as the choice does, and the new
active set consists exactly of the active validators that are not penalised and of the chosen
ones, which are eligible and as many as the freed places whenever that many are eligible. -/
theorem C34_replacement {s : St} (hr : Reg s) (hasKey : Addr → Bool) (pen : List Addr)
    (hpen : ∃ n ∈ pen, n ∈ s.active) :
    (∃ e, ∀ io, replacePenalized s hasKey io pen = .error e) ∨
    ∃ (idx : ℕ) (adds : List Addr), adds.Nodup ∧
      (∀ x ∈ adds, Eligible s hasKey s.active x) ∧
      adds.length ≤ (s.active.filter (· ∈ pen)).length ∧
      (adds.length < (s.active.filter (· ∈ pen)).length →
        ∀ x, Eligible s hasKey s.active x → x ∈ adds) ∧
      ∀ io, ∃ a, replacePenalized s hasKey io pen =
          .ok { s with svIndex := idx, active := a } ∧ a.Nodup ∧
        a.Perm (s.active.filter (· ∉ pen) ++ adds) ∧
        (adds.length = (s.active.filter (· ∈ pen)).length →
          ∀ (i : ℕ) n, s.active[i]? = some n → n ∉ pen → a[i]? = some n) := by
  obtain ⟨hmap, hkeys⟩ := penalizedMap_spec hr.activeNodup pen
  set m := penalizedMap s.active pen with hm
  have hsnd : ∀ x, x ∈ m.map Prod.snd ↔ x ∈ pen ∧ x ∈ s.active := by
    intro x
    constructor
    · intro h
      obtain ⟨⟨i, n⟩, he, rfl⟩ := List.mem_map.mp h
      obtain ⟨h1, h2⟩ := (hmap i n).mp he
      exact ⟨h1, List.mem_of_getElem? h2⟩
    · rintro ⟨h1, h2⟩
      obtain ⟨i, hi⟩ := List.mem_iff_getElem?.mp h2
      exact List.mem_map.mpr ⟨(i, x), (hmap i x).mpr ⟨h1, hi⟩, rfl⟩
  have hsndnd : (m.map Prod.snd).Nodup := by
    rw [List.Nodup, List.pairwise_map]
    have hk := hkeys
    rw [List.Nodup, List.pairwise_map] at hk
    refine hk.imp_of_mem ?_
    rintro ⟨i, n⟩ ⟨j, n'⟩ h1 h2 hne heq
    dsimp only at heq hne
    subst heq
    obtain ⟨_, a1⟩ := (hmap i n).mp h1
    obtain ⟨_, a2⟩ := (hmap j n).mp h2
    obtain ⟨b1, b1'⟩ := List.getElem?_eq_some_iff.mp a1
    obtain ⟨b2, b2'⟩ := List.getElem?_eq_some_iff.mp a2
    exact hne ((List.Nodup.getElem_inj_iff hr.activeNodup).mp (b1'.trans b2'.symm))
  have hlen : m.length = (s.active.filter (· ∈ pen)).length := by
    have : (m.map Prod.snd).Perm (s.active.filter (· ∈ pen)) := by
      refine perm_of_members hsndnd (hr.activeNodup.filter _) fun x => ?_
      rw [hsnd, List.mem_filter]; simp [and_comm]
    rw [← this.length_eq, List.length_map]
  have hm0 : m.length ≠ 0 := by
    obtain ⟨n, h1, h2⟩ := hpen
    have := (hsnd n).mpr ⟨h1, h2⟩
    intro h
    rw [List.length_eq_zero_iff.mp h] at this
    simp at this
  cases hnext : getNextActive s hasKey (fun n => decide (n ∈ s.active)) m.length with
  | error e =>
    refine .inl ⟨e, fun io => ?_⟩
    unfold replacePenalized
    dsimp only
    rw [← hm, if_neg hm0, hnext]
    rfl
  | ok r =>
    obtain ⟨s1, adds⟩ := r
    obtain ⟨h1, h2, h3, h4⟩ := getNextActive_spec hr (act := s.active) (fun _ => rfl) hnext
    obtain ⟨k, hs1⟩ := getNextActive_state hnext
    refine .inr ⟨k, adds, h1, h3, by omega, fun hlt => h4 (by omega), fun io => ?_⟩
    have hp : (io.ord m).Perm m := io.perm m
    obtain ⟨r, e1, e2, e3, e4, e5⟩ := replaceLoop_spec s1 (io.ord m) adds s.active
      hr.activeNodup (fun e he => ((hmap e.1 e.2).mp (hp.mem_iff.mp he)).2)
      ((hp.map Prod.fst).nodup_iff.mpr hkeys) h1
      (fun a ha => by obtain ⟨_, _, _, _, _, _, _, h⟩ := h3 a ha; exact h)
      (fun a ha => by rw [hs1]; exact eligible_owner hr (h3 a ha))
      (by rw [hp.length_eq]; omega)
    refine ⟨r, ?_, e2, ?_, fun hl i n hi hn => ?_⟩
    · unfold replacePenalized
      dsimp only
      rw [← hm, if_neg hm0, hnext]
      show (replaceLoop s1 (io.ord m) adds s1.active >>= _) = _
      have : s1.active = s.active := by rw [hs1]
      rw [this, e1, hs1]
      rfl
    · refine perm_of_members e2 ?_ fun x => ?_
      · refine List.nodup_append.mpr ⟨hr.activeNodup.filter _, h1, ?_⟩
        rintro a ha b hb rfl
        obtain ⟨_, _, _, _, _, _, _, h⟩ := h3 a hb
        exact h (List.mem_of_mem_filter ha)
      · rw [e3, (hp.map Prod.snd).mem_iff, hsnd, List.mem_append, List.mem_filter]
        simp only [decide_eq_true_eq]
        tauto
    · have := e5 (by rw [hp.length_eq, hlen]; exact hl) i (by
        rw [(hp.map Prod.fst).mem_iff]
        intro h
        obtain ⟨⟨j, n'⟩, he, rfl⟩ := List.mem_map.mp h
        obtain ⟨q1, q2⟩ := (hmap j n').mp he
        rw [hi] at q2; cases q2
        exact hn q1)
      show r[i]? = some n
      rw [this]; exact hi

end Verif.Havah.Val
