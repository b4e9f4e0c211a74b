import Verif.NetQueue.Pop

/-!
# The theorems on the queues of the network
-/

namespace Verif.NetQueue

theorem Rel.setWeight {q : Q} {a : Spec} (R : Rel q a) (i w : Int) :
    (setWeight q i w).2 = (a.setWeight i w).2 ∧ Rel (setWeight q i w).1 (a.setWeight i w).1 ∧
      (setWeight q i w).1.token = q.token := by
  unfold Verif.NetQueue.setWeight Spec.setWeight
  by_cases h : 0 ≤ i ∧ i < a.weights.length ∧ 1 ≤ w
  · rw [if_pos h, if_neg (by rw [R.weights]; omega)]
    refine ⟨rfl, ?_, rfl⟩
    exact { R with
      weights := by
        show q.weights.set _ _ = _
        rw [R.weights]
      wlen := fun hk => by simpa using R.wlen hk }
  · rw [if_neg h, if_pos (by rw [R.weights]; omega)]
    exact ⟨rfl, R, rfl⟩

theorem Rel.token {q : Q} {a : Spec} (R : Rel q a) (t : Bool) : Rel { q with token := t } a := { R with }

theorem step_rel {q : Q} {a : Spec} (R : Rel q a) (e : Ev) :
    ∃ (q' : Q) (o : Out), step q e = some (q', o) ∧ Rel q' (a.step e).1 ∧
      ∀ o', (a.step e).2 = some o' → o = o' := by
  cases e with
  | push c i =>
    obtain ⟨q', h1, h2, -⟩ := R.push c i
    refine ⟨q', .bool (a.push c i).2, ?_, h2, fun o' h => by simpa [Spec.step] using h⟩
    show (Verif.NetQueue.push q c i).map _ = _
    rw [h1]; rfl
  | pop =>
    obtain ⟨q', h1, h2, -⟩ := R.pop
    refine ⟨q', .value a.pop.2, ?_, h2, fun o' h => by simpa [Spec.step] using h⟩
    show (Verif.NetQueue.pop q).map _ = _
    rw [h1]; rfl
  | wait =>
    show ∃ (q' : Q) (o : Out), some (if q.token = true then _ else _) = _ ∧ _
    by_cases ht : q.token = true
    · rw [if_pos ht]
      exact ⟨_, _, rfl, R.token false, fun o' h => by simp [Spec.step] at h⟩
    · rw [if_neg ht]
      exact ⟨_, _, rfl, R, fun o' h => by simp [Spec.step] at h⟩
  | setWeight i w =>
    obtain ⟨h1, h2, -⟩ := R.setWeight i w
    refine ⟨_, _, rfl, h2, fun o' h => ?_⟩
    have : Out.bool (a.setWeight i w).2 = o' := by simpa [Spec.step] using h
    rw [← this, ← h1]

theorem Run.rel {kind : Kind} {size cnt : Nat} {q : Q} {a : Spec} (R : Run kind size cnt q a) : Rel q a := by
  induction R with
  | init => exact Rel.init kind size cnt
  | step e _ hs ih =>
    obtain ⟨q', o, h1, h2, -⟩ := step_rel ih e
    rw [h1] at hs
    simp only [Option.some.injEq, Prod.mk.injEq] at hs
    rw [← hs.1]; exact h2

/-- No call panics, every call answers as it should, and the free places are those that are not taken. -/
theorem refines {kind : Kind} {size cnt : Nat} {q : Q} {a : Spec} (R : Run kind size cnt q a) :
    (∀ e : Ev, ∃ (q' : Q) (o : Out), step q e = some (q', o) ∧ Run kind size cnt q' (a.step e).1 ∧
      ∀ o', (a.step e).2 = some o' → o = o') ∧
    ∀ i : Nat, i < a.qs.length → available q i + (a.qs.getD i []).length = a.cap := by
  refine ⟨fun e => ?_, fun i hi => ?_⟩
  · obtain ⟨q', o, h1, h2, h3⟩ := step_rel R.rel e
    exact ⟨q', o, h1, R.step e h1, h3⟩
  · obtain ⟨r, h1, h2, h3⟩ := R.rel.ring hi
    have := h2.len
    have := h2.le
    simp only [available, h1, Ring.available]
    omega

/-- The single queue has one list, the others as many as they were made with, all with this capacity; no list is
longer. -/
theorem sizes {kind : Kind} {size cnt : Nat} {q : Q} {a : Spec} (R : Run kind size cnt q a) :
    a.kind = kind ∧ a.cap = size ∧ a.qs.length = (if kind = .single then 1 else cnt) ∧
    ∀ i : Nat, (a.qs.getD i []).length ≤ size := by
  have h : a.kind = kind ∧ a.cap = size ∧ a.qs.length = (if kind = .single then 1 else cnt) := by
    clear * - R
    induction R with
    | init => exact ⟨rfl, rfl, by simp [Spec.new]⟩
    | @step q q' a o e _ _ ih =>
      obtain ⟨i1, i2, i3⟩ := ih
      cases e with
      | push c i =>
        show (a.push c i).1.kind = _ ∧ (a.push c i).1.cap = _ ∧ (a.push c i).1.qs.length = _
        unfold Spec.push
        split
        · exact ⟨i1, i2, i3⟩
        · split
          · exact ⟨i1, i2, by simpa using i3⟩
          · exact ⟨i1, i2, i3⟩
      | pop =>
        show a.pop.1.kind = _ ∧ a.pop.1.cap = _ ∧ a.pop.1.qs.length = _
        unfold Spec.pop
        split
        · exact ⟨i1, i2, i3⟩
        · rename_i j _
          obtain ⟨h1, h2, -⟩ := advance_same a j
          dsimp only
          rw [h1, h2]
          exact ⟨i1, i2, by simpa using i3⟩
      | wait => exact ⟨i1, i2, i3⟩
      | setWeight i w =>
        show (a.setWeight i w).1.kind = _ ∧ (a.setWeight i w).1.cap = _ ∧ (a.setWeight i w).1.qs.length = _
        unfold Spec.setWeight
        split <;> exact ⟨i1, i2, i3⟩
  refine ⟨h.1, h.2.1, h.2.2, fun i => ?_⟩
  by_cases hi : i < a.qs.length
  · have := (refines R).2 i hi
    rw [h.2.1] at this; omega
  · rw [List.getD_eq_getElem?_getD, List.getElem?_eq_none (by omega)]; simp

/-! ### Nobody sleeps while there is something -/

theorem CRun.rel {kind : Kind} {size cnt : Nat} {q : Q} {n : Nat} (R : CRun kind size cnt q n) :
    ∃ a : Spec, Run kind size cnt q a ∧ (q.token = true ∨ 0 < n ∨ ∀ i : Nat, a.qs.getD i [] = []) := by
  induction R with
  | init =>
    refine ⟨_, .init, Or.inr (Or.inr fun i => ?_)⟩
    simp only [Spec.new, List.getD_eq_getElem?_getD, List.getElem?_replicate]
    split_ifs <;> rfl
  | @push q q' n ok c idx _ hp ih =>
    obtain ⟨a, ra, ih⟩ := ih
    obtain ⟨q2, h1, h2, h3⟩ := ra.rel.push c idx
    have hs : step q (.push c idx) = some (q', .bool ok) := by
      show (Verif.NetQueue.push q c idx).map _ = _
      rw [hp]; rfl
    rw [hp] at h1
    simp only [Option.some.injEq, Prod.mk.injEq] at h1
    rw [← h1.1] at h3
    refine ⟨_, ra.step (.push c idx) hs, ?_⟩
    rcases h3 with h | ⟨h, h'⟩
    · exact Or.inl h
    · rcases ih with i1 | i1 | i1
      · exact Or.inl (by rw [h]; exact i1)
      · exact Or.inr (Or.inl i1)
      · rcases h' with h' | ⟨i, h'⟩
        · refine Or.inr (Or.inr ?_)
          show ∀ i : Nat, (a.push c idx).1.qs.getD i [] = []
          have : (a.push c idx).1 = a := by
            unfold Spec.push at h' ⊢
            split
            · rfl
            · rename_i j hj
              rw [hj] at h'
              by_cases hc : (a.qs.getD j []).length < a.cap
              · simp only [hc, if_true] at h'
                simp at h'
              · rw [if_neg hc]
          rw [this]; exact i1
        · exact absurd (i1 i) h'
  | @wake q n _ ht ih =>
    obtain ⟨a, ra, ih⟩ := ih
    have hs : step q .wait = some ({ q with token := false }, .bool true) := by
      show some (if q.token = true then _ else _) = _
      rw [if_pos ht]
    exact ⟨a, ra.step .wait hs, Or.inr (Or.inl (by omega))⟩
  | @pop q q' n v done _ hp ih =>
    obtain ⟨a, ra, ih⟩ := ih
    obtain ⟨q2, h1, h2, h3, h4⟩ := ra.rel.pop
    have hs : step q .pop = some (q', .value v) := by
      show (Verif.NetQueue.pop q).map _ = _
      rw [hp]; rfl
    rw [hp] at h1
    simp only [Option.some.injEq, Prod.mk.injEq] at h1
    rw [← h1.1] at h4
    refine ⟨_, ra.step .pop hs, ?_⟩
    rcases h4 with h | ⟨h, h'⟩
    · exact Or.inl h
    · exact Or.inr (Or.inr h')
  | @steal q q' n v _ hp ih =>
    obtain ⟨a, ra, ih⟩ := ih
    obtain ⟨q2, h1, h2, h3, h4⟩ := ra.rel.pop
    have hs : step q .pop = some (q', .value v) := by
      show (Verif.NetQueue.pop q).map _ = _
      rw [hp]; rfl
    rw [hp] at h1
    simp only [Option.some.injEq, Prod.mk.injEq] at h1
    rw [← h1.1] at h4
    refine ⟨_, ra.step .pop hs, ?_⟩
    rcases h4 with h | ⟨h, h'⟩
    · exact Or.inl h
    · exact Or.inr (Or.inr h')
  | @setWeight q n i w _ ih =>
    obtain ⟨a, ra, ih⟩ := ih
    obtain ⟨h1, h2, h3⟩ := ra.rel.setWeight i w
    refine ⟨_, ra.step (.setWeight i w) rfl, ?_⟩
    show (Verif.NetQueue.setWeight q i w).1.token = true ∨ _
    rw [h3]
    rcases ih with i1 | i1 | i1
    · exact Or.inl i1
    · exact Or.inr (Or.inl i1)
    · refine Or.inr (Or.inr ?_)
      show ∀ j : Nat, (a.setWeight i w).1.qs.getD j [] = []
      have : (a.setWeight i w).1.qs = a.qs := by
        unfold Spec.setWeight
        split <;> rfl
      rw [this]; exact i1

/-- If `Pop` would give something, then a value waits in the channel or a consumer is awake: with consumers that come back
to the channel, no context stays in the queue for ever. -/
theorem no_lost_wakeup {kind : Kind} {size cnt : Nat} {q : Q} {n : Nat} (R : CRun kind size cnt q n) {q' : Q} {v : Nat}
    (h : pop q = some (q', some v)) : q.token = true ∨ 0 < n := by
  obtain ⟨a, ra, h'⟩ := R.rel
  rcases h' with h' | h' | h'
  · exact Or.inl h'
  · exact Or.inr h'
  · obtain ⟨q2, h1, -⟩ := ra.rel.pop
    have hn := (next_none a ra.rel.turn).2 h'
    have ea : a.pop = (a, none) := by unfold Spec.pop; rw [hn]
    rw [h, ea] at h1
    simp at h1

/-- `Push` accepts exactly if the queue it is for exists and is not full; `Pop` gives nil exactly if there is nothing in
any of them. -/
theorem push_iff {kind : Kind} {size cnt : Nat} {q : Q} {a : Spec} (R : Run kind size cnt q a) (c : Nat) (idx : Int) :
    (∃ q', push q c idx = some (q', true)) ↔
      ∃ i : Nat, (kind = .single ∧ i = 0 ∨ kind ≠ .single ∧ (i : Int) = idx ∧ i < cnt) ∧ (a.qs.getD i []).length < size := by
  obtain ⟨s1, s2, s3, -⟩ := sizes R
  obtain ⟨q2, h1, -⟩ := R.rel.push c idx
  have e : (∃ q', push q c idx = some (q', true)) ↔ (a.push c idx).2 = true := by
    rw [h1]
    simp
  rw [e]
  unfold Spec.push Spec.target
  rw [s1, s2]
  by_cases hk : kind = .single
  · rw [if_pos hk]
    dsimp only
    by_cases hl : (a.qs.getD 0 []).length < size
    · rw [if_pos hl]
      exact ⟨fun _ => ⟨0, Or.inl ⟨hk, rfl⟩, hl⟩, fun _ => rfl⟩
    · rw [if_neg hl]
      constructor
      · intro h; simp at h
      · rintro ⟨i, h, h'⟩
        rcases h with ⟨_, rfl⟩ | ⟨h, _⟩
        · exact absurd h' hl
        · exact absurd hk h
  · rw [if_neg hk] at s3 ⊢
    rw [s3]
    by_cases hi : 0 ≤ idx ∧ idx < cnt
    · rw [if_pos hi]
      dsimp only
      by_cases hl : (a.qs.getD idx.toNat []).length < size
      · rw [if_pos hl]
        exact ⟨fun _ => ⟨idx.toNat, Or.inr ⟨hk, by omega, by omega⟩, hl⟩, fun _ => rfl⟩
      · rw [if_neg hl]
        constructor
        · intro h; simp at h
        · rintro ⟨i, h, h'⟩
          rcases h with ⟨h, _⟩ | ⟨_, h, _⟩
          · exact absurd h hk
          · have : i = idx.toNat := by omega
            rw [this] at h'
            exact absurd h' hl
    · rw [if_neg hi]
      constructor
      · intro h; simp at h
      · rintro ⟨i, h, -⟩
        rcases h with ⟨h, _⟩ | ⟨_, h, h'⟩
        · exact absurd h hk
        · omega

theorem pop_nil_iff {kind : Kind} {size cnt : Nat} {q : Q} {a : Spec} (R : Run kind size cnt q a) :
    (∃ q', pop q = some (q', none)) ↔ ∀ i : Nat, a.qs.getD i [] = [] := by
  obtain ⟨q2, h1, h2, h3, -⟩ := R.rel.pop
  constructor
  · rintro ⟨q', h⟩
    rw [h] at h1
    simp only [Option.some.injEq, Prod.mk.injEq] at h1
    exact h3 h1.2.symm
  · intro h
    have hn := (next_none a R.rel.turn).2 h
    have ea : a.pop = (a, none) := by unfold Spec.pop; rw [hn]
    rw [ea] at h1
    exact ⟨q2, h1⟩

/-- With priorities, `Pop` gives the oldest context of the lowest index that has one. -/
theorem priority_order {size cnt : Nat} {q : Q} {a : Spec} (R : Run .priority size cnt q a) {q' : Q} {v : Nat}
    (h : pop q = some (q', some v)) :
    ∃ i : Nat, (a.qs.getD i []).head? = some v ∧ ∀ j : Nat, j < i → a.qs.getD j [] = [] := by
  obtain ⟨q2, h1, -⟩ := R.rel.pop
  rw [h] at h1
  simp only [Option.some.injEq, Prod.mk.injEq] at h1
  have h2 := h1.2
  unfold Spec.pop at h2
  split at h2
  · simp at h2
  · rename_i i hn
    refine ⟨i, h2.symm, fun j hj => ?_⟩
    unfold Spec.next Spec.order at hn
    rw [if_neg (by rw [(sizes R).1]; simp)] at hn
    by_contra hc
    have hlt : i < a.qs.length := by
      have := List.mem_of_find?_eq_some hn
      simpa using this
    have : ∀ n k : Nat, k ≤ j → j < k + n → (List.range' k n).find? (fun i => !a.isEmpty i) ≠ none ∧
        ∀ x, (List.range' k n).find? (fun i => !a.isEmpty i) = some x → x ≤ j := by
      intro n
      induction n with
      | zero => intro k h1 h2; omega
      | succ n ih =>
        intro k h1 h2
        rw [List.range'_succ, List.find?_cons]
        by_cases hke : (!a.isEmpty k) = true
        · rw [hke]
          simp
          omega
        · have hke' : (!a.isEmpty k) = false := by simpa using hke
          rw [hke']
          have : k ≠ j := fun he => hc (by rw [← he]; exact empty hke)
          exact ih (k + 1) (by omega) (by omega)
    have := (this a.qs.length 0 (by omega) (by omega)).2 i (by rw [List.range_eq_range'] at hn; exact hn)
    omega

/-- Each queue is first in, first out: what it held and what it accepted is what it gave out and what it holds. -/
theorem fifo (es : List Ev) : ∀ {a : Spec}, (a.kind = .weight → a.qs.length = 0 ∨ a.turn < a.qs.length) →
    (a.kind = .single → a.qs.length = 1) → ∀ i : Nat, i < a.qs.length →
    a.qs.getD i [] ++ a.accepted i es = a.served i es ++ (a.run es).qs.getD i [] := by
  induction es with
  | nil => intro a _ _ i _; simp [Spec.accepted, Spec.served, Spec.run]
  | cons e t ih =>
    intro a ht h1 i hi
    cases e with
    | push c idx =>
      show _ ++ ((if a.target idx = some i ∧ (a.push c idx).2 = true then [c] else []) ++
        Spec.accepted (a.push c idx).1 i t) = Spec.served (a.push c idx).1 i t ++ (Spec.run (a.push c idx).1 t).qs.getD i []
      cases htg : a.target idx with
      | none =>
        have ea : a.push c idx = (a, false) := by unfold Spec.push; rw [htg]
        simp only [ea]
        rw [if_neg (by simp)]
        exact ih ht h1 i hi
      | some j =>
        have hj : j < a.qs.length := by
          unfold Spec.target at htg
          split_ifs at htg with c1 c2
          · simp only [Option.some.injEq] at htg
            have := h1 c1; omega
          · simp only [Option.some.injEq] at htg
            omega
        by_cases hl : (a.qs.getD j []).length < a.cap
        · have ea : a.push c idx = ({ a with qs := a.qs.set j (a.qs.getD j [] ++ [c]) }, true) := by
            unfold Spec.push; rw [htg]; dsimp only; rw [if_pos hl]
          simp only [ea]
          have := ih (a := { a with qs := a.qs.set j (a.qs.getD j [] ++ [c]) }) (by simpa using ht) (by simpa using h1) i
            (by simpa using hi)
          rw [← this]
          dsimp only
          rw [getD_set _ _ _ _ hj]
          by_cases hij : i = j
          · subst hij
            rw [if_pos rfl, if_pos ⟨rfl, trivial⟩]
            simp
          · rw [if_neg hij, if_neg (fun h => hij (by simpa using h.1.symm))]
            simp
        · have ea : a.push c idx = (a, false) := by
            unfold Spec.push; rw [htg]; dsimp only; rw [if_neg hl]
          simp only [ea]
          rw [if_neg (by simp)]
          exact ih ht h1 i hi
    | pop =>
      show _ ++ Spec.accepted a.pop.1 i t = ((if a.next = some i then a.pop.2.toList else []) ++
        Spec.served a.pop.1 i t) ++ (Spec.run a.pop.1 t).qs.getD i []
      unfold Spec.pop
      cases hn : a.next with
      | none =>
        dsimp only
        rw [if_neg (by simp)]
        exact ih ht h1 i hi
      | some j =>
        dsimp only
        obtain ⟨hj, x, xs, hx⟩ := next_some ht hn
        obtain ⟨b1, b2, b3, b4⟩ := advance_same a j
        have ht' : (a.advance j).kind = .weight → (a.qs.set j (a.qs.getD j []).tail).length = 0 ∨
            (a.advance j).turn < (a.qs.set j (a.qs.getD j []).tail).length := by
          rw [b1, List.length_set]
          intro hk
          right
          unfold Spec.advance
          rw [if_pos hk]
          dsimp only
          by_cases hu : (if j = a.turn then a.used + 1 else 1) ≥ a.weights.getD j 0
          · rw [if_pos hu]; exact Nat.mod_lt _ (by omega)
          · rw [if_neg hu]; exact hj
        have := ih (a := { a.advance j with qs := a.qs.set j (a.qs.getD j []).tail }) ht'
          (by dsimp only; rw [b1]; simpa using h1) i (by simpa using hi)
        rw [List.append_assoc, ← this]
        dsimp only
        rw [getD_set _ _ _ _ hj]
        by_cases hij : i = j
        · subst hij
          rw [if_pos rfl, if_pos rfl, hx]
          simp
        · rw [if_neg hij, if_neg (fun h => hij (by simpa using h.symm))]
          simp
    | wait => exact ih ht h1 i hi
    | setWeight k w =>
      show _ ++ Spec.accepted (a.setWeight k w).1 i t = Spec.served (a.setWeight k w).1 i t ++
        (Spec.run (a.setWeight k w).1 t).qs.getD i []
      have hq : (a.setWeight k w).1.qs = a.qs := by unfold Spec.setWeight; split <;> rfl
      have hk : (a.setWeight k w).1.kind = a.kind := by unfold Spec.setWeight; split <;> rfl
      have htu : (a.setWeight k w).1.turn = a.turn := by unfold Spec.setWeight; split <;> rfl
      have := ih (a := (a.setWeight k w).1) (by rw [hk, hq, htu]; exact ht) (by rw [hk, hq]; exact h1) i
        (by rw [hq]; exact hi)
      rw [hq] at this
      exact this

end Verif.NetQueue
