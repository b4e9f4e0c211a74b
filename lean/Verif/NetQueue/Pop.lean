import Verif.NetQueue.Refine

/-!
# Taking from the queues
-/

namespace Verif.NetQueue

theorem set_self {l : List Ring} {i : Nat} {r : Ring} (h : l[i]? = some r) : l.set i r = l := by
  apply List.ext_getElem?
  intro j
  rw [List.getElem?_set]
  by_cases hj : i = j
  · subst hj
    have : i < l.length := by
      by_contra hc
      rw [List.getElem?_eq_none (by omega)] at h
      simp at h
    rw [if_pos rfl, if_pos this, h]
  · rw [if_neg hj]

theorem notEmpty {a : Spec} {i : Nat} (h : (!a.isEmpty i) = true) : ∃ x xs, a.qs.getD i [] = x :: xs := by
  unfold Spec.isEmpty at h
  cases hq : a.qs.getD i [] with
  | nil => rw [hq] at h; simp at h
  | cons x xs => exact ⟨x, xs, rfl⟩

theorem empty {a : Spec} {i : Nat} (h : ¬ (!a.isEmpty i) = true) : a.qs.getD i [] = [] := by
  unfold Spec.isEmpty at h
  simpa using h

/-- The search of the queue with priorities. -/
theorem fetchPriority_spec {q : Q} {a : Spec} (R : Rel q a) (i n : Nat) (h : i + n = a.qs.length) :
    match (List.range' i n).find? (fun i => !a.isEmpty i) with
    | none => fetchPriority q i n = some (q, none)
    | some j => ∃ (r' : Ring) (x : Nat) (xs : List Nat), j < a.qs.length ∧ a.qs.getD j [] = x :: xs ∧
        fetchPriority q i n = some ({ q with rings := q.rings.set j r' }, some x) ∧ Rep r' xs ∧ r'.size = a.cap := by
  induction n generalizing i with
  | zero => simp [fetchPriority]
  | succ n ih =>
    have hi : i < a.qs.length := by omega
    obtain ⟨r, h1, h2, h3⟩ := R.ring hi
    rw [List.range'_succ, List.find?_cons]
    by_cases he : (!a.isEmpty i) = true
    · rw [he]
      obtain ⟨x, xs, hx⟩ := notEmpty he
      rw [hx] at h2
      obtain ⟨r', p1, p2, p3⟩ := h2.pop
      refine ⟨r', x, xs, hi, hx, ?_, p2, by rw [p3, h3]⟩
      unfold fetchPriority
      rw [h1]; dsimp only
      rw [p1]
    · have he' : (!a.isEmpty i) = false := by simpa using he
      rw [he']
      have hx := empty he
      rw [hx] at h2
      have e : fetchPriority q i (n + 1) = fetchPriority q (i + 1) n := by
        conv_lhs => unfold fetchPriority
        rw [h1]; dsimp only
        rw [h2.pop_nil]; dsimp only
        rw [set_self h1]
      rw [e]
      exact ih (i + 1) (by omega)

/-- The search of the queue with weights. -/
theorem fetchWeight_spec {a : Spec} (hk : a.kind = .weight) (n : Nat) : ∀ (q : Q) (i : Nat), i + n = a.qs.length →
    q.rings.length = a.qs.length → q.weights = a.weights → a.weights.length = a.qs.length →
    q.current.length = a.qs.length → q.idx = a.turn → a.turn < a.qs.length →
    (∀ (i : Nat) (r : Ring), q.rings[i]? = some r → Rep r (a.qs.getD i []) ∧ r.size = a.cap) →
    (∀ j : Nat, j < a.qs.length → q.current[j]? = some (if j = a.turn ∧ i = 0 then a.used else 0)) →
    ∀ j : Nat, ((List.range' i n).map fun i => (a.turn + i) % a.qs.length).find? (fun i => !a.isEmpty i) = some j →
    ∃ (r' : Ring) (x : Nat) (xs cur : List Nat), j < a.qs.length ∧ a.qs.getD j [] = x :: xs ∧
        fetchWeight q i n = some ({ q with
          rings := q.rings.set j r'
          current := cur
          idx := (a.advance j).turn }, some x) ∧ Rep r' xs ∧ r'.size = a.cap ∧ cur.length = a.qs.length ∧
        (∀ m : Nat, m < a.qs.length → cur[m]? = some (if m = (a.advance j).turn then (a.advance j).used else 0)) ∧
        (a.advance j).turn < a.qs.length := by
  induction n with
  | zero => intro q i _ _ _ _ _ _ _ _ _ j hj; simp at hj
  | succ n ih =>
    intro q i h hrl hw hwl hcl hidx ht hrep hcur j hj
    have h0 : 0 < a.qs.length := by omega
    have hk1 : (a.turn + i) % a.qs.length < a.qs.length := Nat.mod_lt _ h0
    have hk2 : (a.turn + i) % a.qs.length = a.turn ↔ i = 0 := by
      constructor
      · intro hc
        have := wrap_inj (j := i) (k := 0) ht (by omega) h0 (by rw [hc, Nat.add_zero, Nat.mod_eq_of_lt ht])
        exact this
      · rintro rfl; rw [Nat.add_zero, Nat.mod_eq_of_lt ht]
    generalize hm : (a.turn + i) % a.qs.length = m at hk1 hk2
    have hm' : (q.idx + i) % q.rings.length = m := by rw [hidx, hrl]; exact hm
    have hr : q.rings[m]? = some (q.rings[m]'(by omega)) := List.getElem?_eq_getElem (by omega)
    have hc := hcur m hk1
    have hwm : q.weights[m]? = some (a.weights.getD m 0) := by
      rw [hw, List.getD_eq_getElem?_getD, List.getElem?_eq_getElem (by omega)]; rfl
    obtain ⟨hR, hS⟩ := hrep m _ hr
    generalize q.rings[m]'(by omega) = r at hr hR hS
    rw [List.range'_succ, List.map_cons, List.find?_cons, hm] at hj
    by_cases he : (!a.isEmpty m) = true
    · rw [he] at hj
      simp only [Option.some.injEq] at hj
      subst hj
      obtain ⟨x, xs, hx⟩ := notEmpty he
      rw [hx] at hR
      obtain ⟨r', p1, p2, p3⟩ := hR.pop
      have hu : (if m = a.turn ∧ i = 0 then a.used else 0) + 1 = if m = a.turn then a.used + 1 else 1 := by
        by_cases hmt : m = a.turn
        · rw [if_pos ⟨hmt, hk2.1 hmt⟩, if_pos hmt]
        · rw [if_neg (fun h => hmt h.1), if_neg hmt]
      have e : fetchWeight q i (n + 1) =
          if (if m = a.turn then a.used + 1 else 1) ≥ a.weights.getD m 0 then
            some ({ q with
              rings := q.rings.set m r'
              current := q.current.set m 0
              idx := (m + 1) % a.qs.length }, some x)
          else some ({ q with
              rings := q.rings.set m r'
              current := q.current.set m (if m = a.turn then a.used + 1 else 1)
              idx := m }, some x) := by
        unfold fetchWeight
        dsimp only
        rw [hm', hr, hc, hwm]
        dsimp only
        rw [p1]
        dsimp only
        rw [hu, hrl]
      by_cases hge : (if m = a.turn then a.used + 1 else 1) ≥ a.weights.getD m 0
      · have ea : a.advance m = { a with turn := (m + 1) % a.qs.length, used := 0 } := by
          unfold Spec.advance
          rw [if_pos hk]
          dsimp only
          rw [if_pos hge]
        rw [if_pos hge] at e
        refine ⟨r', x, xs, q.current.set m 0, hk1, hx, ?_, p2, by rw [p3, hS], by simp [hcl], ?_, ?_⟩
        · rw [e, ea]
        · intro m' hm2
          rw [ea]
          dsimp only
          rw [List.getElem?_set]
          by_cases hmm : m = m'
          · subst hmm
            rw [if_pos rfl, if_pos (by omega)]
            simp
          · rw [if_neg hmm, hcur m' hm2]
            by_cases hmt : m' = a.turn ∧ i = 0
            · exact absurd ((hk2.2 hmt.2).trans hmt.1.symm) hmm
            · rw [if_neg hmt]
              simp
        · rw [ea]; exact Nat.mod_lt _ h0
      · have ea : a.advance m = { a with turn := m, used := if m = a.turn then a.used + 1 else 1 } := by
          unfold Spec.advance
          rw [if_pos hk]
          dsimp only
          rw [if_neg hge]
        rw [if_neg hge] at e
        refine ⟨r', x, xs, q.current.set m (if m = a.turn then a.used + 1 else 1), hk1, hx, ?_, p2, by rw [p3, hS],
          by simp [hcl], ?_, ?_⟩
        · rw [e, ea]
        · intro m' hm2
          rw [ea]
          dsimp only
          rw [List.getElem?_set]
          by_cases hmm : m = m'
          · subst hmm
            rw [if_pos rfl, if_pos (by omega), if_pos rfl]
          · rw [if_neg hmm, hcur m' hm2, if_neg (Ne.symm hmm)]
            by_cases hmt : m' = a.turn ∧ i = 0
            · exact absurd ((hk2.2 hmt.2).trans hmt.1.symm) hmm
            · rw [if_neg hmt]
        · rw [ea]; exact hk1
    · have he' : (!a.isEmpty m) = false := by simpa using he
      rw [he'] at hj
      dsimp only at hj
      have hx := empty he
      rw [hx] at hR
      have e : fetchWeight q i (n + 1) = fetchWeight { q with current := q.current.set m 0 } (i + 1) n := by
        conv_lhs => unfold fetchWeight
        dsimp only
        rw [hm', hr, hc, hwm]
        dsimp only
        rw [hR.pop_nil]
        dsimp only
        rw [set_self hr]
      obtain ⟨r', x, xs, cur, q1, q2, q3, q4, q5, q6, q7, q8⟩ := ih { q with current := q.current.set m 0 } (i + 1)
        (by omega) hrl hw hwl (by simp [hcl]) hidx ht hrep (by
          intro j' hj'
          dsimp only
          rw [List.getElem?_set]
          by_cases hmm : m = j'
          · subst hmm
            rw [if_pos rfl, if_pos (by omega), if_neg (by omega)]
          · rw [if_neg hmm, hcur j' hj', if_neg (show ¬ (j' = a.turn ∧ i + 1 = 0) from fun h => by omega)]
            by_cases hmt : j' = a.turn ∧ i = 0
            · exact absurd ((hk2.2 hmt.2).trans hmt.1.symm) hmm
            · rw [if_neg hmt]) j hj
      exact ⟨r', x, xs, cur, q1, q2, by rw [e, q3], q4, q5, q6, q7, q8⟩

theorem mem_order (a : Spec) (h : a.kind = .weight → a.qs.length = 0 ∨ a.turn < a.qs.length) (i : Nat) :
    i ∈ a.order ↔ i < a.qs.length := by
  unfold Spec.order
  by_cases hk : a.kind = .weight
  · rw [if_pos hk]
    simp only [List.mem_map, List.mem_range]
    constructor
    · rintro ⟨t, h1, rfl⟩
      exact Nat.mod_lt _ (by omega)
    · intro hi
      have ht : a.turn < a.qs.length := by
        rcases h hk with h0 | h0
        · omega
        · exact h0
      refine ⟨if a.turn ≤ i then i - a.turn else i + a.qs.length - a.turn, ?_, ?_⟩
      · split_ifs <;> omega
      · split_ifs with hc
        · rw [show a.turn + (i - a.turn) = i by omega, Nat.mod_eq_of_lt hi]
        · rw [show a.turn + (i + a.qs.length - a.turn) = i + a.qs.length by omega, Nat.add_mod_right,
            Nat.mod_eq_of_lt hi]
  · rw [if_neg hk, List.mem_range]

theorem next_none (a : Spec) (h : a.kind = .weight → a.qs.length = 0 ∨ a.turn < a.qs.length) :
    a.next = none ↔ ∀ i : Nat, a.qs.getD i [] = [] := by
  unfold Spec.next
  rw [List.find?_eq_none]
  constructor
  · intro hn i
    by_cases hi : i < a.qs.length
    · exact empty (hn i ((mem_order a h i).2 hi))
    · rw [List.getD_eq_getElem?_getD, List.getElem?_eq_none (by omega)]; rfl
  · intro hn i _
    unfold Spec.isEmpty
    rw [hn i]; simp

theorem next_some {a : Spec} (h : a.kind = .weight → a.qs.length = 0 ∨ a.turn < a.qs.length) {i : Nat}
    (hn : a.next = some i) : i < a.qs.length ∧ ∃ x xs, a.qs.getD i [] = x :: xs := by
  unfold Spec.next at hn
  exact ⟨(mem_order a h i).1 (List.mem_of_find?_eq_some hn), notEmpty (List.find?_some (p := fun i => !a.isEmpty i) hn)⟩

theorem advance_same (a : Spec) (j : Nat) : (a.advance j).kind = a.kind ∧ (a.advance j).cap = a.cap ∧
    (a.advance j).weights = a.weights ∧ (a.advance j).qs = a.qs := by
  unfold Spec.advance
  by_cases hk : a.kind = .weight
  · rw [if_pos hk]
    dsimp only
    by_cases hu : (if j = a.turn then a.used + 1 else 1) ≥ a.weights.getD j 0
    · rw [if_pos hu]; exact ⟨rfl, rfl, rfl, rfl⟩
    · rw [if_neg hu]; exact ⟨rfl, rfl, rfl, rfl⟩
  · rw [if_neg hk]; exact ⟨rfl, rfl, rfl, rfl⟩

/-- `Pop`. -/
theorem Rel.pop {q : Q} {a : Spec} (R : Rel q a) :
    ∃ q', pop q = some (q', a.pop.2) ∧ Rel q' a.pop.1 ∧
      (a.pop.2 = none → ∀ i : Nat, a.qs.getD i [] = []) ∧
      (q'.token = true ∨ (q'.token = q.token ∧ ∀ i : Nat, a.pop.1.qs.getD i [] = [])) := by
  by_cases hk : a.kind = .single
  · obtain ⟨r, h1, h2, h3, h4⟩ := R.single hk
    have hpop : Verif.NetQueue.pop q = popSingle q r := by
      unfold Verif.NetQueue.pop
      rw [R.kind, hk, h1]
    rw [hpop]
    have hord : a.order = [0] := by
      unfold Spec.order
      rw [hk, R.one hk]; rfl
    have hoth : ∀ i : Nat, i ≠ 0 → ∀ l : List (List Nat), l.length = 1 → l.getD i [] = [] := by
      intro i hi l hl
      rw [List.getD_eq_getElem?_getD, List.getElem?_eq_none (by omega)]; rfl
    cases hx : a.qs.getD 0 [] with
    | nil =>
      rw [hx] at h3
      have hn : a.next = none := by
        unfold Spec.next Spec.isEmpty
        rw [hord]
        simp only [List.find?_cons, hx]; rfl
      have ea : a.pop = (a, none) := by unfold Spec.pop; rw [hn]
      have hall := (next_none a R.turn).1 hn
      rw [ea]
      refine ⟨q, ?_, R, fun _ => hall, Or.inr ⟨rfl, hall⟩⟩
      unfold popSingle
      rw [h3.pop_nil]
      show some ({ q with rings := [r] }, none) = _
      rw [← h1]
    | cons x xs =>
      rw [hx] at h3
      obtain ⟨r', p1, p2, p3⟩ := h3.pop
      have hn : a.next = some 0 := by
        unfold Spec.next Spec.isEmpty
        rw [hord]
        simp only [List.find?_cons, hx]; rfl
      have hadv : a.advance 0 = a := by
        unfold Spec.advance
        rw [if_neg (by rw [hk]; simp)]
      have ea : a.pop = ({ a with qs := a.qs.set 0 xs }, some x) := by
        unfold Spec.pop; rw [hn]; dsimp only; rw [hadv, hx]; rfl
      rw [ea]
      have hset : q.rings.set 0 r' = [r'] := by rw [h1]; rfl
      have key : ∀ tok : Bool, Rel { q with rings := [r'], token := tok } { a with qs := a.qs.set 0 xs } := by
        intro tok
        have := R.set (i := 0) (by rw [R.one hk]; omega) p2 (by rw [p3, h4]) q.total tok (fun h => absurd hk h)
        rw [hset] at this
        exact this
      have e : popSingle q r = some (if (decide (r'.len > 0)) = true then
          notify { q with rings := [r'] } else { q with rings := [r'] }, some x) := by
        unfold popSingle; rw [p1]; rfl
      refine ⟨_, e, ?_, fun h => by simp at h, ?_⟩
      · by_cases hl : r'.len > 0
        · rw [if_pos (by simpa using hl)]; exact key true
        · rw [if_neg (by simpa using hl)]; exact key q.token
      · by_cases hl : r'.len > 0
        · rw [if_pos (by simpa using hl)]; exact Or.inl rfl
        · rw [if_neg (by simpa using hl)]
          refine Or.inr ⟨rfl, fun i => ?_⟩
          have hxs : xs = [] := List.length_eq_zero_iff.1 (by rw [← p2.len]; omega)
          subst hxs
          by_cases hi : i = 0
          · subst hi
            rw [getD_set _ _ _ _ (by rw [R.one hk]; omega), if_pos rfl]
          · exact hoth i hi _ (by simp [R.one hk])
  · have hpop : Verif.NetQueue.pop q = popMulti q := by
      unfold Verif.NetQueue.pop
      rw [R.kind]
      cases h : a.kind with
      | single => exact absurd h hk
      | priority => rfl
      | weight => rfl
    rw [hpop]
    have htot := R.total hk
    by_cases ht : q.total < 1
    · have hall : ∀ i : Nat, a.qs.getD i [] = [] := sum_zero _ (by omega)
      have hn := (next_none a R.turn).2 hall
      have ea : a.pop = (a, none) := by unfold Spec.pop; rw [hn]
      rw [ea]
      refine ⟨q, ?_, R, fun _ => hall, Or.inr ⟨rfl, hall⟩⟩
      unfold popMulti; rw [if_pos ht]
    · obtain ⟨i0, hi0, hi0e⟩ := sum_pos a.qs (by omega)
      obtain ⟨j, hn⟩ : ∃ j, a.next = some j := by
        cases h : a.next with
        | some j => exact ⟨j, rfl⟩
        | none => exact absurd ((next_none a R.turn).1 h i0) hi0e
      -- what the search finds
      have key : ∃ (r' : Ring) (x : Nat) (xs cur : List Nat) (ix : Nat), j < a.qs.length ∧ a.qs.getD j [] = x :: xs ∧
          (if q.kind = .weight then fetchWeight q 0 q.rings.length else fetchPriority q 0 q.rings.length) =
            some ({ q with
              rings := q.rings.set j r'
              current := cur
              idx := ix }, some x) ∧ Rep r' xs ∧ r'.size = a.cap ∧
          (a.kind = .weight → ix = (a.advance j).turn ∧ (a.advance j).turn < a.qs.length ∧ cur.length = a.qs.length ∧
            ∀ m : Nat, m < a.qs.length → cur[m]? = some (if m = (a.advance j).turn then (a.advance j).used else 0)) := by
        by_cases hw : a.kind = .weight
        · have htl : a.turn < a.qs.length := by
            rcases R.turn hw with h | h
            · omega
            · exact h
          have hn' : ((List.range' 0 a.qs.length).map fun i => (a.turn + i) % a.qs.length).find?
              (fun i => !a.isEmpty i) = some j := by
            unfold Spec.next Spec.order at hn
            rw [if_pos hw, List.range_eq_range'] at hn
            exact hn
          obtain ⟨r', x, xs, cur, q1, q2, q3, q4, q5, q6, q7, q8⟩ := fetchWeight_spec hw a.qs.length q 0 (by omega)
            R.rlen R.weights (R.wlen hw) (R.clen hw) (R.idx hw) htl R.rep (by
              intro m hm
              rw [R.cur hw m hm]
              simp) j hn'
          refine ⟨r', x, xs, cur, _, q1, q2, ?_, q4, q5, fun _ => ⟨rfl, q8, q6, q7⟩⟩
          rw [if_pos (by rw [R.kind]; exact hw), R.rlen, q3]
        · have := fetchPriority_spec R 0 a.qs.length (by omega)
          have hn' : (List.range' 0 a.qs.length).find? (fun i => !a.isEmpty i) = some j := by
            unfold Spec.next Spec.order at hn
            rw [if_neg hw, List.range_eq_range'] at hn
            exact hn
          rw [hn'] at this
          obtain ⟨r', x, xs, q1, q2, q3, q4, q5⟩ := this
          refine ⟨r', x, xs, q.current, q.idx, q1, q2, ?_, q4, q5, fun h => absurd h hw⟩
          rw [if_neg (by rw [R.kind]; exact hw), R.rlen, q3]
      obtain ⟨r', x, xs, cur, ix, k1, k2, k3, k4, k5, k6⟩ := key
      have ea : a.pop = ({ a.advance j with qs := a.qs.set j xs }, some x) := by
        unfold Spec.pop; rw [hn]; dsimp only; rw [k2]; rfl
      have hsum : q.total - 1 = ((a.qs.set j xs).map List.length).sum := by
        have := sum_set a.qs j _ xs (getD_some k1)
        rw [k2] at this
        simp only [List.length_cons] at this
        omega
      have e : popMulti q = some (if q.total - 1 > 0 then
          ({ q with
            rings := q.rings.set j r'
            current := cur
            idx := ix
            total := q.total - 1
            token := true }) else
          ({ q with
            rings := q.rings.set j r'
            current := cur
            idx := ix
            total := q.total - 1 }), some x) := by
        unfold popMulti
        rw [if_neg ht, k3]
        rfl
      have hadv : ∀ l : List (List Nat), ({ a.advance j with qs := l } : Spec) =
          { a with qs := l, turn := (a.advance j).turn, used := (a.advance j).used } := by
        intro l
        obtain ⟨h1, h2, h3, _⟩ := advance_same a j
        dsimp only
        rw [h1, h2, h3]
      have rel : ∀ tok : Bool, Rel ({ q with
            rings := q.rings.set j r'
            current := cur
            idx := ix
            total := q.total - 1
            token := tok }) { a.advance j with qs := a.qs.set j xs } := by
        intro tok
        have r0 := R.set k1 k4 k5 (q.total - 1) tok (fun _ => hsum)
        rw [hadv]
        exact {
          kind := r0.kind
          rlen := r0.rlen
          rep := r0.rep
          one := r0.one
          total := r0.total
          weights := r0.weights
          wlen := r0.wlen
          clen := fun h => by simpa using (k6 h).2.2.1
          cur := fun h m hm => (k6 h).2.2.2 m (by simpa using hm)
          idx := fun h => (k6 h).1
          turn := fun h => Or.inr (by simpa using (k6 h).2.1) }
      rw [ea]
      refine ⟨_, e, ?_, fun h => by simp at h, ?_⟩
      · by_cases hp : q.total - 1 > 0
        · rw [if_pos hp]; exact rel true
        · rw [if_neg hp]; exact rel q.token
      · by_cases hp : q.total - 1 > 0
        · rw [if_pos hp]; exact Or.inl rfl
        · rw [if_neg hp]
          refine Or.inr ⟨rfl, fun i => ?_⟩
          exact sum_zero (a.qs.set j xs) (by omega) i

end Verif.NetQueue
