import Verif.NetQueue.Main

/-!
# The queue with weights serves everybody
-/

namespace Verif.NetQueue

/-- The sum of `f x, f (x + 1), ...`, `d` of them. -/
def S (f : Nat → Nat) (x : Nat) : Nat → Nat
  | 0 => 0
  | d + 1 => f x + S f (x + 1) d

theorem S_congr (f : Nat → Nat) (d : Nat) : ∀ x y : Nat, (∀ t, f (x + t) = f (y + t)) → S f x d = S f y d := by
  induction d with
  | zero => intro x y _; rfl
  | succ d ih =>
    intro x y h
    show f x + S f (x + 1) d = f y + S f (y + 1) d
    rw [show f x = f y from h 0, ih (x + 1) (y + 1) (fun t => by
      have := h (1 + t)
      rw [show x + 1 + t = x + (1 + t) by omega, show y + 1 + t = y + (1 + t) by omega]; exact this)]

theorem S_snoc (f : Nat → Nat) (d : Nat) : ∀ x : Nat, S f x (d + 1) = S f x d + f (x + d) := by
  induction d with
  | zero => intro x; simp [S]
  | succ d ih =>
    intro x
    show f x + S f (x + 1) (d + 1) = f x + S f (x + 1) d + f (x + (d + 1))
    rw [ih, show x + 1 + d = x + (d + 1) by omega]
    omega

theorem S_le (f : Nat → Nat) (x d : Nat) : ∀ n : Nat, S f x d ≤ S f x (d + n) := by
  intro n
  induction n with
  | zero => exact Nat.le_refl _
  | succ n ih =>
    rw [show d + (n + 1) = (d + n) + 1 by omega, S_snoc]
    omega

theorem S_drop (f : Nat → Nat) (t : Nat) : ∀ x d : Nat, t ≤ d → S f (x + t) (d - t) ≤ S f x d := by
  induction t with
  | zero => intro x d _; exact Nat.le_refl _
  | succ t ih =>
    intro x d h
    obtain ⟨d', rfl⟩ : ∃ d' : Nat, d = d' + 1 := ⟨d - 1, by omega⟩
    show _ ≤ f x + S f (x + 1) d'
    have := ih (x + 1) d' (by omega)
    rw [show x + (t + 1) = x + 1 + t by omega, show d' + 1 - (t + 1) = d' - t by omega]
    omega

theorem S_list (f : Nat → Nat) (l : List Nat) : ∀ k : Nat, (∀ x, x < l.length → f (k + x) = l.getD x 0) →
    S f k l.length = l.sum := by
  induction l with
  | nil => intro k _; rfl
  | cons y t ih =>
    intro k h
    show f k + S f (k + 1) t.length = _
    rw [List.sum_cons, ih (k + 1) (fun x hx => by
      have := h (x + 1) (by simp; omega)
      rw [show k + 1 + x = k + (x + 1) by omega, this]; simp)]
    have := h 0 (by simp)
    simp at this
    omega

theorem S_round (f : Nat → Nat) (s : Nat) (h : ∀ x, f (x + s) = f x) (x : Nat) : S f x s = S f 0 s := by
  induction x with
  | zero => rfl
  | succ x ih =>
    rw [← ih]
    have h1 := S_snoc f s x
    have h2 : S f x (s + 1) = f x + S f (x + 1) s := rfl
    have := h x
    omega

/-- How many times others can be served, at most, before the queue at distance `d`. -/
def phi (f : Nat → Nat) (turn used : Nat) : Nat → Nat
  | 0 => 0
  | d + 1 => max 1 (f turn - used) + S f (turn + 1) d

/-- The weight of the queue at an index, around the ring. -/
def Spec.w (a : Spec) (x : Nat) : Nat := a.weights.getD (x % a.qs.length) 0

/-- `a` is a queue with weights, in order. -/
structure Fine (a : Spec) : Prop where
  kind : a.kind = .weight
  turn : a.turn < a.qs.length
  wlen : a.weights.length = a.qs.length
  wpos : ∀ x, 1 ≤ a.w x

/-- What the search finds comes before everything else that has something. -/
theorem find_first (f : Nat → Nat) (p : Nat → Bool) (n : Nat) : ∀ (i j : Nat),
    ((List.range' i n).map f).find? p = some j →
    ∃ t : Nat, i ≤ t ∧ t < i + n ∧ j = f t ∧ ∀ u : Nat, i ≤ u → u < t → p (f u) = false := by
  induction n with
  | zero => intro i j h; simp at h
  | succ n ih =>
    intro i j h
    rw [List.range'_succ, List.map_cons, List.find?_cons] at h
    cases hp : p (f i) with
    | true =>
      rw [hp] at h
      simp only [Option.some.injEq] at h
      exact ⟨i, by omega, by omega, h.symm, fun u h1 h2 => by omega⟩
    | false =>
      rw [hp] at h
      obtain ⟨t, h1, h2, h3, h4⟩ := ih (i + 1) j h
      refine ⟨t, by omega, by omega, h3, fun u h5 h6 => ?_⟩
      by_cases hu : u = i
      · rw [hu]; exact hp
      · exact h4 u (by omega) h6

theorem w_mod (a : Spec) (x t : Nat) : a.w (x % a.qs.length + t) = a.w (x + t) := by
  unfold Spec.w
  rw [Nat.mod_add_mod]

theorem Fine.pop {a : Spec} (F : Fine a) {i d : Nat} (hd : d < a.qs.length) (hi : (a.turn + d) % a.qs.length = i)
    (hne : a.qs.getD i [] ≠ []) (hn : a.next ≠ some i) :
    Fine a.pop.1 ∧ a.pop.1.qs.length = a.qs.length ∧ a.pop.1.weights = a.weights ∧
    a.pop.1.qs.getD i [] = a.qs.getD i [] ∧
    ∃ d' : Nat, d' < a.qs.length ∧ (a.pop.1.turn + d') % a.qs.length = i ∧
      phi a.w a.pop.1.turn a.pop.1.used d' + 1 ≤ phi a.w a.turn a.used d := by
  have h0 : 0 < a.qs.length := by omega
  cases hnx : a.next with
  | none => exact absurd ((next_none a (fun _ => Or.inr F.turn)).1 hnx i) hne
  | some j =>
    obtain ⟨hj, x, xs, hx⟩ := next_some (fun _ => Or.inr F.turn) hnx
    have hji : j ≠ i := fun h => hn (by rw [hnx, h])
    have hnx' := hnx
    unfold Spec.next Spec.order at hnx'
    rw [if_pos F.kind, List.range_eq_range'] at hnx'
    obtain ⟨t, -, t2, t3, t4⟩ := find_first _ _ _ _ _ hnx'
    have htd : t < d := by
      by_contra hc
      by_cases htd : t = d
      · rw [htd, hi] at t3; exact hji t3
      · have := t4 d (by omega) (by omega)
        rw [hi] at this
        unfold Spec.isEmpty at this
        apply hne
        simpa using this
    have ht0 : j = a.turn ↔ t = 0 := by
      rw [t3]
      constructor
      · intro h
        exact wrap_inj F.turn (by omega) h0 (by rw [h, Nat.add_zero, Nat.mod_eq_of_lt F.turn])
      · rintro rfl; rw [Nat.add_zero, Nat.mod_eq_of_lt F.turn]
    have hwj : a.weights.getD j 0 = a.w (a.turn + t) := by unfold Spec.w; rw [← t3]
    have hqi : (a.qs.set j (a.qs.getD j []).tail).getD i [] = a.qs.getD i [] := by
      rw [getD_set _ _ _ _ hj, if_neg (Ne.symm hji)]
    have hphi : phi a.w a.turn a.used d = max 1 (a.w a.turn - a.used) + S a.w (a.turn + 1) (d - 1) := by
      obtain ⟨d', rfl⟩ : ∃ d' : Nat, d = d' + 1 := ⟨d - 1, by omega⟩
      rfl
    have hSmod : ∀ (y n : Nat), S a.w (y % a.qs.length) n = S a.w y n := fun y n =>
      S_congr a.w n _ _ (fun t => w_mod a y t)
    by_cases hu : (if j = a.turn then a.used + 1 else 1) ≥ a.weights.getD j 0
    · have ea : a.advance j = { a with turn := (j + 1) % a.qs.length, used := 0 } := by
        unfold Spec.advance
        rw [if_pos F.kind]
        dsimp only
        rw [if_pos hu]
      have ep : a.pop = ({ a with turn := (j + 1) % a.qs.length, used := 0,
                                  qs := a.qs.set j (a.qs.getD j []).tail }, (a.qs.getD j []).head?) := by
        unfold Spec.pop; rw [hnx]; dsimp only; rw [ea]
      rw [ep]
      refine ⟨⟨F.kind, by simpa using Nat.mod_lt _ h0, by simpa using F.wlen, fun x => by
        have := F.wpos x
        simpa [Spec.w] using this⟩, by simp, rfl, hqi, d - t - 1, by omega, ?_, ?_⟩
      · dsimp only
        rw [t3, Nat.mod_add_mod, Nat.add_assoc, Nat.mod_add_mod]
        rw [show a.turn + t + (1 + (d - t - 1)) = a.turn + d by omega]
        exact hi
      · dsimp only
        have hmod : (j + 1) % a.qs.length = (a.turn + t + 1) % a.qs.length := by rw [t3, Nat.mod_add_mod]
        rw [hphi]
        cases hdt : d - t - 1 with
        | zero =>
          show 0 + 1 ≤ _
          omega
        | succ d' =>
          show max 1 (a.w _ - 0) + S a.w (_ + 1) d' + 1 ≤ _
          have e1 : a.w ((j + 1) % a.qs.length) = a.w (a.turn + t + 1) := by
            rw [hmod]; have := w_mod a (a.turn + t + 1) 0; simpa using this
          have e2 : S a.w ((j + 1) % a.qs.length + 1) d' = S a.w (a.turn + t + 1 + 1) d' := by
            rw [hmod]
            exact S_congr a.w d' _ _ (fun u => by
              have := w_mod a (a.turn + t + 1) (1 + u)
              rw [show (a.turn + t + 1) % a.qs.length + 1 + u = (a.turn + t + 1) % a.qs.length + (1 + u) by omega,
                this]
              congr 1; omega)
          rw [e1, e2]
          have := F.wpos (a.turn + t + 1)
          have h3 : S a.w (a.turn + t + 1) (d' + 1) = a.w (a.turn + t + 1) + S a.w (a.turn + t + 1 + 1) d' := rfl
          have h4 := S_drop a.w t (a.turn + 1) (d - 1) (by omega)
          rw [show a.turn + 1 + t = a.turn + t + 1 by omega, show d - 1 - t = d' + 1 by omega] at h4
          omega
    · have ea : a.advance j = { a with turn := j, used := if j = a.turn then a.used + 1 else 1 } := by
        unfold Spec.advance
        rw [if_pos F.kind]
        dsimp only
        rw [if_neg hu]
      have ep : a.pop = ({ a with turn := j, used := if j = a.turn then a.used + 1 else 1,
                                  qs := a.qs.set j (a.qs.getD j []).tail }, (a.qs.getD j []).head?) := by
        unfold Spec.pop; rw [hnx]; dsimp only; rw [ea]
      rw [ep]
      refine ⟨⟨F.kind, by simpa using hj, by simpa using F.wlen, fun x => by
        have := F.wpos x
        simpa [Spec.w] using this⟩, by simp, rfl, hqi, d - t, by omega, ?_, ?_⟩
      · dsimp only
        rw [t3, Nat.mod_add_mod, show a.turn + t + (d - t) = a.turn + d by omega]
        exact hi
      · dsimp only
        rw [hphi]
        obtain ⟨d', hdt⟩ : ∃ d' : Nat, d - t = d' + 1 := ⟨d - t - 1, by omega⟩
        rw [hdt]
        show max 1 (a.w j - _) + S a.w (j + 1) d' + 1 ≤ _
        have e1 : a.w j = a.w (a.turn + t) := by
          rw [t3]; have := w_mod a (a.turn + t) 0; simpa using this
        have e2 : S a.w (j + 1) d' = S a.w (a.turn + t + 1) d' := by
          rw [t3]
          exact S_congr a.w d' _ _ (fun u => by
            have := w_mod a (a.turn + t) (1 + u)
            rw [show (a.turn + t) % a.qs.length + 1 + u = (a.turn + t) % a.qs.length + (1 + u) by omega, this]
            congr 1; omega)
        rw [hwj] at hu
        rw [e1, e2]
        by_cases hjt : j = a.turn
        · have ht := ht0.1 hjt
          subst ht
          rw [if_pos hjt] at hu ⊢
          rw [Nat.add_zero] at hu ⊢
          have hdd : d - 1 = d' := by omega
          rw [hdd]
          clear hphi e1 e2 hSmod
          generalize S a.w (a.turn + 1) d' = z
          generalize a.w a.turn = y at hu ⊢
          omega
        · rw [if_neg hjt] at hu ⊢
          have ht : 0 < t := by
            by_contra hc
            exact hjt (ht0.2 (by omega))
          have h4 := S_drop a.w (t - 1) (a.turn + 1) (d - 1) (by omega)
          rw [show a.turn + 1 + (t - 1) = a.turn + t by omega, show d - 1 - (t - 1) = d' + 1 by omega] at h4
          have h3 : S a.w (a.turn + t) (d' + 1) = a.w (a.turn + t) + S a.w (a.turn + t + 1) d' := rfl
          omega

/-- While the queue at distance `d` waits, the others are served at most `phi` times. -/
theorem wait_bound (es : List Ev) : ∀ {a : Spec}, Fine a → (∀ (k v : Int), Ev.setWeight k v ∉ es) → ∀ {i d : Nat},
    d < a.qs.length → (a.turn + d) % a.qs.length = i → a.qs.getD i [] ≠ [] → a.served i es = [] →
    pops es ≤ phi a.w a.turn a.used d := by
  induction es with
  | nil => intro a _ _ i d _ _ _ _; simp [pops]
  | cons e t ih =>
    intro a F hs i d hd hi hne hsv
    have hs' : ∀ (k v : Int), Ev.setWeight k v ∉ t := fun k v h => hs k v (List.mem_cons_of_mem _ h)
    cases e with
    | push c idx =>
      have hsv' : Spec.served (a.push c idx).1 i t = [] := hsv
      have hp : pops (.push c idx :: t) = pops t := by simp [pops]
      rw [hp]
      cases htg : a.target idx with
      | none =>
        have ea : a.push c idx = (a, false) := by unfold Spec.push; rw [htg]
        rw [ea] at hsv'
        exact ih F hs' hd hi hne hsv'
      | some j =>
        by_cases hl : (a.qs.getD j []).length < a.cap
        · have ea : a.push c idx = ({ a with qs := a.qs.set j (a.qs.getD j [] ++ [c]) }, true) := by
            unfold Spec.push; rw [htg]; dsimp only; rw [if_pos hl]
          rw [ea] at hsv'
          have hj : j < a.qs.length := by
            unfold Spec.target at htg
            rw [if_neg (by rw [F.kind]; simp)] at htg
            split_ifs at htg with c1
            simp only [Option.some.injEq] at htg
            omega
          have F' : Fine { a with qs := a.qs.set j (a.qs.getD j [] ++ [c]) } :=
            ⟨F.kind, by simpa using F.turn, by simpa using F.wlen, fun x => by
              have := F.wpos x
              simpa [Spec.w] using this⟩
          have := ih F' hs' (i := i) (d := d) (by simpa using hd) (by simpa using hi) (by
            dsimp only
            rw [getD_set _ _ _ _ hj]
            split_ifs
            · simp
            · exact hne) hsv'
          have hw : Spec.w { a with qs := a.qs.set j (a.qs.getD j [] ++ [c]) } = a.w := by
            funext x; simp [Spec.w]
          rw [hw] at this
          exact this
        · have ea : a.push c idx = (a, false) := by
            unfold Spec.push; rw [htg]; dsimp only; rw [if_neg hl]
          rw [ea] at hsv'
          exact ih F hs' hd hi hne hsv'
    | pop =>
      have hsv' : (if a.next = some i then a.pop.2.toList else []) ++ Spec.served a.pop.1 i t = [] := hsv
      have hn : a.next ≠ some i := by
        intro hn
        rw [if_pos hn] at hsv'
        obtain ⟨hj, x, xs, hx⟩ := next_some (fun _ => Or.inr F.turn) hn
        have : a.pop.2 = some x := by unfold Spec.pop; rw [hn]; dsimp only; rw [hx]; rfl
        rw [this] at hsv'
        simp at hsv'
      rw [if_neg hn, List.nil_append] at hsv'
      obtain ⟨F', h1, h2, h3, d', h4, h5, h6⟩ := F.pop hd hi hne hn
      have := ih F' hs' (i := i) (d := d') (by rw [h1]; exact h4) (by rw [h1]; exact h5) (by rw [h3]; exact hne) hsv'
      have hw : Spec.w a.pop.1 = a.w := by
        funext x; unfold Spec.w; rw [h1, h2]
      rw [hw] at this
      have hp : pops (.pop :: t) = pops t + 1 := by simp [pops]
      rw [hp]
      omega
    | wait =>
      have hp : pops (.wait :: t) = pops t := by simp [pops]
      rw [hp]
      exact ih F hs' hd hi hne hsv
    | setWeight k v => exact absurd (List.mem_cons_self ..) (hs k v)

theorem phi_bound {a : Spec} (F : Fine a) {i d : Nat} (hd : d < a.qs.length) (hi : (a.turn + d) % a.qs.length = i) :
    phi a.w a.turn a.used d + a.weights.getD i 0 ≤ a.weights.sum := by
  have hsum : S a.w 0 a.qs.length = a.weights.sum := by
    rw [← F.wlen]
    apply S_list
    intro x hx
    unfold Spec.w
    rw [Nat.zero_add, Nat.mod_eq_of_lt (by rw [← F.wlen]; exact hx)]
  have hround := S_round a.w a.qs.length (fun x => by unfold Spec.w; rw [Nat.add_mod_right]) a.turn
  have hw : a.w (a.turn + d) = a.weights.getD i 0 := by unfold Spec.w; rw [hi]
  have h1 : phi a.w a.turn a.used d ≤ S a.w a.turn d := by
    cases d with
    | zero => exact Nat.le_refl _
    | succ d =>
      show max 1 _ + S a.w (a.turn + 1) d ≤ a.w a.turn + S a.w (a.turn + 1) d
      have := F.wpos a.turn
      omega
  have h2 := S_snoc a.w d a.turn
  have h3 := S_le a.w a.turn (d + 1) (a.qs.length - (d + 1))
  rw [show d + 1 + (a.qs.length - (d + 1)) = a.qs.length by omega] at h3
  omega

theorem Run.fine {size cnt : Nat} {q : Q} {a : Spec} (R : Run .weight size cnt q a) (h0 : 0 < cnt) : Fine a := by
  obtain ⟨s1, s2, s3, -⟩ := sizes R
  rw [if_neg (by simp)] at s3
  have hpos : ∀ x ∈ a.weights, 1 ≤ x := by
    clear * - R
    induction R with
    | init => intro x hx; simp [Spec.new] at hx; omega
    | @step q q' a o e _ _ ih =>
      cases e with
      | push c i =>
        have : (a.push c i).1.weights = a.weights := by
          unfold Spec.push; split
          · rfl
          · split <;> rfl
        show ∀ x ∈ (a.push c i).1.weights, 1 ≤ x
        rw [this]; exact ih
      | pop =>
        have : a.pop.1.weights = a.weights := by
          unfold Spec.pop; split
          · rfl
          · exact (advance_same a _).2.2.1
        show ∀ x ∈ a.pop.1.weights, 1 ≤ x
        rw [this]; exact ih
      | wait => exact ih
      | setWeight i w =>
        show ∀ x ∈ (a.setWeight i w).1.weights, 1 ≤ x
        unfold Spec.setWeight
        split
        · rename_i h
          intro x hx
          rcases List.mem_or_eq_of_mem_set hx with h' | h'
          · exact ih x h'
          · omega
        · exact ih
  have ht : a.turn < a.qs.length := by
    rcases R.rel.turn s1 with h | h
    · omega
    · exact h
  have hwl := R.rel.wlen s1
  refine ⟨s1, ht, hwl, fun x => ?_⟩
  unfold Spec.w
  have hx : x % a.qs.length < a.weights.length := by rw [hwl]; exact Nat.mod_lt _ (by omega)
  rw [List.getD_eq_getElem?_getD, List.getElem?_eq_getElem hx]
  exact hpos _ (List.getElem_mem hx)

/-- A queue with something in it waits for at most as many calls of `Pop` as the weights of the other queues together:
after more of them, it was served. Pushes, to all queues, can come in between. -/
theorem fair {size cnt : Nat} {q : Q} {a : Spec} (R : Run .weight size cnt q a) {i : Nat} (hi : i < cnt)
    (hne : a.qs.getD i [] ≠ []) (es : List Ev) (hs : ∀ (k v : Int), Ev.setWeight k v ∉ es)
    (hp : a.weights.sum < pops es + a.weights.getD i 0) : a.served i es ≠ [] := by
  intro hsv
  have F := R.fine (by omega)
  have hlen : a.qs.length = cnt := by
    have := (sizes R).2.2.1
    rw [if_neg (by simp)] at this
    exact this
  have hm : i ∈ a.order := (mem_order a (fun _ => Or.inr F.turn) i).2 (by omega)
  unfold Spec.order at hm
  rw [if_pos F.kind] at hm
  obtain ⟨d, hd, hdi⟩ := List.mem_map.1 hm
  rw [List.mem_range] at hd
  have h1 := wait_bound es F hs hd hdi hne hsv
  have h2 := phi_bound F hd hdi
  omega

/-- `fifo` for the queues of a run. -/
theorem fifo_run {kind : Kind} {size cnt : Nat} {q : Q} {a : Spec} (R : Run kind size cnt q a) (es : List Ev) {i : Nat}
    (hi : i < a.qs.length) : a.qs.getD i [] ++ a.accepted i es = a.served i es ++ (a.run es).qs.getD i [] :=
  fifo es R.rel.turn R.rel.one i hi

/-- A full turn: a queue whose turn begins gives as many contexts in a row as its weight, if it has them. -/
theorem full_turn {size cnt : Nat} {q : Q} {a : Spec} (R : Run .weight size cnt q a) (h0 : 0 < cnt) (hu : a.used = 0) :
    ∀ n : Nat, n ≤ a.weights.getD a.turn 0 → n ≤ (a.qs.getD a.turn []).length →
      a.served a.turn (List.replicate n .pop) = (a.qs.getD a.turn []).take n ∧
      (n < a.weights.getD a.turn 0 → (a.run (List.replicate n .pop)).turn = a.turn) ∧
      (n = a.weights.getD a.turn 0 →
        (a.run (List.replicate n .pop)).turn = (a.turn + 1) % cnt ∧ (a.run (List.replicate n .pop)).used = 0) := by
  have F := R.fine h0
  have hlen : a.qs.length = cnt := by
    have := (sizes R).2.2.1
    rw [if_neg (by simp)] at this
    exact this
  clear R
  -- from any number used
  have key : ∀ (n : Nat) (a : Spec), Fine a → a.qs.length = cnt → a.used + n ≤ a.weights.getD a.turn 0 →
      n ≤ (a.qs.getD a.turn []).length →
      a.served a.turn (List.replicate n .pop) = (a.qs.getD a.turn []).take n ∧
      (a.used + n < a.weights.getD a.turn 0 → (a.run (List.replicate n .pop)).turn = a.turn) ∧
      (0 < n → a.used + n = a.weights.getD a.turn 0 →
        (a.run (List.replicate n .pop)).turn = (a.turn + 1) % cnt ∧ (a.run (List.replicate n .pop)).used = 0) := by
    intro n
    induction n with
    | zero => intro a _ _ _ _; exact ⟨by simp [Spec.served], fun _ => rfl, fun h => by omega⟩
    | succ n ih =>
      intro a F hl h1 h2
      obtain ⟨x, xs, hx⟩ : ∃ x xs, a.qs.getD a.turn [] = x :: xs := by
        cases hq : a.qs.getD a.turn [] with
        | nil => rw [hq] at h2; simp at h2
        | cons x xs => exact ⟨x, xs, rfl⟩
      have hnx : a.next = some a.turn := by
        unfold Spec.next Spec.order
        rw [if_pos F.kind]
        obtain ⟨m, hm⟩ : ∃ m : Nat, a.qs.length = m + 1 := ⟨a.qs.length - 1, by have := F.turn; omega⟩
        have hr : List.range a.qs.length = 0 :: List.range' 1 m := by
          rw [List.range_eq_range', hm, List.range'_succ]
        rw [hr, List.map_cons, List.find?_cons, Nat.add_zero, Nat.mod_eq_of_lt F.turn]
        have : (!a.isEmpty a.turn) = true := by unfold Spec.isEmpty; rw [hx]; rfl
        rw [this]
      rw [List.replicate_succ]
      have e1 : a.served a.turn (.pop :: List.replicate n .pop) =
          a.pop.2.toList ++ Spec.served a.pop.1 a.turn (List.replicate n .pop) := by
        show (if a.next = some a.turn then _ else _) ++ _ = _
        rw [if_pos hnx]; rfl
      have e2 : a.run (.pop :: List.replicate n .pop) = Spec.run a.pop.1 (List.replicate n .pop) := rfl
      rw [e1, e2]
      have hj := F.turn
      by_cases hu : a.used + 1 ≥ a.weights.getD a.turn 0
      · have ea : a.advance a.turn = { a with turn := (a.turn + 1) % a.qs.length, used := 0 } := by
          unfold Spec.advance
          rw [if_pos F.kind]
          dsimp only
          rw [if_pos rfl, if_pos hu]
        have hn0 : n = 0 := by omega
        subst hn0
        have ep : a.pop = ({ a with turn := (a.turn + 1) % a.qs.length, used := 0,
                                    qs := a.qs.set a.turn xs }, some x) := by
          unfold Spec.pop; rw [hnx]; dsimp only; rw [ea, hx]; rfl
        rw [ep, hx]
        refine ⟨by simp [Spec.served], fun h => by omega, fun _ _ => ⟨?_, rfl⟩⟩
        show (a.turn + 1) % a.qs.length = _
        rw [hl]
      · have ea : a.advance a.turn = { a with turn := a.turn, used := a.used + 1 } := by
          unfold Spec.advance
          rw [if_pos F.kind]
          dsimp only
          rw [if_pos rfl, if_neg hu]
        have ep : a.pop = ({ a with used := a.used + 1, qs := a.qs.set a.turn xs }, some x) := by
          unfold Spec.pop; rw [hnx]; dsimp only; rw [ea, hx]; rfl
        have F' : Fine { a with used := a.used + 1, qs := a.qs.set a.turn xs } :=
          ⟨F.kind, by simpa using F.turn, by simpa using F.wlen, fun x => by
            have := F.wpos x
            simpa [Spec.w] using this⟩
        have hq : (a.qs.set a.turn xs).getD a.turn [] = xs := by rw [getD_set _ _ _ _ hj, if_pos rfl]
        rw [hx] at h2
        simp only [List.length_cons] at h2
        obtain ⟨k1, k2, k3⟩ := ih _ F' (by simpa using hl) (by dsimp only; omega) (by dsimp only; rw [hq]; omega)
        rw [ep]
        dsimp only at k1 k2 k3 ⊢
        rw [hq] at k1
        rw [k1, hx]
        refine ⟨rfl, fun h => k2 (by omega), fun _ h => ?_⟩
        have hn : 0 < n := by omega
        exact k3 hn (by omega)
  intro n h1 h2
  obtain ⟨k1, k2, k3⟩ := key n a F hlen (by omega) h2
  refine ⟨k1, fun h => k2 (by omega), fun h => k3 ?_ (by omega)⟩
  have := F.wpos a.turn
  unfold Spec.w at this
  rw [Nat.mod_eq_of_lt F.turn] at this
  omega

end Verif.NetQueue
