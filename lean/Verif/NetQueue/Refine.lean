import Verif.NetQueue.Ring

/-!
# The queues do what they should
-/

namespace Verif.NetQueue

theorem sum_set (l : List (List Nat)) (i : Nat) (xs ys : List Nat) (h : l[i]? = some xs) :
    ((l.set i ys).map List.length).sum + xs.length = (l.map List.length).sum + ys.length := by
  induction l generalizing i with
  | nil => simp at h
  | cons z t ih =>
    cases i with
    | zero =>
      simp only [List.getElem?_cons_zero, Option.some.injEq] at h
      subst h
      simp only [List.set_cons_zero, List.map_cons, List.sum_cons]
      omega
    | succ i =>
      simp only [List.getElem?_cons_succ] at h
      have := ih i h
      simp only [List.set_cons_succ, List.map_cons, List.sum_cons]
      omega

theorem sum_zero (l : List (List Nat)) (h : (l.map List.length).sum = 0) (i : Nat) : l.getD i [] = [] := by
  induction l generalizing i with
  | nil => simp
  | cons z t ih =>
    simp only [List.map_cons, List.sum_cons] at h
    cases i with
    | zero =>
      have : z = [] := List.length_eq_zero_iff.1 (by omega)
      simpa using this
    | succ i =>
      have := ih (by omega) i
      simpa using this

theorem sum_pos (l : List (List Nat)) (h : 0 < (l.map List.length).sum) : ∃ i, i < l.length ∧ l.getD i [] ≠ [] := by
  induction l with
  | nil => simp at h
  | cons z t ih =>
    by_cases hz : z = []
    · subst hz
      obtain ⟨i, h1, h2⟩ := ih (by simpa using h)
      exact ⟨i + 1, by simp; omega, by simpa using h2⟩
    · exact ⟨0, by simp, by simpa using hz⟩

structure Rel (q : Q) (a : Spec) : Prop where
  kind : q.kind = a.kind
  rlen : q.rings.length = a.qs.length
  rep : ∀ (i : Nat) (r : Ring), q.rings[i]? = some r → Rep r (a.qs.getD i []) ∧ r.size = a.cap
  one : a.kind = .single → a.qs.length = 1
  total : a.kind ≠ .single → q.total = (a.qs.map List.length).sum
  weights : q.weights = a.weights
  wlen : a.kind = .weight → a.weights.length = a.qs.length
  clen : a.kind = .weight → q.current.length = a.qs.length
  cur : a.kind = .weight → ∀ j : Nat, j < a.qs.length → q.current[j]? = some (if j = a.turn then a.used else 0)
  idx : a.kind = .weight → q.idx = a.turn
  turn : a.kind = .weight → a.qs.length = 0 ∨ a.turn < a.qs.length

theorem Rel.init (kind : Kind) (size cnt : Nat) : Rel (Q.new kind size cnt) (Spec.new kind size cnt) where
  kind := rfl
  rlen := by cases kind <;> simp [Q.new, Spec.new]
  rep := fun i r h => by
    have h1 : r = Ring.new size := by
      cases kind
      · simp only [Q.new, if_true] at h
        cases i with
        | zero => simpa using h.symm
        | succ i => simp at h
      · simp only [Q.new] at h
        rw [if_neg (by simp), List.getElem?_replicate] at h
        split_ifs at h
        simpa using h.symm
      · simp only [Q.new] at h
        rw [if_neg (by simp), List.getElem?_replicate] at h
        split_ifs at h
        simpa using h.symm
    have h2 : (Spec.new kind size cnt).qs.getD i [] = [] := by
      simp only [Spec.new, List.getD_eq_getElem?_getD, List.getElem?_replicate]
      split_ifs <;> rfl
    rw [h1, h2]
    exact ⟨Rep.new size, rfl⟩
  one := fun h => by
    have h' : kind = .single := h
    subst h'
    rfl
  total := fun _ => by simp [Q.new, Spec.new]
  weights := rfl
  wlen := fun h => by
    have h' : kind = .weight := h
    subst h'
    simp [Spec.new]
  clen := fun h => by
    have h' : kind = .weight := h
    subst h'
    simp [Spec.new, Q.new]
  cur := fun h j hj => by
    have h' : kind = .weight := h
    subst h'
    simp only [Spec.new] at hj
    rw [if_neg (by simp), List.length_replicate] at hj
    simp only [Q.new, if_true, Spec.new, List.getElem?_replicate]
    rw [if_pos hj]
    simp
  idx := fun _ => rfl
  turn := fun _ => by
    show _ ∨ 0 < _
    omega

theorem getD_some {l : List (List Nat)} {i : Nat} (h : i < l.length) : l[i]? = some (l.getD i []) := by
  rw [List.getD_eq_getElem?_getD, List.getElem?_eq_getElem h]
  rfl

theorem getD_set (l : List (List Nat)) (i j : Nat) (y : List Nat) (h : i < l.length) :
    (l.set i y).getD j [] = if j = i then y else l.getD j [] := by
  rw [List.getD_eq_getElem?_getD, List.getElem?_set, List.getD_eq_getElem?_getD]
  by_cases hj : i = j
  · subst hj; rw [if_pos rfl, if_pos h, if_pos rfl]; rfl
  · rw [if_neg hj, if_neg (Ne.symm hj)]

/-- One ring of the queue changes. -/
theorem Rel.set {q : Q} {a : Spec} (R : Rel q a) {i : Nat} (hi : i < a.qs.length) {r' : Ring} {ys : List Nat}
    (hr : Rep r' ys) (hs : r'.size = a.cap) (t : Nat) (tok : Bool)
    (ht : a.kind ≠ .single → t = ((a.qs.set i ys).map List.length).sum) :
    Rel { q with rings := q.rings.set i r', total := t, token := tok } { a with qs := a.qs.set i ys } where
  kind := R.kind
  rlen := by simp [R.rlen]
  rep := fun j r h => by
    dsimp only at h ⊢
    rw [List.getElem?_set] at h
    rw [getD_set _ _ _ _ hi]
    by_cases hj : i = j
    · subst hj
      rw [if_pos rfl] at h
      rw [if_pos rfl]
      split_ifs at h
      simp only [Option.some.injEq] at h
      subst h
      exact ⟨hr, hs⟩
    · rw [if_neg hj] at h
      rw [if_neg (Ne.symm hj)]
      exact R.rep j r h
  one := fun h => by simpa using R.one h
  total := ht
  weights := R.weights
  wlen := fun h => by simpa using R.wlen h
  clen := fun h => by simpa using R.clen h
  cur := fun h j hj => R.cur h j (by simpa using hj)
  idx := R.idx
  turn := fun h => by simpa using R.turn h

theorem Rel.ring {q : Q} {a : Spec} (R : Rel q a) {i : Nat} (hi : i < a.qs.length) :
    ∃ r, q.rings[i]? = some r ∧ Rep r (a.qs.getD i []) ∧ r.size = a.cap := by
  have hi' : i < q.rings.length := by rw [R.rlen]; exact hi
  exact ⟨q.rings[i], List.getElem?_eq_getElem hi', R.rep i _ (List.getElem?_eq_getElem hi')⟩

theorem Rel.single {q : Q} {a : Spec} (R : Rel q a) (h : a.kind = .single) :
    ∃ r, q.rings = [r] ∧ a.qs = [a.qs.getD 0 []] ∧ Rep r (a.qs.getD 0 []) ∧ r.size = a.cap := by
  have h1 := R.one h
  obtain ⟨r, hr, h2, h3⟩ := R.ring (i := 0) (by omega)
  refine ⟨r, ?_, ?_, h2, h3⟩
  · have := R.rlen
    rw [h1] at this
    obtain ⟨x, hx⟩ := List.length_eq_one_iff.1 this
    rw [hx] at hr ⊢
    simp at hr
    rw [hr]
  · obtain ⟨x, hx⟩ := List.length_eq_one_iff.1 h1
    rw [hx]; rfl

/-- `Push`. -/
theorem Rel.push {q : Q} {a : Spec} (R : Rel q a) (c : Nat) (idx : Int) :
    ∃ q', push q c idx = some (q', (a.push c idx).2) ∧ Rel q' (a.push c idx).1 ∧
      ((q'.token = true) ∨ (q'.token = q.token ∧
        ((a.push c idx).2 = false ∨ ∃ i, a.qs.getD i [] ≠ []))) := by
  by_cases hk : a.kind = .single
  · obtain ⟨r, h1, h2, h3, h4⟩ := R.single hk
    obtain ⟨r', p1, p2, p3⟩ := h3.push_if c
    have hpush : Verif.NetQueue.push q c idx = pushSingle q r c := by
      unfold Verif.NetQueue.push
      rw [R.kind, hk, h1]
    have htg : a.target idx = some 0 := by unfold Spec.target; rw [if_pos hk]
    rw [h4] at p1 p3
    have ea : a.push c idx = if (a.qs.getD 0 []).length < a.cap then
        ({ a with qs := a.qs.set 0 (a.qs.getD 0 [] ++ [c]) }, true) else (a, false) := by
      unfold Spec.push; rw [htg]
    have e : pushSingle q r c = some (if decide ((a.qs.getD 0 []).length < a.cap) && r'.len == 1 then
        notify { q with rings := [r'] } else { q with rings := [r'] }, decide ((a.qs.getD 0 []).length < a.cap)) := by
      unfold pushSingle; rw [p1]
    rw [hpush, e, ea]
    have hset : q.rings.set 0 r' = [r'] := by rw [h1]; rfl
    by_cases hl : (a.qs.getD 0 []).length < a.cap
    · rw [if_pos hl] at p3 ⊢
      have hlen : r'.len = (a.qs.getD 0 []).length + 1 := by rw [p3.len]; simp
      have key : ∀ tok : Bool, Rel { q with rings := [r'], token := tok }
          { a with qs := a.qs.set 0 (a.qs.getD 0 [] ++ [c]) } := by
        intro tok
        have := R.set (i := 0) (by rw [R.one hk]; omega) p3 (by rw [p2, h4]) q.total tok (fun h => absurd hk h)
        rw [hset] at this
        exact this
      refine ⟨_, by rw [decide_eq_true hl], ?_, ?_⟩
      · by_cases ho : r'.len = 1
        · simp only [ho, decide_eq_true hl]
          exact key true
        · have : (decide ((a.qs.getD 0 []).length < a.cap) && r'.len == 1) = false := by simp [ho]
          rw [decide_eq_true hl] at this
          rw [this]
          exact key q.token
      · by_cases ho : r'.len = 1
        · simp [ho, notify]
        · have : (true && r'.len == 1) = false := by simp [ho]
          rw [this]
          refine Or.inr ⟨rfl, Or.inr ⟨0, fun h => ho ?_⟩⟩
          rw [hlen, h]; rfl
    · rw [if_neg hl] at p3 ⊢
      refine ⟨_, by rw [decide_eq_false hl], ?_, ?_⟩
      · have : (false && r'.len == 1) = false := rfl
        rw [this]
        have := R.set (i := 0) (by rw [R.one hk]; omega) p3 (by rw [p2, h4]) q.total q.token (fun h => absurd hk h)
        rw [hset, show a.qs.set 0 (a.qs.getD 0 []) = a.qs by rw [h2]; rfl] at this
        exact this
      · exact Or.inr ⟨rfl, Or.inl rfl⟩
  · have hpush : Verif.NetQueue.push q c idx = pushMulti q c idx := by
      unfold Verif.NetQueue.push
      rw [R.kind]
      cases h : a.kind with
      | single => exact absurd h hk
      | priority => rfl
      | weight => rfl
    rw [hpush]
    by_cases hi : 0 ≤ idx ∧ idx < a.qs.length
    · have htg : a.target idx = some idx.toNat := by unfold Spec.target; rw [if_neg hk, if_pos hi]
      have hil : idx.toNat < a.qs.length := by omega
      obtain ⟨r, h1, h3, h4⟩ := R.ring hil
      obtain ⟨r', p1, p2, p3⟩ := h3.push_if c
      rw [h4] at p1 p3
      have ea : a.push c idx = if (a.qs.getD idx.toNat []).length < a.cap then
          ({ a with qs := a.qs.set idx.toNat (a.qs.getD idx.toNat [] ++ [c]) }, true) else (a, false) := by
        unfold Spec.push; rw [htg]
      have hneg : ¬ (idx < 0 ∨ idx ≥ q.rings.length) := by rw [R.rlen]; omega
      by_cases hl : (a.qs.getD idx.toNat []).length < a.cap
      · rw [decide_eq_true hl] at p1
        rw [if_pos hl] at p3
        have e : pushMulti q c idx = some (notify { q with
            rings := q.rings.set idx.toNat r'
            total := q.total + 1 }, true) := by
          unfold pushMulti; rw [if_neg hneg, h1]; dsimp only; rw [p1]
        rw [e, ea, if_pos hl]
        refine ⟨_, rfl, ?_, Or.inl rfl⟩
        refine R.set hil p3 (by rw [p2, h4]) (q.total + 1) true fun _ => ?_
        have := sum_set a.qs idx.toNat _ (a.qs.getD idx.toNat [] ++ [c]) (getD_some hil)
        rw [R.total hk]
        simp only [List.length_append, List.length_singleton] at this
        omega
      · rw [decide_eq_false hl] at p1
        have e : pushMulti q c idx = some (q, false) := by
          unfold pushMulti; rw [if_neg hneg, h1]; dsimp only; rw [p1]
        rw [e, ea, if_neg hl]
        exact ⟨q, rfl, R, Or.inr ⟨rfl, Or.inl rfl⟩⟩
    · have htg : a.target idx = none := by unfold Spec.target; rw [if_neg hk, if_neg hi]
      have ea : a.push c idx = (a, false) := by unfold Spec.push; rw [htg]
      have e : pushMulti q c idx = some (q, false) := by
        unfold pushMulti
        rw [if_pos (by rw [R.rlen]; omega)]
      rw [e, ea]
      exact ⟨q, rfl, R, Or.inr ⟨rfl, Or.inl rfl⟩⟩

end Verif.NetQueue
