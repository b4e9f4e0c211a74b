import Verif.Batch.Model

/-! # C16: call frames of a transaction batch -/
namespace Verif.Batch

variable {K V : Type}

/-! ### Specification: a stack of complete snapshots -/

/-- Change one entry. -/
def set [DecidableEq K] (m : K → Option V) (k : K) (v : V) : K → Option V := fun x => if x = k then some v else m x

/-- The state as seen in each open call, the current one first. Entering copies the current state, leaving
replaces the caller's state by the current one, reverting goes back to the caller's state. -/
def specStep [DecidableEq K] : List (K → Option V) → Op K V → Option (List (K → Option V))
  | m :: ms, .set k v => some (set m k v :: ms)
  | m :: ms, .enter => some (m :: m :: ms)
  | m :: _ :: ms, .leave => some (m :: ms)
  | _ :: m :: ms, .revert => some (m :: m :: ms)
  | [_], .revert => some [fun _ => none]
  | _, _ => none

def specRun [DecidableEq K] : List (K → Option V) → List (Op K V) → Option (List (K → Option V))
  | ms, [] => some ms
  | ms, o :: l => match specStep ms o with
    | none => none
    | some ms => specRun ms l

/-- Sequences in which every call entered is left again. -/
inductive Balanced : List (Op K V) → Prop
  | nil : Balanced []
  | set (k : K) (v : V) {l : List (Op K V)} : Balanced l → Balanced (.set k v :: l)
  | call {p l : List (Op K V)} : Balanced p → Balanced l → Balanced (.enter :: p ++ .leave :: l)
  | revert {l : List (Op K V)} : Balanced l → Balanced (.revert :: l)

/-- The same without `revert` outside of nested calls. -/
inductive NoRevert : List (Op K V) → Prop
  | nil : NoRevert []
  | set (k : K) (v : V) {l : List (Op K V)} : NoRevert l → NoRevert (.set k v :: l)
  | call {p l : List (Op K V)} : Balanced p → NoRevert l → NoRevert (.enter :: p ++ .leave :: l)

variable [DecidableEq K]

/-! ### Refinement -/

theorem get_put (k x : K) (v : V) : ∀ l : List (K × V), get x (put k v l) = if x = k then some v else get x l
  | [] => by
    simp only [put, get, eq_comm]
  | (k', v') :: l => by
    rw [put]
    by_cases h : k' = k
    · rw [if_pos h, get, get]
      subst h
      by_cases hx : k' = x
      · rw [if_pos hx, if_pos hx.symm]
      · rw [if_neg hx, if_neg (fun h => hx h.symm), if_neg hx]
    · rw [if_neg h, get, get, get_put k x v l]
      by_cases hx : k' = x
      · rw [if_pos hx, if_pos hx, if_neg (fun h' => h (hx.trans h'))]
      · rw [if_neg hx, if_neg hx]

theorem mem_of_get {k : K} {v : V} : ∀ {l : List (K × V)}, get k l = some v → k ∈ l.map Prod.fst
  | (k', v') :: l, h => by
    rw [get] at h
    by_cases hk : k' = k
    · simp [hk]
    · rw [if_neg hk] at h
      exact List.mem_cons_of_mem _ (mem_of_get h)

theorem get_none {k : K} : ∀ {l : List (K × V)}, k ∉ l.map Prod.fst → get k l = none
  | [], _ => rfl
  | (k', v') :: l, h => by
    simp only [List.map_cons, List.mem_cons, not_or] at h
    rw [get, if_neg (fun h' => h.1 h'.symm), get_none h.2]

theorem get_update : ∀ (u d : List (K × V)) (x : K), (u.map Prod.fst).Nodup →
    get x (update d u) = match get x u with
      | some v => some v
      | none => get x d
  | [], d, x, _ => rfl
  | (k, v) :: u, d, x, hn => by
    simp only [List.map_cons, List.nodup_cons] at hn
    rw [update, List.foldl_cons]
    have ih := get_update u (put k v d) x hn.2
    rw [update] at ih
    rw [ih, get]
    by_cases hx : k = x
    · rw [if_pos hx]
      subst hx
      rw [get_none hn.1, get_put]
      simp
    · rw [if_neg hx, get_put, if_neg (fun h => hx h.symm)]

theorem put_keys (k : K) (v : V) : ∀ l : List (K × V), (put k v l).map Prod.fst =
    if k ∈ l.map Prod.fst then l.map Prod.fst else l.map Prod.fst ++ [k]
  | [] => by simp [put]
  | (k', v') :: l => by
    rw [put]
    by_cases h : k' = k
    · subst h; simp
    · rw [if_neg h, List.map_cons, put_keys k v l]
      by_cases hm : k ∈ l.map Prod.fst
      · have : k ∈ ((k', v') :: l).map Prod.fst := by simp only [List.map_cons]; exact List.mem_cons_of_mem _ hm
        rw [if_pos hm, if_pos this]; rfl
      · have : k ∉ ((k', v') :: l).map Prod.fst := by
          simp only [List.map_cons, List.mem_cons, not_or]; exact ⟨fun h' => h h'.symm, hm⟩
        rw [if_neg hm, if_neg this]; rfl

theorem put_nodup {k : K} {v : V} {l : List (K × V)} (h : (l.map Prod.fst).Nodup) :
    ((put k v l).map Prod.fst).Nodup := by
  rw [put_keys]
  by_cases hm : k ∈ l.map Prod.fst
  · rw [if_pos hm]; exact h
  · rw [if_neg hm, List.nodup_append]
    refine ⟨h, by simp, ?_⟩
    intro a ha b hb
    simp only [List.mem_singleton] at hb
    subst hb
    rintro rfl
    exact hm ha

theorem update_nodup : ∀ {u d : List (K × V)}, (d.map Prod.fst).Nodup → ((update d u).map Prod.fst).Nodup
  | [], _, h => h
  | _ :: u, _, h => update_nodup (u := u) (put_nodup h)

/-- Keys of every frame are distinct. -/
def Ok (fs : Frames K V) : Prop := ∀ f ∈ fs, (f.map Prod.fst).Nodup

/-- The snapshots a state stands for. -/
def abs : Frames K V → List (K → Option V)
  | [] => []
  | f :: fs => read (f :: fs) :: abs fs

theorem abs_cons (f : List (K × V)) (fs : Frames K V) : abs (f :: fs) = read (f :: fs) :: abs fs := rfl

theorem abs_length : ∀ fs : Frames K V, (abs fs).length = fs.length
  | [] => rfl
  | _ :: fs => by rw [abs_cons, List.length_cons, List.length_cons, abs_length fs]

theorem read_nil_cons (fs : Frames K V) : read ([] :: fs) = read fs := rfl

theorem step_refines {fs : Frames K V} (ho : Ok fs) {o : Op K V} {ms : List (K → Option V)}
    (h : specStep (abs fs) o = some ms) : ∃ fs', step fs o = some fs' ∧ abs fs' = ms ∧ Ok fs' := by
  cases fs with
  | nil => cases o <;> simp [abs, specStep] at h
  | cons f fs =>
    have hf := ho f (by simp)
    cases o with
    | set k v =>
      simp only [abs_cons, specStep, Option.some.injEq] at h
      subst h
      refine ⟨_, rfl, ?_, ?_⟩
      · rw [abs_cons]
        congr 1
        funext x
        rw [read, get_put, set]
        by_cases hx : x = k
        · simp [hx]
        · simp only [if_neg hx]; rfl
      · intro g hg
        rcases List.mem_cons.mp hg with rfl | hg
        · exact put_nodup hf
        · exact ho g (by simp [hg])
    | enter =>
      simp only [abs_cons, specStep, Option.some.injEq] at h
      subst h
      refine ⟨_, rfl, rfl, ?_⟩
      intro g hg
      rcases List.mem_cons.mp hg with rfl | hg
      · simp
      · exact ho g hg
    | revert =>
      refine ⟨_, rfl, ?_, ?_⟩
      · cases fs with
        | nil =>
          simp only [abs_cons, abs, specStep, Option.some.injEq] at h
          subst h; rfl
        | cons g gs =>
          simp only [abs_cons, specStep, Option.some.injEq] at h
          subst h; rfl
      · intro g hg
        rcases List.mem_cons.mp hg with rfl | hg
        · simp
        · exact ho g (by simp [hg])
    | leave =>
      cases fs with
      | nil => simp [abs_cons, abs, specStep] at h
      | cons g gs =>
        simp only [abs_cons, specStep, Option.some.injEq] at h
        subst h
        rw [step]
        by_cases he : f = []
        · rw [if_pos he]
          subst he
          exact ⟨_, rfl, rfl, fun x hx => ho x (by simp [hx])⟩
        · rw [if_neg he]
          refine ⟨_, rfl, ?_, ?_⟩
          · rw [abs_cons]
            congr 1
            funext x
            rw [read, get_update f g x hf, read]
            cases hx : get x f with
            | some v => rfl
            | none => rfl
          · intro x hx
            rcases List.mem_cons.mp hx with rfl | hx
            · exact update_nodup (ho g (by simp))
            · exact ho x (by simp [hx])

theorem run_refines : ∀ {l : List (Op K V)} {fs : Frames K V} {ms : List (K → Option V)}, Ok fs →
    specRun (abs fs) l = some ms → ∃ fs', run fs l = some fs' ∧ abs fs' = ms ∧ Ok fs'
  | [], fs, ms, ho, h => by
    simp only [specRun, Option.some.injEq] at h
    exact ⟨fs, rfl, h, ho⟩
  | o :: l, fs, ms, ho, h => by
    rw [specRun] at h
    rcases hs : specStep (abs fs) o with _ | ms1
    · rw [hs] at h; cases h
    rw [hs] at h
    obtain ⟨fs1, h1, h2, h3⟩ := step_refines ho hs
    subst h2
    obtain ⟨fs2, h4, h5, h6⟩ := run_refines (l := l) h3 h
    exact ⟨fs2, by rw [run, h1]; exact h4, h5, h6⟩

/-! ### Theorems -/

/-- C16: every sequence of writes, enters, leaves and reverts in which no call is left that was not entered has
the effect of the stack of snapshots, and reads return the current snapshot. -/
theorem C16_refines (l : List (Op K V)) (ms : List (K → Option V)) (h : specRun [fun _ => none] l = some ms) :
    ∃ fs, run (init : Frames K V) l = some fs ∧ fs.length = ms.length ∧
      (∀ k, read fs k = (ms.head?.bind (fun m => m k))) ∧
      ∀ k, contains fs k = (ms.head?.bind (fun m => m k)).isSome := by
  have : abs (init : Frames K V) = [fun _ => none] := by
    simp only [init, abs, read, get]
  obtain ⟨fs, h1, h2, h3⟩ := run_refines (l := l) (fs := init) (ms := ms) (by intro f hf; simp [init] at hf; simp [hf]) (by rw [this]; exact h)
  have hr : ∀ k, read fs k = (ms.head?.bind (fun m => m k)) := by
    intro k
    subst h2
    cases fs with
    | nil => rfl
    | cons f fs => rfl
  refine ⟨fs, h1, by rw [← h2, abs_length], hr, fun k => ?_⟩
  rw [← hr, contains]
  clear hr h2 h1 h3
  induction fs with
  | nil => rfl
  | cons f fs ih =>
    rw [List.any_cons, ih, read]
    cases get k f <;> simp

theorem spec_balanced {p : List (Op K V)} (hp : Balanced p) : ∀ (m : K → Option V) (ms : List (K → Option V))
    (l : List (Op K V)), ∃ m', specRun (m :: ms) (p ++ l) = specRun (m' :: ms) l := by
  induction hp with
  | nil => intro m ms l; exact ⟨m, rfl⟩
  | set k v _ ih =>
    intro m ms l
    obtain ⟨m', h⟩ := ih (set m k v) ms l
    exact ⟨m', by rw [List.cons_append, specRun, specStep]; exact h⟩
  | call _ _ ih1 ih2 =>
    rename_i p q _ _
    intro m ms l
    obtain ⟨m1, h1⟩ := ih1 m (m :: ms) (.leave :: (q ++ l))
    obtain ⟨m2, h2⟩ := ih2 m1 ms l
    refine ⟨m2, ?_⟩
    rw [List.append_assoc, List.cons_append, List.cons_append, specRun, specStep]
    simp only []
    rw [h1, specRun, specStep]
    exact h2
  | revert _ ih =>
    intro m ms l
    cases ms with
    | nil =>
      obtain ⟨m', h⟩ := ih (fun _ => none) [] l
      exact ⟨m', by rw [List.cons_append, specRun, specStep]; exact h⟩
    | cons a as =>
      obtain ⟨m', h⟩ := ih a (a :: as) l
      exact ⟨m', by rw [List.cons_append, specRun, specStep]; exact h⟩

theorem NoRevert.balanced {p : List (Op K V)} (h : NoRevert p) : Balanced p := by
  induction h with
  | nil => exact .nil
  | set k v _ ih => exact .set k v ih
  | call h _ ih => exact .call h ih

theorem spec_norevert {p : List (Op K V)} (hp : NoRevert p) : ∀ (m : K → Option V) (ms ms' : List (K → Option V)),
    ∃ m', specRun (m :: ms) p = some (m' :: ms) ∧ specRun (m :: ms') p = some (m' :: ms') := by
  induction hp with
  | nil => intro m ms ms'; exact ⟨m, rfl, rfl⟩
  | set k v _ ih =>
    intro m ms ms'
    obtain ⟨m', h, h'⟩ := ih (set m k v) ms ms'
    exact ⟨m', by rw [specRun, specStep]; exact h, by rw [specRun, specStep]; exact h'⟩
  | call hb _ ih =>
    rename_i p q _
    intro m ms ms'
    have key : ∀ {p : List (Op K V)}, Balanced p → ∀ (n m : K → Option V) (ms ms' : List (K → Option V)),
        ∃ m1, ∀ l, specRun (n :: m :: ms) (p ++ l) = specRun (m1 :: m :: ms) l ∧
          specRun (n :: m :: ms') (p ++ l) = specRun (m1 :: m :: ms') l := by
      intro p hp
      induction hp with
      | nil => intro n m ms ms'; exact ⟨n, fun l => ⟨rfl, rfl⟩⟩
      | set k v _ ih =>
        intro n m ms ms'
        obtain ⟨m1, h⟩ := ih (set n k v) m ms ms'
        exact ⟨m1, fun l => ⟨by rw [List.cons_append, specRun, specStep]; exact (h l).1,
          by rw [List.cons_append, specRun, specStep]; exact (h l).2⟩⟩
      | revert _ ih =>
        intro n m ms ms'
        obtain ⟨m1, h⟩ := ih m m ms ms'
        exact ⟨m1, fun l => ⟨by rw [List.cons_append, specRun, specStep]; exact (h l).1,
          by rw [List.cons_append, specRun, specStep]; exact (h l).2⟩⟩
      | call _ _ ih1 ih2 =>
        rename_i p q _ _
        intro n m ms ms'
        obtain ⟨a, ha⟩ := ih1 n n (m :: ms) (m :: ms')
        obtain ⟨b, hb⟩ := ih2 a m ms ms'
        refine ⟨b, fun l => ⟨?_, ?_⟩⟩
        · rw [List.append_assoc, List.cons_append, List.cons_append, specRun, specStep]
          simp only []
          rw [(ha _).1, specRun, specStep]
          exact (hb l).1
        · rw [List.append_assoc, List.cons_append, List.cons_append, specRun, specStep]
          simp only []
          rw [(ha _).2, specRun, specStep]
          exact (hb l).2
    obtain ⟨m1, h1⟩ := key hb m m ms ms'
    obtain ⟨m2, h2, h3⟩ := ih m1 ms ms'
    refine ⟨m2, ?_, ?_⟩
    · rw [List.cons_append, specRun, specStep]
      simp only []
      rw [(h1 _).1, specRun, specStep]
      exact h2
    · rw [List.cons_append, specRun, specStep]
      simp only []
      rw [(h1 _).2, specRun, specStep]
      exact h3

theorem reachable_ok {l : List (Op K V)} : ∀ {fs fs' : Frames K V}, Ok fs → run fs l = some fs' → Ok fs' := by
  induction l with
  | nil => intro fs fs' ho h; simp only [run, Option.some.injEq] at h; exact h ▸ ho
  | cons o l ih =>
    intro fs fs' ho h
    rw [run] at h
    rcases hs : step fs o with _ | f1
    · rw [hs] at h; cases h
    rw [hs] at h
    refine ih ?_ h
    cases fs with
    | nil =>
      cases o <;> simp [step] at hs
      subst hs; intro f hf; simp at hf; simp [hf]
    | cons f fs =>
      cases o with
      | set k v =>
        simp only [step, Option.some.injEq] at hs; subst hs
        intro g hg
        rcases List.mem_cons.mp hg with rfl | hg
        · exact put_nodup (ho f (by simp))
        · exact ho g (by simp [hg])
      | enter =>
        simp only [step, Option.some.injEq] at hs; subst hs
        intro g hg
        rcases List.mem_cons.mp hg with rfl | hg
        · simp
        · exact ho g hg
      | revert =>
        simp only [step, Option.some.injEq] at hs; subst hs
        intro g hg
        rcases List.mem_cons.mp hg with rfl | hg
        · simp
        · exact ho g (by simp [hg])
      | leave =>
        simp only [step] at hs
        by_cases he : f = []
        · rw [if_pos he] at hs; cases hs; exact fun g hg => ho g (by simp [hg])
        · rw [if_neg he] at hs
          cases fs with
          | nil => simp at hs
          | cons g gs =>
            simp only [Option.some.injEq] at hs; subst hs
            intro x hx
            rcases List.mem_cons.mp hx with rfl | hx
            · exact update_nodup (ho g (by simp))
            · exact ho x (by simp [hx])

/-- C16: after any history, a call whose effects are reverted at its end leaves every read as it was before the call was
entered, whatever it and its callees wrote, committed or reverted. -/
theorem C16_rollback (history p : List (Op K V)) (hp : Balanced p) (fs : Frames K V)
    (hf : run (init : Frames K V) history = some fs) (hne : fs ≠ []) :
    ∃ fs', run fs (.enter :: p ++ [.revert, .leave]) = some fs' ∧ fs'.length = fs.length ∧
      ∀ k, read fs' k = read fs k := by
  have ho : Ok fs := reachable_ok (by intro f hf; simp [init] at hf; simp [hf]) hf
  cases fs with
  | nil => exact absurd rfl hne
  | cons f fs =>
    obtain ⟨m', h⟩ := spec_balanced hp (read (f :: fs)) (read (f :: fs) :: abs fs) [.revert, .leave]
    have : specRun (abs (f :: fs)) (.enter :: p ++ [.revert, .leave]) = some (read (f :: fs) :: abs fs) := by
      rw [abs_cons, List.cons_append, specRun, specStep]
      simp only []
      rw [h]
      rfl
    obtain ⟨fs', h1, h2, _⟩ := run_refines ho this
    refine ⟨fs', h1, ?_, ?_⟩
    · rw [← abs_length fs', h2, List.length_cons, abs_length]; rfl
    · intro k
      cases fs' with
      | nil => cases h2
      | cons g gs =>
        rw [abs_cons] at h2
        exact congrFun (List.cons.inj h2).1 k

/-- C16: a call that is left without being reverted has the effect of its operations done by the caller itself. -/
theorem C16_commit (history p : List (Op K V)) (hp : NoRevert p) (fs : Frames K V)
    (hf : run (init : Frames K V) history = some fs) (hne : fs ≠ []) :
    ∃ fs1 fs2, run fs (.enter :: p ++ [.leave]) = some fs1 ∧ run fs p = some fs2 ∧
      ∀ k, read fs1 k = read fs2 k := by
  have ho : Ok fs := reachable_ok (by intro f hf; simp [init] at hf; simp [hf]) hf
  cases fs with
  | nil => exact absurd rfl hne
  | cons f fs =>
    obtain ⟨m', h, h'⟩ := spec_norevert hp (read (f :: fs)) (read (f :: fs) :: abs fs) (abs fs)
    have h1 : specRun (abs (f :: fs)) (.enter :: p ++ [.leave]) = some (m' :: abs fs) := by
      rw [abs_cons, List.cons_append, specRun, specStep]
      simp only []
      have : ∀ (p : List (Op K V)) (ms ms1 : List (K → Option V)) l, specRun ms p = some ms1 →
          specRun ms (p ++ l) = specRun ms1 l := by
        intro p
        induction p with
        | nil => intro ms ms1 l h; cases h; rfl
        | cons o p ih =>
          intro ms ms1 l h
          rw [specRun] at h
          rw [List.cons_append, specRun]
          cases hs : specStep ms o with
          | none => rw [hs] at h; cases h
          | some x => rw [hs] at h; exact ih x ms1 l h
      rw [this p _ _ _ h]
      rfl
    obtain ⟨fs1, a1, a2, _⟩ := run_refines ho h1
    obtain ⟨fs2, b1, b2, _⟩ := run_refines ho (show specRun (abs (f :: fs)) p = some (m' :: abs fs) from h')
    refine ⟨fs1, fs2, a1, b1, fun k => ?_⟩
    cases fs1 with
    | nil => cases a2
    | cons g1 gs1 =>
      cases fs2 with
      | nil => cases b2
      | cons g2 gs2 =>
        rw [abs_cons] at a2 b2
        rw [congrFun (List.cons.inj a2).1 k, congrFun (List.cons.inj b2).1 k]

/-- C16: different sets of changes may be digested to the same hash: the separator is not escaped. -/
theorem C16_digest_ambiguous : digestInput [([1], some [2, 0x7c, 3])] = digestInput [([1], some [2]), ([3], none)] := by
  decide

example : Balanced [Op.set 1 2, .enter, .set 1 3, .revert, .leave, .set (2 : ℕ) (4 : ℕ)] :=
  .set _ _ (.call (p := [.set 1 3, .revert]) (.set _ _ (.revert .nil)) (.set _ _ .nil))
example : run (init : Frames ℕ ℕ) [.set 1 2, .enter, .set 1 3, .enter, .set 2 5, .leave] =
    some [[(1, 3), (2, 5)], [(1, 2)]] := by decide
example : run (init : Frames ℕ ℕ) [.set 1 2, .enter, .set 1 3, .enter, .set 2 5, .leave, .revert, .leave] =
    some [[(1, 2)]] := by decide

end Verif.Batch
