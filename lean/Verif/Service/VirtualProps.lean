import Verif.Service.VirtualEnd
import Mathlib.Logic.Relation
import Mathlib.Tactic.IntervalCases

/-! # Concurrent execution is sequential execution -/

namespace Verif.Virtual

section
variable {A V R : Type} [DecidableEq A] {work : List (List (Req A) × Prog A V R)} {real : A → V}
variable {s s' : State A V R} {w : ℕ → A → V}

/-! ## The worlds of the specification -/

theorem seq_cons {x : List (Req A) × Prog A V R} {l : List (List (Req A) × Prog A V R)} (i : ℕ) :
    seq (x :: l) real (i + 1) = seq l (run x.2 real).1 i := by
  induction i with
  | zero => rfl
  | succ i ih =>
    have h1 : seq (x :: l) real (i + 1 + 1) = match (x :: l)[i + 1]? with
        | some y => (run y.2 (seq (x :: l) real (i + 1))).1
        | none => seq (x :: l) real (i + 1) := rfl
    have h2 : seq l (run x.2 real).1 (i + 1) = match l[i]? with
        | some y => (run y.2 (seq l (run x.2 real).1 i)).1
        | none => seq l (run x.2 real).1 i := rfl
    rw [h1, h2, ih, List.getElem?_cons_succ]

theorem seqRun_world : ∀ (l : List (List (Req A) × Prog A V R)) (real : A → V), (seqRun l real).1 = seq l real l.length
  | [], _ => rfl
  | x :: l, real => by rw [seqRun, List.length_cons, seq_cons, seqRun_world l]

theorem seqRun_receipt : ∀ (l : List (List (Req A) × Prog A V R)) (real : A → V) (i : ℕ) (x : List (Req A) × Prog A V R),
    l[i]? = some x → (seqRun l real).2[i]? = some (run x.2 (seq l real i)).2
  | [], _, _, _, h => by cases h
  | x :: l, real, 0, y, h => by
    rw [List.getElem?_cons_zero, Option.some.injEq] at h
    subst h
    rfl
  | x :: l, real, i + 1, y, h => by
    rw [List.getElem?_cons_succ] at h
    rw [seqRun, List.getElem?_cons_succ, seqRun_receipt l _ i y h, seq_cons]

/-! ## Serializability -/

/-- All transactions have been prepared and are committed. -/
def Complete (work : List (List (Req A) × Prog A V R)) (s : State A V R) : Prop :=
  s.n = work.length ∧ ∀ i, i < s.n → (s.tx i).waiting = false

/-- A transaction that is committed has the receipt it has when the transactions are executed one after the other. -/
theorem C61_receipt (hp : Proper work) (h : Reach work real s) {i : ℕ} (hi : i < s.n) (hc : (s.tx i).waiting = false) :
    ∃ r, (s.tx i).prog = .done r ∧ (seqRun work real).2[i]? = some r := by
  obtain ⟨w, I⟩ := reach_inv hp h
  have T := I.tx i hi
  obtain ⟨r, hr⟩ := T.done hc
  obtain ⟨x, hx, hxi⟩ := T.init
  refine ⟨r, hr, ?_⟩
  rw [seqRun_receipt work real i x hx, ← hxi, ← T.run, hr]
  rfl

/-- When all are committed the world is the one that executing them one after the other gives. -/
theorem C61_world (hp : Proper work) (h : Reach work real s) (hc : Complete work s) : s.real = (seqRun work real).1 := by
  obtain ⟨w, I⟩ := reach_inv hp h
  funext a
  rw [I.free a (fun j hj _ => hc.2 j hj), hc.1, seqRun_world]

/-- When the last `Realize` returns all are committed. -/
theorem C61_realize (hp : Proper work) (h : Reach work real s) (hn : s.n = work.length) (h0 : 0 < s.n) (e : s.realize (s.n - 1) = some s') :
    Complete work s ∧ s'.real = (seqRun work real).1 := by
  obtain ⟨w, I⟩ := reach_inv hp h
  unfold State.realize at e
  by_cases hall : (s.realizeList (s.n - 1)).all (fun j => !(s.tx j).waiting) = true
  · have hc : Complete work s := ⟨hn, fun i hi => realizeList_ok I (s.n - 1) (by omega) hall i (by omega)⟩
    refine ⟨hc, ?_⟩
    rw [if_pos hall] at e
    by_cases hcm : (s.tx (s.n - 1)).committed.isSome = true
    · rw [if_pos hcm, Option.some.injEq] at e
      rw [← e]; exact C61_world hp h hc
    · rw [if_neg hcm, Option.some.injEq] at e
      rw [← C61_world hp h hc, ← e]
  · rw [if_neg hall] at e; cases e

/-! ## No deadlock -/

theorem realizeList_le : ∀ i j, j ∈ s.realizeList i → j ≤ i := by
  intro i
  induction i with
  | zero =>
    intro j hj
    rw [State.realizeList] at hj
    by_cases hc : (s.tx 0).committed.isSome
    · rw [if_pos hc] at hj; cases hj
    · rw [if_neg hc, List.mem_singleton] at hj; omega
  | succ i ih =>
    intro j hj
    rw [State.realizeList] at hj
    by_cases hc : (s.tx (i + 1)).committed.isSome
    · rw [if_pos hc] at hj; cases hj
    · rw [if_neg hc] at hj
      by_cases hb : (s.tx (i + 1)).base.isSome
      · rw [if_pos hb, List.mem_singleton] at hj; omega
      · rw [if_neg hb, List.mem_cons] at hj
        rcases hj with hj | hj
        · omega
        · have := ih j hj; omega

theorem realizeBase_some (I : Inv work real s w) {i : ℕ} (hi : i < s.n) (hf : ∀ j, j < i → (s.tx j).waiting = false) :
    ∃ s', s.realizeBase i = some s' := by
  unfold State.realizeBase
  by_cases hb : (s.tx i).base.isSome
  · rw [if_pos hb]; exact ⟨_, rfl⟩
  · rw [if_neg hb]
    have hi0 : i ≠ 0 := fun h => (I.tx i hi).first h (by simpa using hb)
    unfold State.realize
    have : (s.realizeList (i - 1)).all (fun j => !(s.tx j).waiting) = true := by
      rw [List.all_eq_true]
      intro j hj
      rw [hf j (by have := realizeList_le _ _ hj; omega)]; rfl
    rw [if_pos this]
    by_cases hc : (s.tx (i - 1)).committed.isSome
    · rw [if_pos hc]; exact ⟨_, rfl⟩
    · rw [if_neg hc]; exact ⟨_, rfl⟩

theorem access_some (I : Inv work real s w) {i : ℕ} (hi : i < s.n) (hw : (s.tx i).waiting = true)
    (hf : ∀ j, j < i → (s.tx j).waiting = false) {a : A} (hr : Rd work i a) : ∃ s' r, s.access i a = some (s', some r) := by
  have T := I.tx i hi
  unfold State.access
  by_cases hW : IsW work i
  · rw [T.wEntries hW a]
    dsimp only
    rw [T.wWorld hW]
    dsimp only
    obtain ⟨s1, h1⟩ := realizeBase_some I hi hf
    rw [h1]
    dsimp only
    obtain ⟨I1, S1, hb⟩ := realizeBase_ok I hi hW hw h1
    unfold State.worldRef
    cases hc : (s1.tx i).committed with
    | some b => exact ⟨_, _, rfl⟩
    | none =>
      dsimp only
      rw [if_pos (by rw [S1.world, T.wWorld hW, hw]; rfl)]
      exact ⟨_, _, rfl⟩
  · cases hen : (s.tx i).entries a with
    | none => exact absurd hr (T.aNone hW a hen)
    | some en =>
      have E := (T.aSome hW a en hen).2
      dsimp only
      cases hd : en.depend with
      | none =>
        dsimp only
        by_cases hwa : W work i a
        · rw [(E.nodepW hd hwa).2]; exact ⟨_, _, rfl⟩
        · rw [E.nodepR hd hwa]; exact ⟨_, _, rfl⟩
      | some j =>
        dsimp only
        obtain ⟨d1, d2, d3, d4, d5⟩ := E.dep j hd
        rw [if_neg (by rw [hf j d2]; simp)]
        by_cases hwa : W work i a
        · have hl : en.lock = .write := by rw [E.lockW hwa, hw]; rfl
          rw [if_pos hl]
          exact ⟨_, _, rfl⟩
        · rw [if_neg (by rw [E.lockR hwa]; simp), peek_ok I (by omega) d3 (hf j d2)]
          exact ⟨_, _, rfl⟩

/-- What the steps of a transaction leave alone. -/
structure Alike (s s' : State A V R) : Prop where
  n : s'.n = s.n
  waiting : ∀ j, (s'.tx j).waiting = (s.tx j).waiting

theorem start_some (I : Inv work real s w) {i : ℕ} (hi : i < s.n) (hsn : (s.tx i).snap = none)
    (hf : ∀ j, j < i → (s.tx j).waiting = false) :
    ∃ s', s.start i = some s' ∧ Alike s s' ∧ (s'.tx i).snap.isSome = true := by
  have T := I.tx i hi
  obtain ⟨f1, f2, f3⟩ := T.fresh hsn
  unfold State.start
  rw [if_pos ⟨hi, by rw [hsn]; rfl⟩]
  by_cases hW : IsW work i
  · rw [if_pos (by rw [T.wWorld hW, f3]; rfl)]
    obtain ⟨s1, h1⟩ := realizeBase_some I hi hf
    obtain ⟨I1, S1, hb⟩ := realizeBase_ok I hi hW f3 h1
    rw [h1]
    refine ⟨_, rfl, ⟨S1.n, ?_⟩, ?_⟩
    · intro j; rw [← S1.waiting]; apply wait_update (s := s1); rfl
    · dsimp only; rw [Function.update_self]; rfl
  · rw [if_neg (by rw [T.aWorld hW]; simp), if_neg (by rw [T.aWorld hW]; simp)]
    refine ⟨_, rfl, ⟨rfl, ?_⟩, ?_⟩
    · intro j; apply wait_update (s := s); rfl
    · dsimp only; rw [Function.update_self]; rfl

/-- The first transaction that is not committed can go on: it starts, or makes its next access, or commits. -/
theorem C61_never_blocked (hp : Proper work) (h : Reach work real s) {i : ℕ} (hi : i < s.n) (hw : (s.tx i).waiting = true)
    (hf : ∀ j, j < i → (s.tx j).waiting = false) :
    (∃ s', s.start i = some s') ∨ (∃ s', s.step i = some s') ∨ ∃ r, s.CanCommit i r := by
  obtain ⟨w, I⟩ := reach_inv hp h
  have T := I.tx i hi
  cases hsn : (s.tx i).snap with
  | none =>
    obtain ⟨s', h, -⟩ := start_some I hi hsn hf
    exact Or.inl ⟨s', h⟩
  | some sn =>
    right
    cases hpr : (s.tx i).prog with
    | done r =>
      right
      refine ⟨r, hi, by rw [hsn]; rfl, hw, hpr, ?_⟩
      intro a e j he _ hj
      by_cases hW : IsW work i
      · rw [T.wEntries hW a] at he; cases he
      · exact hf j ((T.aSome hW a e he).2.dep j hj).2.1
    | read a k =>
      left
      have hwi := T.within
      rw [hpr] at hwi
      obtain ⟨s1, r, h1⟩ := access_some I hi hw hf hwi.1
      unfold State.step
      rw [if_pos ⟨hi, by rw [hsn]; rfl, hw⟩, hpr]
      dsimp only
      rw [h1]
      exact ⟨_, rfl⟩
    | write a v k =>
      left
      have hwi := T.within
      rw [hpr] at hwi
      obtain ⟨s1, r, h1⟩ := access_some I hi hw hf hwi.1.rd
      obtain ⟨rfl, -⟩ := ((access_ok hp I hi hw h1).2.2 r rfl).2.1 hwi.1
      unfold State.step
      rw [if_pos ⟨hi, by rw [hsn]; rfl, hw⟩, hpr]
      dsimp only
      rw [h1]
      exact ⟨_, rfl⟩

theorem step_alike (hp : Proper work) (I : Inv work real s w) {i : ℕ} (e : s.step i = some s') :
    Alike s s' ∧ (s'.tx i).snap = (s.tx i).snap ∧
      ((∃ a k v, (s.tx i).prog = .read a k ∧ (s'.tx i).prog = k v) ∨ ∃ a v k, (s.tx i).prog = .write a v k ∧ (s'.tx i).prog = k) := by
  unfold State.step at e
  by_cases h : i < s.n ∧ (s.tx i).snap.isSome = true ∧ (s.tx i).waiting = true
  · rw [if_pos h] at e
    cases hpr : (s.tx i).prog with
    | done r => rw [hpr] at e; cases e
    | read a k =>
      rw [hpr] at e
      dsimp only at e
      cases hac : s.access i a with
      | none => rw [hac] at e; cases e
      | some y =>
        obtain ⟨s1, r⟩ := y
        cases r with
        | none => rw [hac] at e; cases e
        | some r =>
          rw [hac] at e
          dsimp only at e
          rw [Option.some.injEq] at e
          subst e
          obtain ⟨I1, S1, hx⟩ := access_ok hp I h.1 h.2.2 hac
          refine ⟨⟨S1.n, fun j => ?_⟩, ?_, Or.inl ⟨a, k, s1.value a r, rfl, ?_⟩⟩
          · rw [← S1.waiting]; apply wait_update (s := s1); rfl
          · dsimp only; rw [Function.update_self]; exact S1.snap
          · dsimp only; rw [Function.update_self]
    | write a v k =>
      rw [hpr] at e
      dsimp only at e
      cases hac : s.access i a with
      | none => rw [hac] at e; cases e
      | some y =>
        obtain ⟨s1, r⟩ := y
        cases r with
        | none => rw [hac] at e; cases e
        | some r =>
          cases r with
          | ro v => rw [hac] at e; cases e
          | live =>
            rw [hac] at e
            dsimp only at e
            rw [Option.some.injEq] at e
            subst e
            obtain ⟨I1, S1, hx⟩ := access_ok hp I h.1 h.2.2 hac
            refine ⟨⟨S1.n, fun j => ?_⟩, ?_, Or.inr ⟨a, v, k, rfl, ?_⟩⟩
            · rw [← S1.waiting]; apply wait_update (s := s1); rfl
            · dsimp only; rw [Function.update_self]; exact S1.snap
            · dsimp only; rw [Function.update_self]
  · rw [if_neg h] at e; cases e

theorem Reach.more {s s' : State A V R} (h : Reach work real s) (e : Relation.ReflTransGen (Step work) s s') : Reach work real s' := by
  induction e with
  | refl => exact h
  | tail _ e ih => exact .step ih e

/-- A transaction whose predecessors are committed and that has started can be brought to its end. -/
theorem finish (hp : Proper work) {i : ℕ} : ∀ (p : Prog A V R) (s : State A V R), Reach work real s → i < s.n → (s.tx i).waiting = true →
    (∀ j, j < i → (s.tx j).waiting = false) → (s.tx i).snap.isSome = true → (s.tx i).prog = p →
    ∃ s', Relation.ReflTransGen (Step work) s s' ∧ s'.n = s.n ∧ ∀ j, j < i + 1 → (s'.tx j).waiting = false := by
  intro p
  induction p with
  | done r =>
    intro s h hi hw hf hsn hpr
    rcases C61_never_blocked hp h hi hw hf with ⟨s', e⟩ | ⟨s', e⟩ | ⟨r', hc⟩
    · unfold State.start at e
      rw [if_neg (fun h2 => by have := h2.2; rw [Option.isNone_iff_eq_none] at this; rw [this] at hsn; cases hsn)] at e
      cases e
    · unfold State.step at e
      rw [if_pos ⟨hi, hsn, hw⟩, hpr] at e
      cases e
    · refine ⟨_, .single (.commit i r' hc), rfl, fun j hj => ?_⟩
      unfold State.commit
      dsimp only
      by_cases hji : j = i
      · subst hji; rw [Function.update_self]
      · rw [Function.update_of_ne hji]; exact hf j (by omega)
  | read a k ih =>
    intro s h hi hw hf hsn hpr
    rcases C61_never_blocked hp h hi hw hf with ⟨s', e⟩ | ⟨s', e⟩ | ⟨r', hc⟩
    · unfold State.start at e
      rw [if_neg (fun h2 => by have := h2.2; rw [Option.isNone_iff_eq_none] at this; rw [this] at hsn; cases hsn)] at e
      cases e
    · obtain ⟨w, I⟩ := reach_inv hp h
      obtain ⟨A1, hs1, hx⟩ := step_alike hp I e
      rcases hx with ⟨a', k', v, h1, h2⟩ | ⟨a', v, k', h1, h2⟩
      · rw [hpr] at h1
        cases h1
        obtain ⟨s2, r1, r2, r3⟩ := ih v s' (.step h (.step i e)) (by rw [A1.n]; exact hi) (by rw [A1.waiting]; exact hw)
          (fun j hj => by rw [A1.waiting]; exact hf j hj) (by rw [hs1]; exact hsn) h2
        exact ⟨s2, .head (.step i e) r1, by rw [r2, A1.n], r3⟩
      · rw [hpr] at h1; cases h1
    · have := hc.2.2.2.1
      rw [hpr] at this; cases this
  | write a v k ih =>
    intro s h hi hw hf hsn hpr
    rcases C61_never_blocked hp h hi hw hf with ⟨s', e⟩ | ⟨s', e⟩ | ⟨r', hc⟩
    · unfold State.start at e
      rw [if_neg (fun h2 => by have := h2.2; rw [Option.isNone_iff_eq_none] at this; rw [this] at hsn; cases hsn)] at e
      cases e
    · obtain ⟨w, I⟩ := reach_inv hp h
      obtain ⟨A1, hs1, hx⟩ := step_alike hp I e
      rcases hx with ⟨a', k', v', h1, h2⟩ | ⟨a', v', k', h1, h2⟩
      · rw [hpr] at h1; cases h1
      · rw [hpr] at h1
        cases h1
        obtain ⟨s2, r1, r2, r3⟩ := ih s' (.step h (.step i e)) (by rw [A1.n]; exact hi) (by rw [A1.waiting]; exact hw)
          (fun j hj => by rw [A1.waiting]; exact hf j hj) (by rw [hs1]; exact hsn) h2
        exact ⟨s2, .head (.step i e) r1, by rw [r2, A1.n], r3⟩
    · have := hc.2.2.2.1
      rw [hpr] at this; cases this

theorem finish_one (hp : Proper work) (h : Reach work real s) {i : ℕ} (hi : i < s.n) (hf : ∀ j, j < i → (s.tx j).waiting = false) :
    ∃ s', Relation.ReflTransGen (Step work) s s' ∧ s'.n = s.n ∧ ∀ j, j < i + 1 → (s'.tx j).waiting = false := by
  cases hw : (s.tx i).waiting with
  | false =>
    refine ⟨s, .refl, rfl, fun j hj => ?_⟩
    by_cases hji : j = i
    · subst hji; exact hw
    · exact hf j (by omega)
  | true =>
    cases hsn : (s.tx i).snap with
    | some sn => exact finish hp _ s h hi hw hf (by rw [hsn]; rfl) rfl
    | none =>
      obtain ⟨w, I⟩ := reach_inv hp h
      obtain ⟨s1, e, A1, hs1⟩ := start_some I hi hsn hf
      obtain ⟨s2, r1, r2, r3⟩ := finish hp _ s1 (.step h (.start i e)) (by rw [A1.n]; exact hi) (by rw [A1.waiting]; exact hw)
        (fun j hj => by rw [A1.waiting]; exact hf j hj) hs1 rfl
      exact ⟨s2, .head (.start i e) r1, by rw [r2, A1.n], r3⟩

/-- An execution can be completed from wherever it is. -/
theorem C61_completes (hp : Proper work) (h : Reach work real s) :
    ∃ s', Relation.ReflTransGen (Step work) s s' ∧ Complete work s' := by
  have key : ∀ k m (s : State A V R), work.length - m = k → Reach work real s → m ≤ s.n → (∀ j, j < m → (s.tx j).waiting = false) →
      ∃ s', Relation.ReflTransGen (Step work) s s' ∧ Complete work s' := by
    intro k
    induction k with
    | zero =>
      intro m s hk h hm hf
      obtain ⟨w, I⟩ := reach_inv hp h
      have := I.n
      exact ⟨s, .refl, by omega, fun i hi => hf i (by omega)⟩
    | succ k ih =>
      intro m s hk h hm hf
      rcases Nat.lt_or_ge m s.n with hlt | hge
      · obtain ⟨s1, r1, r2, r3⟩ := finish_one hp h hlt hf
        obtain ⟨s2, q1, q2⟩ := ih (m + 1) s1 (by omega) (h.more r1) (by omega) r3
        exact ⟨s2, r1.trans q1, q2⟩
      · have hx : work[s.n]? = some work[s.n] := List.getElem?_eq_getElem (by omega)
        have hst := Step.prepare (work := work) (s := s) _ hx
        have hpn : (s.prepare (work[s.n]).1 (work[s.n]).2).n = s.n + 1 := by
          unfold State.prepare
          by_cases hW : worldOf (work[s.n]).1 = some .write
          · rw [if_pos hW]
          · rw [if_neg hW]
        have hpw : ∀ j, j < s.n → (s.prepare (work[s.n]).1 (work[s.n]).2).tx j = s.tx j := by
          intro j hj
          unfold State.prepare
          by_cases hW : worldOf (work[s.n]).1 = some .write
          · rw [if_pos hW]; exact Function.update_of_ne (by omega) _ _
          · rw [if_neg hW]; exact Function.update_of_ne (by omega) _ _
        obtain ⟨s1, r1, r2, r3⟩ := finish_one hp (.step h hst) (i := m) (by rw [hpn]; omega)
          (fun j hj => by rw [hpw j (by omega)]; exact hf j hj)
        obtain ⟨s2, q1, q2⟩ := ih (m + 1) s1 (by omega) ((Reach.step h hst).more r1) (by omega) r3
        exact ⟨s2, (Relation.ReflTransGen.head hst r1).trans q1, q2⟩
  exact key _ 0 s rfl h (Nat.zero_le _) (fun j hj => by omega)

end

/-! ## Errors -/

theorem report_none {E : Type} : ∀ es : List E, es.foldl report none = none
  | [] => rfl
  | _ :: es => report_none es

/-- The concurrent execution never returns an error; a transaction that fails has no receipt. -/
theorem C62_no_error {R E : Type} (seen : ℕ → List E) : ∀ (l : List (ℕ → Out R E)) (i : ℕ),
    conExec seen i l = (none, l.map (fun x => (runTx x).toOption))
  | [], _ => rfl
  | x :: l, i => by
    rw [conExec, report_none]
    dsimp only
    rw [C62_no_error seen l (i + 1)]
    rfl

/-- The sequential execution returns an error if and only if a transaction fails. -/
theorem C62_sequential {R E : Type} : ∀ l : List (ℕ → Out R E), (∃ e, seqExec l = .error e) ↔ ∃ x ∈ l, ∃ e, runTx x = .error e
  | [] => by
    constructor
    · rintro ⟨e, h⟩; cases h
    · rintro ⟨x, h, -⟩; cases h
  | x :: l => by
    have ih := C62_sequential l
    rw [seqExec]
    cases hx : runTx x with
    | error e => exact ⟨fun _ => ⟨x, List.mem_cons_self, e, hx⟩, fun _ => ⟨e, rfl⟩⟩
    | ok r =>
      constructor
      · rintro ⟨e, he⟩
        have : ∃ e, seqExec l = .error e := by
          cases hl : seqExec l with
          | error e => exact ⟨e, rfl⟩
          | ok rs => rw [hl] at he; cases he
        obtain ⟨y, hy, hy2⟩ := ih.mp this
        exact ⟨y, List.mem_cons_of_mem _ hy, hy2⟩
      · rintro ⟨y, hy, e, hy2⟩
        rcases List.mem_cons.mp hy with rfl | hy
        · rw [hx] at hy2; cases hy2
        · obtain ⟨e', he'⟩ := ih.mpr ⟨y, hy, e, hy2⟩
          exact ⟨e', by rw [he']; rfl⟩

/-- Where the sequential execution returns an error the concurrent one returns none and has a transaction without a receipt. -/
theorem C62_lost {R E : Type} (seen : ℕ → List E) (l : List (ℕ → Out R E)) (e : E) (h : seqExec l = .error e) :
    (conExec seen 0 l).1 = none ∧ none ∈ (conExec seen 0 l).2 := by
  rw [C62_no_error]
  obtain ⟨x, hx, e', he⟩ := (C62_sequential l).mp ⟨e, h⟩
  refine ⟨rfl, List.mem_map.mpr ⟨x, hx, ?_⟩⟩
  rw [he]; rfl

example : seqExec [(fun _ => Out.ok 1), (fun _ => Out.again "rerun"), (fun k => if k = 0 then Out.again "rerun" else Out.ok 3)] = .error "rerun" ∧
    conExec (fun _ => ["rerun"]) 0 [(fun _ => Out.ok 1), (fun _ => Out.again "rerun"), (fun k => if k = 0 then Out.again "rerun" else Out.ok 3)] =
      (none, [some 1, none, some 3]) := ⟨rfl, rfl⟩

/-! ## Runs -/

section
variable {A V R : Type} [DecidableEq A] {work : List (List (Req A) × Prog A V R)} {real : A → V} {s : State A V R}

theorem Reach.start' (h : Reach work real s) (i : ℕ) (e : (s.start i).isSome = true) : Reach work real ((s.start i).get e) :=
  .step h (.start i (Option.some_get e).symm)

theorem Reach.step' (h : Reach work real s) (i : ℕ) (e : (s.step i).isSome = true) : Reach work real ((s.step i).get e) :=
  .step h (.step i (Option.some_get e).symm)

theorem Reach.retry' (h : Reach work real s) (i : ℕ) (e : (s.retry i).isSome = true) : Reach work real ((s.retry i).get e) :=
  .step h (.retry i (Option.some_get e).symm)

end

/-- Two transactions that write an account each, and one that moves what is in the first to the second. -/
def demo : List (List (Req Bool) × Prog Bool ℕ ℕ) :=
  [([⟨some true, true⟩], .write true 5 (.done 0)),
   ([⟨some false, true⟩], .write false 7 (.done 1)),
   ([⟨none, true⟩], .read true (fun v => .write false v (.write true 0 (.done v))))]

theorem demo_proper : Proper demo := by
  intro x hx
  simp only [demo, List.mem_cons, List.not_mem_nil, or_false] at hx
  rcases hx with rfl | rfl | rfl <;> simp [Within, Reads, Writes]

/-- A transaction with a retry that is committed after its successor. -/
example : ∃ s, Reach demo (fun _ => 0) s ∧ s.n = 3 ∧ (s.tx 1).waiting = false ∧ (s.tx 0).waiting = true ∧ s.real true = 5 ∧ s.real false = 7 := by
  have h := Reach.new (work := demo) (real := fun _ => 0) ⟨none, none, true, fun _ => none, none, none, .done 0, .done 0⟩
  have h := Reach.step h (.prepare ([⟨some true, true⟩], .write true 5 (.done 0)) rfl)
  have h := Reach.step h (.prepare ([⟨some false, true⟩], .write false 7 (.done 1)) rfl)
  have h := Reach.step h (.prepare ([⟨none, true⟩], .read true (fun v => .write false v (.write true 0 (.done v)))) rfl)
  have h := h.start' 1 rfl
  have h := h.start' 0 rfl
  have h := h.step' 0 rfl
  have h := h.step' 1 rfl
  have h := h.retry' 0 rfl
  have h := Reach.step h (.commit 1 1 ⟨by decide, rfl, rfl, rfl, by
    rintro (_ | _) e j h1 h2 h3
    · obtain rfl := Option.some.inj h1; cases h3
    · cases h1⟩)
  have h := h.step' 0 rfl
  exact ⟨_, h, rfl, rfl, rfl, rfl, rfl⟩

example : ∃ s, Reach demo (fun _ => 0) s ∧ Complete demo s ∧ s.real true = 0 ∧ s.real false = 5 := by
  obtain ⟨s, h1, h2⟩ := C61_completes demo_proper
    (Reach.new (work := demo) (real := fun _ => 0) ⟨none, none, true, fun _ => none, none, none, .done 0, .done 0⟩)
  have h := (Reach.new (work := demo) (real := fun _ => 0) ⟨none, none, true, fun _ => none, none, none, .done 0, .done 0⟩).more h1
  refine ⟨s, h, h2, ?_, ?_⟩ <;> rw [C61_world demo_proper h h2] <;> rfl

/-- A transaction that writes an account, one that reads another with a read lock of the world, and one that writes that. -/
def race : List (List (Req Bool) × Prog Bool ℕ ℕ) :=
  [([⟨some true, true⟩], .write true 5 (.done 0)),
   ([⟨none, false⟩], .read false (fun v => .done v)),
   ([⟨some false, true⟩], .write false 7 (.done 2))]

/-- A read lock of the world does not keep later transactions from writing: the receipt of a committed transaction can depend on a later
one.  (No transaction of the code asks for such a lock.) -/
theorem C61_world_read_lock_races : ∃ s, Reach race (fun _ => 0) s ∧ Complete race s ∧ (s.tx 1).prog = .done 7 ∧
    (seqRun race (fun _ => 0)).2[1]? = some 0 := by
  have h := Reach.new (work := race) (real := fun _ => 0) ⟨none, none, true, fun _ => none, none, none, .done 0, .done 0⟩
  have h := Reach.step h (.prepare ([⟨some true, true⟩], .write true 5 (.done 0)) rfl)
  have h := Reach.step h (.prepare ([⟨none, false⟩], .read false (fun v => .done v)) rfl)
  have h := Reach.step h (.prepare ([⟨some false, true⟩], .write false 7 (.done 2)) rfl)
  have h := h.start' 2 rfl
  have h := h.step' 2 rfl
  have h := h.start' 0 rfl
  have h := h.step' 0 rfl
  have h := Reach.step h (.commit 0 0 ⟨by decide, rfl, rfl, rfl, by
    rintro (_ | _) e j h1 h2 h3
    · cases h1
    · obtain rfl := Option.some.inj h1; cases h3⟩)
  have h := h.start' 1 rfl
  have h := h.step' 1 rfl
  have h := Reach.step h (.commit 1 7 ⟨by decide, rfl, rfl, rfl, by
    rintro (_ | _) e j h1 h2 h3
    · cases h1
    · cases h1⟩)
  have h := Reach.step h (.commit 2 2 ⟨by decide, rfl, rfl, rfl, by
    rintro (_ | _) e j h1 h2 h3
    · obtain rfl := Option.some.inj h1; cases h3
    · cases h1⟩)
  refine ⟨_, h, ⟨rfl, ?_⟩, rfl, rfl⟩
  intro i hi
  have hi' : i < 3 := hi
  interval_cases i <;> rfl

end Verif.Virtual
