import Verif.PyExec.ReadOnly

/-!
# C10, C11, C13

Stated about `invoke`, the model of an invocation of the executor by the service, for every
contract (`Prog`, which may catch every exception), every depth of the set-value pipeline, every
schedule of the service, every price table (`Sane`: replacing or deleting a value is not
charged), every store and every step limit.
-/
namespace Verif.PyExec

/-- **C11.** The result (status, steps used, store, messages sent) is that of the direct
semantics in which every request is answered at once and charged its final price. In
particular the executor never dies. -/
theorem C11_pipeline_is_synchronous (E : Env) (hs : Sane E.costs) (p : Prog) (acct : ℕ)
    (query ro : Bool) (limit : ℤ) (hl : 0 ≤ limit) (store : Store)
    (hst : ∀ k, store k ≠ some []) :
    invoke E p acct query ro limit store =
      some (Sync.invoke E.costs E.answer p acct query ro limit store) :=
  invoke_eq hs p acct query ro limit hl store hst

/-- **C11.** Neither the depth of the pipeline nor the schedule of the service can be observed:
waiting for every reply (`depth := 0`) gives the same. -/
theorem C11_depth_and_schedule_irrelevant (E : Env) (hs : Sane E.costs) (depth : ℕ)
    (sched : ℕ → ℕ) (p : Prog) (acct : ℕ) (query ro : Bool) (limit : ℤ) (hl : 0 ≤ limit)
    (store : Store) (hst : ∀ k, store k ≠ some []) :
    invoke { E with depth := depth, sched := sched } p acct query ro limit store =
      invoke { E with depth := 0, sched := fun _ => 0 } p acct query ro limit store := by
  rw [invoke_eq (E := { E with depth := depth, sched := sched }) hs p acct query ro limit hl store
      hst,
    invoke_eq (E := { E with depth := 0, sched := fun _ => 0 }) hs p acct query ro limit hl store
      hst]

/-- The executor at the beginning of an invocation. -/
def initial (acct : ℕ) (query ro : Bool) (limit : ℤ) (store : Store) : X :=
  ⟨⟨acct, query, ro, limit, 0, 0⟩, [], ⟨store, [], []⟩, query, [], 0⟩

theorem initial_rel (E : Env) (acct : ℕ) (query ro : Bool) (limit : ℤ) (hl : 0 ≤ limit)
    (store : Store) (hst : ∀ k, store k ≠ some []) :
    Rel E [] (initial acct query ro limit store) ⟨⟨acct, query, ro, limit, 0, 0⟩, store, []⟩ :=
  Rel.mk_quiet rfl hl (fun _ => le_refl _) hst

/-- **C11.** Replies are matched with requests: after any history `p`, a read returns what the
store holds after every write sent so far. -/
theorem C11_reads_see_writes (E : Env) (hs : Sane E.costs) (p : Prog) (acct : ℕ) (query ro : Bool)
    (limit : ℤ) (hl : 0 ≤ limit) (store : Store) (hst : ∀ k, store k ≠ some []) (k : Bytes) :
    (getValue E k (run E p (initial acct query ro limit store)).2).1 =
      .ok ((flush E (run E p (initial acct query ro limit store)).2.net).store (acct, k)) := by
  obtain ⟨h0, h⟩ := (run_sim hs p).1 _ _ (initial_rel E acct query ro limit hl store hst)
  obtain ⟨x', h1, _, _⟩ := getValue_rel k h
  rw [h1, flush_eq]
  have hst := h.store
  have hl := run_legal (E := E) p (initial acct query ro limit store) rfl
  have hnc := (run_sim hs p).2 ⟨⟨acct, query, ro, limit, 0, 0⟩, store, []⟩
  rw [← h0] at hnc
  have ha : (run E p (initial acct query ro limit store)).2.fr.acct = acct := (hl.2 hnc).acct
  rw [h.acct] at ha
  simp only [hst, ha]

/-- **C10.** The steps reported are never more than the limit. -/
theorem C10_used_le_limit (E : Env) (hs : Sane E.costs) (p : Prog) (acct : ℕ) (query ro : Bool)
    (limit : ℤ) (hl : 0 ≤ limit) (store : Store) (hst : ∀ k, store k ≠ some [])
    {status used : ℤ} {st : Store} {out : List Out}
    (h : invoke E p acct query ro limit store = some (status, used, st, out)) :
    used ≤ limit := by
  obtain ⟨h1, h2⟩ := run_sim hs p
  obtain ⟨h3, h4⟩ := h1 _ _ (initial_rel E acct query ro limit hl store hst)
  have h5 := h2 ⟨⟨acct, query, ro, limit, 0, 0⟩, store, []⟩
  have hleg := run_legal (E := E) p (initial acct query ro limit store) rfl
  rw [← h3] at h5
  have hlim : (run E p (initial acct query ro limit store)).2.fr.limit = limit := (hleg.2 h5).limit
  unfold invoke at h
  change (match finish E (run E p (initial acct query ro limit store)) with
    | (.error _, _) => none
    | (.ok status, x) => some (status, x.fr.used, (flush E x.net).store, x.out)) = _ at h
  rcases hr : run E p (initial acct query ro limit store) with ⟨r, x⟩
  rw [hr] at h h3 h4 h5 hlim
  obtain ⟨x3, hf1, hf2, hf3⟩ := finish_rel h5 h4
  rw [hf1] at h
  simp only [Option.some.injEq, Prod.mk.injEq] at h
  obtain ⟨_, hu, _, _⟩ := h
  rw [← hu]
  have hb := hf2.bound
  have hlim2 : (Sync.finish (r, (Sync.run E.costs E.answer p
      ⟨⟨acct, query, ro, limit, 0, 0⟩, store, []⟩).2)).2.fr.limit = x.fr.limit := by
    rw [h4.limit]
    unfold Sync.finish
    simp only
    split <;> rfl
  rw [hlim2, hlim] at hb
  exact hb

/-- **C10.** After any history `p` the steps left are not negative, a charge of `n` steps
succeeds exactly if `n` are left, and then takes exactly `n`; otherwise it raises `OutOfStep`
and the whole limit is used. -/
theorem C10_charge_all_or_nothing (E : Env) (hs : Sane E.costs) (p : Prog) (acct : ℕ)
    (query ro : Bool) (limit : ℤ) (hl : 0 ≤ limit) (store : Store) (hst : ∀ k, store k ≠ some [])
    (n : ℤ) (x : X) (hx : x = (run E p (initial acct query ro limit store)).2) :
    ∃ left, (stepRemained E x).1 = .ok left ∧ 0 ≤ left ∧
      (n ≤ left → (consumeStep E n x).1 = .ok () ∧
        (stepRemained E (consumeStep E n x).2).1 = .ok (left - n)) ∧
      (left < n → (consumeStep E n x).1 = .error (.outOfStep (limit - left)) ∧
        (consumeStep E n x).2.fr.used = limit ∧
        (stepRemained E (consumeStep E n x).2).1 = .ok 0) := by
  obtain ⟨h3, h4⟩ := (run_sim hs p).1 _ _ (initial_rel E acct query ro limit hl store hst)
  have h5 := (run_sim hs p).2 ⟨⟨acct, query, ro, limit, 0, 0⟩, store, []⟩
  have hleg := run_legal (E := E) p (initial acct query ro limit store) rfl
  rw [← h3] at h5
  have hlim := (hleg.2 h5).limit
  rw [← hx] at h4 hlim
  generalize (Sync.run E.costs E.answer p ⟨⟨acct, query, ro, limit, 0, 0⟩, store, []⟩).2 = y at h4
  have hly : y.fr.limit = limit := by rw [← h4.limit, hlim]; rfl
  obtain ⟨x1, hr1, _, _⟩ := stepRemained_rel h4
  have hb := h4.used_bound
  refine ⟨y.fr.limit - y.fr.used, by rw [hr1], by omega, fun hn => ?_, fun hn => ?_⟩
  · obtain ⟨h6, h7⟩ := consumeStep_sim (E := E) n x y h4
    rw [charge_fits (by omega)] at h6 h7
    obtain ⟨x2, hr2, _, _⟩ := stepRemained_rel h7
    refine ⟨h6, ?_⟩
    rw [hr2]
    simp only [plus]
    congr 1
    omega
  · obtain ⟨h6, h7⟩ := consumeStep_sim (E := E) n x y h4
    rw [Sync.charge, if_neg (by omega)] at h6 h7
    obtain ⟨x2, hr2, _, _⟩ := stepRemained_rel h7
    refine ⟨?_, ?_, ?_⟩
    · rw [h6]; simp only [hly]; congr 2; omega
    · have h8 := h7.used_le
      have h9 := h7.bound
      simp only at h8 h9
      omega
    · rw [hr2]; simp

/-- **C13.** Whatever the contract does, and even if the executor dies: every value written or
deleted and every event comes from a frame that is neither in query mode nor inside a read-only
method, and every fee setting from a frame not in query mode. -/
theorem C13_no_write_from_readonly (E : Env) (p : Prog) (acct : ℕ) (query ro : Bool) (limit : ℤ)
    (store : Store) (o : Out)
    (h : o ∈ (finish E (run E p (initial acct query ro limit store))).2.out) :
    match o with
    | .setValue query ro _ _ => query = false ∧ ro = false
    | .event query ro _ _ => query = false ∧ ro = false
    | .fee query _ _ _ => query = false := by
  obtain ⟨⟨l, hl, hl'⟩, _⟩ := finish_legal (E := E)
    (run_legal (E := E) p (initial acct query ro limit store) rfl) rfl
  rw [hl] at h
  have := hl' o (by simpa [initial] using h)
  cases o <;> exact this

/-- **C13.** A query sends no state-changing message at all, neither itself nor through the
contracts it calls, and the store is as before. -/
theorem C13_query_changes_nothing (E : Env) (p : Prog) (acct : ℕ) (ro : Bool) (limit : ℤ)
    (store : Store) {status used : ℤ} {st : Store} {out : List Out}
    (h : invoke E p acct true ro limit store = some (status, used, st, out)) :
    out = [] ∧ st = store := by
  obtain ⟨h1, h2⟩ := finish_quiet (E := E)
    (run_quiet (E := E) p (initial acct true ro limit store) rfl rfl) rfl
  unfold invoke at h
  change (match finish E (run E p (initial acct true ro limit store)) with
    | (.error _, _) => none
    | (.ok status, x) => some (status, x.fr.used, (flush E x.net).store, x.out)) = _ at h
  generalize finish E (run E p (initial acct true ro limit store)) = r at h h1 h2
  obtain ⟨r, x⟩ := r
  cases r with
  | error e => simp at h
  | ok s =>
    simp only [Option.some.injEq, Prod.mk.injEq] at h
    obtain ⟨_, _, h3, h4⟩ := h
    rw [← h3, ← h4]
    refine ⟨h1, ?_⟩
    rw [flush_eq]
    exact h2

/-- **C13.** When a call returns or raises, the right to write and the identity and mode of the
caller are exactly what they were, whatever the callee did. -/
theorem C13_right_restored (E : Env) (p : Prog) (x : X) (hx : x.pro = x.fr.query)
    (h : (run E p x).1 ≠ .error .crash) :
    (run E p x).2.pro = x.pro ∧ (run E p x).2.fr.query = x.fr.query ∧
      (run E p x).2.fr.ro = x.fr.ro ∧ (run E p x).2.fr.acct = x.fr.acct ∧
      (run E p x).2.fr.limit = x.fr.limit := by
  have := (run_legal (E := E) p x hx).2 h
  exact ⟨this.pro, this.query, this.ro, this.acct, this.limit⟩

/-! ### Price tables of HAVAH -/

/-- Default step costs (havah/chainscore.go:783-800). -/
def havahCosts : Costs
  | .schema => 1
  | .get => 25
  | .getBase => 3000
  | .set => 320
  | .setBase => 10000
  | .delete => -240
  | .deleteBase => 200
  | .log => 100
  | .logBase => 5000
  | .apiCall => 10000
  | .replace => 0
  | .eventLog => 0

/-- The hypothesis of the theorems above holds for HAVAH. -/
theorem havahCosts_sane : Sane havahCosts := by
  intro n hn
  have h1 : applied havahCosts .delete n = 200 + -240 * (n : ℤ) := rfl
  have h2 : refund havahCosts n = (10000 + 200) / 2 - 10000 + -240 * (n : ℤ) := rfl
  rw [h1, h2]
  omega

end Verif.PyExec
