import Verif.Regulator.Model

/-! # What the regulator gives -/

namespace Verif.Regulator

/-- The last entries: the one it is made with and the executions, at most thirty. -/
def window (es : List Entry) : List Entry := (⟨1000, 1000000000, 0⟩ :: es).drop (es.length + 1 - 30)

/-- The sum is over these. -/
def Sum.isOf (s : Sum) (l : List Entry) : Prop :=
  s.count = (l.map Entry.count).sum ∧ s.execution = (l.map Entry.execution).sum ∧ s.finalize = (l.map Entry.finalize).sum ∧
    s.entries = l.length

/-- The ring, from the oldest entry on. -/
def view (r : Reg) : List Entry := r.history.drop r.cur ++ r.history.take r.cur

theorem view_add {r : Reg} (hl : r.history.length = 30) (hc : r.cur < 30) (e : Entry) :
    ∃ x t, view r = x :: t ∧ r.history.getD r.cur .zero = x ∧ view (r.addEntry e) = t ++ [e] ∧ (r.addEntry e).history.length = 30 ∧
      (r.addEntry e).cur < 30 := by
  have hlt : r.cur < r.history.length := by omega
  refine ⟨r.history[r.cur], r.history.drop (r.cur + 1) ++ r.history.take r.cur, ?_, ?_, ?_, ?_, ?_⟩
  · unfold view
    rw [List.drop_eq_getElem_cons hlt]
    rfl
  · simp [List.getD, List.getElem?_eq_getElem hlt]
  · unfold view Reg.addEntry
    dsimp only
    rw [hl]
    by_cases h : r.cur + 1 = 30
    · rw [h, Nat.mod_self, List.drop_zero, List.take_zero, List.append_nil, List.drop_eq_nil_of_le (by omega), List.nil_append]
      rw [List.set_eq_take_append_cons_drop, if_pos hlt, List.drop_eq_nil_of_le (by omega)]
    · rw [Nat.mod_eq_of_lt (by omega), List.drop_set_of_lt (Nat.lt_succ_self _), List.append_assoc]
      congr 1
      rw [List.take_succ_eq_append_getElem (by simpa using hlt), List.getElem_set_self, List.take_set_of_le (Nat.le_refl _)]
  · unfold Reg.addEntry
    simpa using hl
  · unfold Reg.addEntry
    dsimp only
    rw [hl]
    exact Nat.mod_lt _ (by omega)

/-- What a regulator is. -/
structure Inv (r : Reg) (es : List Entry) : Prop where
  len : r.history.length = 30
  cur : r.cur < 30
  view : Regulator.view r = (List.replicate 30 Entry.zero ++ ((⟨1000, 1000000000, 0⟩ : Entry) :: es)).drop (es.length + 1)
  counts : ∀ e ∈ es, 10 < e.count
  sum : r.sum.isOf (window es)
  interval : 0 < r.interval
  minPos : 0 < r.minTimeout
  minLe : r.minTimeout ≤ r.interval

theorem Inv.new : Inv .new [] := by
  refine ⟨by decide, by decide, ?_, by simp, ?_, by decide, by decide, by decide⟩
  · rfl
  · refine ⟨by decide, by decide, by decide, by decide⟩

theorem window_add {es : List Entry} (e : Entry) :
    (es.length + 1 < 30 ∧ window (es ++ [e]) = window es ++ [e] ∧
      (List.replicate 30 Entry.zero ++ (⟨1000, 1000000000, 0⟩ :: es)).drop (es.length + 1) =
        List.replicate (30 - (es.length + 1)) .zero ++ window es) ∨
    (30 ≤ es.length + 1 ∧ ∃ x t, window es = x :: t ∧ window (es ++ [e]) = t ++ [e] ∧ t.length = 29 ∧
      (List.replicate 30 Entry.zero ++ (⟨1000, 1000000000, 0⟩ :: es)).drop (es.length + 1) = window es) := by
  unfold window
  by_cases h : es.length + 1 < 30
  · refine .inl ⟨h, ?_, ?_⟩
    · have h1 : es.length + 1 - 30 = 0 := by omega
      have h2 : (es ++ [e]).length + 1 - 30 = 0 := by rw [List.length_append, List.length_singleton]; omega
      rw [h1, h2]
      rfl
    · rw [List.drop_append, List.drop_replicate, List.length_replicate]
  · refine .inr ⟨by omega, ?_⟩
    have hl : es.length + 1 - 30 < (⟨1000, 1000000000, 0⟩ :: es : List Entry).length := by simp; omega
    refine ⟨_, _, List.drop_eq_getElem_cons hl, ?_, ?_, ?_⟩
    · rw [← List.cons_append, List.drop_append_of_le_length (by simp; omega)]
      congr 2
      simp; omega
    · simp; omega
    · rw [List.drop_append, List.drop_replicate, List.length_replicate, Nat.sub_eq_zero_of_le (by omega)]
      rfl

theorem Inv.add {r : Reg} {es : List Entry} (I : Inv r es) {e : Entry} (he : 10 < e.count) : Inv (r.addEntry e) (es ++ [e]) := by
  obtain ⟨x, t, h1, h2, h3, h4, h5⟩ := view_add I.len I.cur e
  have hv := I.view
  rw [h1] at hv
  have hint : (r.addEntry e).interval = r.interval ∧ (r.addEntry e).minTimeout = r.minTimeout := ⟨rfl, rfl⟩
  refine ⟨h4, h5, ?_, ?_, ?_, I.interval, I.minPos, I.minLe⟩
  · rw [h3]
    have : (List.replicate 30 Entry.zero ++ (⟨1000, 1000000000, 0⟩ :: (es ++ [e]))) =
        (List.replicate 30 Entry.zero ++ (⟨1000, 1000000000, 0⟩ :: es)) ++ [e] := by simp
    rw [this, List.drop_append_of_le_length (by simp)]
    congr 1
    rw [List.length_append, List.length_singleton, ← List.drop_drop, ← hv]
    rfl
  · intro y hy
    rcases List.mem_append.1 hy with hy | hy
    · exact I.counts y hy
    · rw [List.mem_singleton] at hy
      rw [hy]; exact he
  · unfold Reg.addEntry
    dsimp only
    rw [h2]
    obtain ⟨s1, s2, s3, s4⟩ := I.sum
    rcases window_add (es := es) e with ⟨hlt, hw, hr⟩ | ⟨hge, y, t', hw, hw', hlen, hr⟩
    · have hx : x = Entry.zero := by
        rw [hr] at hv
        obtain ⟨k, hk⟩ : ∃ k, 30 - (es.length + 1) = k + 1 := ⟨30 - (es.length + 1) - 1, by omega⟩
        rw [hk, List.replicate_succ, List.cons_append, List.cons.injEq] at hv
        exact hv.1
      rw [hx]
      unfold Sum.sub
      rw [if_neg (by decide), hw]
      unfold Sum.add Sum.isOf
      simp only [List.map_append, List.sum_append, List.map_cons, List.map_nil, List.sum_cons, List.sum_nil, List.length_append,
        List.length_singleton]
      refine ⟨by omega, by omega, by omega, by omega⟩
    · rw [hr, hw, List.cons.injEq] at hv
      obtain ⟨rfl, -⟩ := hv
      have hpos : 0 < x.count := by
        have hm : x ∈ window es := by rw [hw]; simp
        rcases List.mem_cons.1 (List.mem_of_mem_drop hm) with h | h
        · rw [h]; decide
        · have := I.counts x h
          omega
      rw [hw] at s1 s2 s3 s4
      unfold Sum.sub
      rw [if_pos hpos, hw']
      unfold Sum.add Sum.isOf
      simp only [List.map_append, List.sum_append, List.map_cons, List.map_nil, List.sum_cons, List.sum_nil, List.length_append,
        List.length_nil, List.length_cons] at s1 s2 s3 s4 ⊢
      refine ⟨by omega, by omega, by omega, by omega⟩

theorem Run.inv {r : Reg} {es : List Entry} (h : Run r es) : Inv r es := by
  induction h with
  | new => exact .new
  | @set r r' es bi ct _ h1 h2 h3 he I =>
    unfold Reg.setInterval at he
    dsimp only at he
    have hI := I.interval
    split_ifs at he with a b c d <;> first
      | (rw [Option.some.injEq] at he; subst he; exact I)
      | (exfalso; omega)
      | (rw [Option.some.injEq] at he; subst he
         exact ⟨I.len, I.cur, I.view, I.counts, I.sum, by dsimp only; omega, by dsimp only; omega, by dsimp only; omega⟩)
  | propose now _ I => exact ⟨I.len, I.cur, I.view, I.counts, I.sum, I.interval, I.minPos, I.minLe⟩
  | @exec r r' es e _ he I =>
    unfold Reg.onExec at he
    by_cases hc : e.count ≤ 10
    · rw [if_pos hc, Option.some.injEq] at he
      rw [← he, if_neg (by omega)]
      exact I
    · rw [if_neg hc] at he
      dsimp only at he
      split_ifs at he <;>
      · rw [Option.some.injEq] at he
        rw [← he, if_pos (by omega)]
        have I2 := I.add (e := e) (by omega)
        exact ⟨I2.len, I2.cur, I2.view, I2.counts, I2.sum, I2.interval, I2.minPos, I2.minLe⟩

/-- The sum is over the last thirty entries (the first of which is the one a regulator is made with). -/
theorem reg_sum {r : Reg} {es : List Entry} (h : Run r es) : r.sum.isOf (window es) := h.inv.sum

/-- After an execution of more than ten: what fits in the interval at the speed of the last thirty, without the time of their
finalization; at least ten. It fails exactly if all of these took no time. -/
theorem reg_max {r : Reg} {es : List Entry} (h : Run r es) (e : Entry) (he : 10 < e.count) :
    let w := window (es ++ [e])
    let c := (w.map Entry.count).sum
    let x := (w.map Entry.execution).sum
    let f := (w.map Entry.finalize).sum
    (x = 0 → r.onExec e = none) ∧
    (x ≠ 0 → ∃ r', r.onExec e = some r' ∧ r'.maxTx = max 10 ((c * (r.interval - f.tdiv w.length)).tdiv x) ∧
      r'.interval = r.interval ∧ r'.minTimeout = r.minTimeout ∧ r'.proposeTime = r.proposeTime) := by
  intro w c x f
  have I := h.inv.add he
  obtain ⟨s1, s2, s3, s4⟩ := I.sum
  have hw : 0 < w.length := by
    rcases window_add (es := es) e with ⟨_, hw, _⟩ | ⟨_, _, _, _, hw', _, _⟩
    · show 0 < (window (es ++ [e])).length
      rw [hw]; simp
    · show 0 < (window (es ++ [e])).length
      rw [hw']; simp
  have hne : (r.addEntry e).sum.entries ≠ 0 := by rw [s4]; show ((w.length : Nat) : Int) ≠ 0; omega
  unfold Reg.onExec
  rw [if_neg (by omega)]
  dsimp only
  constructor
  · intro hx
    rw [if_pos (.inr (by rw [s2]; exact hx))]
  · intro hx
    rw [if_neg (by
      rintro (h | h)
      · exact hne h
      · rw [s2] at h; exact hx h)]
    refine ⟨_, rfl, ?_, rfl, rfl, rfl⟩
    dsimp only
    rw [s1, s2, s3, s4]
    show (if (c * (r.interval - f.tdiv w.length)).tdiv x < 10 then 10 else _) = _
    split_ifs with hlt
    · rw [max_eq_left (by omega)]
    · rw [max_eq_right (by omega)]
      rfl

/-- A block with ten transactions or less changes nothing. -/
theorem reg_few (r : Reg) (e : Entry) (he : e.count ≤ 10) : r.onExec e = some r := by
  unfold Reg.onExec
  rw [if_pos he]

/-- So once the number is down to ten or less, and no block has more, it stays so. -/
theorem reg_stuck {r : Reg} (hr : r.maxTx ≤ 10) (es : List Entry) (he : ∀ e ∈ es, e.count ≤ r.maxTx) :
    es.foldlM (fun r e => r.onExec e) r = some r := by
  induction es with
  | nil => rfl
  | cons e es ih =>
    rw [List.foldlM_cons, reg_few r e (by have := he e (by simp); omega)]
    exact ih fun x hx => he x (List.mem_cons_of_mem _ hx)

/-- The waiting time: from the least one to the interval, and the next block is not sooner after the proposal than the interval;
no longer than needed. -/
theorem reg_timeout {r : Reg} {es : List Entry} (h : Run r es) (now : Int) (hn : r.proposeTime ≤ now) :
    0 < r.minTimeout ∧ r.minTimeout ≤ r.commitTimeout now ∧ r.commitTimeout now ≤ r.interval ∧
      r.proposeTime + r.interval ≤ now + r.commitTimeout now ∧
      (r.minTimeout < r.commitTimeout now → now + r.commitTimeout now = r.proposeTime + r.interval) := by
  have I := h.inv
  have := I.minLe
  have := I.minPos
  unfold Reg.commitTimeout
  dsimp only
  split_ifs <;> omega

/-- Setting intervals never fails; the interval is the one that is set (or the time to wait, if there is none), the least time is
the one that is set (or 200 ms), but no longer than the interval; and the number of transactions is scaled. -/
theorem reg_set {r : Reg} {es : List Entry} (h : Run r es) (bi ct : Int) (h1 : 0 ≤ bi) (h2 : 0 ≤ ct) (h3 : 0 < bi ∨ 0 < ct) :
    ∃ r', r.setInterval bi ct = some r' ∧ r'.interval = (if bi = 0 then ct else bi) ∧
      r'.minTimeout = (if bi = 0 then ct else min bi (if ct = 0 then 200000000 else ct)) ∧
      r'.maxTx = (r'.interval * r.maxTx).tdiv r.interval := by
  have I := h.inv
  have hI := I.interval
  unfold Reg.setInterval
  dsimp only
  by_cases hb : bi = 0
  · simp only [hb, if_true]
    rw [if_neg (show ¬ ct < ct by omega)]
    split_ifs with a b
    · refine ⟨r, rfl, a.2, a.1, ?_⟩
      rw [Int.mul_tdiv_cancel_left _ (by omega)]
    · omega
    · exact ⟨_, rfl, rfl, rfl, rfl⟩
  · simp only [if_neg hb]
    have hmin : ∀ c : Int, (if bi < c then bi else c) = min bi c := by
      intro c
      split_ifs with h
      · rw [min_eq_left (by omega)]
      · rw [min_eq_right (by omega)]
    rw [hmin]
    split_ifs with a b
    all_goals first
      | (refine ⟨r, rfl, ?_, ?_, ?_⟩
         · exact (by assumption : _ ∧ _).2
         · exact (by assumption : _ ∧ _).1
         · rw [Int.mul_tdiv_cancel_left _ (by omega)])
      | omega
      | exact ⟨_, rfl, rfl, rfl, rfl⟩

/-- Two settings to nothing (which `transition.go` does not do) would fail. -/
theorem reg_zero : ∃ r, Reg.new.setInterval 0 0 = some r ∧ r.setInterval 1 1 = none := ⟨_, rfl, rfl⟩

/-- There are such runs: a slow execution, a shorter interval that leaves no transaction, and a wait. -/
example : ∃ r, Run r [⟨20, 1000000000, 0⟩] ∧ r.maxTx = 0 ∧ r.interval = 1000000 ∧ r.commitTimeout 300000 = 1000000 := by
  have h1 : Run _ _ := .exec (e := ⟨20, 1000000000, 0⟩) .new rfl
  have h2 := h1.set (bi := 1000000) (ct := 0) (by decide) (by decide) (by decide) rfl
  exact ⟨_, h2, by decide +kernel, by decide +kernel, by decide +kernel⟩

end Verif.Regulator
