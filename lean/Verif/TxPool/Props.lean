import Verif.TxPool.Refine

/-!
# The transaction pool (C67): theorems
-/

namespace Verif.TxPool

set_option linter.unusedSectionVars false

variable {I S : Type} [DecidableEq I] [DecidableEq S] [Inhabited I] [Inhabited S] {W : Type}

/-- The transactions a loop over the list of the pool visits, in this order. -/
def TL.txs (l : TL I S) : List (Tx I S) := l.elems.map l.val

/-- C67: for every history of a pool, its linked lists and maps behave as a plain list of entries: all answers are those of the specification, the
elements that are visited are its entries, and there is no panic. -/
theorem C67_refines (w : I → ℕ × ℕ × ℕ) (cap : ℤ) (os : List (Op I S W)) :
    ∃ s, PS.run w cap ⟨TL.new, []⟩ os = some (s, (Pool.run w cap ⟨[], 0, []⟩ os).2) ∧
      s.l.txs = (Pool.run w cap ⟨[], 0, []⟩ os).1.es.map Entry.tx := by
  obtain ⟨s, ps, h1, h2⟩ := run_sim (cap := cap) os (R_new w)
  refine ⟨s, h1, ?_⟩
  rw [h2.es, TL.txs, elems_eq h2.rep, abs, List.map_map]
  rfl

/-- C67: in every history, the pool has no transaction twice, the transactions of a sender are in the order of their times, the count is right, and ids are
found exactly if they are in the pool. -/
theorem C67_order (w : I → ℕ × ℕ × ℕ) (cap : ℤ) (os : List (Op I S W)) {s : PS I S} {out : List (Out I S)}
    (h : PS.run w cap ⟨TL.new, []⟩ os = some (s, out)) :
    (s.l.txs.map Tx.id).Nodup ∧ s.l.txs.Pairwise (fun a b => a.src = b.src → a.ts ≤ b.ts) ∧ s.l.size = s.l.txs.length ∧
      ∀ i, (s.l.idMap i).isSome = true ↔ i ∈ s.l.txs.map Tx.id := by
  obtain ⟨s', ps, h1, h2⟩ := run_sim (cap := cap) os (R_new w)
  rw [h1] at h
  simp only [Option.some.injEq, Prod.mk.injEq] at h
  obtain ⟨rfl, _⟩ := h
  have hr := h2.rep
  rw [TL.txs, elems_eq hr]
  refine ⟨?_, ?_, by rw [hr.size, List.length_map], ?_⟩
  · rw [List.map_map, List.Nodup, List.pairwise_map]
    refine List.Pairwise.imp_of_mem ?_ hr.nodup
    intro x y hx hy hne he
    have e1 := (hr.ids _ x).mpr ⟨hx, rfl⟩
    have e2 := (hr.ids _ y).mpr ⟨hy, rfl⟩
    simp only [Function.comp] at he
    rw [he, e2] at e1
    simp only [Option.some.injEq] at e1
    exact hne e1.symm
  · rw [List.pairwise_map]; exact hr.sorted
  · intro i
    rw [List.map_map, List.mem_map, Option.isSome_iff_exists]
    constructor
    · rintro ⟨p, hp⟩
      exact ⟨p, (hr.ids i p).mp hp⟩
    · rintro ⟨p, hp⟩
      exact ⟨p, (hr.ids i p).mpr hp⟩

theorem insertEntry_length (e : Entry I S) : ∀ es : List (Entry I S), (insertEntry e es).length = es.length + 1 := by
  intro es
  induction es with
  | nil => rfl
  | cons x r ih =>
    rw [insertEntry]
    split_ifs
    · rfl
    · simp [ih]

theorem step_length {w : I → ℕ × ℕ × ℕ} {cap : ℤ} {p : Pool I S} (h : (p.es.length : ℤ) ≤ max cap 0) (o : Op I S W) :
    ((p.step w cap o).1.es.length : ℤ) ≤ max cap 0 := by
  have hf : ∀ f : Entry I S → Bool, ((p.es.filter f).length : ℤ) ≤ max cap 0 := by
    intro f
    have := List.length_filter_le f p.es
    omega
  cases o with
  | add tx d =>
    simp only [Pool.step]
    by_cases hc : cap ≤ (p.es.length : ℤ)
    · rw [if_pos hc]; exact h
    · rw [if_neg hc]
      by_cases hd : p.es.any (fun e => e.tx.id = tx.id) = true
      · rw [if_pos hd]; exact h
      · rw [if_neg hd]
        dsimp only
        rw [insertEntry_length]
        push_cast
        omega
  | removeList ids => exact hf _
  | dropOld bts => exact hf _
  | candidate env mb mc wc => exact h
  | drop k => exact hf _
  | filter recent b m => exact h

theorem run_length {w : I → ℕ × ℕ × ℕ} {cap : ℤ} : ∀ (os : List (Op I S W)) {p : Pool I S}, (p.es.length : ℤ) ≤ max cap 0 →
    ((p.run w cap os).1.es.length : ℤ) ≤ max cap 0 := by
  intro os
  induction os with
  | nil => intro p h; exact h
  | cons o r ih => intro p h; exact ih (step_length h o)

/-- C67: a pool never has more transactions than its size. -/
theorem C67_capacity (w : I → ℕ × ℕ × ℕ) {cap : ℤ} (hcap : 0 ≤ cap) (os : List (Op I S W)) {s : PS I S} {out : List (Out I S)}
    (h : PS.run w cap ⟨TL.new, []⟩ os = some (s, out)) : (s.l.txs.length : ℤ) ≤ cap := by
  obtain ⟨s', h1, h2⟩ := C67_refines w cap os
  rw [h1] at h
  simp only [Option.some.injEq, Prod.mk.injEq] at h
  obtain ⟨rfl, _⟩ := h
  rw [h2, List.length_map]
  have := run_length (w := w) (cap := cap) os (p := (⟨[], 0, []⟩ : Pool I S))
    (by show ((0 : ℕ) : ℤ) ≤ max cap 0; omega)
  omega

/-! ## The transactions of a block -/

/-- `PreValidate` accepts the transactions one after another. -/
def Valid (env : Env I S W) : W → List (Tx I S) → Prop
  | _, [] => True
  | wc, t :: r => (env.pre wc t).2 = .ok ∧ Valid env (env.pre wc t).1 r

/-- The world after `PreValidate` of transactions. -/
def after (env : Env I S W) (wc : W) (txs : List (Tx I S)) : W := txs.foldl (fun wc t => (env.pre wc t).1) wc

/-- `PreValidate` that fails changes nothing (`transaction_v3.go:231-277`: the balance is only taken at the end). -/
def PreClean (env : Env I S W) : Prop := ∀ wc t, (env.pre wc t).2 ≠ .ok → (env.pre wc t).1 = wc

/-- What is promised of transactions that are chosen from a pool. -/
structure Chosen (env : Env I S W) (bytes count : ℕ) (wc : W) (pool txs : List (Tx I S)) : Prop where
  sub : txs.Sublist pool
  bytes_le : (txs.map Tx.size).sum ≤ bytes
  count_le : txs.length ≤ count
  fits : ∀ t ∈ txs, env.range t = .fits ∧ env.recent t = some false
  valid : Valid env wc txs
  all : (pool.map Tx.size).sum < bytes → pool.length ≤ count → ∀ t ∈ pool, t ∈ txs ∨ env.range t ≠ .fits ∨ env.recent t ≠ some false ∨
    ∃ u v, txs = u ++ v ∧ (env.pre (after env wc u) t).2 ≠ .ok

theorem verdict_cases (env : Env I S W) (hc : PreClean env) (wc : W) (e : Entry I S) :
    (verdict env wc e = .take (env.pre wc e.tx).1 ∧ env.range e.tx = .fits ∧ env.recent e.tx = some false ∧ (env.pre wc e.tx).2 = .ok) ∨
    ((verdict env wc e = .drop wc ∨ verdict env wc e = .skip wc) ∧
      (env.range e.tx ≠ .fits ∨ env.recent e.tx ≠ some false ∨ (env.pre wc e.tx).2 ≠ .ok)) := by
  have hclean := hc wc e.tx
  unfold verdict
  cases hr : env.range e.tx with
  | expired => exact Or.inr ⟨Or.inl (by simp), Or.inl (by simp)⟩
  | future => exact Or.inr ⟨Or.inr (by simp), Or.inl (by simp)⟩
  | fits =>
    cases hrec : env.recent e.tx with
    | none => exact Or.inr ⟨Or.inr (by simp), Or.inr (Or.inl (by simp))⟩
    | some b =>
      cases b with
      | true => exact Or.inr ⟨Or.inl (by simp), Or.inr (Or.inl (by simp))⟩
      | false =>
        cases hp : (env.pre wc e.tx).2 with
        | ok => exact Or.inl ⟨by simp, rfl, rfl, rfl⟩
        | balance =>
          have := hclean (by rw [hp]; simp)
          refine Or.inr ⟨?_, Or.inr (Or.inr (by simp))⟩
          cases e.direct <;> simp [this]
        | invalid =>
          have := hclean (by rw [hp]; simp)
          exact Or.inr ⟨Or.inl (by simp [this]), Or.inr (Or.inr (by simp))⟩

theorem choose_chosen (env : Env I S W) (hc : PreClean env) : ∀ (es : List (Entry I S)) (bytes count : ℕ) (wc : W),
    Chosen env bytes count wc (es.map Entry.tx) (choose env bytes count wc es).1 := by
  intro es
  induction es with
  | nil =>
    intro bytes count wc
    exact ⟨by simp [choose], by simp [choose], by simp [choose], by simp [choose], trivial, by simp⟩
  | cons e r ih =>
    intro bytes count wc
    rw [choose, List.map_cons]
    by_cases hz : bytes = 0 ∨ count = 0
    · rw [if_pos hz]
      refine ⟨by simp, by simp, by simp, by simp, trivial, ?_⟩
      intro h1 h2
      simp at h1 h2
      omega
    · rw [if_neg hz]
      rcases verdict_cases env hc wc e with ⟨hv, hr, hrec, hp⟩ | ⟨hv, hbad⟩
      · rw [hv]
        dsimp only
        by_cases hsz : bytes < e.tx.size
        · rw [if_pos hsz]
          refine ⟨by simp, by simp, by simp, by simp, trivial, ?_⟩
          intro h1 _
          simp at h1
          omega
        · rw [if_neg hsz]
          have hi := ih (bytes - e.tx.size) (count - 1) (env.pre wc e.tx).1
          refine ⟨hi.sub.cons_cons _, ?_, ?_, ?_, ⟨hp, hi.valid⟩, ?_⟩
          · have := hi.bytes_le
            simp only [List.map_cons, List.sum_cons]
            omega
          · have := hi.count_le
            simp only [List.length_cons]
            omega
          · intro t ht
            rw [List.mem_cons] at ht
            rcases ht with rfl | ht
            · exact ⟨hr, hrec⟩
            · exact hi.fits t ht
          · intro h1 h2 t ht
            simp only [List.map_cons, List.sum_cons, List.length_cons] at h1 h2
            rw [List.mem_cons] at ht
            rcases ht with rfl | ht
            · exact Or.inl (by simp)
            · rcases hi.all (by omega) (by omega) t ht with q | q | q | ⟨u, v, q1, q2⟩
              · exact Or.inl (by simp [q])
              · exact Or.inr (Or.inl q)
              · exact Or.inr (Or.inr (Or.inl q))
              · exact Or.inr (Or.inr (Or.inr ⟨e.tx :: u, v, by rw [q1]; rfl, q2⟩))
      · have key : Chosen env bytes count wc (e.tx :: r.map Entry.tx) (choose env bytes count wc r).1 := by
          have hi := ih bytes count wc
          refine ⟨hi.sub.cons _, hi.bytes_le, hi.count_le, hi.fits, hi.valid, ?_⟩
          intro h1 h2 t ht
          simp only [List.map_cons, List.sum_cons, List.length_cons] at h1 h2
          rw [List.mem_cons] at ht
          rcases ht with rfl | ht
          · rcases hbad with q | q | q
            · exact Or.inr (Or.inl q)
            · exact Or.inr (Or.inr (Or.inl q))
            · exact Or.inr (Or.inr (Or.inr ⟨[], _, rfl, q⟩))
          · exact hi.all (by omega) (by omega) t ht
        rcases hv with hv | hv <;> · rw [hv]; exact key

/-- C67: in every history, the transactions that are chosen for a block are in the order of the pool, within the limits, of the time of the block, not
in a finalized block, and can be paid one after another; if the limits do not matter, none is left out that could be in the block. -/
theorem C67_candidate (w : I → ℕ × ℕ × ℕ) (cap : ℤ) (os : List (Op I S W)) {s : PS I S} {out : List (Out I S)}
    (h : PS.run w cap ⟨TL.new, []⟩ os = some (s, out)) (env : Env I S W) (hc : PreClean env) (maxBytes maxCount : ℤ) (wc : W) :
    Chosen env (limit maxBytes (1024 * 1024)) (limit maxCount 1500) wc s.l.txs (candidate env maxBytes maxCount s.l wc).2.txs := by
  obtain ⟨s', ps, h1, h2⟩ := run_sim (cap := cap) os (R_new w)
  rw [h1] at h
  simp only [Option.some.injEq, Prod.mk.injEq] at h
  obtain ⟨rfl, _⟩ := h
  obtain ⟨s'', qs, h3, h4⟩ := step_sim (cap := cap) h2 (.candidate env maxBytes maxCount wc)
  simp only [PS.step, Pool.step, Option.some.injEq, Prod.mk.injEq, Out.chosen.injEq] at h3
  have := choose_chosen env hc (Pool.run w cap ⟨[], 0, []⟩ os).1.es (limit maxBytes (1024 * 1024)) (limit maxCount 1500) wc
  rw [h3.2]
  have e : s'.l.txs = (Pool.run w cap ⟨[], 0, []⟩ os).1.es.map Entry.tx := by
    rw [h2.es, TL.txs, elems_eq h2.rep, abs, List.map_map]
    rfl
  rw [e]; exact this

/-- C67: an entry is dropped because it is too old, in a finalized block, or refused by `PreValidate`; not if a transaction that was sent to this node
lacks only the balance. -/
theorem C67_dropped (env : Env I S W) : ∀ (es : List (Entry I S)) (bytes count : ℕ) (wc : W), ∀ n ∈ (choose env bytes count wc es).2,
    ∃ e ∈ es, e.no = n ∧ (env.range e.tx = .expired ∨ env.recent e.tx = some true ∨ ∃ wc', (env.pre wc' e.tx).2 = .invalid ∨
      ((env.pre wc' e.tx).2 = .balance ∧ e.direct = false)) := by
  intro es
  induction es with
  | nil => intro bytes count wc n hn; simp [choose] at hn
  | cons e r ih =>
    intro bytes count wc n hn
    have up : (∃ e' ∈ r, e'.no = n ∧ (env.range e'.tx = .expired ∨ env.recent e'.tx = some true ∨ ∃ wc', (env.pre wc' e'.tx).2 = .invalid ∨
        ((env.pre wc' e'.tx).2 = .balance ∧ e'.direct = false))) → ∃ e' ∈ e :: r, e'.no = n ∧ (env.range e'.tx = .expired ∨
        env.recent e'.tx = some true ∨ ∃ wc', (env.pre wc' e'.tx).2 = .invalid ∨ ((env.pre wc' e'.tx).2 = .balance ∧ e'.direct = false)) := by
      rintro ⟨e', h1, h2⟩; exact ⟨e', by simp [h1], h2⟩
    rw [choose] at hn
    by_cases hz : bytes = 0 ∨ count = 0
    · rw [if_pos hz] at hn; simp at hn
    · rw [if_neg hz] at hn
      cases hv : verdict env wc e with
      | take wc' =>
        rw [hv] at hn
        dsimp only at hn
        by_cases hsz : bytes < e.tx.size
        · rw [if_pos hsz] at hn; simp at hn
        · rw [if_neg hsz] at hn
          exact up (ih _ _ _ n hn)
      | skip wc' =>
        rw [hv] at hn
        exact up (ih _ _ _ n hn)
      | drop wc' =>
        rw [hv] at hn
        dsimp only at hn
        rw [List.mem_cons] at hn
        rcases hn with rfl | hn
        · refine ⟨e, by simp, rfl, ?_⟩
          unfold verdict at hv
          by_cases h1 : env.range e.tx = .expired
          · exact Or.inl h1
          rw [if_neg h1] at hv
          by_cases h2 : env.range e.tx = .future
          · rw [if_pos h2] at hv; simp at hv
          rw [if_neg h2] at hv
          by_cases h3 : env.recent e.tx = none
          · rw [if_pos h3] at hv; simp at hv
          rw [if_neg h3] at hv
          by_cases h4 : env.recent e.tx = some true
          · exact Or.inr (Or.inl h4)
          rw [if_neg h4] at hv
          refine Or.inr (Or.inr ⟨wc, ?_⟩)
          cases hp : (env.pre wc e.tx).2 with
          | ok => rw [hp] at hv; simp at hv
          | invalid => exact Or.inl rfl
          | balance =>
            rw [hp] at hv
            cases hd : e.direct with
            | false => exact Or.inr ⟨rfl, rfl⟩
            | true => rw [hd] at hv; simp at hv
        · exact up (ih _ _ _ n hn)

/-- C67 (finding): a transaction that could be in a block but is larger than a block may be stops all behind it: nothing is chosen as long as it is in the pool. -/
theorem C67_blocked (env : Env I S W) {e : Entry I S} {es : List (Entry I S)} {bytes count : ℕ} {wc : W} (hf : env.range e.tx = .fits)
    (hr : env.recent e.tx = some false) (hp : (env.pre wc e.tx).2 = .ok) (hs : bytes < e.tx.size) : (choose env bytes count wc (e :: es)).1 = [] := by
  rw [choose]
  by_cases hz : bytes = 0 ∨ count = 0
  · rw [if_pos hz]
  · rw [if_neg hz]
    have : verdict env wc e = .take (env.pre wc e.tx).1 := by simp [verdict, hf, hr, hp]
    rw [this]
    dsimp only
    rw [if_pos hs]

/-- C67: in every history, what is sent to a peer for its filter is the first transactions of the pool that are not in the filter and in no finalized
block, in order: the shortcuts over groups of transactions leave none out. -/
theorem C67_filter (w : I → ℕ × ℕ × ℕ) (cap : ℤ) (os : List (Op I S W)) {s : PS I S} {out : List (Out I S)}
    (h : PS.run w cap ⟨TL.new, []⟩ os = some (s, out)) (recent : Tx I S → Bool) (b : Bloom) (max : ℕ) :
    filterTxs w recent b max s.l = (s.l.txs.filter (fun t => !b.contains (w t.id) && !recent t)).take max := by
  obtain ⟨s', ps, h1, h2⟩ := run_sim (cap := cap) os (R_new w)
  rw [h1] at h
  simp only [Option.some.injEq, Prod.mk.injEq] at h
  obtain ⟨rfl, _⟩ := h
  obtain ⟨s'', qs, h3, h4⟩ := step_sim (cap := cap) h2 (.filter recent b max : Op I S W)
  simp only [PS.step, Pool.step, Option.some.injEq, Prod.mk.injEq, Out.chosen.injEq] at h3
  rw [h3.2, h2.es, TL.txs, elems_eq h2.rep, abs, List.map_map]
  rfl

/-! ## The hypotheses are met -/

/-- Ids are numbers here. -/
def exW : ℕ → ℕ × ℕ × ℕ := fun i => (i, i + 1, i + 2)

/-- Two senders; the second transaction of sender 7 is older than the first. -/
def exOps : List (Op ℕ ℕ Unit) :=
  [.add ⟨100, 7, 50, 10⟩ true, .add ⟨200, 8, 60, 10⟩ false, .add ⟨300, 7, 40, 10⟩ true, .add ⟨300, 7, 40, 10⟩ true, .add ⟨400, 7, 45, 10⟩ true]

example : ((PS.run exW 4 ⟨TL.new, []⟩ exOps).map (fun r => r.1.l.txs.map Tx.id)) = some [300, 400, 100, 200] := by decide +kernel

/-- All is valid. -/
def exEnv : Env ℕ ℕ Unit := ⟨fun _ => .fits, fun _ => some false, fun wc _ => (wc, .ok)⟩

example : PreClean exEnv := fun _ _ _ => rfl

example : ((PS.run exW 4 ⟨TL.new, []⟩ exOps).map (fun r => (candidate exEnv 25 0 r.1.l ()).2.txs.map Tx.id)) = some [300, 400] := by decide +kernel

/-- C67 (finding): the filter a node sends to its peers can lack transactions that are in its pool, so that they are sent again: a transaction that
goes to the front starts a new filter. -/
theorem C67_pool_bloom : ∃ s out, PS.run exW 4 ⟨TL.new, []⟩ exOps = some (s, out) ∧
    ∃ t ∈ s.l.txs, s.l.getBloom.contains (exW t.id) = false := by
  obtain ⟨s, h1, _⟩ := C67_refines exW 4 exOps
  refine ⟨s, _, h1, ⟨100, 7, 50, 10⟩, ?_, ?_⟩
  · have : ((PS.run exW 4 ⟨TL.new, []⟩ exOps).map (fun r => decide ((⟨100, 7, 50, 10⟩ : Tx ℕ ℕ) ∈ r.1.l.txs))) = some true := by decide +kernel
    rw [h1] at this
    simpa using this
  · have : ((PS.run exW 4 ⟨TL.new, []⟩ exOps).map (fun r => r.1.l.getBloom.contains (exW 100))) = some false := by decide +kernel
    rw [h1] at this
    simpa using this

end Verif.TxPool
