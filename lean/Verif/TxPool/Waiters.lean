import Mathlib.Data.List.Basic
import Mathlib.Tactic.Common

/-!
# Waiting for the result of a transaction (C68)

`TransactionManager` (`service/transactionmanager.go`) with the pool and the finalization of blocks around it: the interleavings of all threads.  The pool has its own mutex,
which is not held while the mutex of the manager is; what happens under one mutex is one step, and a thread that holds the mutex of the manager and uses the pool takes several.
-/

namespace Verif.Waiters

variable {I : Type} [DecidableEq I]

/-- What a channel receives: the receipt of a transaction, or the error of its drop. -/
inductive Msg (I : Type)
  | receipt (id : I)
  | dropped (id : I)

/-- The transaction a message is about. -/
def Msg.id : Msg I → I
  | .receipt i => i
  | .dropped i => i

/-- Who holds the mutex of the manager: nobody; `AddAndWait` or `WaitResult` that have found the transaction in the pool (or put it there) and are about to add the waiter;
`WaitResult` that has not found it and looks for its locator. -/
inductive Lock (I : Type)
  | free
  | register (id : I)
  | lookup (id : I)

/-- The state.  `pool`: ids in the pool (C67).  `drops`: removed by `dropTransactions` or `DropOldTXs`, which have unlocked the pool and will call `OnTxDrops`
(`common.LockForAutoCall`).  `flight`: blocks whose ids are committed and whose results are not yet finalized.  `waiters`: `txWaiters`.  `sent`: what was sent to channels, in
order.  `chans`: the transaction of each channel that was made.  `added`, `gone` record all ids that were added to, and dropped from, the pool, and `committed` all
that were committed. -/
structure State (I : Type) where
  pool : List I
  drops : List (List I)
  flight : List (List I)
  waiters : I → List ℕ
  chans : List I
  sent : List (ℕ × Msg I)
  lock : Lock I
  added : List I
  gone : List I
  committed : List I

/-- At the start. -/
def init : State I := ⟨[], [], [], fun _ => [], [], [], .free, [], [], []⟩

/-- For each id: `removeWaitersInLock`, then send to each channel (`transactionmanager.go:86-107, 116-124, 131-142`). -/
def deliver (msg : I → Msg I) (s : State I) : List I → State I
  | [] => s
  | i :: r => deliver msg { s with waiters := fun x => if x = i then [] else s.waiters x, sent := s.sent ++ (s.waiters i).map (fun c => (c, msg i)) } r

/-- One step of some thread. -/
inductive Step : State I → State I → Prop
  /-- `Add` (`transactionmanager.go:177-186, 205-220`); what `CheckTXForAdd` rejects is not modelled (C31), so more is accepted here: the pool takes the transaction. -/
  | add (s : State I) (id : I) : s.lock = .free → id ∉ s.pool → Step s { s with pool := id :: s.pool, added := id :: s.added }
  /-- `AddAndWait` (`:144-158`): the pool takes the transaction, and `m.lock` is held. -/
  | addWait (s : State I) (id : I) : s.lock = .free → id ∉ s.pool →
      Step s { s with pool := id :: s.pool, added := id :: s.added, lock := .register id }
  /-- `AddAndWait` of a transaction that is in the pool: `ErrDuplicateTransaction`. -/
  | dupWait (s : State I) (id : I) : s.lock = .free → id ∈ s.pool → Step s { s with lock := .register id }
  /-- `WaitResult` (`:160-175`) of a transaction in the pool. -/
  | wait (s : State I) (id : I) : s.lock = .free → id ∈ s.pool → Step s { s with lock := .register id }
  /-- `WaitResult` of another one: next is `HasLocator`. -/
  | waitNot (s : State I) (id : I) : s.lock = .free → id ∉ s.pool → Step s { s with lock := .lookup id }
  /-- `addWaiterInLock` with a new channel (`:109-114, 155-157, 165-167`), and unlock. -/
  | register (s : State I) (id : I) : s.lock = .register id →
      Step s { s with
        waiters := fun x => if x = id then s.waiters x ++ [s.chans.length] else s.waiters x
        chans := s.chans ++ [id]
        lock := .free }
  /-- `HasLocator` says yes: `ErrCommittedTransaction`. -/
  | found (s : State I) (id : I) : s.lock = .lookup id → id ∈ s.committed → Step s { s with lock := .free }
  /-- `HasLocator` says no: `ErrNotFound`. -/
  | notFound (s : State I) (id : I) : s.lock = .lookup id → id ∉ s.committed → Step s { s with lock := .free }
  /-- `dropTransactions` or `DropOldTXs` (`transactionpool.go:94-123, 317-337`) under the mutex of the pool. -/
  | drop (s : State I) (ids : List I) : (∀ i ∈ ids, i ∈ s.pool) →
      Step s { s with pool := s.pool.filter (fun i => decide (i ∉ ids)), drops := ids :: s.drops, gone := ids ++ s.gone }
  /-- `OnTxDrops` (`transactionmanager.go:131-142`). -/
  | onDrops (s : State I) (a b : List (List I)) (ids : List I) : s.lock = .free → s.drops = a ++ ids :: b →
      Step s (deliver .dropped { s with drops := a ++ b } ids)
  /-- `finalizeNormalTransaction` or `finalizePatchTransaction` (`transition.go:929-954`): the ids of a block are committed. -/
  | commit (s : State I) (ids : List I) : Step s { s with flight := ids :: s.flight, committed := ids ++ s.committed }
  /-- `RemoveList` of a part of what was committed (`manager.go:308, 315`; `transactionpool.go:241-275`). -/
  | remove (s : State I) (ids : List I) : ids ∈ s.flight → Step s { s with pool := s.pool.filter (fun i => decide (i ∉ ids)) }
  /-- `NotifyFinalized` when the result of a block is final (`manager.go:323`; `transactionmanager.go:67-107`); transactions and receipts can be read. -/
  | notify (s : State I) (a b : List (List I)) (ids : List I) : s.lock = .free → s.flight = a ++ ids :: b →
      Step s (deliver .receipt { s with flight := a ++ b } ids)

/-- The states that can be reached. -/
inductive Reach : State I → Prop
  | init : Reach init
  | step {s t : State I} : Reach s → Step s t → Reach t

/-! ## Specification -/

/-- A transaction that still can get an answer: it is in the pool, or its drop or its receipt is about to be told. -/
def Alive (s : State I) (id : I) : Prop := id ∈ s.pool ∨ (∃ d ∈ s.drops, id ∈ d) ∨ (∃ b ∈ s.flight, id ∈ b)

/-- Channel `c` was made for `id` and nothing was sent to it. -/
def Open (s : State I) (c : ℕ) (id : I) : Prop := s.chans[c]? = some id ∧ ∀ m, (c, m) ∉ s.sent

/-! ## Invariant -/

/-- The invariant. -/
structure Inv (s : State I) : Prop where
  alive : ∀ i, s.waiters i ≠ [] → Alive s i
  reg : ∀ i, s.lock = .register i → Alive s i
  chan : ∀ i c, c ∈ s.waiters i → s.chans[c]? = some i
  nodup : ∀ i, (s.waiters i).Nodup
  open_ : ∀ c i, s.chans[c]? = some i → (∀ m, (c, m) ∉ s.sent) → c ∈ s.waiters i
  waits : ∀ i c, c ∈ s.waiters i → ∀ m, (c, m) ∉ s.sent
  once : (s.sent.map Prod.fst).Nodup
  right : ∀ c m, (c, m) ∈ s.sent → s.chans[c]? = some m.id
  fate : ∀ i ∈ s.added, i ∈ s.pool ∨ i ∈ s.gone ∨ i ∈ s.committed
  com : ∀ b ∈ s.flight, ∀ i ∈ b, i ∈ s.committed

theorem inv_init : Inv (init : State I) := by
  constructor <;> simp [init]

/-- What `deliver` keeps, for lists of ids that were removed from `drops` or `flight`. -/
structure DInv (s : State I) (ids : List I) : Prop where
  alive : ∀ i, s.waiters i ≠ [] → Alive s i ∨ i ∈ ids
  chan : ∀ i c, c ∈ s.waiters i → s.chans[c]? = some i
  nodup : ∀ i, (s.waiters i).Nodup
  open_ : ∀ c i, s.chans[c]? = some i → (∀ m, (c, m) ∉ s.sent) → c ∈ s.waiters i
  waits : ∀ i c, c ∈ s.waiters i → ∀ m, (c, m) ∉ s.sent
  once : (s.sent.map Prod.fst).Nodup
  right : ∀ c m, (c, m) ∈ s.sent → s.chans[c]? = some m.id

theorem deliver_frame (msg : I → Msg I) : ∀ (ids : List I) (s : State I),
    (deliver msg s ids).pool = s.pool ∧ (deliver msg s ids).drops = s.drops ∧ (deliver msg s ids).flight = s.flight ∧
    (deliver msg s ids).chans = s.chans ∧ (deliver msg s ids).lock = s.lock ∧ (deliver msg s ids).added = s.added ∧
    (deliver msg s ids).gone = s.gone ∧ (deliver msg s ids).committed = s.committed := by
  intro ids
  induction ids with
  | nil => intro s; simp [deliver]
  | cons i r ih =>
    intro s
    exact ih _

theorem deliver_inv (msg : I → Msg I) (hm : ∀ i, (msg i).id = i) : ∀ (ids : List I) (s : State I), DInv s ids → DInv (deliver msg s ids) [] := by
  intro ids
  induction ids with
  | nil => intro s h; exact h
  | cons i r ih =>
    intro s h
    apply ih
    have hw : ∀ x c, c ∈ (if x = i then ([] : List ℕ) else s.waiters x) → x ≠ i ∧ c ∈ s.waiters x := by
      intro x c hc
      by_cases hx : x = i
      · rw [if_pos hx] at hc; simp at hc
      · rw [if_neg hx] at hc; exact ⟨hx, hc⟩
    constructor
    · intro x hx
      dsimp only at hx
      by_cases hxi : x = i
      · rw [if_pos hxi] at hx; exact absurd rfl hx
      · rw [if_neg hxi] at hx
        rcases h.alive x hx with q | q
        · exact Or.inl q
        · rw [List.mem_cons] at q
          exact Or.inr (q.resolve_left hxi)
    · intro x c hc
      exact h.chan x c (hw x c hc).2
    · intro x
      dsimp only
      by_cases hxi : x = i
      · rw [if_pos hxi]; exact List.nodup_nil
      · rw [if_neg hxi]; exact h.nodup x
    · intro c x hc hn
      dsimp only at hn ⊢
      have h1 := h.open_ c x hc (fun m hmem => hn m (List.mem_append_left _ hmem))
      by_cases hxi : x = i
      · exfalso
        subst hxi
        exact hn (msg x) (List.mem_append_right _ (List.mem_map.mpr ⟨c, h1, rfl⟩))
      · rw [if_neg hxi]; exact h1
    · intro x c hc m hmem
      obtain ⟨hxi, hc'⟩ := hw x c hc
      dsimp only at hmem
      rw [List.mem_append, List.mem_map] at hmem
      rcases hmem with q | ⟨c', q1, q2⟩
      · exact h.waits x c hc' m q
      · simp only [Prod.mk.injEq] at q2
        obtain ⟨rfl, _⟩ := q2
        have e1 := h.chan x c' hc'
        have e2 := h.chan i c' q1
        rw [e1] at e2
        simp only [Option.some.injEq] at e2
        exact hxi e2
    · dsimp only
      rw [List.map_append, List.nodup_append]
      refine ⟨h.once, ?_, ?_⟩
      · rw [List.map_map]
        have : ((s.waiters i).map (Prod.fst ∘ fun c => (c, msg i))) = s.waiters i := by
          simp [Function.comp_def]
        rw [this]; exact h.nodup i
      · rintro c hc c' hc' rfl
        rw [List.mem_map] at hc hc'
        obtain ⟨⟨c1, m1⟩, q1, rfl⟩ := hc
        obtain ⟨⟨c2, m2⟩, q2, q3⟩ := hc'
        rw [List.mem_map] at q2
        obtain ⟨c3, q4, q5⟩ := q2
        simp only [Prod.mk.injEq] at q5 q3
        obtain ⟨rfl, rfl⟩ := q5
        subst q3
        exact h.waits i _ q4 m1 q1
    · intro c m hmem
      dsimp only at hmem ⊢
      rw [List.mem_append, List.mem_map] at hmem
      rcases hmem with q | ⟨c', q1, q2⟩
      · exact h.right c m q
      · simp only [Prod.mk.injEq] at q2
        obtain ⟨rfl, rfl⟩ := q2
        rw [hm]; exact h.chan i c' q1

theorem deliver_none (msg : I → Msg I) : ∀ (ids : List I) (s : State I), (∀ i ∈ ids, (deliver msg s ids).waiters i = []) ∧
    ∀ i, s.waiters i = [] → (deliver msg s ids).waiters i = [] := by
  intro ids
  induction ids with
  | nil => intro s; exact ⟨by simp, fun i h => h⟩
  | cons i r ih =>
    intro s
    obtain ⟨h1, h2⟩ := ih { s with waiters := fun x => if x = i then [] else s.waiters x, sent := s.sent ++ (s.waiters i).map (fun c => (c, msg i)) }
    refine ⟨?_, ?_⟩
    · intro x hx
      rw [List.mem_cons] at hx
      rcases hx with rfl | hx
      · exact h2 x (by simp)
      · exact h1 x hx
    · intro x hx
      exact h2 x (by dsimp only; split_ifs <;> simp [hx])

/-- Other steps: the waiters are as before. -/
theorem inv_of {s t : State I} (h : Inv s) (hal : ∀ i, Alive s i → Alive t i) (e1 : t.waiters = s.waiters) (e2 : t.chans = s.chans) (e3 : t.sent = s.sent)
    (hreg : ∀ i, t.lock = .register i → Alive t i) (hf : ∀ i ∈ t.added, i ∈ t.pool ∨ i ∈ t.gone ∨ i ∈ t.committed)
    (hc : ∀ b ∈ t.flight, ∀ i ∈ b, i ∈ t.committed) : Inv t where
  alive i hi := hal i (h.alive i (by rw [← e1]; exact hi))
  reg := hreg
  chan i c hc := by rw [e2]; exact h.chan i c (by rw [← e1]; exact hc)
  nodup i := by rw [e1]; exact h.nodup i
  open_ c i hc hn := by rw [e1]; exact h.open_ c i (by rw [← e2]; exact hc) (by rw [← e3]; exact hn)
  waits i c hc := by rw [e3]; exact h.waits i c (by rw [← e1]; exact hc)
  once := by rw [e3]; exact h.once
  right c m hm := by rw [e2]; exact h.right c m (by rw [← e3]; exact hm)
  fate := hf
  com := hc

/-- After the delivery of what was taken out of `drops` or `flight`. -/
theorem inv_deliver {s s0 : State I} (h : Inv s) (msg : I → Msg I) (hm : ∀ i, (msg i).id = i) (ids : List I) (hl : s.lock = .free)
    (hs0 : s0 = { s with drops := s0.drops, flight := s0.flight }) (hal : ∀ i, Alive s i → Alive s0 i ∨ i ∈ ids) (hfl : ∀ b ∈ s0.flight, b ∈ s.flight) :
    Inv (deliver msg s0 ids) := by
  obtain ⟨f1, f2, f3, f4, f5, f6, f7, f8⟩ := deliver_frame msg ids s0
  have hd : DInv s0 ids := by
    constructor
    · intro i hi
      rw [hs0] at hi
      exact hal i (h.alive i hi)
    · rw [hs0]; exact h.chan
    · rw [hs0]; exact h.nodup
    · rw [hs0]; exact h.open_
    · rw [hs0]; exact h.waits
    · rw [hs0]; exact h.once
    · rw [hs0]; exact h.right
  have := deliver_inv msg hm ids s0 hd
  constructor
  · intro i hi
    rcases this.alive i hi with q | q
    · exact q
    · simp at q
  · intro i hi
    rw [f5, hs0] at hi
    rw [hl] at hi
    cases hi
  · exact this.chan
  · exact this.nodup
  · exact this.open_
  · exact this.waits
  · exact this.once
  · exact this.right
  · rw [f6, f1, f7, f8, hs0]; exact h.fate
  · rw [f3, f8]
    intro b hb i hi
    rw [hs0]
    exact h.com b (hfl b hb) i hi

theorem inv_step {s t : State I} (h : Inv s) (st : Step s t) : Inv t := by
  cases st with
  | add id hl hp =>
    refine inv_of h ?_ rfl rfl rfl ?_ ?_ h.com
    · rintro i (q | q | q)
      · exact Or.inl (List.mem_cons_of_mem _ q)
      · exact Or.inr (Or.inl q)
      · exact Or.inr (Or.inr q)
    · intro i hi
      dsimp only at hi
      rw [hl] at hi; cases hi
    · intro i hi
      dsimp only at hi ⊢
      rw [List.mem_cons] at hi
      rcases hi with rfl | hi
      · exact Or.inl (by simp)
      · rcases h.fate i hi with q | q | q
        · exact Or.inl (List.mem_cons_of_mem _ q)
        · exact Or.inr (Or.inl q)
        · exact Or.inr (Or.inr q)
  | addWait id hl hp =>
    refine inv_of h ?_ rfl rfl rfl ?_ ?_ h.com
    · rintro i (q | q | q)
      · exact Or.inl (List.mem_cons_of_mem _ q)
      · exact Or.inr (Or.inl q)
      · exact Or.inr (Or.inr q)
    · intro i hi
      simp only [Lock.register.injEq] at hi
      subst hi
      exact Or.inl (by simp)
    · intro i hi
      dsimp only at hi ⊢
      rw [List.mem_cons] at hi
      rcases hi with rfl | hi
      · exact Or.inl (by simp)
      · rcases h.fate i hi with q | q | q
        · exact Or.inl (List.mem_cons_of_mem _ q)
        · exact Or.inr (Or.inl q)
        · exact Or.inr (Or.inr q)
  | dupWait id hl hp =>
    refine inv_of h (fun i q => q) rfl rfl rfl ?_ h.fate h.com
    intro i hi
    simp only [Lock.register.injEq] at hi
    subst hi
    exact Or.inl hp
  | wait id hl hp =>
    refine inv_of h (fun i q => q) rfl rfl rfl ?_ h.fate h.com
    intro i hi
    simp only [Lock.register.injEq] at hi
    subst hi
    exact Or.inl hp
  | waitNot id hl hp =>
    refine inv_of h (fun i q => q) rfl rfl rfl ?_ h.fate h.com
    intro i hi
    cases hi
  | found id hl hc =>
    refine inv_of h (fun i q => q) rfl rfl rfl ?_ h.fate h.com
    intro i hi
    cases hi
  | notFound id hl hc =>
    refine inv_of h (fun i q => q) rfl rfl rfl ?_ h.fate h.com
    intro i hi
    cases hi
  | register id hl =>
    have hlt : ∀ i c, c ∈ s.waiters i → c < s.chans.length := by
      intro i c hc
      exact (List.getElem?_eq_some_iff.mp (h.chan i c hc)).1
    have hnew : ∀ m, (s.chans.length, m) ∉ s.sent := by
      intro m hm
      have := (List.getElem?_eq_some_iff.mp (h.right _ m hm)).1
      omega
    constructor
    · intro i hi
      dsimp only at hi
      by_cases hid : i = id
      · subst hid; exact h.reg i hl
      · rw [if_neg hid] at hi; exact h.alive i hi
    · intro i hi; cases hi
    · intro i c hc
      dsimp only at hc ⊢
      by_cases hid : i = id
      · rw [if_pos hid, List.mem_append, List.mem_singleton] at hc
        rcases hc with hc | rfl
        · rw [List.getElem?_append_left (hlt i c hc)]; exact h.chan i c hc
        · simp [hid]
      · rw [if_neg hid] at hc
        rw [List.getElem?_append_left (hlt i c hc)]; exact h.chan i c hc
    · intro i
      dsimp only
      by_cases hid : i = id
      · rw [if_pos hid, List.nodup_append]
        refine ⟨h.nodup i, by simp, ?_⟩
        rintro c hc c' hc' rfl
        rw [List.mem_singleton] at hc'
        have := hlt i c hc
        omega
      · rw [if_neg hid]; exact h.nodup i
    · intro c i hc hn
      dsimp only at hc hn ⊢
      by_cases hlt' : c < s.chans.length
      · rw [List.getElem?_append_left hlt'] at hc
        have := h.open_ c i hc hn
        by_cases hid : i = id
        · rw [if_pos hid]; exact List.mem_append_left _ this
        · rw [if_neg hid]; exact this
      · rw [List.getElem?_append_right (by omega)] at hc
        have hz : c - s.chans.length = 0 := by
          by_contra hne
          rw [List.getElem?_eq_none (by simp; omega)] at hc
          cases hc
        rw [hz] at hc
        simp only [List.getElem?_cons_zero, Option.some.injEq] at hc
        subst hc
        rw [if_pos rfl]
        have : c = s.chans.length := by omega
        simp [this]
    · intro i c hc m hm
      dsimp only at hc hm
      by_cases hid : i = id
      · rw [if_pos hid, List.mem_append, List.mem_singleton] at hc
        rcases hc with hc | rfl
        · exact h.waits i c hc m hm
        · exact hnew m hm
      · rw [if_neg hid] at hc
        exact h.waits i c hc m hm
    · exact h.once
    · intro c m hm
      have h1 := h.right c m hm
      dsimp only
      rw [List.getElem?_append_left (List.getElem?_eq_some_iff.mp h1).1]
      exact h1
    · exact h.fate
    · exact h.com
  | drop ids hp =>
    have hal : ∀ i, Alive s i → Alive { s with pool := s.pool.filter (fun i => decide (i ∉ ids)), drops := ids :: s.drops, gone := ids ++ s.gone } i := by
      rintro i (q | ⟨d, q1, q2⟩ | q)
      · by_cases hi : i ∈ ids
        · exact Or.inr (Or.inl ⟨ids, by simp, hi⟩)
        · exact Or.inl (List.mem_filter.mpr ⟨q, by simpa using hi⟩)
      · exact Or.inr (Or.inl ⟨d, List.mem_cons_of_mem _ q1, q2⟩)
      · exact Or.inr (Or.inr q)
    refine inv_of h hal rfl rfl rfl (fun i hi => hal i (h.reg i hi)) ?_ h.com
    intro i hi
    dsimp only
    rcases h.fate i hi with q | q | q
    · by_cases hi' : i ∈ ids
      · exact Or.inr (Or.inl (List.mem_append_left _ hi'))
      · exact Or.inl (List.mem_filter.mpr ⟨q, by simpa using hi'⟩)
    · exact Or.inr (Or.inl (List.mem_append_right _ q))
    · exact Or.inr (Or.inr q)
  | onDrops a b ids hl hd =>
    refine inv_deliver (s0 := { s with drops := a ++ b }) h .dropped (fun i => rfl) ids hl rfl ?_ (fun b hb => hb)
    rintro i (q | ⟨d, q1, q2⟩ | q)
    · exact Or.inl (Or.inl q)
    · rw [hd, List.mem_append, List.mem_cons] at q1
      rcases q1 with q1 | rfl | q1
      · exact Or.inl (Or.inr (Or.inl ⟨d, List.mem_append_left _ q1, q2⟩))
      · exact Or.inr q2
      · exact Or.inl (Or.inr (Or.inl ⟨d, List.mem_append_right _ q1, q2⟩))
    · exact Or.inl (Or.inr (Or.inr q))
  | commit ids =>
    have hal : ∀ i, Alive s i → Alive { s with flight := ids :: s.flight, committed := ids ++ s.committed } i := by
      rintro i (q | q | ⟨d, q1, q2⟩)
      · exact Or.inl q
      · exact Or.inr (Or.inl q)
      · exact Or.inr (Or.inr ⟨d, List.mem_cons_of_mem _ q1, q2⟩)
    refine inv_of h hal rfl rfl rfl (fun i hi => hal i (h.reg i hi)) ?_ ?_
    · intro i hi
      rcases h.fate i hi with q | q | q
      · exact Or.inl q
      · exact Or.inr (Or.inl q)
      · exact Or.inr (Or.inr (List.mem_append_right _ q))
    · intro b hb i hi
      dsimp only at hb ⊢
      rw [List.mem_cons] at hb
      rcases hb with rfl | hb
      · exact List.mem_append_left _ hi
      · exact List.mem_append_right _ (h.com b hb i hi)
  | remove ids hf =>
    have hal : ∀ i, Alive s i → Alive { s with pool := s.pool.filter (fun i => decide (i ∉ ids)) } i := by
      rintro i (q | q | q)
      · by_cases hi : i ∈ ids
        · exact Or.inr (Or.inr ⟨ids, hf, hi⟩)
        · exact Or.inl (List.mem_filter.mpr ⟨q, by simpa using hi⟩)
      · exact Or.inr (Or.inl q)
      · exact Or.inr (Or.inr q)
    refine inv_of h hal rfl rfl rfl (fun i hi => hal i (h.reg i hi)) ?_ h.com
    intro i hi
    rcases h.fate i hi with q | q | q
    · by_cases hi' : i ∈ ids
      · exact Or.inr (Or.inr (h.com ids hf i hi'))
      · exact Or.inl (List.mem_filter.mpr ⟨q, by simpa using hi'⟩)
    · exact Or.inr (Or.inl q)
    · exact Or.inr (Or.inr q)
  | notify a b ids hl hd =>
    refine inv_deliver (s0 := { s with flight := a ++ b }) h .receipt (fun i => rfl) ids hl rfl ?_ ?_
    · rintro i (q | q | ⟨d, q1, q2⟩)
      · exact Or.inl (Or.inl q)
      · exact Or.inl (Or.inr (Or.inl q))
      · rw [hd, List.mem_append, List.mem_cons] at q1
        rcases q1 with q1 | rfl | q1
        · exact Or.inl (Or.inr (Or.inr ⟨d, List.mem_append_left _ q1, q2⟩))
        · exact Or.inr q2
        · exact Or.inl (Or.inr (Or.inr ⟨d, List.mem_append_right _ q1, q2⟩))
    · intro x hx
      rw [hd]
      simp only [List.mem_append, List.mem_cons] at hx ⊢
      tauto

theorem inv_reach {s : State I} (h : Reach s) : Inv s := by
  induction h with
  | init => exact inv_init
  | step _ st ih => exact inv_step ih st

/-! ## Theorems -/

/-- C68: nobody waits in vain: whatever the threads do, if a channel was given out and nothing was sent to it, then its transaction is in the pool, or a drop of it is about
to be told, or it is in a block whose result is about to be finalized. -/
theorem C68_not_forgotten {s : State I} (h : Reach s) {c : ℕ} {id : I} (ho : Open s c id) : Alive s id := by
  have hi := inv_reach h
  apply hi.alive id
  intro hn
  have := hi.open_ c id ho.1 ho.2
  rw [hn] at this
  simp at this

/-- C68: a channel receives at most one message, so that sending never blocks and never hits a closed channel; and it is about the transaction it was made for. -/
theorem C68_once {s : State I} (h : Reach s) :
    (s.sent.map Prod.fst).Nodup ∧ ∀ c m, (c, m) ∈ s.sent → s.chans[c]? = some m.id :=
  ⟨(inv_reach h).once, (inv_reach h).right⟩

/-- C68: when the result of a block is finalized, no channel of its transactions stays open. -/
theorem C68_answered {s : State I} (h : Reach s) (hl : s.lock = .free) {a b : List (List I)} {ids : List I} (hd : s.flight = a ++ ids :: b) {i : I} (hi : i ∈ ids) (c : ℕ) :
    Step s (deliver .receipt { s with flight := a ++ b } ids) ∧ ¬ Open (deliver .receipt { s with flight := a ++ b } ids) c i := by
  have hst := Step.notify s a b ids hl hd
  refine ⟨hst, ?_⟩
  intro ho
  have hinv := inv_reach (Reach.step h hst)
  have := hinv.open_ c i ho.1 ho.2
  rw [(deliver_none _ ids _).1 i hi] at this
  simp at this

/-- C68: `WaitResult` says that a transaction is unknown only if it never was in the pool or was dropped from it. -/
theorem C68_not_found {s : State I} (h : Reach s) {id : I} (hp : id ∉ s.pool) (hc : id ∉ s.committed) : id ∉ s.added ∨ id ∈ s.gone := by
  by_cases ha : id ∈ s.added
  · rcases (inv_reach h).fate id ha with q | q | q
    · exact absurd q hp
    · exact Or.inr q
    · exact absurd q hc
  · exact Or.inl ha

/-- Committed ids stay committed. -/
theorem step_committed {s t : State I} (st : Step s t) : ∀ i ∈ s.committed, i ∈ t.committed := by
  intro i hi
  cases st with
  | commit ids => exact List.mem_append_right _ hi
  | onDrops a b ids hl hd => rw [(deliver_frame Msg.dropped ids _).2.2.2.2.2.2.2]; exact hi
  | notify a b ids hl hd => rw [(deliver_frame Msg.receipt ids _).2.2.2.2.2.2.2]; exact hi
  | add | addWait | dupWait | wait | waitNot | register | found | notFound | drop | remove => exact hi

/-- Any number of steps. -/
inductive Steps : State I → State I → Prop
  | refl (s : State I) : Steps s s
  | tail {s t u : State I} : Steps s t → Step t u → Steps s u

/-- C68: the same, with the other threads between the two questions `WaitResult` asks: it was not in the pool at `s`, and later, at `t`, its locator was not found. -/
theorem C68_not_found_later {s t : State I} (h : Reach s) (h' : Steps s t) {id : I} (hp : id ∉ s.pool) (hc : id ∉ t.committed) : id ∉ s.added ∨ id ∈ s.gone := by
  have hmono : ∀ i ∈ s.committed, i ∈ t.committed := by
    induction h' with
    | refl => exact fun i hi => hi
    | tail a b ih => exact fun i hi => step_committed b i (ih (fun hx => hc (step_committed b _ hx)) i hi)
  exact C68_not_found h hp (fun hx => hc (hmono id hx))

/-- C68: the same as `C68_answered` for a drop. -/
theorem C68_answered_drop {s : State I} (h : Reach s) (hl : s.lock = .free) {a b : List (List I)} {ids : List I} (hd : s.drops = a ++ ids :: b) {i : I} (hi : i ∈ ids) (c : ℕ) :
    Step s (deliver .dropped { s with drops := a ++ b } ids) ∧ ¬ Open (deliver .dropped { s with drops := a ++ b } ids) c i := by
  have hst := Step.onDrops s a b ids hl hd
  refine ⟨hst, ?_⟩
  intro ho
  have hinv := inv_reach (Reach.step h hst)
  have := hinv.open_ c i ho.1 ho.2
  rw [(deliver_none _ ids _).1 i hi] at this
  simp at this

/-- C68 (finding): a thread that waits can be told that its transaction was dropped although it is in the pool: the drop of an earlier entry is told after the transaction
was added again.  (`CheckTXForAdd` can accept it again: what `Candidate` drops as expired is compared with the time of a block that is being proposed, what is added with
that of the last committed one; and dropped patch transactions are not remembered.) -/
theorem C68_stale_drop : ∃ s : State ℕ, Reach s ∧ 7 ∈ s.pool ∧ (1, Msg.dropped 7) ∈ s.sent ∧ s.chans[1]? = some 7 := by
  have s0 : Reach (init : State ℕ) := .init
  have s1 := s0.step (.addWait _ 7 rfl (by simp [init]))
  have s2 := s1.step (.register _ 7 rfl)
  have s3 := s2.step (.drop _ [7] (by simp))
  have s4 := s3.step (.addWait _ 7 rfl (by simp [init]))
  have s5 := s4.step (.register _ 7 rfl)
  have s6 := s5.step (.onDrops _ [] [] [7] rfl rfl)
  exact ⟨_, s6, by simp [deliver], by simp [deliver, init], by simp [deliver, init]⟩

/-! ## The hypotheses are met -/

/-- A transaction that is sent, put in a block, and waited for by two threads. -/
example : ∃ s : State ℕ, Reach s ∧ s.lock = .free ∧ s.flight = [] ++ [7] :: [] ∧ Open s 0 7 ∧ Open s 1 7 := by
  have s0 : Reach (init : State ℕ) := .init
  have s1 := s0.step (.addWait _ 7 rfl (by simp [init]))
  have s2 := s1.step (.commit _ [7])
  have s3 := s2.step (.register _ 7 rfl)
  have s4 := s3.step (.wait _ 7 rfl (by simp))
  have s5 := s4.step (.remove _ [7] (by simp))
  have s6 := s5.step (.register _ 7 rfl)
  exact ⟨_, s6, rfl, rfl, ⟨by simp [init], by simp [init]⟩, ⟨by simp [init], by simp [init]⟩⟩

end Verif.Waiters
