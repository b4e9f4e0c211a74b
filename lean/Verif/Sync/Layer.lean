import Verif.Sync.Props

/-!
# The layer below the builder, and crashes (C69)
-/

namespace Verif.Sync

variable {B N K D Q : Type} [DecidableEq B] [DecidableEq N] [DecidableEq K] {env : Env B N K D Q} {U : B → K → Q → Prop}

/-- What is done to a layer. -/
inductive LOp (B K D : Type)
  | put (b : B) (k : K) (v : Option D)
  | flush (write : Bool)

/-- The layer after an operation. -/
def Layer.op (l : Layer B K D) : LOp B K D → Layer B K D
  | .put b k v => l.put b k v
  | .flush w => (l.flush w).1

/-- Specification: the database, what is seen, and whether writes go through. -/
structure LSpec (B K D : Type) where
  real : B → K → Option D
  view : B → K → Option D
  thru : Bool

/-- Set or delete a key in a map. -/
def assign (σ : B → K → Option D) (b : B) (k : K) (v : Option D) : B → K → Option D := fun b' k' => if b' = b ∧ k' = k then v else σ b' k'

/-- Specification: until the flush the database does not change; the flush makes it what is seen, or drops what was written. -/
def LSpec.op (s : LSpec B K D) : LOp B K D → LSpec B K D
  | .put b k v => if s.thru then { s with real := assign s.real b k v, view := assign s.view b k v } else { s with view := assign s.view b k v }
  | .flush w => if s.thru then s else if w then ⟨s.view, s.view, true⟩ else ⟨s.real, s.real, false⟩

/-- The keys of items are different; none are left when writes go through. -/
structure LInv (l : Layer B K D) : Prop where
  nodup : (l.items.map (fun i => (i.1, i.2.1))).Nodup
  empty : l.flushed = true → l.items = []

theorem fold_put (b : B) (k : K) : ∀ (l : List (B × K × Option D)) (σ : B → K → Option D), (∀ i ∈ l, ¬ (b = i.1 ∧ k = i.2.1)) → l.foldl putReal σ b k = σ b k := by
  intro l
  induction l with
  | nil => intro σ _; rfl
  | cons i l ih =>
    intro σ h
    rw [List.foldl_cons, ih _ (fun j hj => h j (List.mem_cons_of_mem _ hj))]
    unfold putReal
    rw [if_neg (h i (by simp))]

theorem get_fold : ∀ (l : List (B × K × Option D)) (σ : B → K → Option D) (f : Bool), (l.map (fun i => (i.1, i.2.1))).Nodup → ∀ b k,
    (⟨σ, l, f⟩ : Layer B K D).get b k = l.foldl putReal σ b k := by
  intro l
  induction l with
  | nil => intro σ f _ b k; rfl
  | cons i l ih =>
    intro σ f hn b k
    rw [List.map_cons, List.nodup_cons] at hn
    rw [List.foldl_cons]
    unfold Layer.get
    by_cases hc : i.1 = b ∧ i.2.1 = k
    · rw [List.find?_cons_of_pos (by simpa using hc)]
      dsimp only
      rw [fold_put]
      · unfold putReal; rw [if_pos ⟨hc.1.symm, hc.2.symm⟩]
      · rintro j hj ⟨h1, h2⟩
        apply hn.1
        rw [List.mem_map]
        exact ⟨j, hj, by rw [← h1, ← h2, hc.1, hc.2]⟩
    · rw [List.find?_cons_of_neg (by simpa using hc)]
      rw [← ih (putReal σ i) f hn.2 b k]
      unfold Layer.get
      dsimp only
      cases l.find? (fun i => decide (i.1 = b ∧ i.2.1 = k)) with
      | some j => rfl
      | none =>
        dsimp only
        unfold putReal
        rw [if_neg (fun h => hc ⟨h.1.symm, h.2.symm⟩)]

theorem op_inv {l : Layer B K D} (h : LInv l) (o : LOp B K D) : LInv (l.op o) := by
  cases o with
  | put b k v =>
    show LInv (l.put b k v)
    unfold Layer.put
    by_cases hf : l.flushed = true
    · rw [if_pos hf]; exact ⟨h.nodup, h.empty⟩
    · rw [if_neg hf]
      refine ⟨?_, fun e => absurd e hf⟩
      dsimp only
      rw [List.map_append, List.nodup_append]
      refine ⟨h.nodup.sublist (List.Sublist.map _ List.filter_sublist), by simp, ?_⟩
      rintro x hx y hy rfl
      simp only [List.map_cons, List.map_nil, List.mem_singleton] at hy
      subst hy
      obtain ⟨i, hi, e⟩ := List.mem_map.mp hx
      rw [List.mem_filter] at hi
      simp only [Prod.mk.injEq] at e
      have := hi.2
      rw [decide_eq_true_iff] at this
      exact this e
  | flush w =>
    show LInv (l.flush w).1
    unfold Layer.flush
    split_ifs
    · exact h
    · exact ⟨by simp, fun _ => rfl⟩
    · exact ⟨by simp, fun _ => rfl⟩

/-- The layer and the specification. -/
structure LRel (l : Layer B K D) (s : LSpec B K D) : Prop where
  inv : LInv l
  real : l.real = s.real
  view : ∀ b k, l.get b k = s.view b k
  thru : l.flushed = s.thru

theorem op_rel {l : Layer B K D} {s : LSpec B K D} (h : LRel l s) (o : LOp B K D) : LRel (l.op o) (s.op o) := by
  have hi := op_inv h.inv o
  have hview : l.items.foldl putReal l.real = s.view := by
    funext b k
    rw [← h.view b k]
    exact (get_fold l.items l.real l.flushed h.inv.nodup b k).symm
  cases o with
  | put b k v =>
    refine ⟨hi, ?_, ?_, ?_⟩
    · show (l.put b k v).real = _
      unfold Layer.put
      simp only [LSpec.op]
      rw [← h.thru]
      cases l.flushed with
      | true => simp only [if_true]; rw [h.real]; rfl
      | false => simp only [Bool.false_eq_true, if_false]; exact h.real
    · intro b' k'
      show (l.put b k v).get b' k' = _
      unfold Layer.put
      simp only [LSpec.op]
      rw [← h.thru]
      by_cases hf : l.flushed = true
      · rw [if_pos hf, if_pos hf]
        have he := h.inv.empty hf
        have := h.view b' k'
        unfold Layer.get at this ⊢
        dsimp only
        rw [he] at this ⊢
        simp only [List.find?_nil] at this ⊢
        unfold putReal assign
        split_ifs with hc
        · rfl
        · exact this
      · rw [if_neg hf, if_neg hf]
        have hn : ((l.items.filter (fun i => decide (¬ (i.1 = b ∧ i.2.1 = k))) ++ [(b, k, v)]).map (fun i => (i.1, i.2.1))).Nodup := by
          have := hi.nodup
          have e : (l.op (.put b k v)).items = l.items.filter (fun i => decide (¬ (i.1 = b ∧ i.2.1 = k))) ++ [(b, k, v)] := by
            show (l.put b k v).items = _
            unfold Layer.put
            rw [if_neg hf]
          rw [e] at this
          exact this
        dsimp only
        unfold assign
        by_cases hc : b' = b ∧ k' = k
        · rw [if_pos hc]
          obtain ⟨rfl, rfl⟩ := hc
          unfold Layer.get
          dsimp only
          rw [List.find?_append]
          have : (l.items.filter (fun i => decide (¬ (i.1 = b' ∧ i.2.1 = k')))).find? (fun i => decide (i.1 = b' ∧ i.2.1 = k')) = none := by
            rw [List.find?_eq_none]
            intro x hx
            rw [List.mem_filter] at hx
            have := hx.2
            rw [decide_eq_true_iff] at this ⊢
            exact this
          rw [this]
          simp
        · rw [if_neg hc, ← h.view b' k']
          unfold Layer.get
          dsimp only
          rw [List.find?_append]
          have e1 : ([(b, k, v)] : List (B × K × Option D)).find? (fun i => decide (i.1 = b' ∧ i.2.1 = k')) = none := by
            rw [List.find?_eq_none]
            intro x hx
            rw [List.mem_singleton] at hx
            subst hx
            rw [decide_eq_true_iff]
            exact fun q => hc ⟨q.1.symm, q.2.symm⟩
          have e2 : (l.items.filter (fun i => decide (¬ (i.1 = b ∧ i.2.1 = k)))).find? (fun i => decide (i.1 = b' ∧ i.2.1 = k')) =
              l.items.find? (fun i => decide (i.1 = b' ∧ i.2.1 = k')) := by
            rw [List.find?_filter]
            congr 1
            funext i
            by_cases hq : i.1 = b' ∧ i.2.1 = k'
            · have : ¬ (i.1 = b ∧ i.2.1 = k) := by
                rintro ⟨q1, q2⟩
                exact hc ⟨by rw [← hq.1, q1], by rw [← hq.2, q2]⟩
              simp only [decide_eq_true hq, decide_eq_true this]; rfl
            · simp only [decide_eq_false hq]; simp
          rw [e1, e2, Option.or_none]
    · show (l.put b k v).flushed = _
      unfold Layer.put
      simp only [LSpec.op]
      rw [← h.thru]
      cases l.flushed <;> rfl
  | flush w =>
    refine ⟨hi, ?_, ?_, ?_⟩
    · show (l.flush w).1.real = _
      unfold Layer.flush
      simp only [LSpec.op]
      rw [← h.thru]
      split_ifs
      · exact h.real
      · exact hview
      · exact h.real
    · intro b' k'
      show (l.flush w).1.get b' k' = _
      unfold Layer.flush
      simp only [LSpec.op]
      rw [← h.thru]
      split_ifs
      · exact h.view b' k'
      · show l.items.foldl putReal l.real b' k' = _
        rw [hview]
      · show l.real b' k' = _
        rw [h.real]
    · show (l.flush w).1.flushed = _
      unfold Layer.flush
      simp only [LSpec.op]
      rw [← h.thru]
      split_ifs with h1
      · exact h.thru
      · rfl
      · rfl

/-- C69: the layer is a buffer: reads see what was written, the database below changes only with `Flush(true)` and then is what was seen; `Flush(false)` drops it. -/
theorem C69_layer (σ : B → K → Option D) (ops : List (LOp B K D)) :
    (ops.foldl Layer.op ⟨σ, [], false⟩).real = (ops.foldl LSpec.op ⟨σ, σ, false⟩).real ∧
    (∀ b k, (ops.foldl Layer.op ⟨σ, [], false⟩).get b k = (ops.foldl LSpec.op ⟨σ, σ, false⟩).view b k) := by
  have key : ∀ (ops : List (LOp B K D)) (l : Layer B K D) (s : LSpec B K D), LRel l s → LRel (ops.foldl Layer.op l) (ops.foldl LSpec.op s) := by
    intro ops
    induction ops with
    | nil => intro l s h; exact h
    | cons o ops ih => intro l s h; exact ih _ _ (op_rel h o)
  have := key ops ⟨σ, [], false⟩ ⟨σ, σ, false⟩ ⟨⟨by simp, fun h => by cases h⟩, rfl, fun b k => rfl, rfl⟩
  exact ⟨this.real, this.view⟩

/-! ## The builder over a layer -/

/-- The store of the builder is what was written to it. -/
def Logged (σ : B → K → Option D) (s : State B N K D Q) : Prop := s.store = s.writes.foldl (fun τ x => setStore τ x.1 x.2.1 x.2.2) σ

theorem tell_logged (σ : B → K → Option D) (k : K) (d : D) : ∀ (es : List (B × Q)) (s : State B N K D Q), Logged σ s → Logged σ (tell env k d s es).1 := by
  intro es
  induction es with
  | nil => intro s h; exact h
  | cons e es ih =>
    obtain ⟨b, q⟩ := e
    intro s h
    obtain ⟨h1, h2, _⟩ := resolves_store (env := env) (env.onData q d).1 { s with store := setStore s.store b k d, writes := s.writes ++ [(b, k, d)] }
    have h3 : Logged σ ((env.onData q d).1.foldl (resolve env) { s with store := setStore s.store b k d, writes := s.writes ++ [(b, k, d)] }) := by
      unfold Logged at h ⊢
      rw [h1, h2]
      dsimp only
      rw [List.foldl_append, ← h]
      rfl
    rw [tell]
    split_ifs
    · exact ih _ h3
    · exact h3

theorem onData_logged (σ : B → K → Option D) (s : State B N K D Q) (h : Logged σ s) (b : B) (d : D) : Logged σ (onData env s b d).1 := by
  unfold onData
  cases env.hasher b with
  | none => exact h
  | some n =>
    dsimp only
    cases lookup n (env.hash n d) s.reqs with
    | none => exact h
    | some r =>
      dsimp only
      have := tell_logged (env := env) σ (env.hash n d) d r.entries { s with mark := some (n, env.hash n d) } h
      split_ifs <;> exact this

theorem run_logged (σ : B → K → Option D) (evs : List (Ev B K D Q)) : Logged σ (run env σ evs) := by
  have key : ∀ (evs : List (Ev B K D Q)) (s : State B N K D Q), Logged σ s → Logged σ (evs.foldl (step env) s) := by
    intro evs
    induction evs with
    | nil => intro s h; exact h
    | cons e evs ih =>
      intro s h
      rw [List.foldl_cons]
      apply ih
      cases e with
      | root r =>
        obtain ⟨h1, h2, _⟩ := resolve_store (env := env) s r
        show Logged σ (resolve env s r)
        unfold Logged at h ⊢
        rw [h1, h2]; exact h
      | data l =>
        show Logged σ (handleData env s l)
        unfold handleData
        induction l generalizing s with
        | nil => exact h
        | cons x l ihl => exact ihl _ (onData_logged σ s h x.1 x.2)
  exact key evs _ rfl

theorem layerOf_rel (σ : B → K → Option D) (w : List (B × K × D)) :
    LRel (layerOf σ w) ⟨σ, w.foldl (fun τ x => setStore τ x.1 x.2.1 x.2.2) σ, false⟩ := by
  unfold layerOf
  have key : ∀ (w : List (B × K × D)) (l : Layer B K D) (τ : B → K → Option D), LRel l ⟨σ, τ, false⟩ →
      LRel (w.foldl (fun l x => l.put x.1 x.2.1 (some x.2.2)) l) ⟨σ, w.foldl (fun τ x => setStore τ x.1 x.2.1 x.2.2) τ, false⟩ := by
    intro w
    induction w with
    | nil => intro l τ h; exact h
    | cons x w ih =>
      intro l τ h
      rw [List.foldl_cons, List.foldl_cons]
      apply ih
      have := op_rel h (.put x.1 x.2.1 (some x.2.2))
      exact this
  exact key w _ _ ⟨⟨by simp, fun h => by cases h⟩, rfl, fun b k => rfl, rfl⟩

/-- C69: over a layer a crash during the synchronization leaves the database as it was; and if `Flush` is not interrupted, the database is then complete. -/
theorem C69_buffered (hw : World env U) {σ : B → K → Option D} (h0 : Whole env U σ) (evs : List (Ev B K D Q)) (hr : ∀ r ∈ roots evs, U r.bucket r.key r.req) :
    (∀ b k, (layerOf σ (run env σ evs).writes).get b k = (run env σ evs).store b k) ∧
    (layerOf σ (run env σ evs).writes).real = σ ∧
    (unresolved (run env σ evs) = 0 → Whole env U ((layerOf σ (run env σ evs).writes).flush true).1.real ∧
      ∀ r ∈ roots evs, Complete env ((layerOf σ (run env σ evs).writes).flush true).1.real r) := by
  have hrel := layerOf_rel σ (run env σ evs).writes
  have hlog : (run env σ evs).store = _ := run_logged (env := env) σ evs
  refine ⟨fun b k => by rw [hrel.view b k, hlog], hrel.real, ?_⟩
  intro hd
  have hf : ((layerOf σ (run env σ evs).writes).flush true).1.real = (run env σ evs).store := by
    have := (op_rel hrel (.flush true)).real
    rw [hlog]
    exact this
  rw [hf]
  exact ⟨C69_whole hw h0 evs hr hd, C69_complete hw h0 evs hr hd⟩

/-! ## Crashes -/

/-- C69 (finding): a builder trusts what it finds: if the root is in the database, the synchronization is done at once, whatever is missing below. -/
theorem C69_trusts (σ : B → K → Option D) (r : Ref B K Q) (h : finds env σ r = true) :
    unresolved (run env σ [.root r]) = 0 ∧ (run env σ [.root r]).store = σ := by
  unfold run
  simp only [List.foldl_cons, List.foldl_nil, step, resolve]
  have : finds env (start σ : State B N K D Q).store r = true := h
  rw [if_pos this]
  exact ⟨rfl, rfl⟩

/-- A small world: node 1 refers to node 2. -/
def toy : Env Unit Unit ℕ ℕ Unit where
  hasher _ := some ()
  hash _ d := d
  onData _ d := (if d = 1 then [⟨(), 2, (), true⟩] else [], true)
  usable _ _ := true

theorem toy_world : World toy (fun _ _ _ => True) where
  hasher _ := ⟨(), rfl⟩
  closed _ _ _ _ _ := trivial
  agree _ _ _ _ := rfl
  nofix := by
    rintro _ k _ _ d _ _ hk c hc ⟨_, hck⟩
    simp only [toy] at hc hk
    split_ifs at hc with h1
    · rw [List.mem_singleton] at hc
      subst hc
      dsimp only at hck
      omega
    · simp at hc

/-- The root of the small world. -/
def toyRoot : Ref Unit ℕ Unit := ⟨(), 1, (), true⟩

theorem not_complete {σ : Unit → ℕ → Option ℕ} (h1 : σ () 1 = some 1) (h2 : σ () 2 = none) : ¬ Complete toy σ toyRoot := by
  intro h
  obtain ⟨n, d, _, hd, _⟩ := h ⟨(), 2, (), true⟩ (Below.child (Below.refl) h1 (by simp [toy, toyRoot]))
  rw [h2] at hd
  cases hd

/-- C69 (finding): a crash loses data for good, when there is no buffer (`UnsafeFinalize`, `block/unsafefinalize.go:86`: `noBuffer` is true) or when it is in `Flush`, which
writes parents before children (`layer_db.go:165-176`): the synchronization after the restart is done at once although a node is missing. -/
theorem C69_crash :
    (∃ evs : List (Ev Unit ℕ ℕ Unit), toyRoot ∈ roots evs ∧
      unresolved (run toy (run toy (fun _ _ => none) evs).store [.root toyRoot]) = 0 ∧
      ¬ Complete toy (run toy (run toy (fun _ _ => none) evs).store [.root toyRoot]).store toyRoot) ∧
    (∃ (evs : List (Ev Unit ℕ ℕ Unit)) (n : ℕ), toyRoot ∈ roots evs ∧ unresolved (run toy (fun _ _ => none) evs) = 0 ∧
      unresolved (run toy ((layerOf (fun _ _ => none) (run toy (fun _ _ => none) evs).writes).flushPart n) [.root toyRoot]) = 0 ∧
      ¬ Complete toy (run toy ((layerOf (fun _ _ => none) (run toy (fun _ _ => none) evs).writes).flushPart n) [.root toyRoot]).store toyRoot) := by
  refine ⟨⟨[.root toyRoot, .data [((), 1)]], by simp [roots], ?_, ?_⟩, ⟨[.root toyRoot, .data [((), 1)], .data [((), 2)]], 1, by simp [roots], by decide, ?_, ?_⟩⟩
  · exact (C69_trusts _ _ (by decide)).1
  · rw [(C69_trusts _ _ (by decide)).2]
    exact not_complete (by decide) (by decide)
  · exact (C69_trusts _ _ (by decide)).1
  · rw [(C69_trusts _ _ (by decide)).2]
    exact not_complete (by decide) (by decide)

/-! ## The hypotheses are met -/

/-- A synchronization in which a peer first sends something that was not asked for. -/
example : Whole toy (fun _ _ _ => True) (fun _ _ => none) ∧
    unresolved (run toy (fun _ _ => none) [.root toyRoot, .data [((), 2), ((), 7)], .data [((), 1)], .data [((), 1), ((), 2)]]) = 0 ∧
    (run toy (fun _ _ => none) [.root toyRoot, .data [((), 2), ((), 7)], .data [((), 1)], .data [((), 1), ((), 2)]]).resolved = 2 ∧
    Sized toy (fun _ _ _ => True) (fun _ k _ => if k = 1 then 2 else 1) := by
  refine ⟨?_, by decide, by decide, ?_⟩
  · intro b k q n d _ _ h; cases h
  · rintro b k q n d _ _ hk
    simp only [toy] at hk ⊢
    subst hk
    refine ⟨trivial, ?_⟩
    split_ifs <;> simp [szRef]

end Verif.Sync
