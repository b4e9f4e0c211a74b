import Verif.Sync.Proof
import Mathlib.Algebra.BigOperators.Group.List.Basic
import Mathlib.Algebra.Order.Group.Nat
import Mathlib.Tactic.Ring

/-!
# The Merkle builder: theorems (C69)
-/

namespace Verif.Sync

variable {B N K D Q : Type} [DecidableEq B] [DecidableEq N] [DecidableEq K] {env : Env B N K D Q} {U : B → K → Q → Prop}

theorem run_inv (hw : World env U) {σ : B → K → Option D} (h0 : Whole env U σ) (evs : List (Ev B K D Q)) (hr : ∀ r ∈ roots evs, U r.bucket r.key r.req) :
    Inv env U (run env σ evs) ∧ (run env σ evs).mark = none ∧ ∀ r ∈ roots evs, OkRef env (run env σ evs) r := by
  obtain ⟨h1, h2, _, h3⟩ := run_spec hw evs (start σ) (inv_start h0) rfl hr
  exact ⟨h1, h2, h3⟩

theorem ok_done {s : State B N K D Q} (h : unresolved s = 0) {c : Ref B K Q} (x : OkRef env s c) : (s.store c.bucket c.key).isSome = true := by
  rcases x with x | ⟨r, hr, _⟩
  · exact x
  · rw [List.length_eq_zero_iff.mp h] at hr
    simp at hr

/-- C69: whatever peers send, and in whatever order: when no request is left, everything below the roots is in the database, with the right hashes, provided that
nothing was missing below what the database had before. -/
theorem C69_complete (hw : World env U) {σ : B → K → Option D} (h0 : Whole env U σ) (evs : List (Ev B K D Q)) (hr : ∀ r ∈ roots evs, U r.bucket r.key r.req)
    (hd : unresolved (run env σ evs) = 0) : ∀ r ∈ roots evs, Complete env (run env σ evs).store r := by
  obtain ⟨hi, _, hok⟩ := run_inv hw h0 evs hr
  intro r hrr
  have key : ∀ c, Below env (run env σ evs).store r c → U c.bucket c.key c.req ∧ ((run env σ evs).store c.bucket c.key).isSome = true := by
    intro c hc
    induction hc with
    | refl => exact ⟨hr r hrr, ok_done hd (hok r hrr)⟩
    | child _ hst hx ih =>
      obtain ⟨n, hn⟩ := hw.hasher ih.1
      obtain ⟨h1, h2⟩ := hi.data _ _ _ n _ ih.1 hn hst
      refine ⟨hw.closed ih.1 hn h1 _ hx, ?_⟩
      rcases h2 with ⟨q', r', hr', _⟩ | ⟨_, h3⟩
      · rw [List.length_eq_zero_iff.mp hd] at hr'; simp at hr'
      · exact ok_done hd (h3 _ hx)
  intro c hc
  obtain ⟨h1, h2⟩ := key c hc
  obtain ⟨d, hd'⟩ := Option.isSome_iff_exists.mp h2
  obtain ⟨n, hn⟩ := hw.hasher h1
  obtain ⟨h3, h4⟩ := hi.data _ _ _ n _ h1 hn hd'
  refine ⟨n, d, hn, hd', h3, ?_⟩
  rcases h4 with ⟨q', r', hr', _⟩ | ⟨h4, _⟩
  · rw [List.length_eq_zero_iff.mp hd] at hr'; simp at hr'
  · exact h4

/-- C69: and then the database is as before in that nothing is missing below what it has, so that the next synchronization can start from it. -/
theorem C69_whole (hw : World env U) {σ : B → K → Option D} (h0 : Whole env U σ) (evs : List (Ev B K D Q)) (hr : ∀ r ∈ roots evs, U r.bucket r.key r.req)
    (hd : unresolved (run env σ evs) = 0) : Whole env U (run env σ evs).store := by
  obtain ⟨hi, _, _⟩ := run_inv hw h0 evs hr
  intro b k q n d hu hn hst
  obtain ⟨h1, h2⟩ := hi.data b k q n d hu hn hst
  rcases h2 with ⟨q', r', hr', _⟩ | ⟨h2, h3⟩
  · rw [List.length_eq_zero_iff.mp hd] at hr'; simp at hr'
  · exact ⟨h1, h2, fun c hc => ok_done hd (h3 c hc)⟩

/-! ## What is stored -/

theorem requestData_store (s : State B N K D Q) (b : B) (k : K) (q : Q) :
    (requestData env s b k q).store = s.store ∧ (requestData env s b k q).writes = s.writes ∧ (requestData env s b k q).resolved = s.resolved := by
  unfold requestData
  cases env.hasher b with
  | none => exact ⟨rfl, rfl, rfl⟩
  | some n =>
    dsimp only
    cases lookup n k s.reqs with
    | some r => exact ⟨rfl, rfl, rfl⟩
    | none => cases s.mark <;> exact ⟨rfl, rfl, rfl⟩

theorem resolve_store (s : State B N K D Q) (r : Ref B K Q) :
    (resolve env s r).store = s.store ∧ (resolve env s r).writes = s.writes ∧ (resolve env s r).resolved = s.resolved := by
  unfold resolve
  split_ifs
  · exact ⟨rfl, rfl, rfl⟩
  · exact requestData_store s _ _ _

theorem resolves_store (cs : List (Ref B K Q)) : ∀ s : State B N K D Q,
    (cs.foldl (resolve env) s).store = s.store ∧ (cs.foldl (resolve env) s).writes = s.writes ∧ (cs.foldl (resolve env) s).resolved = s.resolved := by
  induction cs with
  | nil => intro s; exact ⟨rfl, rfl, rfl⟩
  | cons c cs ih =>
    intro s
    rw [List.foldl_cons]
    obtain ⟨h1, h2, h3⟩ := ih (resolve env s c)
    obtain ⟨g1, g2, g3⟩ := resolve_store (env := env) s c
    exact ⟨h1.trans g1, h2.trans g2, h3.trans g3⟩

theorem tell_store (k : K) (d : D) : ∀ (es : List (B × Q)) (s : State B N K D Q),
    (∀ b' k', (tell env k d s es).1.store b' k' = s.store b' k' ∨ ((tell env k d s es).1.store b' k' = some d ∧ k' = k ∧ ∃ q, (b', q) ∈ es)) := by
  intro es
  induction es with
  | nil => intro s b' k'; exact Or.inl rfl
  | cons e es ih =>
    obtain ⟨b, q⟩ := e
    intro s b' k'
    obtain ⟨h1, _, _⟩ := resolves_store (env := env) (env.onData q d).1 { s with store := setStore s.store b k d, writes := s.writes ++ [(b, k, d)] }
    have h2 : ((env.onData q d).1.foldl (resolve env) { s with store := setStore s.store b k d, writes := s.writes ++ [(b, k, d)] }).store b' k' = s.store b' k' ∨
        (((env.onData q d).1.foldl (resolve env) { s with store := setStore s.store b k d, writes := s.writes ++ [(b, k, d)] }).store b' k' = some d ∧ k' = k ∧ b' = b) := by
      rw [h1]
      dsimp only
      unfold setStore
      by_cases hc : b' = b ∧ k' = k
      · rw [if_pos hc]; exact Or.inr ⟨rfl, hc.2, hc.1⟩
      · rw [if_neg hc]; exact Or.inl rfl
    rw [tell]
    by_cases hok : (env.onData q d).2 = true
    · simp only [hok, if_true]
      rcases ih ((env.onData q d).1.foldl (resolve env) { s with store := setStore s.store b k d, writes := s.writes ++ [(b, k, d)] }) b' k' with h | ⟨h, h', q', h''⟩
      · rw [h]
        rcases h2 with h2 | ⟨h2, h3, h4⟩
        · exact Or.inl h2
        · exact Or.inr ⟨h2, h3, q, by rw [h4]; simp⟩
      · exact Or.inr ⟨h, h', q', List.mem_cons_of_mem _ h''⟩
    · rw [if_neg hok]
      rcases h2 with h2 | ⟨h2, h3, h4⟩
      · exact Or.inl h2
      · exact Or.inr ⟨h2, h3, q, by rw [h4]; simp⟩

/-- C69: what a peer sends is written only under its hash, only if this was requested for that bucket, and everything else stays as it was, whether or not an error is returned. -/
theorem C69_only_requested (s : State B N K D Q) (b : B) (d : D) (b' : B) (k' : K) :
    (onData env s b d).1.store b' k' = s.store b' k' ∨
    ((onData env s b d).1.store b' k' = some d ∧ ∃ n, env.hasher b = some n ∧ k' = env.hash n d ∧ ∃ r ∈ s.reqs, r.name = n ∧ r.key = k' ∧ ∃ q, (b', q) ∈ r.entries) := by
  unfold onData
  cases hb : env.hasher b with
  | none => exact Or.inl rfl
  | some n =>
    dsimp only
    cases hl : lookup n (env.hash n d) s.reqs with
    | none => exact Or.inl rfl
    | some r =>
      dsimp only
      obtain ⟨hr, hid⟩ := lookup_some hl
      simp only [Req.id, Prod.mk.injEq] at hid
      have := tell_store (env := env) (env.hash n d) d r.entries { s with mark := some (n, env.hash n d) } b' k'
      generalize tell env (env.hash n d) d { s with mark := some (n, env.hash n d) } r.entries = t at *
      split_ifs with hok
      all_goals
        rcases this with h | ⟨h, h2, h3⟩
        · exact Or.inl h
        · exact Or.inr ⟨h, n, rfl, h2, r, hr, hid.1, by rw [h2]; exact hid.2, h3⟩

/-- C69: nothing that is in the database is lost. -/
theorem C69_keeps (s : State B N K D Q) (b : B) (d : D) (b' : B) (k' : K) (h : (s.store b' k').isSome = true) : ((onData env s b d).1.store b' k').isSome = true := by
  rcases C69_only_requested (env := env) s b d b' k' with e | ⟨e, _⟩ <;> rw [e]
  · exact h
  · rfl

/-! ## Progress -/

theorem tell_ok (k : K) (d : D) : ∀ (es : List (B × Q)) (s : State B N K D Q), (∀ e ∈ es, (env.onData e.2 d).2 = true) → (tell env k d s es).2 = true := by
  intro es
  induction es with
  | nil => intro s _; rfl
  | cons e es ih =>
    obtain ⟨b, q⟩ := e
    intro s h
    rw [tell]
    have := h (b, q) (by simp)
    dsimp only at this
    simp only [this, if_true]
    exact ih _ (fun x hx => h x (List.mem_cons_of_mem _ hx))

/-- C69: the data for any request that is left is accepted, no matter in which bucket it is delivered, if the requesters can use it; the request is then done. -/
theorem C69_accepts (hw : World env U) {σ : B → K → Option D} (h0 : Whole env U σ) (evs : List (Ev B K D Q)) (hr : ∀ r ∈ roots evs, U r.bucket r.key r.req)
    {r : Req B N K Q} (hmem : r ∈ (run env σ evs).reqs) {d : D} (hk : env.hash r.name d = r.key) (hp : ∀ e ∈ r.entries, (env.onData e.2 d).2 = true)
    {b : B} (hb : env.hasher b = some r.name) :
    (onData env (run env σ evs) b d).2 = .ok ∧ (onData env (run env σ evs) b d).1.resolved = (run env σ evs).resolved + 1 ∧
    (∀ x ∈ (onData env (run env σ evs) b d).1.reqs, ¬ (x.name = r.name ∧ x.key = r.key)) ∧
    ∀ e ∈ r.entries, (onData env (run env σ evs) b d).1.store e.1 r.key = some d := by
  obtain ⟨hi, hm, _⟩ := run_inv hw h0 evs hr
  generalize run env σ evs = s at *
  have hl : lookup r.name (env.hash r.name d) s.reqs = some r := by
    cases hl : lookup r.name (env.hash r.name d) s.reqs with
    | none => exact absurd (by simp [Req.id, hk]) (lookup_none hl r hmem)
    | some r' =>
      obtain ⟨h1, h2⟩ := lookup_some hl
      rw [req_unique hi.nodup hmem h1 (by rw [h2]; simp [Req.id, hk])]
  have hid : r.id = (r.name, env.hash r.name d) := by simp [Req.id, hk]
  obtain ⟨h0', g0⟩ := inv_mark hi (some (r.name, env.hash r.name d)) (fun x hx => ⟨r, hmem, by simp only [Option.some.injEq] at hx; rw [← hx]; exact hid⟩)
  have hreq : r = ⟨r.name, env.hash r.name d, r.entries⟩ := by
    obtain ⟨rn, rk, re⟩ := r
    simp only [Req.mk.injEq, true_and, and_true]
    exact hk.symm
  obtain ⟨i1, i2, i3, i4, _, i5⟩ := tell_spec hw rfl r.entries { s with mark := some (r.name, env.hash r.name d) } h0' (hreq ▸ hmem) (fun e he => he)
  have hok := tell_ok (env := env) (env.hash r.name d) d r.entries { s with mark := some (r.name, env.hash r.name d) } hp
  unfold onData
  simp only [hb, hl]
  rw [if_pos hok]
  refine ⟨rfl, ?_, ?_, ?_⟩
  · dsimp only; rw [i4]
  · intro x hx
    dsimp only at hx
    rw [List.mem_filter] at hx
    have := hx.2
    rw [decide_eq_true_iff, hk] at this
    exact this
  · intro e he
    dsimp only
    rw [← hk]
    exact (i5 hok e he).1

/-- The sum of the sizes of what is requested. -/
def weight (sz : B → K → Q → ℕ) (r : Req B N K Q) : ℕ := (r.entries.map (fun e => sz e.1 r.key e.2)).sum

/-- See `weight`. -/
def measure (sz : B → K → Q → ℕ) (s : State B N K D Q) : ℕ := (s.reqs.map (weight sz)).sum

theorem addEntry_weight (sz : B → K → Q → ℕ) (n : N) (k : K) (e : B × Q) : ∀ l : List (Req B N K Q), (l.map Req.id).Nodup →
    ((addEntry n k e l).map (weight sz)).sum ≤ (l.map (weight sz)).sum + sz e.1 k e.2 := by
  intro l
  induction l with
  | nil => intro _; simp [addEntry]
  | cons r rs ih =>
    intro hn
    rw [List.map_cons, List.nodup_cons] at hn
    by_cases hr : r.name = n ∧ r.key = k
    · have hrest : addEntry n k e rs = rs := by
        unfold addEntry
        conv_rhs => rw [← List.map_id rs]
        apply List.map_congr_left
        intro x hx
        rw [if_neg]
        · rfl
        · intro hc
          apply hn.1
          rw [List.mem_map]
          exact ⟨x, hx, by simp only [Req.id, hc.1, hc.2, hr.1, hr.2]⟩
      have : addEntry n k e (r :: rs) = { r with entries := r.entries ++ [e] } :: rs := by
        conv_rhs => rw [← hrest]
        unfold addEntry
        rw [List.map_cons, if_pos hr]
      rw [this]
      simp only [List.map_cons, List.sum_cons, weight, List.map_append, List.sum_append, List.map_nil, List.sum_nil, hr.2]
      omega
    · have : addEntry n k e (r :: rs) = r :: addEntry n k e rs := by
        unfold addEntry
        rw [List.map_cons, if_neg hr]
      rw [this]
      have := ih hn.2
      simp only [List.map_cons, List.sum_cons]
      omega

theorem requestData_weight (sz : B → K → Q → ℕ) {s : State B N K D Q} (h : Inv env U s) (b : B) (k : K) (q : Q) :
    measure sz (requestData env s b k q) ≤ measure sz s + sz b k q := by
  unfold requestData
  cases hb : env.hasher b with
  | none => dsimp only; omega
  | some n =>
    dsimp only
    cases hl : lookup n k s.reqs with
    | some r => exact addEntry_weight sz n k (b, q) s.reqs h.nodup
    | none =>
      dsimp only
      cases hm : s.mark with
      | none =>
        dsimp only
        simp [measure, weight]
      | some m =>
        dsimp only
        unfold measure
        dsimp only
        rw [((mem_insertAfter m.1 m.2 ⟨n, k, [(b, q)]⟩ s.reqs (h.mark m hm)).map (weight sz)).sum_eq]
        simp [weight]
        omega

/-- The size of a ref. -/
def szRef (sz : B → K → Q → ℕ) (c : Ref B K Q) : ℕ := sz c.bucket c.key c.req

theorem resolves_weight (hw : World env U) (sz : B → K → Q → ℕ) : ∀ (cs : List (Ref B K Q)) (s : State B N K D Q), Inv env U s → (∀ c ∈ cs, U c.bucket c.key c.req) →
    measure sz (cs.foldl (resolve env) s) ≤ measure sz s + (cs.map (szRef sz)).sum := by
  intro cs
  induction cs with
  | nil => intro s _ _; simp
  | cons c cs ih =>
    intro s h hc
    have hu := hc c (by simp)
    rw [List.foldl_cons, List.map_cons, List.sum_cons]
    have h1 := ih (resolve env s c) (resolve_spec h c hu (hw.hasher hu)).1 (fun x hx => hc x (List.mem_cons_of_mem _ hx))
    have h2 : measure sz (resolve env s c) ≤ measure sz s + szRef sz c := by
      unfold resolve
      split_ifs
      · omega
      · exact requestData_weight sz h _ _ _
    omega

/-- `sz` bounds the number of nodes below everything that may be requested: the data is well formed and finite. -/
def Sized (env : Env B N K D Q) (U : B → K → Q → Prop) (sz : B → K → Q → ℕ) : Prop :=
  ∀ b k q n d, U b k q → env.hasher b = some n → env.hash n d = k → (env.onData q d).2 = true ∧ 1 + ((env.onData q d).1.map (szRef sz)).sum ≤ sz b k q

theorem tell_weight (hw : World env U) {sz : B → K → Q → ℕ} (hs : Sized env U sz) {n : N} {k : K} {d : D} {es0 : List (B × Q)} (hd : env.hash n d = k) :
    ∀ (es : List (B × Q)) (s : State B N K D Q), Inv env U s → (⟨n, k, es0⟩ : Req B N K Q) ∈ s.reqs → (∀ e ∈ es, e ∈ es0) →
      measure sz (tell env k d s es).1 + es.length ≤ measure sz s + (es.map (fun e => sz e.1 k e.2)).sum := by
  intro es
  induction es with
  | nil => intro s _ _ _; simp [tell]
  | cons e es ih =>
    intro s h hr hsub
    obtain ⟨b, q⟩ := e
    have he := hsub (b, q) (by simp)
    obtain ⟨i1, g1⟩ := inv_set h hr hd he
    obtain ⟨hb, hu⟩ := h.ent _ hr _ he
    dsimp only at hb hu
    have hcl := hw.closed hu hb hd
    obtain ⟨j1, j2, j3, j4, j5, j6, j7⟩ := resolves_spec (env.onData q d).1 _ i1 (fun c hc => ⟨hcl c hc, hw.hasher (hcl c hc)⟩)
    have hr' := j7 ⟨n, k, es0⟩ hr (fun c hc => hw.nofix hu hb hd c hc)
    have hwt := resolves_weight hw sz (env.onData q d).1 _ i1 hcl
    obtain ⟨s1, s2⟩ := hs b k q n d hu hb hd
    have ht : tell env k d s ((b, q) :: es) =
        tell env k d ((env.onData q d).1.foldl (resolve env) { s with store := setStore s.store b k d, writes := s.writes ++ [(b, k, d)] }) es := by
      rw [tell]; exact if_pos s1
    rw [ht]
    have := ih _ j1 hr' (fun x hx => hsub x (List.mem_cons_of_mem _ hx))
    have hm : measure sz { s with store := setStore s.store b k d, writes := s.writes ++ [(b, k, d)] } = measure sz s := rfl
    rw [hm] at hwt
    simp only [List.length_cons, List.map_cons, List.sum_cons]
    omega

theorem filter_weight (sz : B → K → Q → ℕ) (p : Req B N K Q → Bool) : ∀ (l : List (Req B N K Q)) (r : Req B N K Q), r ∈ l → p r = false →
    ((l.filter p).map (weight sz)).sum + weight sz r ≤ (l.map (weight sz)).sum := by
  have hle : ∀ l : List (Req B N K Q), ((l.filter p).map (weight sz)).sum ≤ (l.map (weight sz)).sum := by
    intro l
    induction l with
    | nil => simp
    | cons x xs ih =>
      rw [List.filter_cons]
      split_ifs <;> simp only [List.map_cons, List.sum_cons] <;> omega
  intro l
  induction l with
  | nil => intro r h; simp at h
  | cons x xs ih =>
    intro r h hp
    rw [List.mem_cons] at h
    rw [List.filter_cons]
    rcases h with rfl | h
    · rw [if_neg (by simp [hp])]
      have := hle xs
      simp only [List.map_cons, List.sum_cons]
      omega
    · have := ih r h hp
      split_ifs <;> simp only [List.map_cons, List.sum_cons] <;> omega

theorem onData_weight (hw : World env U) {sz : B → K → Q → ℕ} (hs : Sized env U sz) {s : State B N K D Q} (h : Inv env U s) (b : B) (d : D) :
    (onData env s b d).1.resolved + measure sz (onData env s b d).1 ≤ s.resolved + measure sz s := by
  unfold onData
  cases hb : env.hasher b with
  | none => exact le_refl _
  | some n =>
    dsimp only
    cases hl : lookup n (env.hash n d) s.reqs with
    | none => exact le_refl _
    | some r =>
      dsimp only
      obtain ⟨hr, hid⟩ := lookup_some hl
      have hreq : r = ⟨n, env.hash n d, r.entries⟩ := by
        obtain ⟨rn, rk, re⟩ := r
        simp only [Req.id, Prod.mk.injEq] at hid
        obtain ⟨rfl, rfl⟩ := hid
        rfl
      have hr' : (⟨n, env.hash n d, r.entries⟩ : Req B N K Q) ∈ s.reqs := hreq ▸ hr
      obtain ⟨h0, g0⟩ := inv_mark h (some (n, env.hash n d)) (fun x hx => ⟨r, hr, by simp only [Option.some.injEq] at hx; rw [← hx]; exact hid⟩)
      obtain ⟨i1, i2, i3, i4, _, i5⟩ := tell_spec hw rfl r.entries { s with mark := some (n, env.hash n d) } h0 hr' (fun e he => he)
      have hwt := tell_weight hw hs rfl r.entries { s with mark := some (n, env.hash n d) } h0 hr' (fun e he => he)
      have hok := tell_ok (env := env) (env.hash n d) d r.entries { s with mark := some (n, env.hash n d) } (fun e he => by
        obtain ⟨e1, e2⟩ := h.ent _ hr' e he
        exact (hs _ _ _ n d e2 e1 rfl).1)
      generalize tell env (env.hash n d) d { s with mark := some (n, env.hash n d) } r.entries = t at *
      rw [if_pos hok]
      have hf := filter_weight sz (fun r => decide (¬ (r.name = n ∧ r.key = env.hash n d))) t.1.reqs _ i2 (by simp)
      have hne := List.length_pos_iff.mpr (h.ne r hr)
      have hm0 : measure sz ({ s with mark := some (n, env.hash n d) } : State B N K D Q) = measure sz s := rfl
      have hw0 : weight sz (⟨n, env.hash n d, r.entries⟩ : Req B N K Q) = (r.entries.map (fun e => sz e.1 (env.hash n d) e.2)).sum := rfl
      have hm1 : measure sz t.1 = (t.1.reqs.map (weight sz)).sum := rfl
      rw [hm0] at hwt
      rw [hw0] at hf
      unfold measure at hwt ⊢
      dsimp only at hwt i4 ⊢
      omega

theorem run_weight (hw : World env U) {sz : B → K → Q → ℕ} (hs : Sized env U sz) : ∀ (evs : List (Ev B K D Q)) (s : State B N K D Q), Inv env U s → s.mark = none →
    (∀ r ∈ roots evs, U r.bucket r.key r.req) →
    (evs.foldl (step env) s).resolved + measure sz (evs.foldl (step env) s) ≤ s.resolved + measure sz s + ((roots evs).map (szRef sz)).sum := by
  intro evs
  induction evs with
  | nil => intro s _ _ _; simp [roots]
  | cons e evs ih =>
    intro s h hm hr
    rw [List.foldl_cons]
    cases e with
    | root r =>
      have hu := hr r (by simp [roots])
      have h1 := ih (resolve env s r) (resolve_spec h r hu (hw.hasher hu)).1 (resolve_mark s hm r) (fun x hx => hr x (List.mem_cons_of_mem _ hx))
      have h2 := resolves_weight hw sz [r] s h (by simpa using hu)
      have h3 := (resolve_store (env := env) s r).2.2
      simp only [List.foldl_cons, List.foldl_nil, List.map_cons, List.map_nil, List.sum_cons, List.sum_nil] at h2
      rw [h3] at h1
      have hstep : step env s (.root r) = resolve env s r := rfl
      rw [hstep]
      simp only [roots, List.map_cons, List.sum_cons]
      omega
    | data l =>
      obtain ⟨h1, h2, h5⟩ := handleData_spec hw l s h hm
      have h3 := ih (handleData env s l) h1 h2 hr
      have h4 : (handleData env s l).resolved + measure sz (handleData env s l) ≤ s.resolved + measure sz s := by
        clear h3 h1 h2 h5 ih hr
        induction l generalizing s with
        | nil => exact le_refl _
        | cons x l ihl =>
          obtain ⟨g1, g2, _⟩ := onData_spec hw h hm x.1 x.2
          have := ihl _ g1 g2
          exact this.trans (onData_weight hw hs h x.1 x.2)
      have hstep : step env s (.data l) = handleData env s l := rfl
      rw [hstep]
      simp only [roots]
      omega

/-- C69: if what is behind the roots is finite and well formed, a synchronization is done after a bounded number of answers, whatever else is sent: with `C69_accepts`,
every answer to a request that is left counts. -/
theorem C69_bounded (hw : World env U) {sz : B → K → Q → ℕ} (hs : Sized env U sz) {σ : B → K → Option D} (h0 : Whole env U σ) (evs : List (Ev B K D Q))
    (hr : ∀ r ∈ roots evs, U r.bucket r.key r.req) : (run env σ evs).resolved ≤ ((roots evs).map (szRef sz)).sum := by
  have := run_weight hw hs evs (start σ) (inv_start h0) rfl hr
  have h1 : (start σ : State B N K D Q).resolved = 0 := rfl
  have h2 : measure sz (start σ : State B N K D Q) = 0 := rfl
  unfold run
  omega

end Verif.Sync
