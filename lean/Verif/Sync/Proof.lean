import Verif.Sync.Model

/-!
# The Merkle builder: invariant (C69)
-/

namespace Verif.Sync

variable {B N K D Q : Type} [DecidableEq B] [DecidableEq N] [DecidableEq K]

/-- The identity of a request. -/
def Req.id (r : Req B N K Q) : N × K := (r.name, r.key)

/-- Somebody waits for this key in this bucket. -/
def Pend (env : Env B N K D Q) (s : State B N K D Q) (b : B) (k : K) (q : Q) : Prop :=
  ∃ r ∈ s.reqs, env.hasher b = some r.name ∧ r.key = k ∧ (b, q) ∈ r.entries

/-- In the store, or requested. -/
def OkRef (env : Env B N K D Q) (s : State B N K D Q) (c : Ref B K Q) : Prop :=
  (s.store c.bucket c.key).isSome = true ∨ Pend env s c.bucket c.key c.req

/-- The invariant. -/
structure Inv (env : Env B N K D Q) (U : B → K → Q → Prop) (s : State B N K D Q) : Prop where
  nodup : (s.reqs.map Req.id).Nodup
  ne : ∀ r ∈ s.reqs, r.entries ≠ []
  ent : ∀ r ∈ s.reqs, ∀ e ∈ r.entries, env.hasher e.1 = some r.name ∧ U e.1 r.key e.2
  data : ∀ b k q n d, U b k q → env.hasher b = some n → s.store b k = some d →
    env.hash n d = k ∧ ((∃ q', Pend env s b k q') ∨ ((env.onData q d).2 = true ∧ ∀ c ∈ (env.onData q d).1, OkRef env s c))
  mark : ∀ m, s.mark = some m → ∃ r ∈ s.reqs, r.id = m

/-- Nothing gets lost. -/
structure Grow (env : Env B N K D Q) (s t : State B N K D Q) : Prop where
  store : ∀ b k, (s.store b k).isSome = true → (t.store b k).isSome = true
  pend : ∀ b k q, Pend env s b k q → Pend env t b k q

theorem Grow.refl (env : Env B N K D Q) (s : State B N K D Q) : Grow env s s := ⟨fun _ _ h => h, fun _ _ _ h => h⟩

theorem Grow.trans {env : Env B N K D Q} {s t u : State B N K D Q} (h : Grow env s t) (g : Grow env t u) : Grow env s u :=
  ⟨fun b k x => g.store b k (h.store b k x), fun b k q x => g.pend b k q (h.pend b k q x)⟩

theorem Grow.ok {env : Env B N K D Q} {s t : State B N K D Q} (h : Grow env s t) {c : Ref B K Q} (x : OkRef env s c) : OkRef env t c := by
  rcases x with x | x
  · exact Or.inl (h.store _ _ x)
  · exact Or.inr (h.pend _ _ _ x)

theorem mem_insertAfter (n : N) (k : K) (x : Req B N K Q) (l : List (Req B N K Q)) (h : ∃ r ∈ l, r.id = (n, k)) : List.Perm (insertAfter n k x l) (x :: l) := by
  induction l with
  | nil => simp at h
  | cons r rs ih =>
    unfold insertAfter
    by_cases hr : r.name = n ∧ r.key = k
    · rw [if_pos hr]; exact List.Perm.swap _ _ _
    · rw [if_neg hr]
      have : ∃ r ∈ rs, r.id = (n, k) := by
        obtain ⟨r', h1, h2⟩ := h
        rw [List.mem_cons] at h1
        rcases h1 with rfl | h1
        · simp only [Req.id, Prod.mk.injEq] at h2; exact absurd h2 hr
        · exact ⟨r', h1, h2⟩
      exact ((ih this).cons r).trans (List.Perm.swap _ _ _)

theorem lookup_none {n : N} {k : K} {l : List (Req B N K Q)} (h : lookup n k l = none) : ∀ r ∈ l, r.id ≠ (n, k) := by
  intro r hr he
  unfold lookup at h
  rw [List.find?_eq_none] at h
  have := h r hr
  simp only [Req.id, Prod.mk.injEq] at he
  simp [he] at this

theorem lookup_some {n : N} {k : K} {l : List (Req B N K Q)} {r : Req B N K Q} (h : lookup n k l = some r) : r ∈ l ∧ r.id = (n, k) := by
  unfold lookup at h
  refine ⟨List.mem_of_find?_eq_some h, ?_⟩
  have := List.find?_some h
  simpa [Req.id] using this

theorem req_unique {l : List (Req B N K Q)} (hn : (l.map Req.id).Nodup) {r r' : Req B N K Q} (h : r ∈ l) (h' : r' ∈ l) (e : r.id = r'.id) : r = r' :=
  List.inj_on_of_nodup_map hn h h' e

section
variable {env : Env B N K D Q} {U : B → K → Q → Prop}

/-- A step that only changes the requests, and loses none. -/
theorem inv_reqs {s t : State B N K D Q} (h : Inv env U s) (hs : t.store = s.store) (hg : Grow env s t) (hn : (t.reqs.map Req.id).Nodup)
    (hne : ∀ r ∈ t.reqs, r.entries ≠ []) (he : ∀ r ∈ t.reqs, ∀ e ∈ r.entries, env.hasher e.1 = some r.name ∧ U e.1 r.key e.2)
    (hm : ∀ m, t.mark = some m → ∃ r ∈ t.reqs, r.id = m) : Inv env U t where
  nodup := hn
  ne := hne
  ent := he
  data b k q n d hu hh hst := by
    rw [hs] at hst
    obtain ⟨h1, h2⟩ := h.data b k q n d hu hh hst
    refine ⟨h1, ?_⟩
    rcases h2 with ⟨q', h2⟩ | ⟨h2, h3⟩
    · exact Or.inl ⟨q', hg.pend _ _ _ h2⟩
    · exact Or.inr ⟨h2, fun c hc => hg.ok (h3 c hc)⟩
  mark := hm

theorem addEntry_id (n : N) (k : K) (e : B × Q) (l : List (Req B N K Q)) : (addEntry n k e l).map Req.id = l.map Req.id := by
  unfold addEntry
  rw [List.map_map]
  apply List.map_congr_left
  intro r _
  simp only [Function.comp]
  split_ifs <;> rfl

/-- What `requestData` does. -/
theorem requestData_spec {s : State B N K D Q} (h : Inv env U s) {b : B} {k : K} {q : Q} (hu : U b k q) (hw : ∃ n, env.hasher b = some n) :
    Inv env U (requestData env s b k q) ∧ Pend env (requestData env s b k q) b k q ∧ Grow env s (requestData env s b k q) ∧
    (requestData env s b k q).store = s.store ∧ (requestData env s b k q).writes = s.writes ∧ (requestData env s b k q).resolved = s.resolved ∧
    ∀ r ∈ s.reqs, ¬ (env.hasher b = some r.name ∧ k = r.key) → r ∈ (requestData env s b k q).reqs := by
  obtain ⟨n, hn⟩ := hw
  cases hl : lookup n k s.reqs with
  | some r0 =>
    obtain ⟨hr0, hid⟩ := lookup_some hl
    simp only [Req.id, Prod.mk.injEq] at hid
    have hold : ∀ r ∈ s.reqs, ∃ r' ∈ addEntry n k (b, q) s.reqs, r'.name = r.name ∧ r'.key = r.key ∧ ∀ e ∈ r.entries, e ∈ r'.entries := by
      intro r hr
      refine ⟨_, List.mem_map.mpr ⟨r, hr, rfl⟩, ?_⟩
      split_ifs
      · exact ⟨rfl, rfl, fun e he => List.mem_append_left _ he⟩
      · exact ⟨rfl, rfl, fun e he => he⟩
    have hg : Grow env s { s with reqs := addEntry n k (b, q) s.reqs } := by
      refine ⟨fun _ _ x => x, ?_⟩
      rintro b' k' q' ⟨r, hr, h1, h2, h3⟩
      obtain ⟨r', g1, g2, g3, g4⟩ := hold r hr
      exact ⟨r', g1, by rw [g2]; exact h1, by rw [g3]; exact h2, g4 _ h3⟩
    have heq : requestData env s b k q = { s with reqs := addEntry n k (b, q) s.reqs } := by unfold requestData; simp only [hn, hl]
    rw [heq]
    refine ⟨?_, ?_, hg, rfl, rfl, rfl, ?_⟩
    · refine inv_reqs h rfl hg ?_ ?_ ?_ ?_
      · rw [addEntry_id]; exact h.nodup
      · intro r hr
        obtain ⟨r1, g1, rfl⟩ := List.mem_map.mp hr
        split_ifs
        · simp
        · exact h.ne r1 g1
      · intro r hr e he
        obtain ⟨r1, g1, rfl⟩ := List.mem_map.mp hr
        by_cases hc : r1.name = n ∧ r1.key = k
        · rw [if_pos hc] at he ⊢
          dsimp only at he ⊢
          rw [List.mem_append, List.mem_singleton] at he
          rcases he with he | rfl
          · exact h.ent r1 g1 e he
          · exact ⟨by rw [hc.1]; exact hn, by rw [hc.2]; exact hu⟩
        · rw [if_neg hc] at he ⊢
          exact h.ent r1 g1 e he
      · intro m hm
        obtain ⟨r, hr, e⟩ := h.mark m hm
        obtain ⟨r', g1, g2, g3, _⟩ := hold r hr
        exact ⟨r', g1, by rw [← e]; simp only [Req.id, g2, g3]⟩
    · refine ⟨{ r0 with entries := r0.entries ++ [(b, q)] }, List.mem_map.mpr ⟨r0, hr0, by rw [if_pos hid]⟩, ?_, hid.2, by simp⟩
      dsimp only
      rw [hid.1]; exact hn
    · intro r hr hne
      refine List.mem_map.mpr ⟨r, hr, ?_⟩
      rw [if_neg]
      rintro ⟨rfl, rfl⟩
      exact hne ⟨hn, rfl⟩
  | none =>
    have hnone := lookup_none hl
    have key : ∀ t : State B N K D Q, t.store = s.store → t.reqs.Perm (⟨n, k, [(b, q)]⟩ :: s.reqs) → (∀ m, t.mark = some m → m = (n, k) ∨ s.mark = some m) →
        t.writes = s.writes → t.resolved = s.resolved →
        Inv env U t ∧ Pend env t b k q ∧ Grow env s t ∧ t.store = s.store ∧ t.writes = s.writes ∧ t.resolved = s.resolved ∧
        ∀ r ∈ s.reqs, ¬ (env.hasher b = some r.name ∧ k = r.key) → r ∈ t.reqs := by
      intro t e1 e2 e3 e4 e5
      have hold : ∀ r ∈ s.reqs, r ∈ t.reqs := fun r hr => e2.mem_iff.mpr (List.mem_cons_of_mem _ hr)
      have hnew : ⟨n, k, [(b, q)]⟩ ∈ t.reqs := e2.mem_iff.mpr (by simp)
      have hg : Grow env s t := by
        refine ⟨fun _ _ x => by rw [e1]; exact x, ?_⟩
        rintro b' k' q' ⟨r, hr, hh⟩
        exact ⟨r, hold r hr, hh⟩
      refine ⟨inv_reqs h e1 hg ?_ ?_ ?_ ?_, ⟨_, hnew, hn, rfl, by simp⟩, hg, e1, e4, e5, fun r hr _ => hold r hr⟩
      · rw [(e2.map Req.id).nodup_iff, List.map_cons, List.nodup_cons]
        refine ⟨?_, h.nodup⟩
        intro hm
        obtain ⟨r, hr, e⟩ := List.mem_map.mp hm
        exact hnone r hr e
      · intro r hr
        rw [e2.mem_iff, List.mem_cons] at hr
        rcases hr with rfl | hr
        · simp
        · exact h.ne r hr
      · intro r hr e he
        rw [e2.mem_iff, List.mem_cons] at hr
        rcases hr with rfl | hr
        · simp only [List.mem_singleton] at he
          subst he
          exact ⟨hn, hu⟩
        · exact h.ent r hr e he
      · intro m hm
        rcases e3 m hm with rfl | e
        · exact ⟨_, hnew, rfl⟩
        · obtain ⟨r, hr, e⟩ := h.mark m e
          exact ⟨r, hold r hr, e⟩
    cases hm : s.mark with
    | none =>
      have heq : requestData env s b k q = { s with reqs := s.reqs ++ [⟨n, k, [(b, q)]⟩] } := by unfold requestData; simp only [hn, hl, hm]
      rw [heq]
      apply key
      · rfl
      · exact (List.perm_append_singleton _ _)
      · intro m h'; dsimp only at h'; exact Or.inr h'
      · rfl
      · rfl
    | some m =>
      have heq : requestData env s b k q = { s with reqs := insertAfter m.1 m.2 ⟨n, k, [(b, q)]⟩ s.reqs, mark := some (n, k) } := by
        unfold requestData; simp only [hn, hl, hm]
      rw [heq]
      apply key
      · rfl
      · exact mem_insertAfter _ _ _ _ (h.mark m hm)
      · intro m' h'; simp only [Option.some.injEq] at h'; exact Or.inl h'.symm
      · rfl
      · rfl

theorem finds_some {σ : B → K → Option D} {r : Ref B K Q} (h : finds env σ r = true) : (σ r.bucket r.key).isSome = true := by
  unfold finds at h
  split at h
  · rename_i d hd; rw [hd]; rfl
  · cases h

/-- What `resolve` does. -/
theorem resolve_spec {s : State B N K D Q} (h : Inv env U s) (r : Ref B K Q) (hu : U r.bucket r.key r.req) (hw : ∃ n, env.hasher r.bucket = some n) :
    Inv env U (resolve env s r) ∧ OkRef env (resolve env s r) r ∧ Grow env s (resolve env s r) ∧
    (resolve env s r).store = s.store ∧ (resolve env s r).writes = s.writes ∧ (resolve env s r).resolved = s.resolved ∧
    ∀ x ∈ s.reqs, ¬ (env.hasher r.bucket = some x.name ∧ r.key = x.key) → x ∈ (resolve env s r).reqs := by
  unfold resolve
  by_cases hf : finds env s.store r = true
  · rw [if_pos hf]
    exact ⟨h, Or.inl (finds_some hf), Grow.refl _ _, rfl, rfl, rfl, fun x hx _ => hx⟩
  · rw [if_neg hf]
    obtain ⟨h1, h2, h3⟩ := requestData_spec h hu hw
    exact ⟨h1, Or.inr h2, h3⟩

theorem resolves_spec : ∀ (cs : List (Ref B K Q)) (s : State B N K D Q), Inv env U s → (∀ c ∈ cs, U c.bucket c.key c.req ∧ ∃ n, env.hasher c.bucket = some n) →
    Inv env U (cs.foldl (resolve env) s) ∧ (∀ c ∈ cs, OkRef env (cs.foldl (resolve env) s) c) ∧ Grow env s (cs.foldl (resolve env) s) ∧
    (cs.foldl (resolve env) s).store = s.store ∧ (cs.foldl (resolve env) s).writes = s.writes ∧ (cs.foldl (resolve env) s).resolved = s.resolved ∧
    ∀ x ∈ s.reqs, (∀ c ∈ cs, ¬ (env.hasher c.bucket = some x.name ∧ c.key = x.key)) → x ∈ (cs.foldl (resolve env) s).reqs := by
  intro cs
  induction cs with
  | nil => intro s h _; exact ⟨h, by simp, Grow.refl _ _, rfl, rfl, rfl, fun x hx _ => hx⟩
  | cons c cs ih =>
    intro s h hc
    rw [List.foldl_cons]
    obtain ⟨a1, a2, a3, a4, a5, a6, a7⟩ := resolve_spec h c (hc c (by simp)).1 (hc c (by simp)).2
    obtain ⟨b1, b2, b3, b4, b5, b6, b7⟩ := ih (resolve env s c) a1 (fun x hx => hc x (List.mem_cons_of_mem _ hx))
    refine ⟨b1, ?_, a3.trans b3, b4.trans a4, b5.trans a5, b6.trans a6, ?_⟩
    · intro x hx
      rw [List.mem_cons] at hx
      rcases hx with rfl | hx
      · exact b3.ok a2
      · exact b2 x hx
    · intro x hx hne
      exact b7 x (a7 x hx (hne c (by simp))) (fun y hy => hne y (List.mem_cons_of_mem _ hy))

theorem setStore_self (σ : B → K → Option D) (b : B) (k : K) (d : D) : setStore σ b k d b k = some d := by simp [setStore]

theorem setStore_isSome (σ : B → K → Option D) (b : B) (k : K) (d : D) (b' : B) (k' : K) (h : (σ b' k').isSome = true) : (setStore σ b k d b' k').isSome = true := by
  unfold setStore; split_ifs <;> simp [h]

/-- The data of a pending request is written to one of its buckets. -/
theorem inv_set {s : State B N K D Q} (h : Inv env U s) {n : N} {k : K} {d : D} {es : List (B × Q)} (hr : (⟨n, k, es⟩ : Req B N K Q) ∈ s.reqs)
    (hd : env.hash n d = k) {b : B} {q : Q} (he : (b, q) ∈ es) :
    Inv env U { s with store := setStore s.store b k d, writes := s.writes ++ [(b, k, d)] } ∧
    Grow env s { s with store := setStore s.store b k d, writes := s.writes ++ [(b, k, d)] } := by
  have hg : Grow env s { s with store := setStore s.store b k d, writes := s.writes ++ [(b, k, d)] } :=
    ⟨fun b' k' x => setStore_isSome _ _ _ _ _ _ x, fun _ _ _ x => x⟩
  have hb := (h.ent _ hr _ he).1
  refine ⟨⟨h.nodup, h.ne, h.ent, ?_, h.mark⟩, hg⟩
  intro b' k' q' n' d' hu hh hst
  dsimp only at hst
  unfold setStore at hst
  by_cases hc : b' = b ∧ k' = k
  · rw [if_pos hc] at hst
    simp only [Option.some.injEq] at hst
    obtain ⟨rfl, rfl⟩ := hc
    subst hst
    rw [hb] at hh
    simp only [Option.some.injEq] at hh
    subst hh
    exact ⟨hd, Or.inl ⟨q, _, hr, hb, rfl, he⟩⟩
  · rw [if_neg hc] at hst
    obtain ⟨h1, h2⟩ := h.data b' k' q' n' d' hu hh hst
    refine ⟨h1, ?_⟩
    rcases h2 with ⟨q', h2⟩ | ⟨h2, h3⟩
    · exact Or.inl ⟨q', hg.pend _ _ _ h2⟩
    · exact Or.inr ⟨h2, fun c hc => hg.ok (h3 c hc)⟩

/-- What `tell` does. -/
theorem tell_spec (hw : World env U) {n : N} {k : K} {d : D} {es0 : List (B × Q)} (hd : env.hash n d = k) :
    ∀ (es : List (B × Q)) (s : State B N K D Q), Inv env U s → (⟨n, k, es0⟩ : Req B N K Q) ∈ s.reqs → (∀ e ∈ es, e ∈ es0) →
      Inv env U (tell env k d s es).1 ∧ (⟨n, k, es0⟩ : Req B N K Q) ∈ (tell env k d s es).1.reqs ∧ Grow env s (tell env k d s es).1 ∧
      (tell env k d s es).1.resolved = s.resolved ∧
      (∀ b, s.store b k = some d → (tell env k d s es).1.store b k = some d) ∧
      ((tell env k d s es).2 = true → ∀ e ∈ es, (tell env k d s es).1.store e.1 k = some d ∧ (env.onData e.2 d).2 = true ∧
        ∀ c ∈ (env.onData e.2 d).1, OkRef env (tell env k d s es).1 c) := by
  intro es
  induction es with
  | nil => intro s h hr _; exact ⟨h, hr, Grow.refl _ _, rfl, fun b hb => hb, by simp⟩
  | cons e es ih =>
    intro s h hr hsub
    obtain ⟨b, q⟩ := e
    have he := hsub (b, q) (by simp)
    obtain ⟨i1, g1⟩ := inv_set h hr hd he
    obtain ⟨hb, hu⟩ := h.ent _ hr _ he
    dsimp only at hb hu
    obtain ⟨j1, j2, j3, j4, j5, j6, j7⟩ := resolves_spec (env.onData q d).1 _ i1 (fun c hc => by
      have := hw.closed hu hb hd c hc
      exact ⟨this, hw.hasher this⟩)
    have hr' := j7 ⟨n, k, es0⟩ hr (fun c hc => hw.nofix hu hb hd c hc)
    have hself : ((env.onData q d).1.foldl (resolve env) { s with store := setStore s.store b k d, writes := s.writes ++ [(b, k, d)] }).store b k = some d := by
      rw [j4]; exact setStore_self _ _ _ _
    have hkeep : ∀ b', s.store b' k = some d →
        ((env.onData q d).1.foldl (resolve env) { s with store := setStore s.store b k d, writes := s.writes ++ [(b, k, d)] }).store b' k = some d := by
      intro b' hb'
      rw [j4]
      dsimp only
      unfold setStore
      split_ifs
      · rfl
      · exact hb'
    by_cases hok : (env.onData q d).2 = true
    · have ht : tell env k d s ((b, q) :: es) =
          tell env k d ((env.onData q d).1.foldl (resolve env) { s with store := setStore s.store b k d, writes := s.writes ++ [(b, k, d)] }) es := by
        rw [tell]; exact if_pos hok
      rw [ht]
      obtain ⟨l1, l2, l3, l4, l5, l6⟩ := ih _ j1 hr' (fun x hx => hsub x (List.mem_cons_of_mem _ hx))
      refine ⟨l1, l2, (g1.trans j3).trans l3, l4.trans j6, fun b' hb' => l5 b' (hkeep b' hb'), ?_⟩
      intro hres x hx
      rw [List.mem_cons] at hx
      rcases hx with rfl | hx
      · exact ⟨l5 _ hself, hok, fun c hc => l3.ok (j2 c hc)⟩
      · exact l6 hres x hx
    · have ht : tell env k d s ((b, q) :: es) =
          ((env.onData q d).1.foldl (resolve env) { s with store := setStore s.store b k d, writes := s.writes ++ [(b, k, d)] }, false) := by
        rw [tell]; exact if_neg hok
      rw [ht]
      exact ⟨j1, hr', g1.trans j3, j6, hkeep, by simp⟩

theorem inv_mark {s : State B N K D Q} (h : Inv env U s) (m : Option (N × K)) (hm : ∀ x, m = some x → ∃ r ∈ s.reqs, r.id = x) :
    Inv env U { s with mark := m } ∧ Grow env s { s with mark := m } :=
  ⟨⟨h.nodup, h.ne, h.ent, h.data, hm⟩, ⟨fun _ _ x => x, fun _ _ _ x => x⟩⟩

/-- What `onData` does to the invariant. -/
theorem onData_spec (hw : World env U) {s : State B N K D Q} (h : Inv env U s) (hm : s.mark = none) (b : B) (d : D) :
    Inv env U (onData env s b d).1 ∧ (onData env s b d).1.mark = none ∧ ∀ c, OkRef env s c → OkRef env (onData env s b d).1 c := by
  unfold onData
  cases hb : env.hasher b with
  | none => exact ⟨h, hm, fun c x => x⟩
  | some n =>
    dsimp only
    cases hl : lookup n (env.hash n d) s.reqs with
    | none => exact ⟨h, hm, fun c x => x⟩
    | some r =>
      dsimp only
      obtain ⟨hr, hid⟩ := lookup_some hl
      have hreq : r = ⟨n, env.hash n d, r.entries⟩ := by
        obtain ⟨rn, rk, re⟩ := r
        simp only [Req.id, Prod.mk.injEq] at hid
        obtain ⟨rfl, rfl⟩ := hid
        rfl
      obtain ⟨h0, g0⟩ := inv_mark h (some (n, env.hash n d)) (fun x hx => ⟨r, hr, by simp only [Option.some.injEq] at hx; rw [← hx]; exact hid⟩)
      obtain ⟨i1, i2, i3, i4, _, i5⟩ := tell_spec hw rfl r.entries { s with mark := some (n, env.hash n d) } h0 (hreq ▸ hr) (fun e he => he)
      generalize ht : tell env (env.hash n d) d { s with mark := some (n, env.hash n d) } r.entries = t at *
      by_cases hok : t.2 = true
      · rw [if_pos hok]
        have hdone := i5 hok
        -- after the removal of the request
        have hrem : ∀ c, OkRef env t.1 c → OkRef env ({ t.1 with mark := none, resolved := t.1.resolved + 1, reqs := t.1.reqs.filter (fun r => decide (¬ (r.name = n ∧ r.key = env.hash n d))) } : State B N K D Q) c := by
          rintro c (x | ⟨r', x1, x2, x3, x4⟩)
          · exact Or.inl x
          · by_cases hc : r'.name = n ∧ r'.key = env.hash n d
            · have : r' = ⟨n, env.hash n d, r.entries⟩ := req_unique i1.nodup x1 i2 (by simp only [Req.id, hc.1, hc.2])
              rw [this] at x4
              left
              have := (hdone _ x4).1
              dsimp only at this ⊢
              rw [← x3, hc.2, this]
              rfl
            · exact Or.inr ⟨r', List.mem_filter.mpr ⟨x1, decide_eq_true hc⟩, x2, x3, x4⟩
        refine ⟨⟨?_, ?_, ?_, ?_, ?_⟩, rfl, fun c x => hrem c (i3.ok (g0.ok x))⟩
        · exact i1.nodup.sublist (List.Sublist.map _ List.filter_sublist)
        · intro x hx; exact i1.ne x (List.mem_of_mem_filter hx)
        · intro x hx; exact i1.ent x (List.mem_of_mem_filter hx)
        · intro b' k' q' n' d' hu hh hst
          dsimp only at hst
          obtain ⟨j1, j2⟩ := i1.data b' k' q' n' d' hu hh hst
          refine ⟨j1, ?_⟩
          rcases j2 with ⟨q'', r', x1, x2, x3, x4⟩ | ⟨j2, j3⟩
          · by_cases hc : r'.name = n ∧ r'.key = env.hash n d
            · right
              have : r' = ⟨n, env.hash n d, r.entries⟩ := req_unique i1.nodup x1 i2 (by simp only [Req.id, hc.1, hc.2])
              rw [this] at x4
              obtain ⟨y1, y2, y3⟩ := hdone _ x4
              dsimp only at y1 y2 y3
              have hk : k' = env.hash n d := by rw [← x3, hc.2]
              subst hk
              rw [hst] at y1
              simp only [Option.some.injEq] at y1
              subst y1
              have hu' := (i1.ent _ i2 _ x4).2
              have hn' : n' = n := by
                have := (i1.ent _ i2 _ x4).1
                rw [hh] at this
                simpa using this
              rw [hn'] at hh
              have hag := hw.agree hu hu' hh rfl
              rw [hag]
              exact ⟨y2, fun c hc => hrem c (y3 c hc)⟩
            · left
              exact ⟨q'', r', List.mem_filter.mpr ⟨x1, decide_eq_true hc⟩, x2, x3, x4⟩
          · right
            exact ⟨j2, fun c hc => hrem c (j3 c hc)⟩
        · intro m hm'; cases hm'
      · rw [if_neg hok]
        obtain ⟨k1, k2⟩ := inv_mark i1 none (fun x hx => by cases hx)
        exact ⟨k1, rfl, fun c x => k2.ok (i3.ok (g0.ok x))⟩

theorem handleData_spec (hw : World env U) : ∀ (l : List (B × D)) (s : State B N K D Q), Inv env U s → s.mark = none →
    Inv env U (handleData env s l) ∧ (handleData env s l).mark = none ∧ ∀ c, OkRef env s c → OkRef env (handleData env s l) c := by
  intro l
  induction l with
  | nil => intro s h hm; exact ⟨h, hm, fun c x => x⟩
  | cons x l ih =>
    intro s h hm
    obtain ⟨h1, h2, h3⟩ := onData_spec hw h hm x.1 x.2
    obtain ⟨k1, k2, k3⟩ := ih _ h1 h2
    exact ⟨k1, k2, fun c y => k3 c (h3 c y)⟩

theorem requestData_mark (s : State B N K D Q) (hm : s.mark = none) (b : B) (k : K) (q : Q) : (requestData env s b k q).mark = none := by
  unfold requestData
  cases env.hasher b with
  | none => exact hm
  | some n =>
    dsimp only
    cases lookup n k s.reqs with
    | some r => exact hm
    | none => simp only [hm]

theorem resolve_mark (s : State B N K D Q) (hm : s.mark = none) (r : Ref B K Q) : (resolve env s r).mark = none := by
  unfold resolve
  split_ifs
  · exact hm
  · exact requestData_mark s hm _ _ _

theorem run_spec (hw : World env U) : ∀ (evs : List (Ev B K D Q)) (s : State B N K D Q), Inv env U s → s.mark = none → (∀ r ∈ roots evs, U r.bucket r.key r.req) →
    Inv env U (evs.foldl (step env) s) ∧ (evs.foldl (step env) s).mark = none ∧ (∀ c, OkRef env s c → OkRef env (evs.foldl (step env) s) c) ∧
    ∀ r ∈ roots evs, OkRef env (evs.foldl (step env) s) r := by
  intro evs
  induction evs with
  | nil => intro s h hm _; exact ⟨h, hm, fun c x => x, by simp [roots]⟩
  | cons e evs ih =>
    intro s h hm hr
    rw [List.foldl_cons]
    cases e with
    | root r =>
      have hu := hr r (by simp [roots])
      obtain ⟨h1, h2, h3, _⟩ := resolve_spec h r hu (hw.hasher hu)
      obtain ⟨k1, k2, k3, k4⟩ := ih (resolve env s r) h1 (resolve_mark s hm r) (fun x hx => hr x (List.mem_cons_of_mem _ hx))
      refine ⟨k1, k2, fun c x => k3 c (h3.ok x), ?_⟩
      intro x hx
      rw [roots, List.mem_cons] at hx
      rcases hx with rfl | hx
      · exact k3 _ h2
      · exact k4 x hx
    | data l =>
      obtain ⟨h1, h2, h3⟩ := handleData_spec hw l s h hm
      obtain ⟨k1, k2, k3, k4⟩ := ih (handleData env s l) h1 h2 hr
      exact ⟨k1, k2, fun c x => k3 c (h3 c x), k4⟩

theorem inv_start {σ : B → K → Option D} (h : Whole env U σ) : Inv env U (start σ : State B N K D Q) where
  nodup := by simp [start]
  ne := by simp [start]
  ent := by simp [start]
  data b k q n d hu hh hst := by
    obtain ⟨h1, h2, h3⟩ := h b k q n d hu hh hst
    exact ⟨h1, Or.inr ⟨h2, fun c hc => Or.inl (h3 c hc)⟩⟩
  mark := by simp [start]

end

end Verif.Sync
