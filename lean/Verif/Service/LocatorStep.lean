import Verif.Service.LocatorInv

/-!
# Locator manager: the invariant is kept
-/

namespace Verif.Locator

variable {I : Type} [DecidableEq I] {tsOf : I → ℤ}

/-- The invariant with the split hidden. -/
def Inv (tsOf : I → ℤ) (s : State I) : Prop :=
  ∃ th old new cleared cached act lost, Split tsOf s th old new cleared cached act lost

theorem flat_of_mem {l : List (Blk I)} (h : (l.flatMap (fun b => b.txs)).Nodup) {a b : Blk I}
    {id : I} (x y z : List (Blk I)) (hl : l = x ++ y ++ z) (ha : a ∈ x ++ y) (hb : b ∈ z) (ia : id ∈ a.txs) :
    id ∉ b.txs := by
  subst hl
  rw [List.flatMap_append, List.nodup_append] at h
  intro ib
  exact h.2.2 id (List.mem_flatMap.mpr ⟨a, ha, ia⟩) id (List.mem_flatMap.mpr ⟨b, hb, ib⟩) rfl

theorem nodup_of_mem {l : List (Blk I)} (h : (l.flatMap (fun b => b.txs)).Nodup) {b : Blk I} (hb : b ∈ l) :
    b.txs.Nodup := by
  induction l with
  | nil => cases hb
  | cons c l ih =>
    rw [List.flatMap_cons, List.nodup_append] at h
    rcases List.mem_cons.mp hb with rfl | hb
    · exact h.1
    · exact ih h.2.1 hb

/-- In a list of blocks without repetitions an id has one place. -/
theorem place_unique {l : List (Blk I)} (h : (l.flatMap (fun b => b.txs)).Nodup) {a b : Blk I} {id : I}
    {la lb : Loc} (ha : a ∈ l) (hb : b ∈ l) (ia : At a id la) (ib : At b id lb) : la = lb := by
  induction l with
  | nil => cases ha
  | cons c l ih =>
    rw [List.flatMap_cons, List.nodup_append] at h
    rcases List.mem_cons.mp ha with e | ha' <;> rcases List.mem_cons.mp hb with e' | hb'
    · subst e; subst e'; exact ia.inj h.1 ib
    · subst e; exact absurd rfl (h.2.2 id ia.mem id (List.mem_flatMap.mpr ⟨b, hb', ib.mem⟩))
    · subst e'; exact absurd rfl (h.2.2 id ib.mem id (List.mem_flatMap.mpr ⟨a, ha', ia.mem⟩))
    · exact ih h.2.1 ha' hb'

namespace Split
variable {s : State I} {th : ℤ} {old new cleared cached act lost : List (Blk I)}

theorem mem_new (h : Split tsOf s th old new cleared cached act lost) {b : Blk I}
    (hb : b ∈ cleared ++ cached ++ act ++ lost) : b = dummy th ∨ b ∈ new := by
  rw [← h.split] at hb; exact List.mem_cons.mp hb

theorem mem_blocks (h : Split tsOf s th old new cleared cached act lost) {b : Blk I}
    (hb : b ∈ cleared ++ cached ++ act ++ lost) {id : I} (hi : id ∈ b.txs) : b ∈ s.blocks := by
  rcases h.mem_new hb with rfl | e
  · simp [dummy] at hi
  · rw [h.blocks]; exact List.mem_append_right _ e

theorem split_of (h : Split tsOf s th old new cleared cached act lost) {b : Blk I} (hb : b ∈ s.blocks) :
    b ∈ old ∨ b ∈ cleared ∨ b ∈ cached ∨ b ∈ act ∨ b ∈ lost := by
  rw [h.blocks, List.mem_append] at hb
  rcases hb with e | e
  · exact Or.inl e
  · have : b ∈ cleared ++ cached ++ act ++ lost := by rw [← h.split]; exact List.mem_cons_of_mem _ e
    simp only [List.mem_append] at this
    tauto

theorem no_lost (h : Split tsOf s th old new cleared cached act lost) (hd : s.dead = false) : lost = [] := by
  by_contra hne
  have := (h.lost.2 hne).1
  rw [hd] at this; cases this

/-- A transaction of the chain that is in the range of the next block is found. -/
theorem has_of_mem (h : Split tsOf s th old new cleared cached act lost) (hd : s.dead = false) {a : Blk I}
    {id : I} (ha : a ∈ s.blocks) (hi : id ∈ a.txs) {ts : ℤ} (hts : ts = tsOf id)
    (hmin : ∀ l ∈ s.blocks, l.ts - l.th < ts) : s.has id ts = true := by
  have L := h.live hd
  obtain ⟨loc, hat⟩ := exists_at hi
  unfold State.has
  rw [if_neg (by rw [hd]; simp)]
  by_cases hl : (s.locs id).isSome
  · rw [if_pos hl]
  rw [if_neg hl]
  have hcase := h.split_of ha
  rw [h.no_lost hd] at hcase
  have hdb : a ∈ old ∨ a ∈ cleared := by
    rcases hcase with e | e | e | e | e
    · exact Or.inl e
    · exact Or.inr e
    · exfalso; apply hl
      rw [(L.locs id loc).mpr ⟨a, List.mem_append_left _ e, hat⟩]; rfl
    · exfalso; apply hl
      rw [(L.locs id loc).mpr ⟨a, List.mem_append_right _ e, hat⟩]; rfl
    · cases e
  have hd2 : s.db id = some loc := h.db a (by
    rcases hdb with e | e
    · exact List.mem_append_left _ (List.mem_append_left _ e)
    · exact List.mem_append_left _ (List.mem_append_right _ e)) id loc hat
  rw [if_neg, hd2]
  · rfl
  rintro ⟨m0, mle⟩
  obtain ⟨c, hc, c0, cm, l, hl', cl⟩ := L.maxOf m0
  have cnew : c ∈ new := by
    rcases h.mem_new (b := c) (by simp [hc]) with e | e
    · subst e; exact absurd rfl c0
    · exact e
  have inb : ∀ {b}, b ∈ new → b ∈ s.blocks := fun hb => by rw [h.blocks]; exact List.mem_append_right _ hb
  have hlm := hmin l (inb hl')
  have har := (h.range a ha id hi).2
  have key : a.ts + a.th ≤ s.maxTS := by
    rcases hdb with e | e
    · rw [cm]
      have := h.order
      rw [h.blocks, List.pairwise_append] at this
      exact (this.2.2 a e c cnew).2.2
    · by_cases a0 : a.ts = 0
      · rw [cm]
        rcases pairwise_tri h.order ha (inb cnew) with e' | e' | e'
        · rw [e']
        · exact e'.2.2
        · have h1 := e'.1
          have h2 := h.pos c (inb cnew)
          exact absurd (le_antisymm (by rw [a0] at h1; exact h1) h2) c0
      · exact L.maxTop a e a0
  rw [← hts] at har
  have hsum : s.maxTS = c.ts + c.th := cm
  linarith

/-- The check lets through only blocks that fit. -/
theorem check_fits (h : Split tsOf s th old new cleared cached act lost) (hd : s.dead = false)
    (hp : s.pending = none) {b : Blk I} (hr : Regular s.chain b) (hc : s.check tsOf b = true) :
    Fits tsOf s.chain b := by
  unfold State.check at hc
  rw [Bool.and_eq_true, decide_eq_true_eq, List.all_eq_true] at hc
  obtain ⟨c1, c2⟩ := hc
  have hb : s.blocks = s.chain := by simp [State.blocks, hp]
  refine ⟨c1, ?_, ?_⟩
  · intro id hi
    have := c2 id hi
    simp only [State.inRange, Bool.and_eq_true, decide_eq_true_eq] at this
    exact this.2
  · intro id hi a ha hia
    have h2 := c2 id hi
    rw [Bool.and_eq_true] at h2
    have hrange := h2.2
    simp only [State.inRange, Bool.and_eq_true, decide_eq_true_eq] at hrange
    rw [h.has_of_mem hd (hb ▸ ha) hia rfl] at h2
    · exact absurd h2.1 (by simp)
    · intro l hl
      rw [hb] at hl
      have := (hr.2 l hl).2.1
      linarith [hrange.1]

/-- A found transaction was committed at some time. -/
theorem mem_of_has (h : Split tsOf s th old new cleared cached act lost) {id : I} {ts : ℤ}
    (hh : s.has id ts = true) : ∃ b ∈ s.tried, id ∈ b.txs := by
  unfold State.has at hh
  by_cases hd : s.dead = true
  · rw [if_pos hd] at hh; cases hh
  rw [if_neg hd] at hh
  have hd' : s.dead = false := by simpa using hd
  have L := h.live hd'
  by_cases hl : (s.locs id).isSome
  · obtain ⟨loc, e⟩ := Option.isSome_iff_exists.mp hl
    obtain ⟨b, hb, hat⟩ := (L.locs id loc).mp e
    refine ⟨b, h.tried.1 b (h.mem_blocks ?_ hat.mem), hat.mem⟩
    simp only [List.mem_append] at hb ⊢
    tauto
  · rw [if_neg hl] at hh
    split_ifs at hh
    refine h.tried.2 id ?_
    intro e; rw [e] at hh; cases hh

/-- Every transaction of the chain is found at its place. -/
theorem locator (h : Split tsOf s th old new cleared cached act lost) (hd : s.dead = false) {a : Blk I}
    {id : I} {loc : Loc} (ha : a ∈ s.blocks) (hi : At a id loc) : s.getLocator id = some loc := by
  have L := h.live hd
  unfold State.getLocator
  rw [if_neg (by rw [hd]; simp)]
  cases e : s.locs id with
  | some l =>
    obtain ⟨b, hb, hat⟩ := (L.locs id l).mp e
    have hbm : b ∈ s.blocks := h.mem_blocks (by simp only [List.mem_append] at hb ⊢; tauto) hat.mem
    show some l = some loc
    rw [place_unique h.nodup hbm ha hat hi]
  | none =>
    show s.db id = some loc
    have hno : a ∉ cached ++ act := fun hin => by
      have := (L.locs id loc).mpr ⟨a, hin, hi⟩
      rw [e] at this; cases this
    have hcase := h.split_of ha
    rw [h.no_lost hd] at hcase
    refine h.db a ?_ id loc hi
    simp only [List.mem_append] at hno ⊢
    rcases hcase with e | e | e | e | e
    · tauto
    · tauto
    · tauto
    · tauto
    · cases e

end Split

/-! ### Steps -/

section steps
variable {s s' : State I} {th : ℤ} {old new cleared cached act lost : List (Blk I)}

theorem fetch_inv (h : Split tsOf s th old new cleared cached act lost) (e : s.fetch = some s') :
    Split tsOf s' th old new cleared cached act lost := by
  unfold State.fetch at e
  split at e
  · rename_i hc hq
    cases e
    refine ⟨h.blocks, h.split, h.lost, ?_, h.db, ?_, ?_, h.nodup, h.range, h.order, h.pos, h.safe, h.tried⟩
    · have := h.queue
      rw [hc, hq] at this
      simpa using this
    · intro b k hk j id hj
      cases hk
      omega
    · intro hd
      obtain ⟨a1, a2, a3, a4, a5⟩ := h.live hd
      exact ⟨a1, a2, a3, a4, a5⟩
  · cases e

theorem stop_inv (h : Split tsOf s th old new cleared cached act lost) :
    Split tsOf { s with dead := true } th old new cleared cached act lost :=
  ⟨h.blocks, h.split, ⟨h.lost.1, fun x => ⟨rfl, (h.lost.2 x).2⟩⟩, h.queue, h.db, h.cur,
    (fun hd => by cases hd), h.nodup, h.range, h.order, h.pos, h.safe, h.tried⟩

theorem fail_inv (h : Split tsOf s th old new cleared cached act lost) (hq : s.queue = [])
    (e : s.fail = some s') : Inv tsOf s' := by
  unfold State.fail at e
  cases hc : s.cur with
  | none => rw [hc] at e; cases e
  | some x =>
    rw [hc] at e
    cases e
    have hqq := h.queue
    rw [hc, hq] at hqq
    have hlen : act.length = 1 := by
      have := congrArg List.length hqq
      simpa using this.symm
    have hl : lost = [] := by
      by_contra hne
      rw [(h.lost.2 hne).2] at hlen
      cases hlen
    refine ⟨th, old, new, cleared, cached, [], act, h.blocks, ?_, ⟨by omega, fun _ => ⟨rfl, rfl⟩⟩, rfl, h.db,
      (fun b k hk => by cases hk), (fun hd => by cases hd), h.nodup, h.range, h.order, h.pos, h.safe, h.tried⟩
    rw [h.split, hl]; simp

/-- The head of the work list. -/
theorem act_cons (h : Split tsOf s th old new cleared cached act lost) {l : TxList I} {k : ℕ}
    (hc : s.cur = some (l, k)) : ∃ b rest, act = b :: rest ∧ l = b.toList ∧ s.queue = rest.map Blk.toList := by
  have := h.queue
  rw [hc] at this
  cases act with
  | nil => cases this
  | cons b rest =>
    simp only [Option.toList_some, List.map_cons, List.map_nil, List.cons_append, List.nil_append,
      List.cons.injEq] at this
    exact ⟨b, rest, rfl, this.1, this.2⟩

theorem write_inv (h : Split tsOf s th old new cleared cached act lost) (e : s.write = some s') :
    Split tsOf s' th old new cleared cached act lost := by
  unfold State.write at e
  cases hc : s.cur with
  | none => rw [hc] at e; cases e
  | some x =>
    obtain ⟨l, k⟩ := x
    rw [hc] at e
    obtain ⟨b, rest, ha, rfl, hq⟩ := act_cons h hc
    simp only [getElem?_items] at e
    cases hk : b.txs[k]? with
    | none => rw [hk] at e; cases e
    | some id =>
      rw [hk] at e
      simp only [Option.map_some, Option.some.injEq] at e
      subst e
      have hbi : At b id ⟨b.height, k⟩ := ⟨hk, rfl⟩
      have hbm : b ∈ s.blocks := h.mem_blocks (by simp [ha]) hbi.mem
      have keep : ∀ a ∈ s.blocks, InDb s.db a →
          InDb (Function.update s.db id (some ⟨b.toList.height, k⟩)) a := by
        intro a ham hdb id' loc hat
        by_cases e : id' = id
        · subst e
          rw [Function.update_self]
          exact congrArg some (place_unique h.nodup hbm ham hbi hat)
        · rw [Function.update_of_ne e]; exact hdb id' loc hat
      have keep' : ∀ a, (a = dummy th ∨ a ∈ s.blocks) → InDb s.db a →
          InDb (Function.update s.db id (some ⟨b.toList.height, k⟩)) a := by
        rintro a (rfl | ham) hdb
        · intro id' loc hat
          have := hat.mem
          simp [dummy] at this
        · exact keep a ham hdb
      refine ⟨h.blocks, h.split, h.lost, ?_, ?_, ?_, ?_, h.nodup, h.range, h.order, h.pos, ?_, ?_⟩
      · have := h.queue
        rw [hc] at this
        exact this
      · intro a ham
        refine keep' a ?_ (h.db a ham)
        rcases List.mem_append.mp ham with e | e
        · rcases List.mem_append.mp e with e | e
          · right; rw [h.blocks]; exact List.mem_append_left _ e
          · rcases h.mem_new (b := a) (by simp [e]) with e | e
            · exact Or.inl e
            · right; rw [h.blocks]; exact List.mem_append_right _ e
        · rcases h.mem_new (b := a) (by simp [e]) with e | e
          · exact Or.inl e
          · right; rw [h.blocks]; exact List.mem_append_right _ e
      · intro b' k' hk' j id' hj hit
        simp only [Option.some.injEq, Prod.mk.injEq] at hk'
        obtain ⟨rfl, rfl⟩ := hk'
        by_cases e : id' = id
        · subst e
          rw [getElem?_items] at hit
          cases hx : b.txs[j]? with
          | none => rw [hx] at hit; cases hit
          | some y =>
            rw [hx] at hit
            simp only [Option.map_some, Option.some.injEq, Prod.mk.injEq] at hit
            obtain ⟨rfl, _⟩ := hit
            show Function.update s.db y _ y = _
            rw [Function.update_self]
            have := (hbi.inj (nodup_of_mem h.nodup hbm) (show At b y ⟨b.height, j⟩ from ⟨hx, rfl⟩))
            exact congrArg some this
        · show Function.update s.db id _ id' = _
          rw [Function.update_of_ne e]
          refine h.cur _ _ hc j id' ?_ hit
          have : j ≠ k := by
            rintro rfl
            rw [getElem?_items, hk] at hit
            simp only [Option.map_some, Option.some.injEq, Prod.mk.injEq] at hit
            exact e hit.1.symm
          omega
      · intro hd
        obtain ⟨a1, a2, a3, a4, a5⟩ := h.live hd
        exact ⟨a1, a2, a3, a4, a5⟩
      · intro a ham
        exact keep a (List.mem_append_left _ (List.dropLast_subset _ ham)) (h.safe a ham)
      · refine ⟨h.tried.1, fun id' hne => ?_⟩
        by_cases e : id' = id
        · subst e; exact ⟨b, h.tried.1 b hbm, hbi.mem⟩
        · have hne' : Function.update s.db id (some ⟨b.toList.height, k⟩) id' ≠ none := hne
          rw [Function.update_of_ne e] at hne'
          exact h.tried.2 id' hne'

theorem takeWhile_map {α β : Type} (f : α → β) (p : β → Bool) (l : List α) :
    (l.map f).takeWhile p = (l.takeWhile (p ∘ f)).map f ∧
    (l.map f).dropWhile p = (l.dropWhile (p ∘ f)).map f := by
  induction l with
  | nil => simp
  | cons a l ih =>
    simp only [List.map_cons, List.takeWhile_cons, List.dropWhile_cons, Function.comp]
    by_cases hp : p (f a) = true
    · rw [if_pos hp, if_pos hp, if_pos hp, if_pos hp]; exact ⟨by rw [ih.1]; rfl, ih.2⟩
    · rw [if_neg hp, if_neg hp, if_neg hp, if_neg hp]; exact ⟨rfl, rfl⟩

theorem flushed_inv (h : Split tsOf s th old new cleared cached act lost) (e : s.flushed = some s') :
    Inv tsOf s' := by
  unfold State.flushed at e
  cases hc : s.cur with
  | none => rw [hc] at e; cases e
  | some x =>
    obtain ⟨l, k⟩ := x
    rw [hc] at e
    obtain ⟨b, rest, ha, rfl, hq⟩ := act_cons h hc
    simp only at e
    by_cases hk : k = b.toList.items.length
    swap
    · rw [if_neg hk] at e; cases e
    rw [if_pos hk, Option.some.injEq] at e
    subst e
    have hb : InDb s.db b := by
      intro id loc hat
      have hlt : loc.index < b.txs.length := (List.getElem?_eq_some_iff.mp hat.1).1
      have := h.cur _ _ hc loc.index id (by rw [hk, length_items]; exact hlt)
        (by rw [getElem?_items, hat.1]; rfl)
      rw [this]
      cases loc; simp only [At] at hat; rw [hat.2]; rfl
    unfold State.addList
    by_cases hd : s.dead = true
    · rw [if_pos (by exact hd)]
      refine ⟨th, old, new, cleared ++ cached ++ [b], [], rest, lost, h.blocks, ?_, ⟨h.lost.1, fun hl => ?_⟩, ?_, ?_,
        (fun _ _ hk => by cases hk), (fun hd' => by rw [show s.dead = false from hd'] at hd; cases hd), h.nodup, h.range,
        h.order, h.pos, h.safe, h.tried⟩
      · rw [h.split, ha]; simp
      · have := (h.lost.2 hl).2
        rw [ha] at this; cases this
      · simpa using hq
      · intro a ham
        simp only [List.mem_append, List.mem_singleton, List.not_mem_nil, or_false] at ham
        rcases ham with e | (e | e) | e
        · exact h.db a (by simp [e])
        · exact h.db a (by simp [e])
        · exact h.db a (by simp [e])
        · subst e; exact hb
    · have hd' : s.dead = false := by simpa using hd
      rw [if_neg (by exact hd)]
      have L := h.live hd'
      have hlost := h.no_lost hd'
      obtain ⟨t1, t2⟩ := takeWhile_map Blk.toList (State.expired (b.toList.ts - b.toList.th)) cached
      have hcut := List.takeWhile_append_dropWhile (p := State.expired (b.toList.ts - b.toList.th) ∘ Blk.toList)
        (l := cached)
      have hexp : ∀ c ∈ cached.takeWhile (State.expired (b.toList.ts - b.toList.th) ∘ Blk.toList),
          c.ts + c.th ≤ b.ts - b.th := by
        intro c hc
        have := List.all_eq_true.mp (List.all_takeWhile (p := State.expired (b.toList.ts - b.toList.th) ∘ Blk.toList) (l := cached)) c hc
        exact of_decide_eq_true this
      generalize hX : cached.takeWhile (State.expired (b.toList.ts - b.toList.th) ∘ Blk.toList) = X at *
      generalize hY : cached.dropWhile (State.expired (b.toList.ts - b.toList.th) ∘ Blk.toList) = Y at *
      have hsplit : dummy th :: new = (cleared ++ X) ++ (Y ++ [b]) ++ rest ++ lost := by
        rw [h.split, ha, ← hcut]; simp
      refine ⟨th, old, new, cleared ++ X, Y ++ [b], rest, lost, h.blocks, hsplit, ⟨h.lost.1, fun hl => ?_⟩, ?_, ?_,
        (fun _ _ hk => by cases hk), (fun _ => ?_), h.nodup, h.range, h.order, h.pos, h.safe, h.tried⟩
      · exact absurd hlost hl
      · simpa using hq
      · intro a ham
        simp only [List.mem_append, List.mem_singleton] at ham
        rcases ham with (e | e | e) | e | e
        · exact h.db a (by simp [e])
        · exact h.db a (by simp [e])
        · exact h.db a (by rw [← hcut]; simp [e])
        · exact h.db a (by rw [← hcut]; simp [e])
        · subst e; exact hb
      · have hcc : s.cache = cached.map Blk.toList := L.cache
        obtain ⟨r1, r2, r3⟩ := raise_fold X s.maxTS
        refine ⟨?_, ?_, ?_, ?_, L.accepted⟩
        · show s.cache.dropWhile _ ++ [b.toList] = _
          rw [hcc, t2]; simp
        · intro id loc
          show (s.cache.takeWhile _).foldl State.dropAll s.locs id = some loc ↔ _
          rw [hcc, t1, dropAll_fold]
          have hmem : ∀ a, a ∈ Y ++ [b] ++ rest → a ∈ cached ++ act := by
            intro a; rw [ha, ← hcut]; simp only [List.mem_append, List.mem_cons, List.mem_singleton, List.not_mem_nil, or_false]; tauto
          by_cases hx : ∃ c ∈ X, id ∈ c.txs
          · rw [if_pos hx]
            constructor
            · intro e; cases e
            · rintro ⟨a, ha', hat⟩
              exfalso
              obtain ⟨c, hcX, hic⟩ := hx
              have hnd : ((dummy th :: new).flatMap (fun b => b.txs)).Nodup := by
                have := h.nodup
                rw [h.blocks, List.flatMap_append, List.nodup_append] at this
                simpa [dummy] using this.2.1
              refine flat_of_mem hnd cleared X ((Y ++ [b]) ++ rest ++ lost) ?_ (List.mem_append_right _ hcX) ?_ hic hat.mem
              · rw [hsplit]; simp
              · exact List.mem_append_left _ ha'
          · rw [if_neg hx, L.locs]
            constructor
            · rintro ⟨a, ha', hat⟩
              refine ⟨a, ?_, hat⟩
              rw [ha, ← hcut] at ha'
              simp only [List.mem_append, List.mem_cons, List.mem_singleton] at ha' ⊢
              have hax : a ∉ X := fun hax => hx ⟨a, hax, hat.mem⟩
              simp only [List.not_mem_nil, or_false]
              tauto
            · rintro ⟨a, ha', hat⟩
              exact ⟨a, hmem a ha', hat⟩
        · intro a ham a0
          show a.ts + a.th ≤ (s.cache.takeWhile _).foldl State.raise s.maxTS
          rw [hcc, t1]
          rcases List.mem_append.mp ham with e | e
          · exact le_trans (L.maxTop a e a0) r1
          · exact r2 a e a0
        · show (s.cache.takeWhile _).foldl State.raise s.maxTS ≠ 0 → ∃ b ∈ _, _ ∧ (s.cache.takeWhile _).foldl State.raise s.maxTS = _ ∧ _
          rw [hcc, t1]
          intro hne
          rcases r3 with e | ⟨c, hcX, c0, e⟩
          · rw [e] at hne
            obtain ⟨c, q1, q2, q3, q4⟩ := L.maxOf hne
            exact ⟨c, List.mem_append_left _ q1, q2, e.trans q3, q4⟩
          · refine ⟨c, List.mem_append_right _ hcX, c0, e, b, ?_, hexp c hcX⟩
            -- the list of the initial transition is the first one, and `c` is not after `b`
            have hcn : c ∈ cleared ++ X := List.mem_append_right _ hcX
            cases hcl : cleared ++ X with
            | nil => rw [hcl] at hcn; cases hcn
            | cons z zs =>
              rw [hcl] at hsplit
              simp only [List.cons_append, List.cons.injEq] at hsplit
              rw [hsplit.2]; simp

theorem commit_inv (h : Split tsOf s th old new cleared cached act lost) {b : Blk I}
    (hf : Fits tsOf s.chain b) (hr : Regular s.chain b) (e : s.commit b = some s') : Inv tsOf s' := by
  unfold State.commit at e
  cases hp : s.pending with
  | some x => rw [hp] at e; cases e
  | none =>
    rw [hp] at e
    simp only [Option.isSome_none, Bool.false_eq_true, if_false] at e
    unfold State.commitList at e
    by_cases hd : s.dead = true
    · rw [if_pos hd] at e; cases e
    rw [if_neg hd] at e
    simp only [Option.map_some, Option.some.injEq] at e
    subst e
    have hd' : s.dead = false := by simpa using hd
    have L := h.live hd'
    have hl := h.no_lost hd'
    have hbl : s.blocks = s.chain := by simp [State.blocks, hp]
    have hfresh : ∀ a ∈ cleared ++ cached ++ act ++ lost, ∀ id ∈ a.txs, id ∉ b.toList.ids := by
      intro a ha id hi hib
      rw [mem_ids] at hib
      have := h.mem_blocks ha hi
      rw [hbl] at this
      exact hf.fresh id hib a this hi
    have hq : s.queue.map (State.blank b.toList.ids) = s.queue ∧
        s.cur.map (fun x => (State.blank b.toList.ids x.1, x.2)) = s.cur := by
      have hact : (act.map Blk.toList).map (State.blank b.toList.ids) = act.map Blk.toList :=
        blank_map (fun a ha => hfresh a (by simp [ha]))
      rw [← h.queue, List.map_append] at hact
      have hlen : ((s.cur.toList.map Prod.fst).map (State.blank b.toList.ids)).length =
          (s.cur.toList.map Prod.fst).length := by simp
      obtain ⟨q1, q2⟩ := List.append_inj hact hlen
      refine ⟨q2, ?_⟩
      cases hc : s.cur with
      | none => rfl
      | some x =>
        rw [hc] at q1
        simp only [Option.toList_some, List.map_cons, List.map_nil, List.cons.injEq, and_true] at q1
        simp only [Option.map_some, q1]
    have hcache : s.cache.map (State.blank b.toList.ids) = s.cache := by
      rw [L.cache]
      exact blank_map (fun a ha => hfresh a (by simp [ha]))
    have hnew : s.chain ++ (some b).toList = s.blocks ++ [b] := by
      simp [State.blocks, hp]
    refine ⟨th, old, new ++ [b], cleared, cached, act ++ [b], [], ?_, ?_, ⟨by simp, fun hx => absurd rfl hx⟩, ?_, h.db, ?_,
      fun _ => ⟨?_, ?_, L.maxTop, ?_, L.accepted⟩, ?_, ?_, ?_, ?_, h.safe, ?_, ?_⟩
    · change s.chain ++ (some b).toList = _
      rw [hnew, h.blocks]; simp
    · have := h.split
      rw [hl] at this
      rw [← List.cons_append, this]; simp
    · show (s.cur.map _).toList.map Prod.fst ++ (s.queue.map _ ++ [b.toList]) = _
      rw [hq.1, hq.2, ← List.append_assoc, h.queue]; simp
    · show ∀ b' k, s.cur.map _ = some (b', k) → _
      rw [hq.2]; exact h.cur
    · show s.cache.map _ = _
      rw [hcache, L.cache]
    · intro id loc
      show State.putAll s.locs b.toList id = some loc ↔ _
      by_cases hib : id ∈ b.txs
      · obtain ⟨l0, h0⟩ := exists_at hib
        rw [putAll_mem hf.nodup s.locs h0]
        constructor
        · intro e; cases e; exact ⟨b, by simp, h0⟩
        · rintro ⟨a, ha, hat⟩
          rcases List.mem_append.mp ha with ha | ha
          · exact absurd (mem_ids.mpr hib) (hfresh a (by simp [ha]) id hat.mem)
          · rcases List.mem_append.mp ha with ha | ha
            · exact absurd (mem_ids.mpr hib) (hfresh a (by simp [ha]) id hat.mem)
            · rw [List.mem_singleton] at ha
              subst ha
              rw [h0.inj hf.nodup hat]
      · rw [putAll_not s.locs hib, L.locs]
        constructor
        · rintro ⟨a, ha, hat⟩
          exact ⟨a, by simp only [List.mem_append] at ha ⊢; tauto, hat⟩
        · rintro ⟨a, ha, hat⟩
          refine ⟨a, ?_, hat⟩
          simp only [List.mem_append, List.mem_singleton] at ha ⊢
          rcases ha with e | e | e
          · exact Or.inl e
          · exact Or.inr e
          · subst e; exact absurd hat.mem hib
    · intro hne
      obtain ⟨c, q1, q2, q3, l, q4, q5⟩ := L.maxOf hne
      exact ⟨c, q1, q2, q3, l, List.mem_append_left _ q4, q5⟩
    · change ((s.chain ++ (some b).toList).flatMap _).Nodup
      rw [hnew, List.flatMap_append, List.nodup_append]
      refine ⟨h.nodup, by simpa using hf.nodup, ?_⟩
      intro x hx y hy e
      subst e
      obtain ⟨a, ha, hxa⟩ := List.mem_flatMap.mp hx
      simp only [List.flatMap_cons, List.flatMap_nil, List.append_nil] at hy
      exact hf.fresh x hy a (hbl ▸ ha) hxa
    · change ∀ x ∈ s.chain ++ (some b).toList, _
      rw [hnew]
      intro a ha
      rcases List.mem_append.mp ha with ha | ha
      · exact h.range a ha
      · rw [List.mem_singleton] at ha; subst ha; exact hf.range
    · change (s.chain ++ (some b).toList).Pairwise Before
      rw [hnew, List.pairwise_append]
      refine ⟨h.order, by simp, ?_⟩
      intro a ha y hy
      rw [List.mem_singleton] at hy; subst hy
      exact hr.2 a (hbl ▸ ha)
    · change ∀ x ∈ s.chain ++ (some b).toList, _
      rw [hnew]
      intro a ha
      rcases List.mem_append.mp ha with ha | ha
      · exact h.pos a ha
      · rw [List.mem_singleton] at ha; subst ha; exact hr.1
    · change ∀ x ∈ s.chain ++ (some b).toList, _
      rw [hnew]
      intro a ha
      rcases List.mem_append.mp ha with ha | ha
      · exact List.mem_cons_of_mem _ (h.tried.1 a ha)
      · rw [List.mem_singleton] at ha; subst ha; exact List.mem_cons_self
    · intro id hne
      obtain ⟨a, ha, hi⟩ := h.tried.2 id hne
      exact ⟨a, List.mem_cons_of_mem _ ha, hi⟩

theorem finish_inv (h : Split tsOf s th old new cleared cached act lost) (e : s.finish = some s') :
    Split tsOf s' th old new cleared cached act lost := by
  unfold State.finish at e
  cases hp : s.pending with
  | none => rw [hp] at e; cases e
  | some b =>
    rw [hp] at e
    simp only at e
    by_cases hq : s.queue = []
    swap
    · rw [if_neg hq] at e; cases e
    rw [if_pos hq, Option.some.injEq] at e
    subst e
    have hbl : State.blocks { s with chain := s.chain ++ [b], pending := none, accepted := [] } = s.blocks := by
      simp [State.blocks, hp]
    refine ⟨hbl.trans h.blocks, h.split, h.lost, h.queue, h.db, h.cur, fun hd => ?_,
      (by rw [hbl]; exact h.nodup), (by rw [hbl]; exact h.range), (by rw [hbl]; exact h.order),
      (by rw [hbl]; exact h.pos), ?_, (by rw [hbl]; exact h.tried.1), h.tried.2⟩
    · obtain ⟨a1, a2, a3, a4, a5⟩ := h.live hd
      exact ⟨a1, a2, a3, a4, fun _ hx => by cases hx⟩
    · show ∀ a ∈ (s.chain ++ [b]).dropLast, InDb s.db a
      rw [List.dropLast_concat]
      intro a ha
      -- at most one list is not written, and it is the last
      have hshort : (act ++ lost).length ≤ 1 := by
        by_cases hl : lost = []
        · have := congrArg List.length h.queue
          rw [hq] at this
          simp only [List.length_append, List.length_map, List.length_nil, Nat.add_zero] at this
          rw [hl, List.append_nil, ← this]
          cases s.cur <;> simp
        · rw [(h.lost.2 hl).2]; simpa using h.lost.1
      have hs : s.chain = s.blocks.dropLast := by
        simp [State.blocks, hp]
      rw [hs, h.blocks] at ha
      by_cases hn : new = []
      · rw [hn, List.append_nil] at ha
        exact h.db a (List.mem_append_left _ (List.mem_append_left _ (List.dropLast_subset _ ha)))
      · rw [List.dropLast_append_of_ne_nil hn, List.mem_append] at ha
        rcases ha with ha | ha
        · exact h.db a (by simp [ha])
        · have hcut : (dummy th :: new).dropLast = ((cleared ++ cached) ++ (act ++ lost)).dropLast := by
            rw [h.split]; simp
          have hmem : a ∈ (dummy th :: new).dropLast := by
            rw [List.dropLast_cons_of_ne_nil hn]; exact List.mem_cons_of_mem _ ha
          rw [hcut] at hmem
          have hx : a ∈ cleared ++ cached := by
            match hy : act ++ lost, hshort with
            | [], _ => rw [hy, List.append_nil] at hmem; exact List.dropLast_subset _ hmem
            | [y], _ => rw [hy, List.dropLast_concat] at hmem; exact hmem
          exact h.db a (by simp only [List.mem_append] at hx ⊢; tauto)

theorem restart_inv (th' : ℤ) (hnd : (s.chain.flatMap (fun b => b.txs)).Nodup)
    (hrange : ∀ b ∈ s.chain, ∀ id ∈ b.txs, b.ts - b.th < tsOf id ∧ tsOf id ≤ b.ts + b.th)
    (horder : s.chain.Pairwise Before) (hpos : ∀ b ∈ s.chain, 0 ≤ b.ts)
    (hsafe : ∀ b ∈ s.chain.dropLast, InDb s.db b)
    (htried : (∀ b ∈ s.chain, b ∈ s.tried) ∧ ∀ id, s.db id ≠ none → ∃ b ∈ s.tried, id ∈ b.txs)
    (e : s.restart th' = some s') : Inv tsOf s' := by
  unfold State.restart at e
  have e1 : (State.fresh s).commitList (State.initList th') = some { State.fresh s with
      queue := [(dummy th' : Blk I).toList] } := by
    simp [State.commitList, State.fresh, State.initList, State.putAll, dummy, Blk.toList]
  rw [e1, Option.bind_some] at e
  cases hl : s.chain.getLast? with
  | none =>
    rw [hl] at e
    simp only [Option.some.injEq] at e
    subst e
    have hc : s.chain = [] := List.getLast?_eq_none_iff.mp hl
    refine ⟨th', [], [], [], [], [dummy th'], [], ?_, rfl, ⟨by simp, fun hx => absurd rfl hx⟩, rfl, by simp, (fun _ _ hk => by cases hk),
      fun _ => ⟨rfl, ?_, by simp, fun hx => absurd rfl hx, fun _ hx => by cases hx⟩, ?_, ?_, ?_, ?_, hsafe, ?_, htried.2⟩
    · simp [State.blocks, State.fresh, hc]
    · intro id loc
      constructor
      · intro e; cases e
      · rintro ⟨a, ha, hat⟩
        simp only [List.nil_append, List.mem_singleton] at ha
        subst ha
        have := hat.mem
        simp [dummy] at this
    all_goals simp [State.blocks, State.fresh, hc]
  | some b =>
    rw [hl] at e
    have hbc : b ∈ s.chain := List.mem_of_getLast? hl
    have hcs : s.chain = s.chain.dropLast ++ [b] := by
      obtain ⟨ys, hys⟩ := List.getLast?_eq_some_iff.mp hl
      rw [hys]; simp
    have e2 : State.commitList { State.fresh s with queue := [(dummy th' : Blk I).toList] } b.toList =
        some { State.fresh s with
          locs := State.putAll (fun _ => none) b.toList
          queue := [(dummy th' : Blk I).toList, b.toList] } := by
      simp [State.commitList, State.fresh, State.blank, dummy, Blk.toList]
    simp only [e2, Option.some.injEq] at e
    subst e
    have hbl : State.blocks { State.fresh s with
          locs := State.putAll (fun _ => none) b.toList
          queue := [(dummy th' : Blk I).toList, b.toList] } = s.chain := by
      simp [State.blocks, State.fresh]
    refine ⟨th', s.chain.dropLast, [b], [], [], [dummy th', b], [], ?_, rfl, ⟨by simp, fun hx => absurd rfl hx⟩, rfl, ?_,
      (fun _ _ hk => by cases hk), fun _ => ⟨rfl, ?_, by simp, fun hx => absurd rfl hx, fun _ hx => by cases hx⟩,
      (by rw [hbl]; exact hnd), (by rw [hbl]; exact hrange), (by rw [hbl]; exact horder),
      (by rw [hbl]; exact hpos), hsafe, (by rw [hbl]; exact htried.1), htried.2⟩
    · rw [hbl]; exact hcs
    · simpa [State.fresh] using hsafe
    · intro id loc
      show State.putAll (fun _ => none) b.toList id = some loc ↔ _
      have hbn := nodup_of_mem hnd hbc
      by_cases hib : id ∈ b.txs
      · obtain ⟨l0, h0⟩ := exists_at hib
        rw [putAll_mem hbn _ h0]
        constructor
        · intro e; cases e; exact ⟨b, by simp, h0⟩
        · rintro ⟨a, ha, hat⟩
          simp only [List.nil_append, List.mem_cons, List.not_mem_nil, or_false] at ha
          rcases ha with rfl | rfl
          · have := hat.mem
            simp [dummy] at this
          · rw [h0.inj hbn hat]
      · rw [putAll_not _ hib]
        constructor
        · intro e; cases e
        · rintro ⟨a, ha, hat⟩
          simp only [List.nil_append, List.mem_cons, List.not_mem_nil, or_false] at ha
          rcases ha with rfl | rfl
          · have := hat.mem
            simp [dummy] at this
          · exact absurd hat.mem hib

theorem check_inv (h : Split tsOf s th old new cleared cached act lost) {b : Blk I} (hp : s.pending = none)
    (hr : Regular s.chain b) (hc : s.check tsOf b = true) :
    Split tsOf { s with accepted := b :: s.accepted } th old new cleared cached act lost := by
  refine ⟨h.blocks, h.split, h.lost, h.queue, h.db, h.cur, fun hd => ?_, h.nodup, h.range, h.order, h.pos, h.safe, h.tried⟩
  obtain ⟨a1, a2, a3, a4, a5⟩ := h.live hd
  refine ⟨a1, a2, a3, a4, fun x hx => ?_⟩
  rcases List.mem_cons.mp hx with rfl | hx
  · exact h.check_fits hd hp hr hc
  · exact a5 x hx

/-- All reachable states have the invariant. -/
theorem reach_inv (h : Reach tsOf Regular false s) : Inv tsOf s := by
  induction h with
  | init th s e =>
    exact restart_inv th (s := State.empty) (by simp [State.empty]) (by simp [State.empty])
      (by simp [State.empty]) (by simp [State.empty]) (by simp [State.empty]) (by simp [State.empty]) e
  | @step s s' ev _ hs ih =>
    obtain ⟨th, old, new, cleared, cached, act, lost, h⟩ := ih
    cases ev with
    | check b =>
      obtain ⟨h1, h2, h3, rfl⟩ := hs
      exact ⟨_, _, _, _, _, _, _, check_inv h h1 h2 h3⟩
    | commit b =>
      obtain ⟨h1, h2, h3⟩ := hs
      have hd : s.dead = false := by
        by_contra hne
        have hd : s.dead = true := by simpa using hne
        unfold State.commit State.commitList at h3
        rw [if_pos hd] at h3
        split_ifs at h3
        cases h3
      exact commit_inv h (h2.elim ((h.live hd).accepted b) id) h1 h3
    | finish => exact ⟨_, _, _, _, _, _, _, finish_inv h hs⟩
    | fetch => exact ⟨_, _, _, _, _, _, _, fetch_inv h hs⟩
    | write => exact ⟨_, _, _, _, _, _, _, write_inv h hs⟩
    | flushed => exact flushed_inv h hs
    | stop => cases hs; exact ⟨_, _, _, _, _, _, _, stop_inv h⟩
    | fail => exact fail_inv h (hs.1.resolve_left (by simp)) hs.2
    | restart th' =>
      have sub : ∀ b ∈ s.chain, b ∈ s.blocks := fun b hb => List.mem_append_left _ hb
      have hn := h.nodup
      have ho := h.order
      unfold State.blocks at hn ho
      rw [List.flatMap_append, List.nodup_append] at hn
      rw [List.pairwise_append] at ho
      exact restart_inv th' hn.1 (fun b hb => h.range b (sub b hb)) ho.1 (fun b hb => h.pos b (sub b hb)) h.safe
        ⟨fun b hb => h.tried.1 b (sub b hb), h.tried.2⟩ hs

end steps
end Verif.Locator
