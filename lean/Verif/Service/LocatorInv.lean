import Verif.Service.Locator

/-!
# Locator manager: the invariant

The blocks since the last restart are split into those dropped from the cache, those in the cache, and those
that the worker still has to write.
-/

namespace Verif.Locator

variable {I : Type} [DecidableEq I]

/-- The time ranges do not go back from `a` to `b`. -/
def Before (a b : Blk I) : Prop :=
  a.ts ≤ b.ts ∧ a.ts - a.th ≤ b.ts - b.th ∧ a.ts + a.th ≤ b.ts + b.th

/-- The list of the initial transition as a block. -/
def dummy (th : ℤ) : Blk I := ⟨0, 0, th, []⟩

/-- A block has id at an index. -/
def At (b : Blk I) (id : I) (loc : Loc) : Prop := b.txs[loc.index]? = some id ∧ loc.height = b.height

theorem At.mem {b : Blk I} {id loc} (h : At b id loc) : id ∈ b.txs := List.mem_of_getElem? h.1

theorem exists_at {b : Blk I} {id} (h : id ∈ b.txs) : ∃ loc, At b id loc := by
  obtain ⟨k, hk⟩ := List.mem_iff_getElem?.mp h
  exact ⟨⟨b.height, k⟩, hk, rfl⟩

theorem At.inj {b : Blk I} {id l l'} (hn : b.txs.Nodup) (h : At b id l) (h' : At b id l') : l = l' := by
  obtain ⟨a, b'⟩ := h
  obtain ⟨c, d⟩ := h'
  have hlt : l.index < b.txs.length := (List.getElem?_eq_some_iff.mp a).1
  have := (List.getElem?_inj hlt hn).mp (a.trans c.symm)
  cases l; cases l'; simp_all

theorem mem_items {b : Blk I} {x} : x ∈ b.toList.items ↔ ∃ id, x.1 = some id ∧ b.txs[x.2]? = some id := by
  unfold Blk.toList
  simp only [List.mem_map, Prod.exists, List.mem_zipIdx_iff_getElem?]
  constructor
  · rintro ⟨a, k, h, rfl⟩; exact ⟨a, rfl, h⟩
  · rintro ⟨id, h, h'⟩; exact ⟨id, x.2, h', by rw [← h]⟩

theorem getElem?_items (b : Blk I) (k : ℕ) :
    b.toList.items[k]? = (b.txs[k]?).map (fun id => (some id, k)) := by
  simp only [Blk.toList, List.getElem?_map, List.getElem?_zipIdx, Option.map_map]
  congr 1
  funext x
  simp

theorem length_items (b : Blk I) : b.toList.items.length = b.txs.length := by simp [Blk.toList]

theorem mem_ids {b : Blk I} {id} : id ∈ b.toList.ids ↔ id ∈ b.txs := by
  simp only [TxList.ids, List.mem_filterMap, mem_items]
  constructor
  · rintro ⟨x, ⟨id', h1, h2⟩, h3⟩
    rw [h1, Option.some.injEq] at h3
    subst h3
    exact List.mem_of_getElem? h2
  · intro h
    obtain ⟨k, hk⟩ := List.mem_iff_getElem?.mp h
    exact ⟨(some id, k), ⟨id, rfl, hk⟩, rfl⟩

theorem putAll_aux (h : ℤ) (its : List (Option I × ℕ)) (m : I → Option Loc) (id : I)
    (hu : ∀ x ∈ its, ∀ y ∈ its, x.1 = some id → y.1 = some id → x = y) :
    (∀ k, (some id, k) ∈ its → its.foldl (State.putItem h) m id = some ⟨h, k⟩) ∧
    ((∀ k, (some id, k) ∉ its) → its.foldl (State.putItem h) m id = m id) := by
  induction its generalizing m with
  | nil => simp
  | cons x its ih =>
    obtain ⟨ih1, ih2⟩ := ih (State.putItem h m x) (fun a ha b hb => hu a (List.mem_cons_of_mem _ ha) b (List.mem_cons_of_mem _ hb))
    simp only [List.foldl_cons]
    constructor
    · intro k hk
      by_cases hin : ∃ k', (some id, k') ∈ its
      · obtain ⟨k', hk'⟩ := hin
        have := hu _ hk _ (List.mem_cons_of_mem _ hk') rfl rfl
        have hkk : k = k' := congrArg Prod.snd this
        subst hkk
        exact ih1 k hk'
      · push Not at hin
        rw [ih2 hin]
        rcases List.mem_cons.mp hk with e | e
        · rw [← e]; simp [State.putItem]
        · exact absurd e (hin k)
    · intro hno
      rw [ih2 (fun k hk => hno k (List.mem_cons_of_mem _ hk))]
      obtain ⟨o, k⟩ := x
      cases o with
      | none => rfl
      | some j =>
        have : id ≠ j := by
          rintro rfl; exact hno k List.mem_cons_self
        simp [State.putItem, Function.update_of_ne this]

theorem putAll_mem {b : Blk I} (hn : b.txs.Nodup) (m : I → Option Loc) {id loc} (h : At b id loc) :
    State.putAll m b.toList id = some loc := by
  have := (putAll_aux b.height b.toList.items m id (by
    intro x hx y hy e1 e2
    obtain ⟨i, a1, a2⟩ := mem_items.mp hx
    obtain ⟨j, b1, b2⟩ := mem_items.mp hy
    rw [e1, Option.some.injEq] at a1
    rw [e2, Option.some.injEq] at b1
    subst a1; subst b1
    have hlt : x.2 < b.txs.length := (List.getElem?_eq_some_iff.mp a2).1
    have := (List.getElem?_inj hlt hn).mp (a2.trans b2.symm)
    exact Prod.ext (e1.trans e2.symm) this)).1 loc.index (mem_items.mpr ⟨id, rfl, h.1⟩)
  unfold State.putAll
  rw [show b.toList.height = b.height from rfl, this]
  cases loc; simp [← h.2]

theorem putAll_not {b : Blk I} (m : I → Option Loc) {id} (h : id ∉ b.txs) :
    State.putAll m b.toList id = m id := by
  have hno : ∀ k, (some id, k) ∉ b.toList.items := by
    intro k hk
    obtain ⟨i, a1, a2⟩ := mem_items.mp hk
    rw [Option.some.injEq] at a1
    subst a1
    exact h (List.mem_of_getElem? a2)
  have := (putAll_aux b.height b.toList.items m id (by
    intro x hx y hy e1 e2
    exact absurd (show (some id, x.2) ∈ _ by rw [← e1]; exact hx) (hno _))).2 hno
  exact this

theorem blank_self {b : Blk I} {new : List I} (h : ∀ id ∈ b.txs, id ∉ new) :
    State.blank new b.toList = b.toList := by
  unfold State.blank
  have : b.toList.items.map (State.blankItem new) = b.toList.items := by
    conv_rhs => rw [← List.map_id b.toList.items]
    apply List.map_congr_left
    intro x hx
    obtain ⟨i, a1, a2⟩ := mem_items.mp hx
    obtain ⟨o, k⟩ := x
    dsimp only at a1 a2
    subst a1
    simp [State.blankItem, h i (List.mem_of_getElem? a2)]
  rw [this]

theorem blank_map {bs : List (Blk I)} {new : List I} (h : ∀ b ∈ bs, ∀ id ∈ b.txs, id ∉ new) :
    (bs.map Blk.toList).map (State.blank new) = bs.map Blk.toList := by
  rw [List.map_map]
  exact List.map_congr_left (fun b hb => blank_self (h b hb))

theorem dropAll_fold (bs : List (Blk I)) (m : I → Option Loc) (id : I) :
    (bs.map Blk.toList).foldl State.dropAll m id = if ∃ b ∈ bs, id ∈ b.txs then none else m id := by
  induction bs generalizing m with
  | nil => simp
  | cons b bs ih =>
    simp only [List.map_cons, List.foldl_cons, ih]
    by_cases h1 : ∃ x ∈ bs, id ∈ x.txs
    · have h2 : ∃ x ∈ b :: bs, id ∈ x.txs := by
        obtain ⟨x, hx, h⟩ := h1; exact ⟨x, List.mem_cons_of_mem _ hx, h⟩
      rw [if_pos h1, if_pos h2]
    · rw [if_neg h1]
      unfold State.dropAll
      simp only [mem_ids]
      by_cases h3 : id ∈ b.txs
      · rw [if_pos h3, if_pos ⟨b, List.mem_cons_self, h3⟩]
      · rw [if_neg h3, if_neg]
        rintro ⟨x, hx, h⟩
        rcases List.mem_cons.mp hx with rfl | e
        · exact h3 h
        · exact h1 ⟨x, e, h⟩

theorem raise_fold (bs : List (Blk I)) (m : ℤ) :
    m ≤ (bs.map Blk.toList).foldl State.raise m ∧
    (∀ b ∈ bs, b.ts ≠ 0 → b.ts + b.th ≤ (bs.map Blk.toList).foldl State.raise m) ∧
    ((bs.map Blk.toList).foldl State.raise m = m ∨
      ∃ b ∈ bs, b.ts ≠ 0 ∧ (bs.map Blk.toList).foldl State.raise m = b.ts + b.th) := by
  induction bs generalizing m with
  | nil => simp
  | cons b bs ih =>
    simp only [List.map_cons, List.foldl_cons]
    obtain ⟨i1, i2, i3⟩ := ih (State.raise m b.toList)
    have e : State.raise m b.toList = if b.ts ≠ 0 ∧ m < b.ts + b.th then b.ts + b.th else m := rfl
    refine ⟨?_, ?_, ?_⟩
    · refine le_trans ?_ i1
      rw [e]; split_ifs with h
      · exact le_of_lt h.2
      · exact le_refl _
    · intro x hx h0
      rcases List.mem_cons.mp hx with rfl | hx
      · refine le_trans ?_ i1
        rw [e]; split_ifs with h
        · exact le_refl _
        · push Not at h; exact h h0
      · exact i2 x hx h0
    · rcases i3 with h | ⟨x, hx, h0, h⟩
      · rw [h, e]
        split_ifs with h'
        · exact Or.inr ⟨b, List.mem_cons_self, h'.1, rfl⟩
        · exact Or.inl rfl
      · exact Or.inr ⟨x, List.mem_cons_of_mem _ hx, h0, h⟩

theorem pairwise_tri {α : Type} {R : α → α → Prop} {l : List α} (h : l.Pairwise R) {a b : α} (ha : a ∈ l)
    (hb : b ∈ l) : a = b ∨ R a b ∨ R b a := by
  induction l with
  | nil => cases ha
  | cons c l ih =>
    obtain ⟨h1, h2⟩ := List.pairwise_cons.mp h
    rcases List.mem_cons.mp ha with e | ha' <;> rcases List.mem_cons.mp hb with e' | hb'
    · exact Or.inl (e.trans e'.symm)
    · exact Or.inr (Or.inl (e ▸ h1 _ hb'))
    · exact Or.inr (Or.inr (e' ▸ h1 _ ha'))
    · exact ih h2 ha' hb'

/-- The blocks known to the manager. -/
def State.blocks (s : State I) : List (Blk I) := s.chain ++ s.pending.toList

/-- Each transaction of `b` is in the database, at its place. -/
def InDb (db : I → Option Loc) (b : Blk I) : Prop := ∀ id loc, At b id loc → db id = some loc

/-- The parts of the invariant that only hold while the manager runs. -/
structure Live (tsOf : I → ℤ) (s : State I) (new cleared cached act : List (Blk I)) : Prop where
  cache : s.cache = cached.map Blk.toList
  locs : ∀ id loc, s.locs id = some loc ↔ ∃ b ∈ cached ++ act, At b id loc
  maxTop : ∀ b ∈ cleared, b.ts ≠ 0 → b.ts + b.th ≤ s.maxTS
  maxOf : s.maxTS ≠ 0 → ∃ b ∈ cleared, b.ts ≠ 0 ∧ s.maxTS = b.ts + b.th ∧
    ∃ l ∈ new, b.ts + b.th ≤ l.ts - l.th
  accepted : ∀ b ∈ s.accepted, Fits tsOf s.chain b

/-- The invariant. -/
structure Split (tsOf : I → ℤ) (s : State I) (th : ℤ) (old new cleared cached act lost : List (Blk I)) :
    Prop where
  blocks : s.blocks = old ++ new
  split : dummy th :: new = cleared ++ cached ++ act ++ lost
  lost : lost.length ≤ 1 ∧ (lost ≠ [] → s.dead = true ∧ act = [])
  queue : s.cur.toList.map Prod.fst ++ s.queue = act.map Blk.toList
  db : ∀ b ∈ old ++ cleared ++ cached, InDb s.db b
  cur : ∀ b k, s.cur = some (b, k) → ∀ j id, j < k → b.items[j]? = some (some id, j) →
    s.db id = some ⟨b.height, j⟩
  live : s.dead = false → Live tsOf s new cleared cached act
  nodup : (s.blocks.flatMap (fun b => b.txs)).Nodup
  range : ∀ b ∈ s.blocks, ∀ id ∈ b.txs, b.ts - b.th < tsOf id ∧ tsOf id ≤ b.ts + b.th
  order : s.blocks.Pairwise Before
  pos : ∀ b ∈ s.blocks, 0 ≤ b.ts
  safe : ∀ b ∈ s.chain.dropLast, InDb s.db b
  tried : (∀ b ∈ s.blocks, b ∈ s.tried) ∧ ∀ id, s.db id ≠ none → ∃ b ∈ s.tried, id ∈ b.txs

end Verif.Locator
