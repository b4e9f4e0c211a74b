import Verif.Caches.Lru

/-!
# The cache of block part messages

Models `consensus/bpmcache.go` and `BlockPartMessage.Cost` (message.go:247-249).

Simplifications: a hash is a number; decoding a part (to the list of the nodes of its proof) and hashing are functions that are
given; the height and the index in a message are numbers.
-/

namespace Verif.Caches

/-- A `BlockPartMessage` (message.go:222-227): the height, the part and the index. -/
structure PartMsg where
  height : Nat
  part : List Nat
  index : Nat

/-- `BlockPartMessage.Cost` (message.go:245-249); `header`: the size of the structure. -/
def PartMsg.cost (header : Nat) (m : PartMsg) : Nat := header + m.part.length

/-- `bpmCache.Put` (bpmcache.go:40-50): `parse` gives the proof of a part. The second: no error; none: a panic. -/
def bpmPut (parse : List Nat → Option (List (List Nat))) (hash : List Nat → Nat) (header : Nat) (c : Lru (Nat × Nat) PartMsg)
    (m : PartMsg) : Option (Lru (Nat × Nat) PartMsg × Bool) :=
  match parse m.part with
  | none => some (c, false)
  | some [] => none
  | some (root :: _) =>
    match c.put (PartMsg.cost header) (hash root, m.index) m with
    | none => none
    | some c' => some (c', true)

/-- `bpmCache.Get` (bpmcache.go:52-55). -/
def bpmGet (c : Lru (Nat × Nat) PartMsg) (h idx : Nat) : Lru (Nat × Nat) PartMsg × Option PartMsg := c.get (h, idx)

/-- A cache and the messages that were put (the last one first). -/
inductive BpmRun (parse : List Nat → Option (List (List Nat))) (hash : List Nat → Nat) (header cap : Nat) :
    Lru (Nat × Nat) PartMsg → List PartMsg → Prop
  | new : BpmRun parse hash header cap (.new cap) []
  | put {c c' : Lru (Nat × Nat) PartMsg} {ms : List PartMsg} {m : PartMsg} {b : Bool} : BpmRun parse hash header cap c ms →
      bpmPut parse hash header c m = some (c', b) → BpmRun parse hash header cap c' (m :: ms)
  | get {c : Lru (Nat × Nat) PartMsg} {ms : List PartMsg} (h idx : Nat) : BpmRun parse hash header cap c ms →
      BpmRun parse hash header cap (bpmGet c h idx).1 ms

/-- A message is of this root and index. -/
def PartMsg.isOf (parse : List Nat → Option (List (List Nat))) (hash : List Nat → Nat) (m : PartMsg) (h idx : Nat) : Prop :=
  m.index = idx ∧ ∃ root rest, parse m.part = some (root :: rest) ∧ hash root = h

variable {parse : List Nat → Option (List (List Nat))} {hash : List Nat → Nat} {header cap : Nat}

theorem BpmRun.lru {c : Lru (Nat × Nat) PartMsg} {ms : List PartMsg} (r : BpmRun parse hash header cap c ms) :
    ∃ us, LruRun (PartMsg.cost header) cap c us ∧ (∀ u ∈ us, u.2 ∈ ms ∧ u.2.isOf parse hash u.1.1 u.1.2) ∧
      ∀ m h i, us.find? (fun x => decide (x.1 = (h, i))) = some ((h, i), m) →
        ∃ a b, ms = a ++ m :: b ∧ ∀ x ∈ a, x.isOf parse hash h i → cap < x.cost header := by
  induction r with
  | new => exact ⟨[], .new, by simp, by simp⟩
  | @put c c' ms m b _ hp ih =>
    obtain ⟨us, r, hu, hl⟩ := ih
    unfold bpmPut at hp
    cases hq : parse m.part with
    | none =>
      simp only [hq] at hp
      rw [Option.some.injEq, Prod.mk.injEq] at hp
      rw [← hp.1]
      refine ⟨us, r, fun u h => ⟨List.mem_cons_of_mem _ (hu u h).1, (hu u h).2⟩, ?_⟩
      intro x h i hx
      obtain ⟨a, b, e, ha⟩ := hl x h i hx
      refine ⟨m :: a, b, by rw [e]; rfl, ?_⟩
      intro y hy hyo
      rcases List.mem_cons.1 hy with rfl | hy
      · obtain ⟨-, root, rest, he, -⟩ := hyo
        rw [hq] at he
        cases he
      · exact ha y hy hyo
    | some pf =>
      cases pf with
      | nil => simp only [hq] at hp; cases hp
      | cons root rest =>
        simp only [hq] at hp
        cases hc : c.put (PartMsg.cost header) (hash root, m.index) m with
        | none => simp only [hc] at hp; cases hp
        | some c2 =>
          simp only [hc] at hp
          rw [Option.some.injEq, Prod.mk.injEq] at hp
          rw [← hp.1]
          have hof : m.isOf parse hash (hash root) m.index := ⟨rfl, root, rest, hq, rfl⟩
          refine ⟨_, r.put hc, ?_, ?_⟩
          · split_ifs
            · intro u h
              rcases List.mem_cons.1 h with rfl | h
              · exact ⟨List.mem_cons_self, hof⟩
              · exact ⟨List.mem_cons_of_mem _ (hu u h).1, (hu u h).2⟩
            · exact fun u h => ⟨List.mem_cons_of_mem _ (hu u h).1, (hu u h).2⟩
          · intro x h i hx
            split_ifs at hx with hcost
            · rw [List.find?_cons] at hx
              by_cases hk : (hash root, m.index) = (h, i)
              · simp only [hk, decide_true, Option.some.injEq, Prod.mk.injEq] at hx
                exact ⟨[], ms, by rw [hx.2]; rfl, by simp⟩
              · simp only [hk, decide_false] at hx
                obtain ⟨a, b, e, ha⟩ := hl x h i hx
                refine ⟨m :: a, b, by rw [e]; rfl, ?_⟩
                intro y hy hyo
                rcases List.mem_cons.1 hy with rfl | hy
                · obtain ⟨hi, root', rest', he, hh⟩ := hyo
                  rw [hq, Option.some.injEq, List.cons.injEq] at he
                  exact absurd (by rw [he.1, hh, hi]) hk
                · exact ha y hy hyo
            · obtain ⟨a, b, e, ha⟩ := hl x h i hx
              refine ⟨m :: a, b, by rw [e]; rfl, ?_⟩
              intro y hy hyo
              rcases List.mem_cons.1 hy with rfl | hy
              · omega
              · exact ha y hy hyo
  | @get c ms h idx _ ih =>
    obtain ⟨us, r, hu, hl⟩ := ih
    have r2 := r.get (k := (h, idx))
    cases hg : (c.get (h, idx)).2 with
    | none =>
      simp only [hg] at r2
      exact ⟨us, r2, hu, hl⟩
    | some v =>
      simp only [hg] at r2
      have hv := lru_last r _ _ hg
      refine ⟨_, r2, ?_, ?_⟩
      · intro u hm
        rcases List.mem_cons.1 hm with rfl | hm
        · exact hu _ (List.mem_of_find?_eq_some hv)
        · exact hu u hm
      · intro x h' i' hx
        rw [List.find?_cons] at hx
        by_cases hk : (h, idx) = (h', i')
        · simp only [hk, decide_true, Option.some.injEq, Prod.mk.injEq, true_and] at hx
          rw [← hx]
          rw [hk] at hv
          exact hl v h' i' hv
        · simp only [hk, decide_false] at hx
          exact hl x h' i' hx

/-- What is got for a root and an index is a message that was put, of that root and index, and the last one that fits. -/
theorem bpm_get {c : Lru (Nat × Nat) PartMsg} {ms : List PartMsg} (r : BpmRun parse hash header cap c ms) {h idx : Nat} {m : PartMsg}
    (hg : (bpmGet c h idx).2 = some m) : m.index = idx ∧ (∃ root rest, parse m.part = some (root :: rest) ∧ hash root = h) ∧
      ∃ a b, ms = a ++ m :: b ∧ ∀ x ∈ a, x.index = idx → (∃ root rest, parse x.part = some (root :: rest) ∧ hash root = h) →
        cap < header + x.part.length := by
  obtain ⟨us, r, hu, hl⟩ := r.lru
  have hv := lru_last r _ _ hg
  have h1 := (hu _ (List.mem_of_find?_eq_some hv)).2
  obtain ⟨a, b, e, ha⟩ := hl m h idx hv
  exact ⟨h1.1, h1.2, a, b, e, fun x hx h2 h3 => ha x hx ⟨h2, h3⟩⟩

/-- A message with a part that has a proof is there after it is put, if it fits at all. -/
theorem bpm_put {c : Lru (Nat × Nat) PartMsg} {ms : List PartMsg} (r : BpmRun parse hash header cap c ms) (m : PartMsg)
    {root : List Nat} {rest : List (List Nat)} (hp : parse m.part = some (root :: rest)) :
    ∃ c', bpmPut parse hash header c m = some (c', true) ∧
      (header + m.part.length ≤ cap → (bpmGet c' (hash root) m.index).2 = some m) := by
  obtain ⟨us, r, -, -⟩ := r.lru
  obtain ⟨⟨c', e, h⟩, -⟩ := lru_total r (hash root, m.index) m
  refine ⟨c', ?_, h⟩
  unfold bpmPut
  simp only [hp, e]

/-- Put panics exactly for a part that decodes and has an empty proof (which `Verify` of a message does not check). -/
theorem bpm_panic {c : Lru (Nat × Nat) PartMsg} {ms : List PartMsg} (r : BpmRun parse hash header cap c ms) (m : PartMsg) :
    bpmPut parse hash header c m = none ↔ parse m.part = some [] := by
  constructor
  · intro h
    cases hp : parse m.part with
    | none => unfold bpmPut at h; simp only [hp] at h; cases h
    | some pf =>
      cases pf with
      | nil => rfl
      | cons root rest =>
        obtain ⟨c', e, -⟩ := bpm_put r m hp
        rw [e] at h
        cases h
  · intro hp
    unfold bpmPut
    simp only [hp]

/-- There are such runs, and a message with which the next put panics: parts are `[root, index]`, or nothing. -/
example : let parse : List Nat → Option (List (List Nat)) := fun b => match b with | [] => some [] | [x] => some [[x]] | _ => none
    ∃ c, BpmRun parse List.sum 5 20 c [⟨3, [7], 1⟩] ∧ ((bpmGet c 7 1).2.map PartMsg.height = some 3) ∧
      bpmPut parse List.sum 5 c ⟨3, [], 0⟩ = none := by
  intro parse
  have r : BpmRun parse List.sum 5 20 _ _ := .put (m := ⟨3, [7], 1⟩) .new rfl
  exact ⟨_, r, by decide +kernel, rfl⟩

end Verif.Caches
