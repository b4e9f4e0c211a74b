import Verif.VList.Proof

/-!
# The validator list: theorems

All histories are histories of API calls from nothing (`World.start db`), over a database that may hold lists
stored by earlier runs.
-/

namespace Verif.VList

/-- The memory after a history. -/
abbrev after (E : Env) (db : Bytes → Option Bytes) (ops : List Op) : World := (run E (World.start db) ops).1

/-- What a call would answer in a memory. -/
abbrev ask (E : Env) (w : World) (op : Op) : Out := (exec E w op).2

/-- What is assumed of a history. -/
structure Setting (E : Env) (db : Bytes → Option Bytes) (pdb : Bytes → Option (List Vd)) (ops : List Op) : Prop where
  good : E.Good
  stored : Stored E db pdb
  fine : ∀ op ∈ ops, op.Fine

/-- **Copy on write is not observable.** Every answer of every history is the answer plain lists would give. -/
theorem answers {E : Env} {db pdb ops} (hs : Setting E db pdb ops) :
    (run E (World.start db) ops).2 = (specRun E (Plain.start pdb) ops).2 :=
  (run_spec hs.good ops (start_rel hs.stored) hs.fine).1

theorem run_append (E : Env) (ops ops' : List Op) : ∀ w, (run E w (ops ++ ops')).1 = (run E (run E w ops).1 ops').1 := by
  induction ops with
  | nil => intro w; rfl
  | cons op ops ih => intro w; simp only [List.cons_append, run, ih]

theorem specRun_append (E : Env) (ops ops' : List Op) :
    ∀ p, (specRun E p (ops ++ ops')).1 = (specRun E (specRun E p ops).1 ops').1 := by
  induction ops with
  | nil => intro w; rfl
  | cons op ops ih => intro w; simp only [List.cons_append, specRun, ih]

/-- The plain values of a history. -/
theorem Setting.rel {E : Env} {db pdb ops} (hs : Setting E db pdb ops) :
    Rel E (after E db ops) (specRun E (Plain.start pdb) ops).1 :=
  (run_spec hs.good ops (start_rel hs.stored) hs.fine).2

theorem Setting.left {E : Env} {db pdb ops ops'} (hs : Setting E db pdb (ops ++ ops')) : Setting E db pdb ops :=
  ⟨hs.good, hs.stored, fun op ho => hs.fine op (by simp [ho])⟩

/-! ### Snapshots never change -/

/-- In the plain values a call never changes an existing snapshot. -/
theorem spec_snap_step {E : Env} {p : Plain} {k : Nat} {y : List Vd × Bool} (h : p.snaps[k]? = some y) (op : Op) :
    (specExec E p op).1.snaps[k]? = some y := by
  have hlt : k < p.snaps.length := (List.getElem?_eq_some_iff.1 h).1
  have happ : ∀ z, (p.snaps ++ [z])[k]? = some y := fun z => by rw [List.getElem?_append_left hlt]; exact h
  have hup : ∀ s x l, (p.update s x l).snaps[k]? = some y := by
    intro s x l; unfold Plain.update; split_ifs <;> exact h
  cases op with
  | fromSlice vl => exact happ _
  | fromHash hh =>
    simp only [specExec]
    by_cases h0 : hh = []
    · rw [if_pos h0]; exact happ _
    · rw [if_neg h0]
      cases p.db hh with
      | none => exact h
      | some l => exact happ _
  | stateFrom j =>
    simp only [specExec]
    cases p.snaps[j]? <;> exact h
  | st s o =>
    simp only [specExec]
    cases p.states[s]? with
    | none => exact h
    | some x =>
      cases o with
      | len => exact h
      | get i => exact h
      | indexOf a => exact h
      | set vl => simp only [specSt]; split_ifs <;> first | exact hup _ _ _ | exact h
      | add v => simp only [specSt]; split_ifs <;> first | exact hup _ _ _ | exact h
      | remove v => exact hup _ _ _
      | replace ov nv => simp only [specSt]; split_ifs <;> first | exact hup _ _ _ | exact h
      | setAt i v =>
        simp only [specSt]
        cases elementAt x.1 i with
        | none => exact h
        | some ov => dsimp only; split_ifs <;> first | exact hup _ _ _ | exact h
      | getSnapshot =>
        simp only [specSt]
        cases x.2 with
        | none => exact happ _
        | some j => exact h
      | reset j =>
        simp only [specSt]
        cases p.snaps[j]? <;> exact h
  | sn j o =>
    simp only [specExec]
    cases p.snaps[j]? with
    | none => exact h
    | some z =>
      cases o <;> simp only [specSn] <;> first | exact h | (split_ifs <;> exact h)

theorem spec_snap_run {E : Env} (ops : List Op) : ∀ {p : Plain} {k : Nat} {y : List Vd × Bool},
    p.snaps[k]? = some y → (specRun E p ops).1.snaps[k]? = some y := by
  induction ops with
  | nil => intro p k y h; exact h
  | cons op ops ih => intro p k y h; exact ih (spec_snap_step h op)

/-- **A snapshot never changes.** Whatever is called later, on whatever state or snapshot, every question to a
snapshot keeps its answer. -/
theorem snapshot_frozen {E : Env} {db pdb ops ops'} (hs : Setting E db pdb (ops ++ ops')) {k : Nat} {o : SnOp}
    (hmade : k < (after E db ops).snaps.length) :
    ask E (after E db (ops ++ ops')) (.sn k o) = ask E (after E db ops) (.sn k o) := by
  have h1 := hs.left.rel
  have h2 := hs.rel
  have hlt : k < (specRun E (Plain.start pdb) ops).1.snaps.length := by rw [← h1.snl]; exact hmade
  have hy := List.getElem?_eq_getElem hlt
  have hy2 := spec_snap_run (E := E) ops' hy
  rw [← specRun_append] at hy2
  unfold ask
  rw [(exec_spec hs.good h2 (.sn k o) trivial).1, (exec_spec hs.good h1 (.sn k o) trivial).1]
  simp only [specExec]
  rw [hy, hy2]
  cases o <;> simp only [specSn]
  split_ifs <;> rfl

/-! ### States do not disturb each other -/

/-- The calls that concern the state `s`: its own methods. -/
def Op.On (s : Nat) : Op → Prop
  | .st s' _ => s' = s
  | _ => False

theorem spec_state_step {E : Env} {p : Plain} {s : Nat} {x : List Vd × Option Nat} (h : p.states[s]? = some x)
    (op : Op) (hop : ¬ op.On s) : (specExec E p op).1.states[s]? = some x := by
  have hlt : s < p.states.length := (List.getElem?_eq_some_iff.1 h).1
  cases op with
  | fromSlice vl => exact h
  | fromHash hh =>
    simp only [specExec]
    by_cases h0 : hh = []
    · rw [if_pos h0]; exact h
    · rw [if_neg h0]
      cases p.db hh <;> exact h
  | stateFrom j =>
    simp only [specExec]
    cases p.snaps[j]? with
    | none => exact h
    | some y => dsimp only; rw [List.getElem?_append_left hlt]; exact h
  | st s' o =>
    have hne : s' ≠ s := hop
    have hset : ∀ z, (p.states.set s' z)[s]? = some x := fun z => by rw [List.getElem?_set_ne hne]; exact h
    have hup : ∀ x' l, (p.update s' x' l).states[s]? = some x := by
      intro x' l; unfold Plain.update; split_ifs
      · exact h
      · exact hset _
    simp only [specExec]
    cases p.states[s']? with
    | none => exact h
    | some x' =>
      cases o with
      | len => exact h
      | get i => exact h
      | indexOf a => exact h
      | set vl => simp only [specSt]; split_ifs <;> first | exact hup _ _ | exact h
      | add v => simp only [specSt]; split_ifs <;> first | exact hup _ _ | exact h
      | remove v => exact hup _ _
      | replace ov nv => simp only [specSt]; split_ifs <;> first | exact hup _ _ | exact h
      | setAt i v =>
        simp only [specSt]
        cases elementAt x'.1 i with
        | none => exact h
        | some ov => dsimp only; split_ifs <;> first | exact hup _ _ | exact h
      | getSnapshot =>
        simp only [specSt]
        cases x'.2 with
        | none => exact hset _
        | some j => exact h
      | reset j =>
        simp only [specSt]
        cases p.snaps[j]? with
        | none => exact h
        | some y => exact hset _
  | sn j o =>
    simp only [specExec]
    cases p.snaps[j]? with
    | none => exact h
    | some z =>
      cases o <;> simp only [specSn] <;> first | exact h | (split_ifs <;> exact h)

theorem spec_state_run {E : Env} (ops : List Op) : ∀ {p : Plain} {s : Nat} {x : List Vd × Option Nat},
    p.states[s]? = some x → (∀ op ∈ ops, ¬ op.On s) → (specRun E p ops).1.states[s]? = some x := by
  induction ops with
  | nil => intro p s x h _; exact h
  | cons op ops ih =>
    intro p s x h ho
    exact ih (spec_state_step h op (ho op (by simp))) (fun o h' => ho o (by simp [h']))

/-- **States do not disturb each other.** While no method of the state `s` itself is called, every question to it
(length, element, position) keeps its answer, whatever is done with other states, also those made from the same
snapshot, and with snapshots. -/
theorem states_apart {E : Env} {db pdb ops ops'} (hs : Setting E db pdb (ops ++ ops')) {s : Nat}
    (hmade : s < (after E db ops).states.length) (hother : ∀ op ∈ ops', ¬ op.On s) {o : StOp}
    (ho : o = .len ∨ (∃ i, o = .get i) ∨ (∃ a, o = .indexOf a)) :
    ask E (after E db (ops ++ ops')) (.st s o) = ask E (after E db ops) (.st s o) := by
  have h1 := hs.left.rel
  have h2 := hs.rel
  have hlt : s < (specRun E (Plain.start pdb) ops).1.states.length := by rw [← h1.stl]; exact hmade
  have hy := List.getElem?_eq_getElem hlt
  have hy2 := spec_state_run (E := E) ops' hy hother
  rw [← specRun_append] at hy2
  unfold ask
  rw [(exec_spec hs.good h2 (.st s o) trivial).1, (exec_spec hs.good h1 (.st s o) trivial).1]
  simp only [specExec]
  rw [hy, hy2]
  rcases ho with rfl | ⟨i, rfl⟩ | ⟨a, rfl⟩ <;> rfl

/-! ### A snapshot is what the state was -/

/-- `GetSnapshot` of a state answers with a snapshot that has the state's list: every question to both has the same
answer, then and (by `snapshot_frozen`) later. -/
theorem snapshot_is_state {E : Env} {db pdb ops} (hs : Setting E db pdb ops) {s k : Nat}
    (hk : ask E (after E db ops) (.st s .getSnapshot) = .ref k) :
    let w := (exec E (after E db ops) (.st s .getSnapshot)).1
    k < w.snaps.length ∧
    ask E w (.sn k .len) = ask E (after E db ops) (.st s .len) ∧
    (∀ i, ask E w (.sn k (.get i)) = ask E (after E db ops) (.st s (.get i))) ∧
    (∀ a, ask E w (.sn k (.indexOf a)) = ask E (after E db ops) (.st s (.indexOf a))) := by
  have h1 := hs.rel
  intro w
  obtain ⟨e1, h2⟩ := exec_spec hs.good h1 (.st s .getSnapshot) trivial
  unfold ask at hk
  rw [e1] at hk
  have hq : ∀ (q : StOp), ask E (after E db ops) (.st s q) =
      (specExec E (specRun E (Plain.start pdb) ops).1 (.st s q)).2 := fun q => (exec_spec hs.good h1 (.st s q) trivial).1
  have hq2 : ∀ (q : SnOp), ask E w (.sn k q) =
      (specExec E (specExec E (specRun E (Plain.start pdb) ops).1 (.st s .getSnapshot)).1 (.sn k q)).2 :=
    fun q => (exec_spec hs.good h2 (.sn k q) trivial).1
  have hwl : w.snaps.length = (specExec E (specRun E (Plain.start pdb) ops).1 (.st s .getSnapshot)).1.snaps.length :=
    h2.snl
  rw [hwl]
  simp only [hq, hq2]
  clear hq hq2 hwl h2 e1
  revert hk h1
  generalize (specRun E (Plain.start pdb) ops).1 = p
  intro hk h1
  simp only [specExec] at hk ⊢
  cases hx : p.states[s]? with
  | none => rw [hx] at hk; cases hk
  | some x =>
    rw [hx] at hk
    dsimp only at hk ⊢
    have hlt : s < (after E db ops).states.length := by rw [h1.stl]; exact (List.getElem?_eq_some_iff.1 hx).1
    obtain ⟨a, b, c, d⟩ := h1.st s _ x (List.getElem?_eq_getElem hlt) hx
    have hsn : ∃ y : List Vd × Bool, (specSt p s x .getSnapshot).1.snaps[k]? = some y ∧ y.1 = x.1 := by
      simp only [specSt] at hk ⊢
      cases hx2 : x.2 with
      | some j =>
        rw [hx2] at hk
        cases hk
        obtain ⟨sn, f1, f2⟩ := d k (by rw [c, hx2])
        have hlt2 : k < p.snaps.length := by rw [← h1.snl]; exact (List.getElem?_eq_some_iff.1 f1).1
        have hy := List.getElem?_eq_getElem hlt2
        refine ⟨_, hy, ?_⟩
        have g := (h1.sn k sn _ f1 hy).1
        rw [f2] at g
        rw [← g.vals, ← a.vals]
      | none =>
        rw [hx2] at hk
        cases hk
        exact ⟨(x.1, true), by simp, rfl⟩
    obtain ⟨y, g1, g2⟩ := hsn
    refine ⟨(List.getElem?_eq_some_iff.1 g1).1, ?_⟩
    rw [g1]
    simp only [specSn, specSt, g2]
    exact ⟨trivial, fun _ => trivial, fun _ => trivial⟩

/-! ### No duplicates, and positions -/

/-- What `Len`, `Get` and `IndexOf` say about one list fits together. -/
structure Coherent (len : Int) (get : Int → Option Vd) (index : Bytes → Int) : Prop where
  defined : ∀ i, (0 ≤ i ∧ i < len) ↔ (get i).isSome
  distinct : ∀ i j u v, get i = some u → get j = some v → u.addr = v.addr → i = j
  found : ∀ i u, get i = some u → index u.addr = i
  absent : ∀ a, index a = -1 ↔ ∀ i u, get i = some u → u.addr ≠ a

theorem coherent {l : List Vd} (hd : Distinct l) :
    Coherent l.length (fun i => elementAt l i) (fun a => position l a) := by
  have hel : ∀ i u, elementAt l i = some u → ∃ h : i.toNat < l.length, 0 ≤ i ∧ l[i.toNat] = u := by
    intro i u h
    unfold elementAt at h
    by_cases h0 : i < 0
    · rw [if_pos h0] at h; cases h
    · rw [if_neg h0] at h
      obtain ⟨h1, h2⟩ := List.getElem?_eq_some_iff.1 h
      exact ⟨h1, by omega, h2⟩
  refine ⟨?_, ?_, ?_, ?_⟩
  · intro i
    unfold elementAt
    by_cases h0 : i < 0
    · rw [if_pos h0]; simp; omega
    · rw [if_neg h0]
      by_cases h1 : i.toNat < l.length
      · simp [h1]; omega
      · rw [List.getElem?_eq_none (by omega)]; simp; omega
  · intro i j u v hu hv e
    obtain ⟨a1, a2, a3⟩ := hel i u hu
    obtain ⟨b1, b2, b3⟩ := hel j v hv
    have := hd.eq_of a1 b1 (by rw [a3, b3, e])
    omega
  · intro i u hu
    obtain ⟨a1, a2, a3⟩ := hel i u hu
    show position l u.addr = i
    rw [position_eq, (pos_some hd).2 ⟨a1, by rw [a3]⟩]
    show (i.toNat : Int) = i
    omega
  · intro a
    rw [position_eq]
    cases hp : pos l a with
    | none =>
      refine ⟨fun _ i u hu e => ?_, fun _ => rfl⟩
      obtain ⟨a1, a2, a3⟩ := hel i u hu
      exact (pos_none.1 hp) ⟨u, by rw [← a3]; exact List.getElem_mem _, e⟩
    | some i =>
      obtain ⟨h1, h2⟩ := (pos_some hd).1 hp
      constructor
      · intro h
        exact absurd h (by have := Int.natCast_nonneg i; dsimp only; omega)
      · intro h
        refine absurd h2 (h (i : Int) l[i] ?_)
        unfold elementAt
        rw [if_neg (by have := Int.natCast_nonneg i; omega)]
        simp [h1]

/-- **Lists never have duplicates, and the index is right.** For every state, at every moment: its `Len`, `Get` and
`IndexOf` describe one list in which no address occurs twice and `IndexOf` is the position, -1 for what is not there. -/
theorem state_coherent {E : Env} {db pdb ops} (hs : Setting E db pdb ops) {s : Nat}
    (hmade : s < (after E db ops).states.length) :
    ∃ len get index, ask E (after E db ops) (.st s .len) = .num len ∧
      (∀ i, ask E (after E db ops) (.st s (.get i)) = .val (get i)) ∧
      (∀ a, ask E (after E db ops) (.st s (.indexOf a)) = .num (index a)) ∧ Coherent len get index := by
  have h1 := hs.rel
  have hlt : s < (specRun E (Plain.start pdb) ops).1.states.length := by rw [← h1.stl]; exact hmade
  have hx := List.getElem?_eq_getElem hlt
  generalize (specRun E (Plain.start pdb) ops).1.states[s] = x at hx
  obtain ⟨_, hd, _⟩ := h1.st s _ x (List.getElem?_eq_getElem hmade) hx
  have hq : ∀ (q : StOp), ask E (after E db ops) (.st s q) =
      (specSt (specRun E (Plain.start pdb) ops).1 s x q).2 := by
    intro q
    have := (exec_spec hs.good h1 (.st s q) trivial).1
    simp only [specExec] at this
    rw [hx] at this
    exact this
  exact ⟨_, _, _, hq .len, fun i => hq (.get i), fun a => hq (.indexOf a), coherent hd⟩

/-- The same for every snapshot. -/
theorem snapshot_coherent {E : Env} {db pdb ops} (hs : Setting E db pdb ops) {k : Nat}
    (hmade : k < (after E db ops).snaps.length) :
    ∃ len get index, ask E (after E db ops) (.sn k .len) = .num len ∧
      (∀ i, ask E (after E db ops) (.sn k (.get i)) = .val (get i)) ∧
      (∀ a, ask E (after E db ops) (.sn k (.indexOf a)) = .num (index a)) ∧ Coherent len get index := by
  have h1 := hs.rel
  have hlt : k < (specRun E (Plain.start pdb) ops).1.snaps.length := by rw [← h1.snl]; exact hmade
  have hx := List.getElem?_eq_getElem hlt
  generalize (specRun E (Plain.start pdb) ops).1.snaps[k] = x at hx
  obtain ⟨_, hd, _⟩ := h1.sn k _ x (List.getElem?_eq_getElem hmade) hx
  have hq : ∀ (q : SnOp), ask E (after E db ops) (.sn k q) =
      (specSn E (specRun E (Plain.start pdb) ops).1 x q).2 := by
    intro q
    have := (exec_spec hs.good h1 (.sn k q) trivial).1
    simp only [specExec] at this
    rw [hx] at this
    exact this
  exact ⟨_, _, _, hq .len, fun i => hq (.get i), fun a => hq (.indexOf a), coherent hd⟩

/-! ### What is stored -/

theorem spec_db_step {E : Env} {p : Plain} {h : Bytes} {l : List Vd} (hdb : p.db h = some l) (op : Op) :
    ∃ l', (specExec E p op).1.db h = some l' ∧ (l' = l ∨ h = hashOf E l') := by
  have same : ∃ l', p.db h = some l' ∧ (l' = l ∨ h = hashOf E l') := ⟨l, hdb, Or.inl rfl⟩
  have hup : ∀ s x l0, ∃ l', (p.update s x l0).db h = some l' ∧ (l' = l ∨ h = hashOf E l') := by
    intro s x l0; unfold Plain.update; split_ifs <;> exact same
  cases op with
  | fromSlice vl => exact same
  | fromHash hh =>
    simp only [specExec]
    by_cases h0 : hh = []
    · rw [if_pos h0]; exact same
    · rw [if_neg h0]
      cases p.db hh <;> exact same
  | stateFrom j =>
    simp only [specExec]
    cases p.snaps[j]? <;> exact same
  | st s o =>
    simp only [specExec]
    cases p.states[s]? with
    | none => exact same
    | some x =>
      cases o with
      | len => exact same
      | get i => exact same
      | indexOf a => exact same
      | set vl => simp only [specSt]; split_ifs <;> first | exact hup _ _ _ | exact same
      | add v => simp only [specSt]; split_ifs <;> first | exact hup _ _ _ | exact same
      | remove v => exact hup _ _ _
      | replace ov nv => simp only [specSt]; split_ifs <;> first | exact hup _ _ _ | exact same
      | setAt i v =>
        simp only [specSt]
        cases elementAt x.1 i with
        | none => exact same
        | some ov => dsimp only; split_ifs <;> first | exact hup _ _ _ | exact same
      | getSnapshot =>
        simp only [specSt]
        cases x.2 <;> exact same
      | reset j =>
        simp only [specSt]
        cases p.snaps[j]? <;> exact same
  | sn j o =>
    simp only [specExec]
    cases p.snaps[j]? with
    | none => exact same
    | some z =>
      cases o with
      | flush =>
        simp only [specSn]
        by_cases hz : z.2 = true ∧ z.1 ≠ []
        · rw [if_pos hz]
          dsimp only
          by_cases e : h = hashOf E z.1
          · exact ⟨z.1, by rw [if_pos e], Or.inr e⟩
          · rw [if_neg e]; exact same
        · rw [if_neg hz]; exact same
      | _ => exact same

theorem spec_db_run {E : Env} (ops : List Op) : ∀ {p : Plain} {h : Bytes} {l : List Vd}, p.db h = some l →
    h = hashOf E l → ∃ l', (specRun E p ops).1.db h = some l' ∧ h = hashOf E l' := by
  induction ops with
  | nil => intro p h l hdb he; exact ⟨l, hdb, he⟩
  | cons op ops ih =>
    intro p h l hdb he
    obtain ⟨l', h1, h2⟩ := spec_db_step (E := E) hdb op
    refine ih h1 ?_
    rcases h2 with rfl | h2
    · exact he
    · exact h2

/-- **A flushed snapshot can be read back.** After a snapshot made here was flushed, at every later moment its hash
leads to a snapshot again; it has the same list, or else two different lists have the same hash. -/
theorem reload {E : Env} {db pdb ops ops'} (hs : Setting E db pdb (ops ++ .sn k .flush :: ops')) {h : Bytes}
    (hmade : k < (after E db ops).snaps.length)
    (hdirty : ∀ sn, (after E db ops).snaps[k]? = some sn → sn.dirty = true)
    (hh : ask E (after E db ops) (.sn k .hash) = .bytes h) :
    let w := after E db (ops ++ .sn k .flush :: ops')
    ∃ k', ask E w (.fromHash h) = .ref k' ∧
      ((∀ o : SnOp, ask E (exec E w (.fromHash h)).1 (.sn k' o) = ask E w (.sn k o)) ∨
        ∃ l l', l ≠ l' ∧ hashOf E l = hashOf E l') := by
  intro w
  have h1 := hs.left.rel
  have h2 := hs.rel
  have hlt : k < (specRun E (Plain.start pdb) ops).1.snaps.length := by rw [← h1.snl]; exact hmade
  have hy := List.getElem?_eq_getElem hlt
  generalize (specRun E (Plain.start pdb) ops).1.snaps[k] = y at hy
  have hsn := List.getElem?_eq_getElem hmade
  obtain ⟨_, hd, hdy, _⟩ := h1.sn k _ y hsn hy
  rw [hdirty _ hsn] at hdy
  have hyw := spec_snap_run (E := E) (.sn k .flush :: ops') hy
  rw [← specRun_append] at hyw
  -- the hash
  have hhash : h = hashOf E y.1 := by
    have := (exec_spec hs.good h1 (.sn k .hash) trivial).1
    unfold ask at hh
    rw [hh] at this
    simp only [specExec] at this
    rw [hy] at this
    simp only [specSn, Out.bytes.injEq] at this
    exact this
  obtain ⟨q1, q2⟩ := exec_spec hs.good h2 (.fromHash h) trivial
  have hq : ∀ k' o, ask E (exec E w (.fromHash h)).1 (.sn k' o) = _ :=
    fun k' o => (exec_spec hs.good q2 (.sn k' o) trivial).1
  have hq0 : ∀ o, ask E w (.sn k o) = _ := fun o => (exec_spec hs.good h2 (.sn k o) trivial).1
  have hans : ∀ (y' : List Vd × Bool) (p p' : Plain) (o : SnOp), y'.1 = y.1 →
      (specSn E p y' o).2 = (specSn E p' y o).2 := by
    intro y' p p' o e
    cases o <;> simp only [specSn, e]
    split_ifs <;> rfl
  refine ⟨w.snaps.length, ?_⟩
  by_cases hnil : y.1 = []
  · have h0 : h = [] := by rw [hhash, hashOf, if_pos hnil]
    have e1 : specExec E (specRun E (Plain.start pdb) (ops ++ .sn k .flush :: ops')).1 (.fromHash h) =
        ({ (specRun E (Plain.start pdb) (ops ++ .sn k .flush :: ops')).1 with
            snaps := (specRun E (Plain.start pdb) (ops ++ .sn k .flush :: ops')).1.snaps ++ [([], false)] },
          .ref (specRun E (Plain.start pdb) (ops ++ .sn k .flush :: ops')).1.snaps.length) := by
      simp only [specExec, h0, if_true]
    refine ⟨by unfold ask; rw [q1, e1, ← h2.snl], Or.inl fun o => ?_⟩
    rw [hq, hq0, e1, h2.snl]
    simp only [specExec]
    rw [hyw]
    simp only [List.getElem?_concat_length]
    exact hans _ _ _ o hnil.symm
  · have hne : h ≠ [] := by rw [hhash]; exact hashOf_ne hs.good hnil
    have hdb : (specRun E (Plain.start pdb) (ops ++ [.sn k .flush])).1.db h = some y.1 := by
      rw [specRun_append]
      simp only [specRun, specExec]
      rw [hy]
      simp only [specSn]
      rw [if_pos ⟨hdy.symm, hnil⟩]
      dsimp only
      rw [if_pos hhash]
    obtain ⟨l', d1, d2⟩ := spec_db_run (E := E) ops' hdb hhash
    rw [← specRun_append, List.append_assoc] at d1
    have e1 : specExec E (specRun E (Plain.start pdb) (ops ++ .sn k .flush :: ops')).1 (.fromHash h) =
        ({ (specRun E (Plain.start pdb) (ops ++ .sn k .flush :: ops')).1 with
            snaps := (specRun E (Plain.start pdb) (ops ++ .sn k .flush :: ops')).1.snaps ++ [(l', false)] },
          .ref (specRun E (Plain.start pdb) (ops ++ .sn k .flush :: ops')).1.snaps.length) := by
      simp only [specExec, hne, if_false]
      have : (specRun E (Plain.start pdb) (ops ++ .sn k .flush :: ops')).1.db h = some l' := d1
      rw [this]
    refine ⟨by unfold ask; rw [q1, e1, ← h2.snl], ?_⟩
    by_cases hl : l' = y.1
    · left
      intro o
      rw [hq, hq0, e1, h2.snl]
      simp only [specExec]
      rw [hyw]
      simp only [List.getElem?_concat_length]
      exact hans _ _ _ o hl
    · exact Or.inr ⟨l', y.1, hl, by rw [← d2, ← hhash]⟩

end Verif.VList
