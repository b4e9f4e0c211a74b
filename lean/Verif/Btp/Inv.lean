import Verif.Btp.Hist

/-!
# BTP networks (C73): the invariant between blocks
-/

namespace Verif.Btp

open Verif

/-- Between blocks. -/
structure Inv (E : Env) (c : Chain) : Prop where
  good : Good E c.s
  ctx : ∀ k nt, c.s.nts k = some nt → (nt.opened = [] ↔ nt.ctx = none)
  map : ∀ k, c.map k = ((c.s.nts k).bind NT.ctx).map some
  client : ∀ n nw nt, c.s.nws n = some nw → nw.isOpen = true → c.s.nts nw.ntid = some nt → follow (entriesOf c.sections n) = some nt.ctx
  linked : ∀ n, Linked E (entriesOf c.sections n)
  last : ∀ n, last0 c.s n = ((entriesOf c.sections n).getLast?).map (hashOf E)
  messages : ∀ n, messagesIn (entriesOf c.sections n) = (sentTo c.sent n).map fun m => m.2.2
  sn : ∀ n, sn0 c.s n = (sentTo c.sent n).length
  sns : ∀ n, (sentTo c.sent n).map (fun m => m.2.1) = List.range' 0 (sentTo c.sent n).length

theorem begin_mid {E : Env} {c : Chain} (h : Good E c.s) (hc : ∀ k nt, c.s.nts k = some nt → (nt.opened = [] ↔ nt.ctx = none)) (ht : ℕ) : Mid E c.s (begin_ c ht) := by
  unfold begin_
  refine ⟨h, ?_, ?_, ?_, ?_, ?_, ?_, ?_, ?_, ?_, ?_, ?_, ?_, ?_⟩ <;> dsimp only
  · exact fun k nt0 q => ⟨nt0, q, rfl, rfl⟩
  · intro k nt q1 q2; rw [q1] at q2; cases q2
  · intro k q; cases q
  · intro k nt q1 q2 _; exact ⟨⟨nt, q1, q2⟩, fun _ _ _ _ => rfl⟩
  · intro k q; cases q
  · intro k nt nt0 q1 q2 q3 q4; rw [q1] at q3; cases q3; exact absurd q4 q2
  · intro n nw q1 q2; rw [q1] at q2; cases q2
  · exact fun n nw0 q => ⟨nw0, q, rfl, fun q => q⟩
  · intro n nw q; unfold last0; rw [q]; rfl
  · intro n nw q; unfold sn0 sentTo; rw [q]; rfl
  · intro n q; cases q
  · intro m q; cases q
  · intro n; rfl

theorem genesis_inv (E : Env) (vs : List Addr) : Inv E (genesis vs) := by
  refine ⟨⟨?_, ?_, ?_, ?_, ?_, ?_, ?_, ?_, ?_⟩, ?_, ?_, ?_, ?_, ?_, ?_, ?_, ?_⟩ <;> unfold genesis <;> dsimp only
  · intro k nt q; cases q
  · intro k nt q; cases q
  · intro n q1 q2; omega
  · intro k nt q; cases q
  · intro uid q; exact absurd rfl q
  · intro k; simp
  · intro k nt q; cases q
  · intro k nt q; cases q
  · intro k nt q; cases q
  · intro k nt q; cases q
  · intro k; rfl
  · intro n nw nt q; cases q
  · intro n i e q; cases q
  · intro n; rfl
  · intro n; rfl
  · intro n; rfl
  · intro n; rfl

section
variable {E : Env} {s0 : Store} {w w' : World} {sec : Section}

theorem Done.ntOf (h : Done E w w' sec) {k : ℕ} {nt : NT} (hk : w.s.nts k = some nt) :
    w'.s.nts k = some (if dirty w k = true then renew E w.s.keys w.validators nt else nt) := by
  rw [h.nts, hk]; rfl

theorem Done.ntFrom (h : Done E w w' sec) {k : ℕ} {nt' : NT} (hk : w'.s.nts k = some nt') :
    ∃ nt, w.s.nts k = some nt ∧ nt' = (if dirty w k = true then renew E w.s.keys w.validators nt else nt) ∧ nt'.uid = nt.uid ∧ nt'.opened = nt.opened := by
  rw [h.nts] at hk
  cases hn : w.s.nts k with
  | none => rw [hn] at hk; cases hk
  | some nt =>
    rw [hn, Option.map_some, Option.some.injEq] at hk
    refine ⟨nt, rfl, hk.symm, ?_, ?_⟩ <;> rw [← hk] <;> split_ifs <;> rfl

theorem Done.nwOf (h : Done E w w' sec) {n : ℕ} {nw : NW} (hn : w.s.nws n = some nw) :
    ∃ nw', w'.s.nws n = some nw' ∧ nw'.ntid = nw.ntid ∧ nw'.isOpen = nw.isOpen ∧ nw'.sn = nw.sn := by
  rw [h.nws, hn]
  refine ⟨_, rfl, ?_, ?_, ?_⟩ <;> split_ifs <;> rfl

theorem Done.nwFrom (h : Done E w w' sec) {n : ℕ} {nw' : NW} (hn : w'.s.nws n = some nw') :
    ∃ nw, w.s.nws n = some nw ∧ nw'.ntid = nw.ntid ∧ nw'.isOpen = nw.isOpen ∧ nw'.sn = nw.sn := by
  rw [h.nws] at hn
  cases hx : w.s.nws n with
  | none => rw [hx] at hn; cases hn
  | some nw =>
    rw [hx, Option.map_some, Option.some.injEq] at hn
    refine ⟨nw, rfl, ?_, ?_, ?_⟩ <;> rw [← hn] <;> split_ifs <;> rfl

theorem Done.good (h : Done E w w' sec) (g : Good E w.s) : Good E w'.s := by
  obtain ⟨nts2, nws2, e⟩ := h.rest
  have eCount : w'.s.ntCount = w.s.ntCount := by rw [e]
  have eId : w'.s.ntIdOf = w.s.ntIdOf := by rw [e]
  have eAct : w'.s.active = w.s.active := by rw [e]
  have eNw : w'.s.nwCount = w.s.nwCount := by rw [e]
  refine ⟨?_, ?_, ?_, ?_, ?_, ?_, ?_, ?_, ?_⟩
  · intro k nt' hk
    obtain ⟨nt, q, _⟩ := h.ntFrom hk
    rw [eCount]; exact g.ntPos k nt q
  · intro n nw' hn
    obtain ⟨nw, q, _⟩ := h.nwFrom hn
    rw [eNw]; exact g.nwPos n nw q
  · intro n h1 h2
    rw [eNw] at h2
    obtain ⟨nw, q⟩ := g.nwAll n h1 h2
    obtain ⟨nw', q', _⟩ := h.nwOf q
    exact ⟨nw', q'⟩
  · intro k nt' hk
    obtain ⟨nt, q, _, q2, _⟩ := h.ntFrom hk
    rw [eId, q2]; exact g.ntUid k nt q
  · intro uid hu
    rw [eId] at hu ⊢
    obtain ⟨nt, q1, q2⟩ := g.uidNt uid hu
    refine ⟨_, h.ntOf q1, ?_⟩
    rw [← q2]; split_ifs <;> rfl
  · intro k
    rw [eAct, g.act]
    constructor
    · rintro ⟨nt, q⟩; exact ⟨_, h.ntOf q⟩
    · rintro ⟨nt, q⟩; obtain ⟨nt, q, _⟩ := h.ntFrom q; exact ⟨nt, q⟩
  · intro k nt' hk
    obtain ⟨nt, q, _, _, q2⟩ := h.ntFrom hk
    rw [q2]; exact g.nodup k nt q
  · intro k nt' hk n
    obtain ⟨nt, q, _, _, q2⟩ := h.ntFrom hk
    rw [q2, g.opened k nt q]
    constructor
    · rintro ⟨nw, r1, r2, r3⟩
      obtain ⟨nw', r4, r5, r6, _⟩ := h.nwOf r1
      exact ⟨nw', r4, r6.trans r2, r5.trans r3⟩
    · rintro ⟨nw, r1, r2, r3⟩
      obtain ⟨nw', r4, r5, r6, _⟩ := h.nwFrom r1
      exact ⟨nw', r4, r6.symm.trans r2, r5.symm.trans r3⟩
  · intro n nw' hn
    obtain ⟨nw, q, q2, _⟩ := h.nwFrom hn
    obtain ⟨nt, r⟩ := g.typed n nw q
    rw [q2]; exact ⟨_, h.ntOf r⟩

/-- An open network of a type whose proof context is made again has a section. -/
theorem touched_of_dirty (m : Mid E s0 w) {k n : ℕ} {nt : NT} (hk : w.s.nts k = some nt) (hn : n ∈ nt.opened) (hd : dirty w k = true) : touched w n = true := by
  rw [touched_iff]
  unfold dirty at hd
  rcases (show (w.pc k = true ∨ k ∈ changedTypes w) ∨ w.inact k = true by simpa using hd) with (q | q) | q
  · obtain ⟨nt', q1, q2⟩ := m.pcOpen k q
    rw [hk] at q1; cases q1
    exact Or.inl (q2 n hn)
  · exact Or.inr ⟨k, q, nt, hk, hn⟩
  · obtain ⟨nt', q1, q2⟩ := m.inact k q
    rw [hk] at q1; cases q1
    rw [q2] at hn; cases hn

/-- A type that is not changed, whose context is that of the beginning. -/
theorem clean_old (m : Mid E s0 w) {k : ℕ} {nt nt0 : NT} (hk : w.s.nts k = some nt) (h0 : s0.nts k = some nt0) (ho : nt.opened ≠ []) (hd : dirty w k = false) : nt.ctx = nt0.ctx ∧ nt0.opened ≠ [] := by
  obtain ⟨nt', q1, _, q2⟩ := m.oldNt k nt0 h0
  rw [hk] at q1; cases q1
  refine ⟨q2, fun e => ?_⟩
  have := m.wake k nt nt0 hk ho h0 e
  unfold dirty at hd
  rw [this] at hd; cases hd

theorem Done.ctx (h : Done E w w' sec) (m : Mid E s0 w) (hc : ∀ k nt, s0.nts k = some nt → (nt.opened = [] ↔ nt.ctx = none)) :
    ∀ k nt, w'.s.nts k = some nt → (nt.opened = [] ↔ nt.ctx = none) := by
  intro k nt' hk'
  obtain ⟨nt, hk, e, _, eo⟩ := h.ntFrom hk'
  rw [eo]
  cases hd : dirty w k with
  | true =>
    rw [hd, if_pos rfl] at e
    rw [e]
    unfold renew
    dsimp only
    by_cases ho : nt.opened = []
    · rw [if_pos ho]; simp [ho]
    · rw [if_neg ho]; exact iff_of_false ho (h.ok k nt hk hd ho)
  | false =>
    rw [hd, if_neg (by simp)] at e
    subst e
    by_cases ho : nt'.opened = []
    · refine iff_of_true ho ?_
      have hi : w.inact k = false := by
        unfold dirty at hd
        cases q : w.inact k with
        | false => rfl
        | true => rw [q] at hd; simp at hd
      obtain ⟨⟨nt0, q1, q2⟩, _⟩ := m.idle k nt' hk ho hi
      obtain ⟨nt1, q3, _, q4⟩ := m.oldNt k nt0 q1
      rw [hk] at q3; cases q3
      rw [q4]; exact (hc k nt0 q1).1 q2
    · refine iff_of_false ho ?_
      cases h0 : s0.nts k with
      | none => exact m.newNt k nt' h0 hk
      | some nt0 =>
        obtain ⟨q1, q2⟩ := clean_old m hk h0 ho hd
        rw [q1]; exact fun q => q2 ((hc k nt0 h0).2 q)

theorem Done.map (h : Done E w w' sec) (m : Mid E s0 w) (g0 : Good E s0) (hc : ∀ k nt, s0.nts k = some nt → (nt.opened = [] ↔ nt.ctx = none)) {mp : ℕ → Option (Option Ctx)}
    (hm : ∀ k, mp k = ((s0.nts k).bind NT.ctx).map some) : ∀ k, updateMap mp sec k = ((w'.s.nts k).bind NT.ctx).map some := by
  intro k
  unfold updateMap
  by_cases hi : k ∈ sec.inactivated
  · rw [(foldl_inact _ _ k).1 hi]
    obtain ⟨nt, q1, q2⟩ := m.inact k ((h.inact k).1 hi)
    have hd : dirty w k = true := by unfold dirty; rw [(h.inact k).1 hi]; simp
    rw [h.ntOf q1, hd, if_pos rfl]
    unfold renew
    rw [Option.bind_some]
    dsimp only
    rw [if_pos q2]; rfl
  · rw [(foldl_inact _ _ k).2 hi]
    have hia : w.inact k = false := by
      cases q : w.inact k with
      | false => rfl
      | true => exact absurd ((h.inact k).2 q) hi
    cases hk : w.s.nts k with
    | none =>
      have h0 : s0.nts k = none := by
        cases q : s0.nts k with
        | none => rfl
        | some nt0 =>
          obtain ⟨nt, q1, _⟩ := m.oldNt k nt0 q
          rw [hk] at q1; cases q1
      have hk' : w'.s.nts k = none := by rw [h.nts, hk]; rfl
      rw [((foldl_changed sec.types mp k none) (fun t ht e => by
        obtain ⟨_, nt, q, _⟩ := h.typed t ht
        rw [e, hk'] at q; cases q)).2 (fun ⟨t, ht, e, _⟩ => by
        obtain ⟨_, nt, q, _⟩ := h.typed t ht
        rw [e, hk'] at q; cases q)]
      rw [hm, h0, hk']
    | some nt =>
      have hk' := h.ntOf hk
      obtain ⟨nt', hnt'⟩ : ∃ nt', nt' = (if dirty w k = true then renew E w.s.keys w.validators nt else nt) := ⟨_, rfl⟩
      rw [← hnt'] at hk'
      have hfold := (foldl_changed sec.types mp k nt'.ctx) (fun t ht e => by
        obtain ⟨_, nt2, q, _, q2⟩ := h.typed t ht
        rw [e, hk'] at q; cases q; exact q2)
      have hctx := h.ctx m hc k nt' hk'
      have heo : nt'.opened = nt.opened := by
        obtain ⟨nt2, q, _, _, q2⟩ := h.ntFrom hk'
        rw [hk] at q; cases q; exact q2
      rw [hk', Option.bind_some]
      by_cases ho : nt.opened = []
      · -- nothing is open, and nothing was
        obtain ⟨⟨nt0, q1, q2⟩, q3⟩ := m.idle k nt hk ho hia
        rw [hfold.2, hm, q1, Option.bind_some, (hc k nt0 q1).1 q2, hctx.1 (heo.trans ho)]
        rintro ⟨t, ht, e, _⟩
        obtain ⟨hne, _⟩ := h.typed t ht
        obtain ⟨x, hx⟩ := List.exists_mem_of_ne_nil _ hne
        obtain ⟨n, nw, r1, r2, r3, _⟩ := (h.sections t ht x).1 hx
        have hno := q3 n nw r2 (r3.trans e)
        rcases (touched_iff w n).1 r1 with r1 | ⟨k', r4, nt', r5, r6⟩
        · rw [hno] at r1; cases r1
        · obtain ⟨nw', r7, _, r8⟩ := (m.good.opened k' nt' r5 n).1 r6
          rw [r2] at r7; cases r7
          rw [r3, e] at r8
          subst r8
          rw [hk] at r5; cases r5
          rw [ho] at r6; cases r6
      · obtain ⟨n, hn⟩ := List.exists_mem_of_ne_nil _ ho
        obtain ⟨nw, r1, _, r3⟩ := (m.good.opened k nt hk n).1 hn
        obtain ⟨cc, hcc⟩ : ∃ cc, nt'.ctx = some cc := by
          cases q : nt'.ctx with
          | none => exact absurd (hctx.2 q) (by rw [heo]; exact ho)
          | some cc => exact ⟨cc, rfl⟩
        by_cases hch : ∃ t ∈ sec.types, t.ntid = k ∧ t.changed = true
        · rw [hfold.1 hch, hcc]; rfl
        · rw [hfold.2 hch, hm]
          -- the type is old and not changed
          have hnot : ∀ n' nw', touched w n' = true → w.s.nws n' = some nw' → nw'.ntid = k → (decide (nw'.last = none) || dirty w k) = false := by
            intro n' nw' q1 q2 q3
            cases q : (decide (nw'.last = none) || dirty w k) with
            | false => rfl
            | true =>
              exfalso
              apply hch
              obtain ⟨t, ht, e⟩ := h.all n' nw' q1 q2
              refine ⟨t, ht, e.trans q3, (h.changed t ht).2 ⟨sectionOf w n' nw', (h.sections t ht _).2 ⟨n', nw', q1, q2, e.symm, rfl⟩, ?_⟩⟩
              rw [sectionOf_changed, q3]; exact q
          have hd : dirty w k = false := by
            cases q : dirty w k with
            | false => rfl
            | true =>
              have := hnot n nw (touched_of_dirty m hk hn q) r1 r3
              rw [q] at this; simp at this
          rw [hd, if_neg (by simp)] at hnt'
          subst hnt'
          cases h0 : s0.nts k with
          | none =>
            exfalso
            have hn0 : s0.nws n = none := by
              cases q : s0.nws n with
              | none => rfl
              | some nw0 =>
                obtain ⟨nw1, e1, e2, _⟩ := m.oldNw n nw0 q
                rw [r1] at e1; cases e1
                obtain ⟨nt0, q2⟩ := g0.typed n nw0 q
                rw [← e2, r3, h0] at q2; cases q2
            have ht : touched w n = true := (touched_iff w n).2 (Or.inl (m.newNw n nw hn0 r1))
            have := hnot n nw ht r1 r3
            rw [m.last n nw r1] at this
            unfold last0 at this
            rw [hn0] at this; simp at this
          | some nt0 =>
            obtain ⟨q1, _⟩ := clean_old m hk h0 ho hd
            rw [Option.bind_some, ← q1]

/-- The sections of a network after the block. -/
theorem Done.client (h : Done E w w' sec) (m : Mid E s0 w) {l : List Section} (hcl : ∀ n nw nt, s0.nws n = some nw → nw.isOpen = true → s0.nts nw.ntid = some nt → follow (entriesOf l n) = some nt.ctx)
    (g0 : Good E s0) : ∀ n nw nt, w'.s.nws n = some nw → nw.isOpen = true → w'.s.nts nw.ntid = some nt → follow (entriesOf (l ++ [sec]) n) = some nt.ctx := by
  intro n nw' nt' hn' ho' hk'
  obtain ⟨nw, hn, e1, e2, _⟩ := h.nwFrom hn'
  obtain ⟨nt, hk, e3, _, e4⟩ := h.ntFrom hk'
  rw [e1] at hk e3 hk'
  rw [e2] at ho'
  have hmem : n ∈ nt.opened := (m.good.opened _ nt hk n).2 ⟨nw, hn, ho', rfl⟩
  have hne : nt.opened ≠ [] := fun q => by rw [q] at hmem; cases hmem
  -- if the client is told nothing, the network is old and the type is not changed
  have old : dirty w nw.ntid = false → s0.nws n ≠ none → follow (entriesOf l n) = some nt'.ctx := by
    intro hd h0
    cases q : s0.nws n with
    | none => exact absurd q h0
    | some nw0 =>
      obtain ⟨nw1, q1, q2, q3⟩ := m.oldNw n nw0 q
      rw [hn] at q1; cases q1
      obtain ⟨nt0, q4⟩ := g0.typed n nw0 q
      have := hcl n nw0 nt0 q (q3 ho') q4
      rw [← q2] at q4
      rw [this, e3, hd, if_neg (by simp), (clean_old m hk q4 hne hd).1]
  rw [entriesOf_append]
  unfold follow at old ⊢
  rw [List.foldl_append]
  cases ht : touched w n with
  | true =>
    obtain ⟨t, q1, q2, q3⟩ := h.entry ht hn
    rw [q1, List.foldl_cons, List.foldl_nil]
    dsimp only
    rw [sectionOf_changed]
    obtain ⟨_, nt2, r1, _, r2⟩ := h.typed t q3
    rw [q2, hk'] at r1; cases r1
    cases hb : (decide (nw.last = none) || dirty w nw.ntid) with
    | true => rw [if_pos rfl, r2]
    | false =>
      rw [if_neg (by simp)]
      rw [Bool.or_eq_false_iff] at hb
      refine old hb.2 fun q => ?_
      have := m.last n nw hn
      unfold last0 at this
      rw [q] at this
      exact absurd this (by simpa using hb.1)
  | false =>
    rw [h.noEntry (Or.inl ht), List.foldl_nil]
    refine old ?_ fun q => ?_
    · cases q : dirty w nw.ntid with
      | false => rfl
      | true => rw [touched_of_dirty m hk hmem q] at ht; cases ht
    · have := (touched_iff w n).2 (Or.inl (m.newNw n nw q hn))
      rw [this] at ht; cases ht

theorem messagesOf_length (msgs : List (ℕ × ℕ × Bytes)) (n : ℕ) : messagesOf msgs n = (sentTo msgs n).map fun m => m.2.2 := rfl

theorem messagesIn_append (a b : List (NTS × NS)) : messagesIn (a ++ b) = messagesIn a ++ messagesIn b := by
  unfold messagesIn; rw [List.flatMap_append]

/-- Messages, numbers and links. -/
theorem Done.history (h : Done E w w' sec) (m : Mid E s0 w) {l : List Section} {sent : List (ℕ × ℕ × Bytes)} (n : ℕ) (hl : Linked E (entriesOf l n))
    (hla : last0 s0 n = ((entriesOf l n).getLast?).map (hashOf E)) (hme : messagesIn (entriesOf l n) = (sentTo sent n).map fun m => m.2.2) (hsn : sn0 s0 n = (sentTo sent n).length)
    (hss : (sentTo sent n).map (fun m => m.2.1) = List.range' 0 (sentTo sent n).length) :
    Linked E (entriesOf (l ++ [sec]) n) ∧ last0 w'.s n = ((entriesOf (l ++ [sec]) n).getLast?).map (hashOf E) ∧
      messagesIn (entriesOf (l ++ [sec]) n) = (sentTo (sent ++ w'.msgs) n).map (fun m => m.2.2) ∧ sn0 w'.s n = (sentTo (sent ++ w'.msgs) n).length ∧
      (sentTo (sent ++ w'.msgs) n).map (fun m => m.2.1) = List.range' 0 (sentTo (sent ++ w'.msgs) n).length := by
  have happ : sentTo (sent ++ w'.msgs) n = sentTo sent n ++ sentTo w.msgs n := by unfold sentTo; rw [h.msgs, List.filter_append]
  have hnone : w.s.nws n = none → sentTo w.msgs n = [] ∧ s0.nws n = none := by
    intro q
    constructor
    · unfold sentTo
      rw [List.filter_eq_nil_iff]
      intro x hx e
      obtain ⟨nw, q2⟩ := m.modEx _ (m.msgMod x hx)
      have : x.1 = n := by simpa using e
      rw [this, q] at q2; cases q2
    · cases q2 : s0.nws n with
      | none => rfl
      | some nw0 =>
        obtain ⟨nw, q3, _⟩ := m.oldNw n nw0 q2
        rw [q] at q3; cases q3
  have hsns : (sentTo sent n ++ sentTo w.msgs n).map (fun m => m.2.1) = List.range' 0 (sentTo sent n ++ sentTo w.msgs n).length := by
    rw [List.map_append, hss, m.sns n, hsn, List.length_append]
    have := List.range'_append (s := 0) (m := (sentTo sent n).length) (n := (sentTo w.msgs n).length) (step := 1)
    simpa using this
  rw [entriesOf_append, happ]
  cases hw : w.s.nws n with
  | none =>
    obtain ⟨q1, q2⟩ := hnone hw
    rw [h.noEntry (Or.inr hw), List.append_nil, q1, List.append_nil]
    refine ⟨hl, ?_, hme, ?_, hss⟩
    · rw [← hla]; unfold last0; rw [h.nws, hw, q2]; rfl
    · rw [← hsn]; unfold sn0; rw [h.nws, hw, q2]; rfl
  | some nw =>
    have hsn' : sn0 w'.s n = (sentTo sent n ++ sentTo w.msgs n).length := by
      obtain ⟨nw', q1, _, _, q2⟩ := h.nwOf hw
      unfold sn0
      rw [q1, Option.map_some, Option.getD_some, q2, m.sn n nw hw, hsn, List.length_append]
    cases ht : touched w n with
    | false =>
      have q1 : sentTo w.msgs n = [] := by
        unfold sentTo
        rw [List.filter_eq_nil_iff]
        intro x hx e
        have : x.1 = n := by simpa using e
        have := (touched_iff w n).2 (Or.inl (this ▸ m.msgMod x hx))
        rw [this] at ht; cases ht
      rw [q1, List.append_nil] at hsn' ⊢
      rw [h.noEntry (Or.inl ht), List.append_nil]
      refine ⟨hl, ?_, hme, hsn', hss⟩
      rw [← hla, ← m.last n nw hw]
      unfold last0
      rw [h.nws, hw, ht, Option.map_some, Option.bind_some, if_neg (by simp)]
    | true =>
      obtain ⟨t, q1, q2, q3⟩ := h.entry ht hw
      obtain ⟨_, nt', r1, r2, _⟩ := h.typed t q3
      obtain ⟨nt, r3, _, r4, _⟩ := h.ntFrom r1
      have hu : uidOf w nw = t.uid := by
        unfold uidOf
        rw [← q2, r3, r2, r4]; rfl
      rw [q1]
      refine ⟨?_, ?_, ?_, hsn', hsns⟩
      · intro i e he
        by_cases hi : i < (entriesOf l n).length
        · rw [List.getElem?_append_left hi] at he
          have := hl i e he
          rw [List.take_append_of_le_length (by omega)]
          exact this
        · have hlen : i = (entriesOf l n).length := by
            have := (List.getElem?_eq_some_iff.1 he).1
            simp at this; omega
          subst hlen
          rw [List.getElem?_append_right (le_refl _), Nat.sub_self] at he
          simp only [List.getElem?_cons_zero, Option.some.injEq] at he
          subst he
          rw [List.take_left]
          dsimp only
          refine ⟨?_, ?_, fun hz => ?_⟩
          · change nw.last = _
            rw [m.last n nw hw, hla]
          · unfold sectionOf
            rw [NS.first_new, messagesOf_length, hme, List.length_map, List.length_map]
            change ((nw.sn : ℕ) : ℤ) - _ = _
            rw [m.sn n nw hw, hsn]
            push_cast
            omega
          · rw [sectionOf_changed, m.last n nw hw, hla]
            have : entriesOf l n = [] := List.length_eq_zero_iff.1 hz
            rw [this]; simp
      · rw [List.getLast?_concat, Option.map_some]
        unfold last0 hashOf
        rw [h.nws, hw, Option.map_some, Option.bind_some, if_pos ht]
        dsimp only
        rw [← hu]; rfl
      · rw [messagesIn_append, hme, List.map_append]
        congr 1
        unfold messagesIn
        simp [sectionOf, newNS, messagesOf_length]

end

theorem Inv.step {E : Env} {c c' : Chain} {height : ℕ} {calls : List Call} {o : Order} (h : Inv E c) (hf : Fits (execs E (begin_ c height) calls) o)
    (he : block E c height calls o = some c') : Inv E c' := by
  have m := execs_mid _ calls (begin_mid h.good h.ctx height)
  unfold block at he
  cases hp : finish E o (execs E (begin_ c height) calls) with
  | none => rw [hp] at he; cases he
  | some p =>
    obtain ⟨w', sec⟩ := p
    rw [hp, Option.map_some, Option.some.injEq] at he
    have d := finish_done m hf hp
    subst he
    have hh := fun n => d.history m n (h.linked n) (h.last n) (h.messages n) (h.sn n) (h.sns n)
    exact ⟨d.good m.good, d.ctx m h.ctx, d.map m h.good h.ctx h.map, d.client m h.client h.good, fun n => (hh n).1, fun n => (hh n).2.1, fun n => (hh n).2.2.1, fun n => (hh n).2.2.2.1, fun n => (hh n).2.2.2.2⟩

theorem Reach.inv {E : Env} {c : Chain} (h : Reach E c) : Inv E c := by
  induction h with
  | genesis vs => exact genesis_inv E vs
  | block _ _ hf he ih => exact ih.step hf he

end Verif.Btp
