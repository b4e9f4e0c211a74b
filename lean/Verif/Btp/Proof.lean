import Verif.Btp.Cur

/-!
# BTP networks (C73)
-/

namespace Verif.Btp

open Verif

/-! ## Specification -/

/-- Every key that the node accepts has an address, for each network type with the algorithm of the key. -/
def Addressable (E : Env) : Prop :=
  ∀ uid d key k t, E.dsaOf uid = some d → E.canon d key = some k → E.typeKey uid k = some t → E.addrOf uid t ≠ none

/-- The proof context of validators: for each its address, in their order, nothing for those without a key. -/
def contextOf (E : Env) (keys : Addr → Bytes → Option Bytes) (vs : List Addr) (uid d : Bytes) : Ctx :=
  vs.map fun v => (keys v d).bind fun key => (E.typeKey uid key).bind fun t => E.addrOf uid t

/-- Chains in which no block makes a network type while the validators are not those of the beginning and ends with those of the beginning. -/
inductive Even (E : Env) : Chain → Prop
  | genesis (vs : List Addr) : Even E (genesis vs)
  | block {c c' : Chain} {height : ℕ} {calls : List Call} {o : Order} : Even E c → (∀ x ∈ calls, x.fine E) → Fits (execs E (begin_ c height) calls) o →
    ((execs E (begin_ c height) calls).odd = false ∨ (execs E (begin_ c height) calls).validators ≠ c.validators) → Verif.Btp.block E c height calls o = some c' → Even E c'

theorem Even.reach {E : Env} {c : Chain} (h : Even E c) : Reach E c := by
  induction h with
  | genesis vs => exact .genesis vs
  | block _ h1 h2 _ h3 ih => exact .block ih h1 h2 h3

/-! ## Lemmas -/

theorem newCtx_eq (E : Env) (uid : Bytes) : ∀ (ks : List (Option Bytes)) (l : Ctx), newCtx E uid ks = some l → l = ks.map fun k => k.bind fun t => E.addrOf uid t
  | [], l, h => by rw [newCtx, Option.some.injEq] at h; subst h; rfl
  | none :: r, l, h => by
    rw [newCtx] at h
    cases hr : newCtx E uid r with
    | none => rw [hr] at h; cases h
    | some l' =>
      rw [hr, Option.map_some, Option.some.injEq] at h
      rw [← h, newCtx_eq E uid r l' hr]; rfl
  | some k :: r, l, h => by
    rw [newCtx] at h
    cases ha : E.addrOf uid k with
    | none => rw [ha] at h; cases h
    | some a =>
      rw [ha] at h
      dsimp only at h
      cases hr : newCtx E uid r with
      | none => rw [hr] at h; cases h
      | some l' =>
        rw [hr, Option.map_some, Option.some.injEq] at h
        rw [← h, newCtx_eq E uid r l' hr, List.map_cons, Option.bind_some, ha]

theorem newCtx_some (E : Env) (uid : Bytes) : ∀ (ks : List (Option Bytes)), (∀ t, some t ∈ ks → E.addrOf uid t ≠ none) → newCtx E uid ks ≠ none
  | [], _ => by rw [newCtx]; simp
  | none :: r, h => by
    rw [newCtx]
    have := newCtx_some E uid r fun t ht => h t (List.mem_cons_of_mem _ ht)
    simpa using this
  | some k :: r, h => by
    rw [newCtx]
    have := newCtx_some E uid r fun t ht => h t (List.mem_cons_of_mem _ ht)
    cases ha : E.addrOf uid k with
    | none => exact absurd ha (h k (by simp))
    | some a => simpa using this

theorem expected_eq {E : Env} {keys : Addr → Bytes → Option Bytes} {vs : List Addr} {uid d : Bytes} {l : Ctx} (hd : E.dsaOf uid = some d) (h : expected E keys vs uid = some l) : l = contextOf E keys vs uid d := by
  unfold expected at h
  rw [hd, Option.bind_some] at h
  rw [newCtx_eq E uid _ l h, List.map_map]
  unfold contextOf
  congr 1
  funext v
  simp only [Function.comp]
  cases keys v d with
  | none => rfl
  | some k => rfl

theorem expected_some {E : Env} {s : Store} (hE : Addressable E) (hk : KeyInv E s) (hg : Good E s) (vs : List Addr) {k : ℕ} {nt : NT} (hn : s.nts k = some nt) : expected E s.keys vs nt.uid ≠ none := by
  obtain ⟨d, hd⟩ := (hg.ntUid k nt hn).2
  unfold expected
  rw [hd, Option.bind_some]
  apply newCtx_some
  intro t ht
  obtain ⟨v, _, e⟩ := List.mem_map.1 ht
  cases hv : s.keys v d with
  | none => rw [hv] at e; cases e
  | some key =>
    rw [hv, Option.bind_some] at e
    obtain ⟨_, key0, hc⟩ := hk.canon v d key hv
    exact hE nt.uid d key0 key t hd hc e

theorem begin_cur {E : Env} {c : Chain} (hk : KeyInv E c.s) (height : ℕ) : Cur E (begin_ c height) := ⟨hk, fun a k q => by cases q⟩

theorem begin_fresh {E : Env} {c : Chain} (g : Good E c.s) (hx : ∀ k nt, c.s.nts k = some nt → nt.opened ≠ [] → nt.ctx = expected E c.s.keys c.validators nt.uid) (height : ℕ) : Fresh E True (begin_ c height) := by
  intro _ _ k nt q1 q2 _
  obtain ⟨d, hd⟩ := (g.ntUid k nt q1).2
  have := hx k nt q1 q2
  unfold expected at this
  rw [hd, Option.bind_some] at this
  exact ⟨fun a => c.s.keys a d, d, hd, this, fun a => Or.inl rfl⟩

theorem Reach.keys {E : Env} {c : Chain} (h : Reach E c) : KeyInv E c.s := by
  induction h with
  | genesis vs =>
    refine ⟨?_, ?_, ?_, ?_, ?_, ?_, ?_⟩ <;> unfold Verif.Btp.genesis <;> dsimp only
    · intro a d k q; cases q
    · intro a d q; exact absurd rfl q
    · exact List.nodup_nil
    · intro a i; simp
    · intro k nt d q; cases q
    · intro i; simp
    · intro _ a d k q; cases q
  | @block c c' height calls o hr hw hf he ih =>
    have m := execs_mid _ calls (begin_mid hr.inv.good hr.inv.ctx height)
    have hc := (execs_cur (P := False) _ calls (begin_mid hr.inv.good hr.inv.ctx height) (begin_cur ih height) (fun q => q.elim) hw).1
    unfold Verif.Btp.block at he
    cases hp : finish E o (execs E (begin_ c height) calls) with
    | none => rw [hp] at he; cases he
    | some p =>
      obtain ⟨w', sec⟩ := p
      rw [hp, Option.map_some, Option.some.injEq] at he
      have d := finish_done m hf hp
      subst he
      dsimp only
      obtain ⟨nts2, nws2, e⟩ := d.rest
      refine hc.keys.congr (by rw [e]) (by rw [e]) (by rw [e]) (by rw [e]) (by rw [e]) fun k => ?_
      rw [d.nts]
      cases (execs E (begin_ c height) calls).s.nts k with
      | none => rfl
      | some nt =>
        rw [Option.map_some, Option.map_some, Option.map_some]
        split_ifs <;> rfl

theorem Even.current {E : Env} {c : Chain} (h : Even E c) : ∀ k nt, c.s.nts k = some nt → nt.opened ≠ [] → nt.ctx = expected E c.s.keys c.validators nt.uid := by
  induction h with
  | genesis vs => intro k nt q; cases q
  | @block c c' height calls o hr hw hf ho he ih =>
    have hi := hr.reach.inv
    have m := execs_mid _ calls (begin_mid hi.good hi.ctx height)
    obtain ⟨hc, hfr⟩ := execs_cur (P := True) _ calls (begin_mid hi.good hi.ctx height) (begin_cur hr.reach.keys height) (begin_fresh hi.good ih height) hw
    have hst : (execs E (begin_ c height) calls).start = c.validators := execs_start _ calls
    unfold Verif.Btp.block at he
    cases hp : finish E o (execs E (begin_ c height) calls) with
    | none => rw [hp] at he; cases he
    | some p =>
      obtain ⟨w', sec⟩ := p
      rw [hp, Option.map_some, Option.some.injEq] at he
      have d := finish_done m hf hp
      subst he
      revert m hc hfr hst ho d hf hp
      generalize execs E (begin_ c height) calls = w
      intro hf ho m hc hfr hst hp d k nt' hk' hop
      dsimp only at hk' ⊢
      obtain ⟨nt, hk, e, e1, e2⟩ := d.ntFrom hk'
      obtain ⟨nts2, nws2, er⟩ := d.rest
      have ek : w'.s.keys = w.s.keys := by rw [er]
      rw [ek, d.vals, e1]
      rw [e2] at hop
      cases hd : dirty w k with
      | true =>
        rw [hd, if_pos rfl] at e
        rw [e]
        unfold renew
        dsimp only
        rw [if_neg hop]
      | false =>
        rw [hd, if_neg (by simp)] at e
        rw [e]
        have hpc : w.pc k = false ∧ k ∉ changedTypes w := by
          unfold dirty at hd
          rw [Bool.or_eq_false_iff, Bool.or_eq_false_iff] at hd
          exact ⟨hd.1.1, by simpa using hd.1.2⟩
        have hact : k ∈ w.s.active := (m.good.act k).2 ⟨nt, hk⟩
        have hsv : w.start = w.validators := by
          by_contra q
          have := hpc.2
          unfold changedTypes at this
          rw [if_neg q] at this
          exact this hact
        have hodd : w.odd = false := by
          rcases ho with q | q
          · exact q
          · exact absurd (hsv.symm.trans hst) q
        obtain ⟨ref, dd, r1, r2, r3⟩ := hfr trivial hodd k nt hk hop hpc.1
        unfold expected
        rw [r1, Option.bind_some, r2, ← hsv]
        congr 1
        apply List.map_congr_left
        intro v hv
        have : w.s.keys v dd = ref v := by
          rcases r3 v with q | q
          · exact q
          · exfalso
            have := hpc.2
            unfold changedTypes at this
            rw [if_pos hsv] at this
            exact this (List.mem_flatMap.2 ⟨v, hv, q⟩)
        rw [this]

/-! ## An order of the maps -/

/-- The order by number. -/
def byNumber (w : World) : Order :=
  ⟨(List.range (w.s.ntCount + 1)).filter (dirty w), (List.range (w.s.ntCount + 1)).filter w.inact, (List.range (w.s.nwCount + 1)).filter (touched w), (List.range (w.s.nwCount + 1)).filter (touched w),
    (List.range (w.s.ntCount + 1)).filter fun k => (List.range (w.s.nwCount + 1)).any fun n => touched w n && ((w.s.nws n).map NW.ntid == some k), fun _ => (List.range (w.s.nwCount + 1)).filter (touched w)⟩

theorem fits_byNumber {E : Env} {s0 : Store} {w : World} (m : Mid E s0 w) (hc : Cur E w) : Fits w (byNumber w) := by
  have hch : ∀ k ∈ changedTypes w, ∃ nt, w.s.nts k = some nt := by
    intro k hk
    unfold changedTypes at hk
    by_cases h : w.start = w.validators
    · rw [if_pos h] at hk
      obtain ⟨v, _, q⟩ := List.mem_flatMap.1 hk
      exact hc.kcEx v k q
    · rw [if_neg h] at hk
      exact (m.good.act k).1 hk
  have hin : ∀ k, w.inact k = true → k < w.s.ntCount + 1 := by
    intro k q
    obtain ⟨nt, q, _⟩ := m.inact k q
    have := (m.good.ntPos k nt q).2; omega
  have hdi : ∀ k, dirty w k = true → k < w.s.ntCount + 1 := by
    intro k q
    unfold dirty at q
    rcases (show (w.pc k = true ∨ k ∈ changedTypes w) ∨ w.inact k = true by simpa using q) with (q | q) | q
    · obtain ⟨nt, q, _⟩ := m.pcOpen k q
      have := (m.good.ntPos k nt q).2; omega
    · obtain ⟨nt, q⟩ := hch k q
      have := (m.good.ntPos k nt q).2; omega
    · exact hin k q
  have hto : ∀ n, touched w n = true → n < w.s.nwCount + 1 := by
    intro n q
    rcases (touched_iff w n).1 q with q | ⟨k, _, nt, q1, q2⟩
    · obtain ⟨nw, q⟩ := m.modEx n q
      have := (m.good.nwPos n nw q).2; omega
    · obtain ⟨nw, q, _⟩ := (m.good.opened k nt q1 n).1 q2
      have := (m.good.nwPos n nw q).2; omega
  have hmem : ∀ n, n ∈ (List.range (w.s.nwCount + 1)).filter (touched w) ↔ touched w n = true := by
    intro n
    rw [List.mem_filter, List.mem_range]
    exact ⟨fun q => q.2, fun q => ⟨hto n q, q⟩⟩
  have hnd : ((List.range (w.s.nwCount + 1)).filter (touched w)).Nodup := List.nodup_range.filter _
  unfold byNumber
  refine ⟨fun k q => ?_, fun k q => ?_, ⟨hnd, hmem⟩, ⟨hnd, fun n => ?_⟩, ⟨List.nodup_range.filter _, fun k => ?_⟩, fun k => ⟨hnd, hmem⟩⟩
  · exact List.mem_filter.2 ⟨List.mem_range.2 (hdi k q), q⟩
  · exact List.mem_filter.2 ⟨List.mem_range.2 (hin k q), q⟩
  · rw [hmem]
    refine ⟨Or.inl, ?_⟩
    rintro (q | ⟨x, q1, q2⟩)
    · exact q
    · exact (touched_iff w n).2 (Or.inl (q2 ▸ m.msgMod x q1))
  · dsimp only
    rw [List.mem_filter, List.mem_range, List.any_eq_true]
    constructor
    · rintro ⟨_, n, _, q2⟩
      rw [Bool.and_eq_true] at q2
      cases hn : w.s.nws n with
      | none => rw [hn] at q2; simp at q2
      | some nw =>
        rw [hn] at q2
        exact ⟨n, (hmem n).2 q2.1, nw, hn, by simpa using q2.2⟩
    · rintro ⟨n, q1, nw, q2, q3⟩
      obtain ⟨nt, q4⟩ := m.good.typed n nw q2
      rw [q3] at q4
      refine ⟨by have := (m.good.ntPos k nt q4).2; omega, n, List.mem_range.2 (hto n ((hmem n).1 q1)), ?_⟩
      rw [(hmem n).1 q1, q2]
      simp [q3]

/-! ## Theorems -/

/-- There is always an order of the maps, and with each of them the sections of the block are built: a block never fails for BTP. -/
theorem C73_never_fails {E : Env} (hE : Addressable E) {c : Chain} (h : Reach E c) (height : ℕ) (calls : List Call) (hw : ∀ x ∈ calls, x.fine E) :
    (∃ o, Fits (execs E (begin_ c height) calls) o) ∧ ∀ o, Fits (execs E (begin_ c height) calls) o → ∃ c', block E c height calls o = some c' := by
  have m := execs_mid _ calls (begin_mid h.inv.good h.inv.ctx height)
  have hc := (execs_cur (P := False) _ calls (begin_mid h.inv.good h.inv.ctx height) (begin_cur h.keys height) (fun q => q.elim) hw).1
  refine ⟨⟨_, fits_byNumber m hc⟩, fun o hf => ?_⟩
  have hch : ∀ k ∈ changedTypes (execs E (begin_ c height) calls), ∃ nt, (execs E (begin_ c height) calls).s.nts k = some nt := by
    intro k hk
    unfold changedTypes at hk
    by_cases h : (execs E (begin_ c height) calls).start = (execs E (begin_ c height) calls).validators
    · rw [if_pos h] at hk
      obtain ⟨v, _, q⟩ := List.mem_flatMap.1 hk
      exact hc.kcEx v k q
    · rw [if_neg h] at hk
      exact (m.good.act k).1 hk
  obtain ⟨p, hp⟩ := finish_some m hf hch fun k nt hk => expected_some hE hc.keys m.good _ hk
  unfold block
  rw [hp]; exact ⟨_, rfl⟩

/-- The order of the maps does not matter: state and sections are the same, and the same types are inactivated. -/
theorem C73_order {E : Env} {c c1 c2 : Chain} (h : Reach E c) {height : ℕ} {calls : List Call} {o1 o2 : Order} (hf1 : Fits (execs E (begin_ c height) calls) o1)
    (hf2 : Fits (execs E (begin_ c height) calls) o2) (h1 : block E c height calls o1 = some c1) (h2 : block E c height calls o2 = some c2) :
    c1.s = c2.s ∧ c1.validators = c2.validators ∧ c1.map = c2.map ∧ c1.sections.map Section.types = c2.sections.map Section.types ∧ c1.sent = c2.sent := by
  have m := execs_mid _ calls (begin_mid h.inv.good h.inv.ctx height)
  unfold block at h1 h2
  cases hp1 : finish E o1 (execs E (begin_ c height) calls) with
  | none => rw [hp1] at h1; cases h1
  | some p1 =>
    cases hp2 : finish E o2 (execs E (begin_ c height) calls) with
    | none => rw [hp2] at h2; cases h2
    | some p2 =>
      obtain ⟨w1, s1⟩ := p1
      obtain ⟨w2, s2⟩ := p2
      rw [hp1, Option.map_some, Option.some.injEq] at h1
      rw [hp2, Option.map_some, Option.some.injEq] at h2
      have d1 := finish_done m hf1 hp1
      have d2 := finish_done m hf2 hp2
      have ntsEq : w1.s.nts = w2.s.nts := funext fun k => by rw [d1.nts, d2.nts]
      have nwsEq : w1.s.nws = w2.s.nws := funext fun n => by rw [d1.nws, d2.nws]
      have sEq : w1.s = w2.s := by
        obtain ⟨a1, b1, e1⟩ := d1.rest
        obtain ⟨a2, b2, e2⟩ := d2.rest
        have q1 : w1.s.nts = a1 := by rw [e1]
        have q2 : w2.s.nts = a2 := by rw [e2]
        have q3 : w1.s.nws = b1 := by rw [e1]
        have q4 : w2.s.nws = b2 := by rw [e2]
        rw [e1, e2, ← q1, ← q2, ← q3, ← q4, ntsEq, nwsEq]
      have sortedEq : ∀ {α : Type} (id : α → ℕ) (a b : List α), a.Pairwise (fun x y => id x < id y) → b.Pairwise (fun x y => id x < id y) → (∀ x, x ∈ a ↔ x ∈ b) → a = b := by
        intro α id a
        induction a with
        | nil =>
          intro b _ _ hm
          cases b with
          | nil => rfl
          | cons y r => exact absurd ((hm y).2 List.mem_cons_self) (by simp)
        | cons x r ih =>
          intro b ha hb hm
          cases b with
          | nil => exact absurd ((hm x).1 List.mem_cons_self) (by simp)
          | cons y r' =>
            rw [List.pairwise_cons] at ha hb
            have hxy : x = y := by
              rcases List.mem_cons.1 ((hm x).1 List.mem_cons_self) with q | q
              · exact q
              · rcases List.mem_cons.1 ((hm y).2 List.mem_cons_self) with q' | q'
                · exact q'.symm
                · have := hb.1 x q
                  have := ha.1 y q'
                  omega
            subst hxy
            congr 1
            refine ih r' ha.2 hb.2 fun z => ⟨fun q => ?_, fun q => ?_⟩
            · rcases List.mem_cons.1 ((hm z).1 (List.mem_cons_of_mem _ q)) with q' | q'
              · have := ha.1 z q; rw [q'] at this; omega
              · exact q'
            · rcases List.mem_cons.1 ((hm z).2 (List.mem_cons_of_mem _ q)) with q' | q'
              · have := hb.1 z q; rw [q'] at this; omega
              · exact q'
      have half : ∀ {wa wb : World} {sa sb : Section}, Done E (execs E (begin_ c height) calls) wa sa → Done E (execs E (begin_ c height) calls) wb sb → wa.s.nts = wb.s.nts → ∀ t ∈ sa.types, t ∈ sb.types := by
        intro wa wb sa sb da db hn t ht
        obtain ⟨hne, nt, q1, q2, q3⟩ := da.typed t ht
        obtain ⟨x, hx⟩ := List.exists_mem_of_ne_nil _ hne
        obtain ⟨n, nw, r1, r2, r3, _⟩ := (da.sections t ht x).1 hx
        obtain ⟨t', ht', e⟩ := db.all n nw r1 r2
        obtain ⟨_, nt', q1', q2', q3'⟩ := db.typed t' ht'
        have eid : t'.ntid = t.ntid := e.trans r3
        rw [eid, ← hn, q1] at q1'
        have hnn := Option.some.inj q1'
        have hsec : t'.sections = t.sections := by
          refine sortedEq NS.nid _ _ (db.secSorted t' ht') (da.secSorted t ht) fun y => ?_
          rw [db.sections t' ht', da.sections t ht, eid]
        have hch : t'.changed = t.changed := by
          rw [Bool.eq_iff_iff, db.changed t' ht', da.changed t ht, hsec]
        have : t' = t := by
          obtain ⟨a1, a2, a3, a4, a5⟩ := t'
          obtain ⟨b1, b2, b3, b4, b5⟩ := t
          dsimp only at *
          rw [eid, q2', q3', q2, q3, hnn, hsec, hch]
        rw [← this]; exact ht'
      have tEq : s1.types = s2.types := sortedEq NTS.ntid _ _ d1.sorted d2.sorted fun t => ⟨half d1 d2 ntsEq t, half d2 d1 ntsEq.symm t⟩
      have mEq : updateMap c.map s1 = updateMap c.map s2 := by
        funext k
        rw [d1.map m h.inv.good h.inv.ctx h.inv.map, d2.map m h.inv.good h.inv.ctx h.inv.map, ntsEq]
      subst h1; subst h2
      dsimp only
      refine ⟨sEq, by rw [d1.vals, d2.vals], mEq, ?_, by rw [d1.msgs, d2.msgs]⟩
      rw [List.map_append, List.map_append, List.map_cons, List.map_cons, tEq]

/-- The map of proof contexts that a node keeps from block to block is the one it would make from the state; it has the types with an open network, each with a proof context. -/
theorem C73_map {E : Env} {c : Chain} (h : Reach E c) :
    c.map = mapOf c.s ∧ ∀ k, (∃ n nw, c.s.nws n = some nw ∧ nw.isOpen = true ∧ nw.ntid = k) ↔ ∃ ctx, c.map k = some (some ctx) := by
  have hi := h.inv
  refine ⟨funext fun k => by rw [hi.map, mapOf_eq hi.good], fun k => ?_⟩
  rw [hi.map]
  cases hk : c.s.nts k with
  | none =>
    refine iff_of_false ?_ (by simp)
    rintro ⟨n, nw, q1, _, q3⟩
    obtain ⟨nt, q⟩ := hi.good.typed n nw q1
    rw [q3, hk] at q; cases q
  | some nt =>
    have h1 := hi.ctx k nt hk
    have h2 := hi.good.opened k nt hk
    rw [Option.bind_some]
    constructor
    · rintro ⟨n, q⟩
      have hn := (h2 n).2 q
      cases hx : nt.ctx with
      | none => rw [h1.2 hx] at hn; cases hn
      | some ctx => exact ⟨ctx, rfl⟩
    · rintro ⟨ctx, q⟩
      have hne : nt.opened ≠ [] := fun e => by rw [h1.1 e] at q; cases q
      obtain ⟨n, hn⟩ := List.exists_mem_of_ne_nil _ hne
      exact ⟨n, (h2 n).1 hn⟩

/-- A client that follows the sections of an open network, and takes a proof context when told, has the proof context of the network type. -/
theorem C73_client {E : Env} {c : Chain} (h : Reach E c) {n : ℕ} {nw : NW} (hn : c.s.nws n = some nw) (ho : nw.isOpen = true) :
    follow (entriesOf c.sections n) = c.map nw.ntid ∧ ∃ ctx, c.map nw.ntid = some (some ctx) := by
  have hi := h.inv
  obtain ⟨nt, hk⟩ := hi.good.typed n nw hn
  have h2 := ((C73_map h).2 nw.ntid).1 ⟨n, nw, hn, ho, rfl⟩
  refine ⟨?_, h2⟩
  obtain ⟨ctx, h2⟩ := h2
  rw [hi.client n nw nt hn ho hk, h2]
  rw [hi.map, hk, Option.bind_some] at h2
  cases hx : nt.ctx with
  | none => rw [hx] at h2; cases h2
  | some ctx' => rw [hx] at h2; exact h2

/-- The sections of a network have the messages that were sent to it, in order, once each, with the numbers 0, 1, …; sections are linked by hashes and numbers, and the state has the hash of the last one. -/
theorem C73_messages {E : Env} {c : Chain} (h : Reach E c) (n : ℕ) :
    messagesIn (entriesOf c.sections n) = ((c.sent.filter fun m => m.1 == n).map fun m => m.2.2) ∧
    ((c.sent.filter fun m => m.1 == n).map fun m => m.2.1) = List.range (messagesIn (entriesOf c.sections n)).length ∧
    Linked E (entriesOf c.sections n) ∧
    ∀ nw, c.s.nws n = some nw → nw.sn = (messagesIn (entriesOf c.sections n)).length ∧ nw.last = ((entriesOf c.sections n).getLast?).map (hashOf E) := by
  have hi := h.inv
  refine ⟨hi.messages n, ?_, hi.linked n, fun nw hn => ⟨?_, ?_⟩⟩
  · rw [hi.messages, List.length_map, List.range_eq_range']; exact hi.sns n
  · rw [hi.messages, List.length_map, ← hi.sn n]; unfold sn0; rw [hn]; rfl
  · rw [← hi.last n]; unfold last0; rw [hn]; rfl

/-- The list of open networks of a type has the networks of the type that are open, once each. -/
theorem C73_opened {E : Env} {c : Chain} (h : Reach E c) {k : ℕ} {nt : NT} (hk : c.s.nts k = some nt) :
    nt.opened.Nodup ∧ ∀ n, n ∈ nt.opened ↔ ∃ nw, c.s.nws n = some nw ∧ nw.isOpen = true ∧ nw.ntid = k :=
  ⟨h.inv.good.nodup k nt hk, h.inv.good.opened k nt hk⟩

/-- The check of keys says whether the address has a key for the algorithm of every network type; no two addresses have the same key, if there is one algorithm only. -/
theorem C73_keys {E : Env} {c : Chain} (h : Reach E c) :
    (∀ a, checkKey c.s a = true ↔ ∀ k nt d, c.s.nts k = some nt → E.dsaOf nt.uid = some d → c.s.keys a d ≠ none) ∧
    ((∀ d d', E.known d = true → E.known d' = true → d = d') → ∀ a b d d' x, c.s.keys a d = some x → c.s.keys b d' = some x → a = b) := by
  refine ⟨checkKey_iff h.keys, fun h1 a b d d' x ha hb => ?_⟩
  have q1 := h.keys.owner h1 a d x ha
  have q2 := h.keys.owner h1 b d' x hb
  rw [q1] at q2
  exact Option.some.inj q2

/-- The proof context of a type with an open network is that of the keys of the validators. -/
theorem C73_current {E : Env} {c : Chain} (h : Even E c) {n : ℕ} {nw : NW} (hn : c.s.nws n = some nw) (ho : nw.isOpen = true) :
    ∃ nt d, c.s.nts nw.ntid = some nt ∧ E.dsaOf nt.uid = some d ∧ c.map nw.ntid = some (some (contextOf E c.s.keys c.validators nt.uid d)) := by
  have hi := h.reach.inv
  obtain ⟨nt, hk⟩ := hi.good.typed n nw hn
  obtain ⟨d, hd⟩ := (hi.good.ntUid _ nt hk).2
  refine ⟨nt, d, hk, hd, ?_⟩
  have hmem : n ∈ nt.opened := (hi.good.opened _ nt hk n).2 ⟨nw, hn, ho, rfl⟩
  have hne : nt.opened ≠ [] := fun q => by rw [q] at hmem; cases hmem
  have he := h.current _ nt hk hne
  rw [hi.map, hk, Option.bind_some]
  cases hx : nt.ctx with
  | none => exact absurd ((hi.ctx _ nt hk).2 hx) hne
  | some l =>
    rw [hx] at he
    rw [expected_eq hd he.symm]; rfl

/-! ## A chain -/

/-- One algorithm `[1]`, two network types `[7]` and `[8]`; keys are their own addresses. -/
def demoEnv : Env where
  dsaOf uid := if uid = [7] ∨ uid = [8] then some [1] else none
  known d := d == [1]
  canon _ k := some k
  typeKey _ k := some k
  addrOf _ k := some k
  keyHash k := k
  nsHash uid f := uid ++ [f.nid.toUInt8, f.updateNumber.toNat.toUInt8] ++ f.prev.getD []
  root _ ms := some ms.flatten

/-- A block with the order by number. -/
def demoBlock (c : Chain) (calls : List Call) : Chain := (block demoEnv c 1 calls (byNumber (execs demoEnv (begin_ c 1) calls))).getD c

theorem demo_addr : Addressable demoEnv := fun uid d key k t _ _ h => by
  simp [demoEnv]

theorem demo_step {c : Chain} (h : Reach demoEnv c) (calls : List Call) (hw : ∀ x ∈ calls, x.fine demoEnv) : Reach demoEnv (demoBlock c calls) := by
  have m := execs_mid (E := demoEnv) _ calls (begin_mid h.inv.good h.inv.ctx 1)
  have hc := (execs_cur (P := False) (E := demoEnv) _ calls (begin_mid h.inv.good h.inv.ctx 1) (begin_cur h.keys 1) (fun q => q.elim) hw).1
  have hf := fits_byNumber m hc
  obtain ⟨c', hc'⟩ := (C73_never_fails demo_addr h 1 calls hw).2 _ hf
  unfold demoBlock
  rw [hc']
  exact .block h hw hf hc'

theorem demo_even {c : Chain} (h : Even demoEnv c) (calls : List Call) (hw : ∀ x ∈ calls, x.fine demoEnv)
    (ho : (execs demoEnv (begin_ c 1) calls).odd = false) : Even demoEnv (demoBlock c calls) := by
  have hi := h.reach.inv
  have m := execs_mid (E := demoEnv) _ calls (begin_mid hi.good hi.ctx 1)
  have hc := (execs_cur (P := False) (E := demoEnv) _ calls (begin_mid hi.good hi.ctx 1) (begin_cur h.reach.keys 1) (fun q => q.elim) hw).1
  have hf := fits_byNumber m hc
  obtain ⟨c', hc'⟩ := (C73_never_fails demo_addr h.reach 1 calls hw).2 _ hf
  unfold demoBlock
  rw [hc']
  exact .block h hw hf (Or.inl ho) hc'

theorem demo_mods : ∀ uid dsa, demoEnv.dsaOf uid = some dsa → uid ∈ [[7], [8]] := by
  intro uid dsa h
  unfold demoEnv at h
  dsimp only at h
  by_cases q : uid = [7] ∨ uid = [8]
  · simpa using q
  · rw [if_neg q] at h; cases h

/-- Keys of `[10]` and `[11]`; then a network opens and gets two messages; then the validators change and the owner sends another message; then the network is closed. -/
def demo1 : Chain := demoBlock (genesis [[10]]) [.setKey [10] [1] [100] [[7], [8]], .setKey [11] [1] [111] [[7], [8]]]
def demo2 : Chain := demoBlock demo1 [.openNet [7] [0] (some [50]), .send [50] 1 [1], .send [51] 1 [9], .send [50] 1 [2]]
def demo3 : Chain := demoBlock demo2 [.setValidators [[11], [12]], .send [50] 1 [3]]
def demo4 : Chain := demoBlock demo3 [.openNet [7] [1] (some [50]), .setKey [12] [1] [122] [[8], [7]], .closeNet 1, .frame false [.send [50] 2 [4]]]

theorem demo_even4 : Even demoEnv demo1 ∧ Even demoEnv demo2 ∧ Even demoEnv demo3 ∧ Even demoEnv demo4 := by
  have h1 : Even demoEnv demo1 := demo_even (.genesis _) _ (by intro x hx; simp at hx; rcases hx with rfl | rfl <;> (simp only [Call.fine]; exact demo_mods)) rfl
  have h2 : Even demoEnv demo2 := demo_even h1 _ (by intro x hx; simp at hx; rcases hx with rfl | rfl | rfl | rfl <;> simp only [Call.fine]) rfl
  have h3 : Even demoEnv demo3 := demo_even h2 _ (by intro x hx; simp at hx; rcases hx with rfl | rfl <;> simp only [Call.fine]) rfl
  have h4 : Even demoEnv demo4 := demo_even h3 _ (by
    intro x hx
    simp at hx
    rcases hx with rfl | rfl | rfl | rfl
    · simp only [Call.fine]
    · simp only [Call.fine]
      intro uid dsa h
      have := demo_mods uid dsa h
      simp at this ⊢
      tauto
    · simp only [Call.fine]
    · simp only [Call.fine]
      intro c hc
      simp at hc
      subst hc
      simp only [Call.fine]) rfl
  exact ⟨h1, h2, h3, h4⟩

/-- The sections of the network: messages, numbers and flags. -/
example : (entriesOf demo4.sections 1).map (fun e => (e.2.messages, e.2.first, e.2.changed)) = [([[1], [2]], 0, true), ([[3]], 2, true)] := by decide

/-- The second network is told the proof context of the validators, whose second got its key in the same block. -/
example : follow (entriesOf demo4.sections 2) = some (some [some [111], some [122]]) ∧ demo4.map 1 = some (some [some [111], some [122]]) ∧ demo3.map 1 = some (some [some [111], none]) ∧
    demo2.map 1 = some (some [some [100]]) := ⟨by decide, by decide, by decide, by decide⟩

/-- The check of keys. -/
example : checkKey demo4.s [12] = true ∧ checkKey demo4.s [13] = false ∧ checkKey demo1.s [13] = true := by decide

/-- The theorems apply. -/
example : follow (entriesOf demo4.sections 2) = demo4.map 1 := (C73_client (nw := ⟨1, [1], some [50], 1, true, 0, true, none, some [7, 2, 1]⟩) demo_even4.2.2.2.reach (by decide) rfl).1

/-! ## A stale proof context -/

/-- A network type is made while the validator is `[11]`, who is replaced by `[10]`, as it was at the beginning, in the same block. -/
def stale : Chain := demoBlock demo1 [.setValidators [[11]], .openNet [7] [0] (some [50]), .setValidators [[10]]]

/-- The condition of `C73_current` is needed: a block that makes a network type with other validators and ends with those of its beginning leaves the proof context of the others (`btp.go:769-785` compares only the
ends).  No later block corrects it unless the validators or their keys change. -/
theorem C73_stale : Reach demoEnv stale ∧ stale.validators = [[10]] ∧ stale.s.keys [10] [1] = some [100] ∧ (stale.s.nws 1).map NW.isOpen = some true ∧ stale.map 1 = some (some [some [111]]) ∧
    (demoBlock stale [.send [50] 1 [1]]).map 1 = some (some [some [111]]) := by
  refine ⟨demo_step demo_even4.1.reach _ ?_, by decide, by decide, by decide, by decide, by decide⟩
  intro x hx
  simp at hx
  rcases hx with rfl | rfl | rfl <;> simp only [Call.fine]

end Verif.Btp
