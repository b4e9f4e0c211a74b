import Verif.Btp.End

/-!
# BTP networks (C73): what the end of a block does, whatever the order of the maps
-/

namespace Verif.Btp

open Verif

/-- The proof context of the network type is made again at the end of the block. -/
def dirty (w : World) (k : ℕ) : Bool := w.pc k || decide (k ∈ changedTypes w) || w.inact k

/-- The networks of a type that are open. -/
def openedOf (s : Store) (k : ℕ) : List ℕ := ((s.nts k).map NT.opened).getD []

/-- The network has a section at the end of the block. -/
def touched (w : World) (n : ℕ) : Bool := w.nwMod n || (changedTypes w).any fun k => decide (n ∈ openedOf w.s k)

/-- The orders are orders of the maps at the end of the block. -/
structure Fits (w : World) (o : Order) : Prop where
  ntsUpdate : ∀ k, dirty w k = true → k ∈ o.ntsUpdate
  ntsInact : ∀ k, w.inact k = true → k ∈ o.ntsInact
  nws : o.nws.Nodup ∧ ∀ n, n ∈ o.nws ↔ touched w n = true
  entries : o.entries.Nodup ∧ ∀ n, n ∈ o.entries ↔ (touched w n = true ∨ ∃ m ∈ w.msgs, m.1 = n)
  types : o.types.Nodup ∧ ∀ k, k ∈ o.types ↔ ∃ n ∈ o.entries, ∃ nw, w.s.nws n = some nw ∧ nw.ntid = k
  appl : ∀ k, (o.appl k).Nodup ∧ ∀ n, n ∈ o.appl k ↔ touched w n = true

/-- The flag of a network that has a section. -/
def flag (w : World) (nw : NW) : NW := { nw with changed := decide (nw.last = none) || dirty w nw.ntid }

/-- The section of a network. -/
def sectionOf (w : World) (n : ℕ) (nw : NW) : NS := newNS n (flag w nw) (messagesOf w.msgs n)

/-- The unique name of the type of a network. -/
def uidOf (w : World) (nw : NW) : Bytes := ((w.s.nts nw.ntid).map NT.uid).getD []

/-- What the end of a block does. -/
structure Done (E : Env) (w w' : World) (sec : Section) : Prop where
  rest : ∃ nts2 nws2, w'.s = { w.s with nts := nts2, nws := nws2 }
  vals : w'.validators = w.validators
  msgs : w'.msgs = w.msgs
  nts : ∀ k, w'.s.nts k = (w.s.nts k).map fun nt => if dirty w k = true then renew E w.s.keys w.validators nt else nt
  nws : ∀ n, w'.s.nws n = (w.s.nws n).map fun nw => if touched w n = true then chained ((sectionOf w n nw).hash E (uidOf w nw)) (flag w nw) else nw
  ok : ∀ k nt, w.s.nts k = some nt → dirty w k = true → nt.opened ≠ [] → expected E w.s.keys w.validators nt.uid ≠ none
  sorted : sec.types.Pairwise (fun x y => x.ntid < y.ntid)
  typed : ∀ t ∈ sec.types, t.sections ≠ [] ∧ ∃ nt, w'.s.nts t.ntid = some nt ∧ t.uid = nt.uid ∧ t.ctx = nt.ctx
  all : ∀ n nw, touched w n = true → w.s.nws n = some nw → ∃ t ∈ sec.types, t.ntid = nw.ntid
  sections : ∀ t ∈ sec.types, ∀ x, x ∈ t.sections ↔ ∃ n nw, touched w n = true ∧ w.s.nws n = some nw ∧ nw.ntid = t.ntid ∧ x = sectionOf w n nw
  secSorted : ∀ t ∈ sec.types, t.sections.Pairwise (fun x y => x.nid < y.nid)
  changed : ∀ t ∈ sec.types, t.changed = true ↔ ∃ x ∈ t.sections, x.changed = true
  inact : ∀ k, k ∈ sec.inactivated ↔ w.inact k = true

theorem find_sorted {l : List NS} (hs : l.Pairwise (fun x y => x.nid < y.nid)) {x : NS} (hx : x ∈ l) : (l.find? fun n => n.nid == x.nid) = some x := by
  induction l with
  | nil => cases hx
  | cons a r ih =>
    rw [List.pairwise_cons] at hs
    rcases List.mem_cons.1 hx with rfl | hr
    · simp
    · rw [List.find?_cons]
      have : (a.nid == x.nid) = false := by
        have := hs.1 x hr
        simp; omega
      rw [this]
      exact ih hs.2 hr

theorem touched_iff (w : World) (n : ℕ) : touched w n = true ↔ w.nwMod n = true ∨ ∃ k ∈ changedTypes w, ∃ nt, w.s.nts k = some nt ∧ n ∈ nt.opened := by
  unfold touched openedOf
  rw [Bool.or_eq_true, List.any_eq_true]
  refine or_congr Iff.rfl (exists_congr fun k => and_congr Iff.rfl ?_)
  rw [decide_eq_true_eq]
  cases w.s.nts k with
  | none => simp
  | some nt => simp

theorem finish_done {E : Env} {s0 : Store} {w w' : World} {sec : Section} {o : Order} (h : Mid E s0 w) (hf : Fits w o) (he : finish E o w = some (w', sec)) : Done E w w' sec := by
  unfold finish prepare at he
  cases hm : markTypes w (changedTypes w) with
  | none => rw [hm] at he; cases he
  | some w1 =>
    rw [hm, Option.bind_some] at he
    obtain ⟨pc1, nm1, e1, hpc, hnm⟩ := markTypes_spec _ hm
    have hdirty : ∀ k, (pc1 k || w.inact k) = dirty w k := by
      intro k
      unfold dirty
      congr 1
      rw [Bool.eq_iff_iff, hpc k]
      simp
    have htouch : ∀ n, nm1 n = touched w n := by
      intro n
      rw [Bool.eq_iff_iff, hnm n, touched_iff]
    cases hu : updateNts E w1 o.ntsUpdate with
    | none => rw [hu] at he; cases he
    | some w2 =>
      rw [hu, Option.bind_some] at he
      obtain ⟨nts2, e2, hn2, hx2⟩ := updateNts_spec _ hu
      cases hv : updateNws w2 o.nws with
      | none => rw [hv] at he; cases he
      | some w3 =>
        rw [hv, Option.bind_some] at he
        obtain ⟨nws3, e3, hw3⟩ := updateNws_spec _ hv
        cases hc : collect w3 o.entries ⟨fun _ => [], fun _ => false⟩ with
        | none => rw [hc] at he; cases he
        | some a =>
          rw [hc, Option.bind_some] at he
          obtain ⟨c1, c2, c3⟩ := collect_spec _ hc
          cases ht : collectTypes w3 a o.types [] with
          | none => rw [ht] at he; cases he
          | some l =>
            rw [ht, Option.bind_some, Option.some.injEq, Prod.mk.injEq] at he
            obtain ⟨ew, es⟩ := he
            obtain ⟨t1, t2⟩ := collectTypes_spec _ ht
            obtain ⟨nws4, e4, a1, a2⟩ := applySection_spec E o.appl (fun k => (hf.appl k).1) l w3
            rw [e4] at ew
            subst e1; subst e2; subst e3
            dsimp only at hn2 hx2 hw3 c1 c2 c3 t1 t2 a1 a2 e4 ew es
            -- the state of network types
            have nts' : ∀ k, nts2 k = (w.s.nts k).map fun nt => if dirty w k = true then renew E w.s.keys w.validators nt else nt := by
              intro k
              rw [hn2]
              congr 1
              funext nt
              rw [hdirty]
              by_cases hd : dirty w k = true
              · rw [if_pos ⟨hf.ntsUpdate k hd, hd⟩, if_pos hd]
              · rw [if_neg (fun q => hd q.2), if_neg hd]
            have nws' : ∀ n, nws3 n = (w.s.nws n).map fun nw => if touched w n = true then flag w nw else nw := by
              intro n
              rw [hw3]
              congr 1
              funext nw
              by_cases hd : touched w n = true
              · rw [if_pos ((hf.nws.2 n).2 hd), if_pos hd]
                unfold flagged flag
                rw [Bool.or_assoc, hdirty]
              · rw [if_neg (fun q => hd ((hf.nws.2 n).1 q)), if_neg hd]
            -- all entries are touched
            have hent : ∀ n, n ∈ o.entries ↔ touched w n = true := by
              intro n
              rw [hf.entries.2]
              refine ⟨?_, Or.inl⟩
              rintro (q | ⟨m, q1, q2⟩)
              · exact q
              · rw [touched_iff]; exact Or.inl (q2 ▸ h.msgMod m q1)
            have hsec : ∀ k x, x ∈ a.map k ↔ ∃ n nw, touched w n = true ∧ w.s.nws n = some nw ∧ nw.ntid = k ∧ x = sectionOf w n nw := by
              intro k x
              rw [c1]
              constructor
              · rintro (q | ⟨n, q1, nw, q2, q3, q4⟩)
                · cases q
                · rw [nws'] at q2
                  have q1' := (hent n).1 q1
                  cases hn : w.s.nws n with
                  | none => rw [hn] at q2; cases q2
                  | some nw0 =>
                    rw [hn, Option.map_some, if_pos q1', Option.some.injEq] at q2
                    subst q2
                    exact ⟨n, nw0, q1', hn, q3, q4⟩
              · rintro ⟨n, nw, q1, q2, q3, q4⟩
                refine Or.inr ⟨n, (hent n).2 q1, flag w nw, ?_, q3, q4⟩
                rw [nws', q2, Option.map_some, if_pos q1]
            have hso : ∀ k, (a.map k).Pairwise (fun x y => x.nid < y.nid) := c3 hf.entries.1 (by simp) (by simp)
            have htypes : ∀ k, k ∈ o.types ↔ ∃ n nw, touched w n = true ∧ w.s.nws n = some nw ∧ nw.ntid = k := by
              intro k
              rw [hf.types.2]
              constructor
              · rintro ⟨n, q1, nw, q2, q3⟩; exact ⟨n, nw, (hent n).1 q1, q2, q3⟩
              · rintro ⟨n, nw, q1, q2, q3⟩; exact ⟨n, (hent n).2 q1, nw, q2, q3⟩
            have hl : ∀ t, t ∈ l ↔ ∃ k ∈ o.types, ∃ nt, nts2 k = some nt ∧ t = ⟨k, nt.uid, nt.ctx, a.map k, a.changed k⟩ := by
              intro t; rw [t1]; simp
            have hsf : ∀ t ∈ l, ∀ n x, sectionFor t n = some x ↔ ∃ nw, touched w n = true ∧ w.s.nws n = some nw ∧ nw.ntid = t.ntid ∧ x = sectionOf w n nw := by
              intro t htl n x
              obtain ⟨k, hk, nt, hnt, rfl⟩ := (hl t).1 htl
              unfold sectionFor
              dsimp only
              constructor
              · intro q
                have q1 := List.mem_of_find?_eq_some q
                have q2 := List.find?_some q
                obtain ⟨n', nw, r1, r2, r3, r4⟩ := (hsec k x).1 q1
                have : n' = n := by
                  rw [r4] at q2
                  simpa [sectionOf, newNS] using q2
                subst this
                exact ⟨nw, r1, r2, r3, r4⟩
              · rintro ⟨nw, r1, r2, r3, r4⟩
                have q1 := (hsec k x).2 ⟨n, nw, r1, r2, r3, r4⟩
                have q2 := find_sorted (hso k) q1
                have : x.nid = n := by rw [r4]; rfl
                rw [this] at q2; exact q2
            have hdis : l.Pairwise (fun t t' => ∀ n, sectionFor t n = none ∨ sectionFor t' n = none) := by
              have hso2 := t2 hf.types.1 (by simp) List.Pairwise.nil
              refine List.Pairwise.imp_of_mem ?_ hso2
              intro t t' m1 m2 hlt n
              cases q : sectionFor t n with
              | none => exact Or.inl rfl
              | some x =>
                right
                cases q' : sectionFor t' n with
                | none => rfl
                | some x' =>
                  obtain ⟨nw, _, r1, r2, _⟩ := (hsf t m1 n x).1 q
                  obtain ⟨nw', _, r1', r2', _⟩ := (hsf t' m2 n x').1 q'
                  rw [r1] at r1'; cases r1'
                  omega
            subst ew; subst es
            refine ⟨⟨nts2, nws4, rfl⟩, rfl, rfl, nts', fun n => ?_, fun k nt hk hd => ?_, t2 hf.types.1 (by simp) List.Pairwise.nil, fun t ht' => ?_, fun n nw hn hw => ?_, fun t ht' x => ?_, fun t ht' => ?_,
              fun t ht' => ?_, fun k => ?_⟩
            · dsimp only
              by_cases hd : touched w n = true
              · cases hn : w.s.nws n with
                | none =>
                  rw [a1 n fun t ht' => by
                    cases q : sectionFor t n with
                    | none => rfl
                    | some x =>
                      obtain ⟨nw, _, r1, _⟩ := (hsf t ht' n x).1 q
                      rw [hn] at r1; cases r1]
                  rw [nws', hn]; rfl
                | some nw =>
                  obtain ⟨nt, hnt⟩ := h.good.typed n nw hn
                  obtain ⟨nt2, hnt2⟩ : ∃ nt2, nts2 nw.ntid = some nt2 ∧ nt2.uid = nt.uid := by
                    rw [nts', hnt, Option.map_some]
                    refine ⟨_, rfl, ?_⟩
                    split_ifs <;> rfl
                  have ht0 := (hl _).2 ⟨nw.ntid, (htypes _).2 ⟨n, nw, hd, hn, rfl⟩, nt2, hnt2.1, rfl⟩
                  have := a2 hdis _ ht0 n (sectionOf w n nw) ((hsf _ ht0 n _).2 ⟨nw, hd, hn, rfl, rfl⟩) (((hf.appl _).2 n).2 hd)
                  rw [this, nws', hn, Option.map_some, Option.map_some, Option.map_some, if_pos hd, if_pos hd]
                  dsimp only
                  unfold uidOf
                  rw [hnt, hnt2.2]; rfl
              · rw [a1 n fun t ht' => by
                  cases q : sectionFor t n with
                  | none => rfl
                  | some x =>
                    obtain ⟨nw, r1, _⟩ := (hsf t ht' n x).1 q
                    exact absurd r1 hd]
                rw [nws']
                congr 1
                funext nw
                rw [if_neg hd, if_neg hd]
            · exact hx2 k nt hk (hf.ntsUpdate k hd) (by rw [hdirty]; exact hd)
            · obtain ⟨k, hk, nt, hnt, rfl⟩ := (hl t).1 ht'
              refine ⟨?_, nt, hnt, rfl, rfl⟩
              obtain ⟨n, nw, q1, q2, q3⟩ := (htypes k).1 hk
              intro e
              have := (hsec k _).2 ⟨n, nw, q1, q2, q3, rfl⟩
              dsimp only at e
              rw [e] at this; cases this
            · obtain ⟨nt, hnt⟩ := h.good.typed n nw hw
              have : ∃ nt2, nts2 nw.ntid = some nt2 := by rw [nts', hnt]; exact ⟨_, rfl⟩
              obtain ⟨nt2, hnt2⟩ := this
              exact ⟨_, (hl _).2 ⟨nw.ntid, (htypes _).2 ⟨n, nw, hn, hw, rfl⟩, nt2, hnt2, rfl⟩, rfl⟩
            · obtain ⟨k, hk, nt, hnt, rfl⟩ := (hl t).1 ht'
              exact hsec k x
            · obtain ⟨k, hk, nt, hnt, rfl⟩ := (hl t).1 ht'
              exact hso k
            · obtain ⟨k, hk, nt, hnt, rfl⟩ := (hl t).1 ht'
              dsimp only
              rw [c2]
              constructor
              · rintro (q | ⟨n, q1, nw, q2, q3, q4⟩)
                · cases q
                · exact ⟨_, (c1 k _).2 (Or.inr ⟨n, q1, nw, q2, q3, rfl⟩), q4⟩
              · rintro ⟨x, q1, q2⟩
                rcases (c1 k x).1 q1 with q | ⟨n, r1, nw, r2, r3, r4⟩
                · cases q
                · exact Or.inr ⟨n, r1, nw, r2, r3, r4 ▸ q2⟩
            · dsimp only
              rw [List.mem_filter]
              exact ⟨fun q => q.2, fun q => ⟨hf.ntsInact k q, q⟩⟩

/-- The end of a block does not fail. -/
theorem finish_some {E : Env} {s0 : Store} {w : World} {o : Order} (h : Mid E s0 w) (hf : Fits w o)
    (hk : ∀ k ∈ changedTypes w, ∃ nt, w.s.nts k = some nt)
    (hx : ∀ k nt, w.s.nts k = some nt → expected E w.s.keys w.validators nt.uid ≠ none) : ∃ p, finish E o w = some p := by
  unfold finish prepare
  obtain ⟨w1, hm⟩ := markTypes_some (changedTypes w) hk
  rw [hm, Option.bind_some]
  obtain ⟨pc1, nm1, e1, hpc, hnm⟩ := markTypes_spec _ hm
  subst e1
  have hpcEx : ∀ k, pc1 k = true → ∃ nt, w.s.nts k = some nt := by
    intro k q
    rcases (hpc k).1 q with q | q
    · obtain ⟨nt, q, _⟩ := h.pcOpen k q; exact ⟨nt, q⟩
    · exact hk k q
  obtain ⟨w2, hu⟩ := updateNts_some (E := E) o.ntsUpdate (w := { w with pc := pc1, nwMod := nm1 }) (by
    intro k _ hd
    dsimp only at hd ⊢
    have : ∃ nt, w.s.nts k = some nt := by
      rcases (show pc1 k = true ∨ w.inact k = true by simpa using hd) with q | q
      · exact hpcEx k q
      · obtain ⟨nt, q, _⟩ := h.inact k q; exact ⟨nt, q⟩
    obtain ⟨nt, q⟩ := this
    exact ⟨nt, q, fun _ => hx k nt q⟩)
  rw [hu, Option.bind_some]
  obtain ⟨nts2, e2, hn2, _⟩ := updateNts_spec _ hu
  subst e2
  have tEx : ∀ n, touched w n = true → ∃ nw, w.s.nws n = some nw := by
    intro n q
    rcases (touched_iff w n).1 q with q | ⟨k, _, nt, q1, q2⟩
    · exact h.modEx n q
    · obtain ⟨nw, q, _⟩ := (h.good.opened k nt q1 n).1 q2; exact ⟨nw, q⟩
  obtain ⟨w3, hv⟩ := updateNws_some o.nws (w := { { w with pc := pc1, nwMod := nm1 } with s := { w.s with nts := nts2 } }) (fun n hn => tEx n ((hf.nws.2 n).1 hn))
  rw [hv, Option.bind_some]
  obtain ⟨nws3, e3, hw3⟩ := updateNws_spec _ hv
  subst e3
  have ntEx : ∀ k nt, w.s.nts k = some nt → ∃ nt2, nts2 k = some nt2 := by
    intro k nt q
    rw [hn2]; dsimp only; rw [q]; exact ⟨_, rfl⟩
  obtain ⟨a, hc⟩ := collect_some (w := { { { w with pc := pc1, nwMod := nm1 } with s := { w.s with nts := nts2 } } with s := { { w.s with nts := nts2 } with nws := nws3 } }) o.entries (by
    intro n hn
    have : touched w n = true := by
      rcases (hf.entries.2 n).1 hn with q | ⟨m, q1, q2⟩
      · exact q
      · rw [touched_iff]; exact Or.inl (q2 ▸ h.msgMod m q1)
    obtain ⟨nw, q⟩ := tEx n this
    dsimp only
    rw [hw3]
    dsimp only
    rw [q, Option.map_some]
    refine ⟨_, rfl, ?_⟩
    obtain ⟨nt, q'⟩ := h.good.typed n nw q
    have : (if n ∈ o.nws then flagged pc1 w.inact nw else nw).ntid = nw.ntid := by split_ifs <;> rfl
    rw [this]
    exact ntEx _ nt q') ⟨fun _ => [], fun _ => false⟩
  rw [hc, Option.bind_some]
  obtain ⟨l, ht⟩ := collectTypes_some (w := { { { w with pc := pc1, nwMod := nm1 } with s := { w.s with nts := nts2 } } with s := { { w.s with nts := nts2 } with nws := nws3 } }) (a := a) o.types (by
    intro k hk'
    obtain ⟨n, _, nw, q, q2⟩ := (hf.types.2 k).1 hk'
    obtain ⟨nt, q'⟩ := h.good.typed n nw q
    rw [q2] at q'
    exact ntEx k nt q') []
  rw [ht, Option.bind_some]
  exact ⟨_, rfl⟩

end Verif.Btp
