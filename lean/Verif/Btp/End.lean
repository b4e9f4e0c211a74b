import Verif.Btp.Mid

/-!
# BTP networks (C73): the end of a block
-/

namespace Verif.Btp

open Verif

/-! ## Marks -/

theorem markTypes_spec (l : List ℕ) : ∀ {w w1 : World}, markTypes w l = some w1 → ∃ pc1 nm1, w1 = { w with pc := pc1, nwMod := nm1 } ∧
    (∀ k, pc1 k = true ↔ w.pc k = true ∨ k ∈ l) ∧ (∀ n, nm1 n = true ↔ w.nwMod n = true ∨ ∃ k ∈ l, ∃ nt, w.s.nts k = some nt ∧ n ∈ nt.opened) := by
  induction l with
  | nil =>
    intro w w1 he
    rw [markTypes, Option.some.injEq] at he
    exact ⟨w.pc, w.nwMod, he.symm, by simp, by simp⟩
  | cons k r ih =>
    intro w w1 he
    rw [markTypes] at he
    cases hk : w.s.nts k with
    | none => rw [hk] at he; cases he
    | some nt =>
      rw [hk] at he
      dsimp only at he
      obtain ⟨pc1, nm1, e, h1, h2⟩ := ih he
      refine ⟨pc1, nm1, e, fun k' => ?_, fun n => ?_⟩
      · rw [h1]
        by_cases hx : k' = k
        · subst hx; simp [put_self]
        · simp [put_ne _ _ hx, hx]
      · rw [h2]
        dsimp only
        by_cases hx : n ∈ nt.opened
        · rw [if_pos hx]
          refine iff_of_true (Or.inl rfl) (Or.inr ⟨k, by simp, nt, hk, hx⟩)
        · rw [if_neg hx]
          constructor
          · rintro (q | ⟨k', q1, q2⟩)
            · exact Or.inl q
            · exact Or.inr ⟨k', List.mem_cons_of_mem _ q1, q2⟩
          · rintro (q | ⟨k', q1, q2⟩)
            · exact Or.inl q
            · rcases List.mem_cons.1 q1 with rfl | q1
              · obtain ⟨nt', e1, e2⟩ := q2
                rw [hk] at e1; cases e1; exact absurd e2 hx
              · exact Or.inr ⟨k', q1, q2⟩

theorem markTypes_some (l : List ℕ) : ∀ {w : World}, (∀ k ∈ l, ∃ nt, w.s.nts k = some nt) → ∃ w1, markTypes w l = some w1 := by
  induction l with
  | nil => intro w _; exact ⟨w, rfl⟩
  | cons k r ih =>
    intro w h
    obtain ⟨nt, hk⟩ := h k (by simp)
    rw [markTypes, hk]
    exact ih fun k' hk' => h k' (List.mem_cons_of_mem _ hk')

/-! ## Network types -/

/-- The proof context that the keys of validators give for a network type. -/
def expected (E : Env) (keys : Addr → Bytes → Option Bytes) (vs : List Addr) (uid : Bytes) : Option Ctx :=
  (E.dsaOf uid).bind fun dsa => newCtx E uid (vs.map fun v => (keys v dsa).bind (E.typeKey uid))

/-- A network type after its update. -/
def renew (E : Env) (keys : Addr → Bytes → Option Bytes) (vs : List Addr) (nt : NT) : NT := { nt with ctx := if nt.opened = [] then none else expected E keys vs nt.uid }

theorem renew_renew (E : Env) (keys : Addr → Bytes → Option Bytes) (vs : List Addr) (nt : NT) : renew E keys vs (renew E keys vs nt) = renew E keys vs nt := rfl

theorem updateNt_spec {E : Env} {w w1 : World} {k : ℕ} (he : updateNt E w k = some w1) :
    ∃ nt, w.s.nts k = some nt ∧ w1 = { w with s := { w.s with nts := put w.s.nts k (some (renew E w.s.keys w.validators nt)) } } ∧
      (nt.opened ≠ [] → expected E w.s.keys w.validators nt.uid ≠ none) := by
  unfold updateNt at he
  cases hk : w.s.nts k with
  | none => rw [hk] at he; cases he
  | some nt =>
    rw [hk] at he
    dsimp only at he
    refine ⟨nt, rfl, ?_⟩
    unfold renew
    by_cases ho : nt.opened = []
    · rw [if_pos ho, Option.some.injEq] at he
      rw [if_pos ho]
      exact ⟨he.symm, fun q => absurd ho q⟩
    · rw [if_neg ho] at he
      rw [if_neg ho]
      unfold expected
      cases hd : E.dsaOf nt.uid with
      | none => rw [hd] at he; cases he
      | some dsa =>
        rw [hd] at he
        dsimp only at he
        rw [Option.bind_some]
        unfold keysOf at he
        cases hc : newCtx E nt.uid (w.validators.map fun v => (w.s.keys v dsa).bind (E.typeKey nt.uid)) with
        | none => rw [hc] at he; cases he
        | some c =>
          rw [hc] at he
          dsimp only at he
          rw [Option.some.injEq] at he
          exact ⟨he.symm, fun _ q => by cases q⟩

theorem updateNts_spec {E : Env} (l : List ℕ) : ∀ {w w2 : World}, updateNts E w l = some w2 → ∃ nts2, w2 = { w with s := { w.s with nts := nts2 } } ∧
    (∀ k, nts2 k = (w.s.nts k).map fun nt => if k ∈ l ∧ (w.pc k || w.inact k) = true then renew E w.s.keys w.validators nt else nt) ∧
    (∀ k nt, w.s.nts k = some nt → k ∈ l → (w.pc k || w.inact k) = true → nt.opened ≠ [] → expected E w.s.keys w.validators nt.uid ≠ none) := by
  induction l with
  | nil =>
    intro w w2 he
    rw [updateNts, Option.some.injEq] at he
    exact ⟨w.s.nts, he.symm, fun k => by simp, fun k nt _ hk => by cases hk⟩
  | cons k r ih =>
    intro w w2 he
    rw [updateNts] at he
    by_cases hd : (w.pc k || w.inact k) = true
    · rw [if_pos hd] at he
      cases h1 : updateNt E w k with
      | none => rw [h1] at he; cases he
      | some w1 =>
        rw [h1, Option.bind_some] at he
        obtain ⟨nt, hk, e1, h3⟩ := updateNt_spec h1
        subst e1
        obtain ⟨nts2, e2, h4, h5⟩ := ih he
        refine ⟨nts2, e2, fun k' => ?_, fun k' nt' hk' hm hd' ho => ?_⟩
        · rw [h4]
          dsimp only
          by_cases hx : k' = k
          · subst hx
            rw [put_self, hk, Option.map_some, Option.map_some]
            rw [if_pos (show k' ∈ k' :: r ∧ (w.pc k' || w.inact k') = true from ⟨List.mem_cons_self, hd⟩)]
            by_cases hz : k' ∈ r ∧ (w.pc k' || w.inact k') = true
            · rw [if_pos hz, renew_renew]
            · rw [if_neg hz]
          · rw [put_ne _ _ hx]
            congr 1
            funext nt'
            simp [hx]
        · by_cases hx : k' = k
          · subst hx
            rw [hk] at hk'; cases hk'; exact h3 ho
          · refine h5 k' nt' ?_ ?_ hd' ho
            · dsimp only; rw [put_ne _ _ hx]; exact hk'
            · rcases List.mem_cons.1 hm with q | q
              · exact absurd q hx
              · exact q
    · rw [if_neg hd] at he
      obtain ⟨nts2, e2, h4, h5⟩ := ih he
      refine ⟨nts2, e2, fun k' => ?_, fun k' nt' hk' hm hd' ho => ?_⟩
      · rw [h4]
        congr 1
        funext nt'
        by_cases hx : k' = k
        · subst hx
          rw [if_neg (fun q => hd q.2), if_neg (fun q => hd q.2)]
        · simp [hx]
      · rcases List.mem_cons.1 hm with q | q
        · subst q; exact absurd hd' hd
        · exact h5 k' nt' hk' q hd' ho

theorem updateNts_some {E : Env} (l : List ℕ) : ∀ {w : World},
    (∀ k ∈ l, (w.pc k || w.inact k) = true → ∃ nt, w.s.nts k = some nt ∧ (nt.opened ≠ [] → expected E w.s.keys w.validators nt.uid ≠ none)) → ∃ w2, updateNts E w l = some w2 := by
  induction l with
  | nil => intro w _; exact ⟨w, rfl⟩
  | cons k r ih =>
    intro w h
    rw [updateNts]
    by_cases hd : (w.pc k || w.inact k) = true
    · rw [if_pos hd]
      obtain ⟨nt, hk, hx⟩ := h k (by simp) hd
      have : ∃ w1, updateNt E w k = some w1 := by
        unfold updateNt
        rw [hk]
        dsimp only
        by_cases ho : nt.opened = []
        · rw [if_pos ho]; exact ⟨_, rfl⟩
        · rw [if_neg ho]
          have h2 := hx ho
          unfold expected at h2
          unfold keysOf
          cases hdd : E.dsaOf nt.uid with
          | none => rw [hdd] at h2; exact absurd rfl h2
          | some dsa =>
            rw [hdd, Option.bind_some] at h2
            dsimp only
            cases hc : newCtx E nt.uid (w.validators.map fun v => (w.s.keys v dsa).bind (E.typeKey nt.uid)) with
            | none => exact absurd hc h2
            | some c => exact ⟨_, rfl⟩
      obtain ⟨w1, h1⟩ := this
      rw [h1, Option.bind_some]
      obtain ⟨nt', hk', e1, _⟩ := updateNt_spec h1
      subst e1
      apply ih
      intro k' hm hd'
      obtain ⟨nt2, e, hx2⟩ := h k' (List.mem_cons_of_mem _ hm) hd'
      dsimp only
      by_cases hy : k' = k
      · subst hy
        rw [put_self]
        rw [hk'] at e; cases e
        exact ⟨_, rfl, hx2⟩
      · rw [put_ne _ _ hy]; exact ⟨nt2, e, hx2⟩
    · rw [if_neg hd]
      exact ih fun k' hm hd' => h k' (List.mem_cons_of_mem _ hm) hd'

/-! ## Networks -/

/-- A network after `updateNetwork`. -/
def flagged (pc inact : ℕ → Bool) (nw : NW) : NW := { nw with changed := decide (nw.last = none) || pc nw.ntid || inact nw.ntid }

theorem updateNws_spec (l : List ℕ) : ∀ {w w2 : World}, updateNws w l = some w2 → ∃ nws2, w2 = { w with s := { w.s with nws := nws2 } } ∧
    ∀ n, nws2 n = (w.s.nws n).map fun nw => if n ∈ l then flagged w.pc w.inact nw else nw := by
  induction l with
  | nil =>
    intro w w2 he
    rw [updateNws, Option.some.injEq] at he
    exact ⟨w.s.nws, he.symm, fun n => by simp⟩
  | cons n r ih =>
    intro w w2 he
    rw [updateNws] at he
    unfold updateNw at he
    cases hn : w.s.nws n with
    | none => rw [hn] at he; cases he
    | some nw =>
      rw [hn] at he
      dsimp only at he
      rw [Option.bind_some] at he
      obtain ⟨nws2, e, h⟩ := ih he
      refine ⟨nws2, e, fun n' => ?_⟩
      rw [h]
      dsimp only
      by_cases hx : n' = n
      · subst hx
        rw [put_self, hn, Option.map_some, Option.map_some, if_pos List.mem_cons_self]
        by_cases hz : n' ∈ r
        · rw [if_pos hz]; rfl
        · rw [if_neg hz]; rfl
      · rw [put_ne _ _ hx]
        congr 1
        funext nw'
        simp [hx]

theorem updateNws_some (l : List ℕ) : ∀ {w : World}, (∀ n ∈ l, ∃ nw, w.s.nws n = some nw) → ∃ w2, updateNws w l = some w2 := by
  induction l with
  | nil => intro w _; exact ⟨w, rfl⟩
  | cons n r ih =>
    intro w h
    rw [updateNws]
    unfold updateNw
    obtain ⟨nw, hn⟩ := h n (by simp)
    rw [hn]
    dsimp only
    rw [Option.bind_some]
    apply ih
    intro n' hm
    dsimp only
    by_cases hx : n' = n
    · rw [hx, put_self]; exact ⟨_, rfl⟩
    · rw [put_ne _ _ hx]; exact h n' (List.mem_cons_of_mem _ hm)

/-! ## Sorted lists -/

theorem mem_sortedInsert {α : Type} (id : α → ℕ) (l : List α) (x y : α) : y ∈ sortedInsert id l x ↔ y = x ∨ y ∈ l := by
  unfold sortedInsert
  rw [List.mem_append, List.mem_cons]
  conv_rhs => rw [← List.takeWhile_append_dropWhile (p := fun y => decide (id y < id x)) (l := l), List.mem_append]
  tauto

theorem sorted_sortedInsert {α : Type} (id : α → ℕ) (l : List α) (x : α) (hs : l.Pairwise (fun a b => id a < id b)) (hx : ∀ y ∈ l, id y ≠ id x) :
    (sortedInsert id l x).Pairwise (fun a b => id a < id b) := by
  induction l with
  | nil => simp [sortedInsert]
  | cons a r ih =>
    unfold sortedInsert
    rw [List.takeWhile_cons, List.dropWhile_cons]
    by_cases ha : id a < id x
    · rw [if_pos (by simpa using ha), if_pos (by simpa using ha), List.cons_append]
      have h2 := ih (List.pairwise_cons.1 hs).2 fun y hy => hx y (List.mem_cons_of_mem _ hy)
      rw [List.pairwise_cons]
      refine ⟨fun b hb => ?_, h2⟩
      have := (mem_sortedInsert id r x b).1 hb
      rcases this with rfl | hb
      · exact ha
      · exact (List.pairwise_cons.1 hs).1 b hb
    · rw [if_neg (by simpa using ha), if_neg (by simpa using ha), List.nil_append, List.pairwise_cons]
      refine ⟨fun b hb => ?_, hs⟩
      have h0 := hx a (by simp)
      rcases List.mem_cons.1 hb with rfl | hb
      · omega
      · have := (List.pairwise_cons.1 hs).1 b hb; omega

/-! ## Building -/

theorem collect_spec {w : World} (l : List ℕ) : ∀ {a a' : Acc}, collect w l a = some a' →
    (∀ k x, x ∈ a'.map k ↔ x ∈ a.map k ∨ ∃ n ∈ l, ∃ nw, w.s.nws n = some nw ∧ nw.ntid = k ∧ x = newNS n nw (messagesOf w.msgs n)) ∧
    (∀ k, a'.changed k = true ↔ a.changed k = true ∨ ∃ n ∈ l, ∃ nw, w.s.nws n = some nw ∧ nw.ntid = k ∧ (newNS n nw (messagesOf w.msgs n)).changed = true) ∧
    (l.Nodup → (∀ k x, x ∈ a.map k → x.nid ∉ l) → (∀ k, (a.map k).Pairwise (fun x y => x.nid < y.nid)) → ∀ k, (a'.map k).Pairwise (fun x y => x.nid < y.nid)) := by
  induction l with
  | nil =>
    intro a a' he
    rw [collect, Option.some.injEq] at he
    subst he
    exact ⟨by simp, by simp, fun _ _ h => h⟩
  | cons n r ih =>
    intro a a' he
    rw [collect] at he
    cases hn : w.s.nws n with
    | none => rw [hn] at he; cases he
    | some nw =>
      rw [hn] at he
      dsimp only at he
      cases ht : w.s.nts nw.ntid with
      | none => rw [ht] at he; cases he
      | some nt =>
        rw [ht] at he
        dsimp only at he
        obtain ⟨h1, h2, h3⟩ := ih he
        refine ⟨fun k x => ?_, fun k => ?_, fun hnd hfr hso => ?_⟩
        · rw [h1]
          dsimp only
          have : x ∈ put a.map nw.ntid (sortedInsert NS.nid (a.map nw.ntid) (newNS n nw (messagesOf w.msgs n))) k ↔
              x ∈ a.map k ∨ (nw.ntid = k ∧ x = newNS n nw (messagesOf w.msgs n)) := by
            by_cases hx : k = nw.ntid
            · subst hx; rw [put_self, mem_sortedInsert]; tauto
            · rw [put_ne _ _ hx]
              have : ¬ nw.ntid = k := fun q => hx q.symm
              tauto
          rw [this]
          constructor
          · rintro ((q | q) | ⟨n', q1, q2⟩)
            · exact Or.inl q
            · exact Or.inr ⟨n, List.mem_cons_self, nw, hn, q⟩
            · exact Or.inr ⟨n', List.mem_cons_of_mem _ q1, q2⟩
          · rintro (q | ⟨n', q1, nw', q2, q3⟩)
            · exact Or.inl (Or.inl q)
            · rcases List.mem_cons.1 q1 with rfl | q1
              · rw [hn] at q2; cases q2; exact Or.inl (Or.inr q3)
              · exact Or.inr ⟨n', q1, nw', q2, q3⟩
        · rw [h2]
          dsimp only
          have : (if (newNS n nw (messagesOf w.msgs n)).changed then put a.changed nw.ntid true else a.changed) k = true ↔
              a.changed k = true ∨ (nw.ntid = k ∧ (newNS n nw (messagesOf w.msgs n)).changed = true) := by
            by_cases hc : (newNS n nw (messagesOf w.msgs n)).changed = true
            · rw [if_pos hc]
              by_cases hx : k = nw.ntid
              · subst hx; rw [put_self]; simp [hc]
              · rw [put_ne _ _ hx]
                have : ¬ nw.ntid = k := fun q => hx q.symm
                tauto
            · rw [if_neg hc]; tauto
          rw [this]
          constructor
          · rintro ((q | q) | ⟨n', q1, q2⟩)
            · exact Or.inl q
            · exact Or.inr ⟨n, List.mem_cons_self, nw, hn, q⟩
            · exact Or.inr ⟨n', List.mem_cons_of_mem _ q1, q2⟩
          · rintro (q | ⟨n', q1, nw', q2, q3⟩)
            · exact Or.inl (Or.inl q)
            · rcases List.mem_cons.1 q1 with rfl | q1
              · rw [hn] at q2; cases q2; exact Or.inl (Or.inr q3)
              · exact Or.inr ⟨n', q1, nw', q2, q3⟩
        · rw [List.nodup_cons] at hnd
          refine h3 hnd.2 (fun k x hx => ?_) fun k => ?_
          · dsimp only at hx
            by_cases hz : k = nw.ntid
            · subst hz
              rw [put_self, mem_sortedInsert] at hx
              rcases hx with rfl | hx
              · exact hnd.1
              · exact fun q => hfr _ x hx (List.mem_cons_of_mem _ q)
            · rw [put_ne _ _ hz] at hx
              exact fun q => hfr _ x hx (List.mem_cons_of_mem _ q)
          · dsimp only
            by_cases hz : k = nw.ntid
            · subst hz
              rw [put_self]
              refine sorted_sortedInsert NS.nid _ _ (hso _) fun y hy e => hfr _ y hy ?_
              rw [e]; exact List.mem_cons_self
            · rw [put_ne _ _ hz]; exact hso k

theorem collect_some {w : World} (l : List ℕ) (h : ∀ n ∈ l, ∃ nw, w.s.nws n = some nw ∧ ∃ nt, w.s.nts nw.ntid = some nt) : ∀ a, ∃ a', collect w l a = some a' := by
  induction l with
  | nil => intro a; exact ⟨a, rfl⟩
  | cons n r ih =>
    intro a
    obtain ⟨nw, hn, nt, ht⟩ := h n (by simp)
    rw [collect, hn]
    dsimp only
    rw [ht]
    exact ih (fun n' hm => h n' (List.mem_cons_of_mem _ hm)) _

theorem collectTypes_spec {w : World} {a : Acc} (l : List ℕ) : ∀ {t t' : List NTS}, collectTypes w a l t = some t' →
    (∀ x, x ∈ t' ↔ x ∈ t ∨ ∃ k ∈ l, ∃ nt, w.s.nts k = some nt ∧ x = ⟨k, nt.uid, nt.ctx, a.map k, a.changed k⟩) ∧
    (l.Nodup → (∀ x ∈ t, x.ntid ∉ l) → t.Pairwise (fun x y => x.ntid < y.ntid) → t'.Pairwise (fun x y => x.ntid < y.ntid)) := by
  induction l with
  | nil =>
    intro t t' he
    rw [collectTypes, Option.some.injEq] at he
    subst he
    exact ⟨by simp, fun _ _ h => h⟩
  | cons k r ih =>
    intro t t' he
    rw [collectTypes] at he
    cases ht : w.s.nts k with
    | none => rw [ht] at he; cases he
    | some nt =>
      rw [ht] at he
      dsimp only at he
      obtain ⟨h1, h2⟩ := ih he
      refine ⟨fun x => ?_, fun hnd hfr hso => ?_⟩
      · rw [h1, mem_sortedInsert]
        constructor
        · rintro ((q | q) | ⟨n', q1, q2⟩)
          · exact Or.inr ⟨k, List.mem_cons_self, nt, ht, q⟩
          · exact Or.inl q
          · exact Or.inr ⟨n', List.mem_cons_of_mem _ q1, q2⟩
        · rintro (q | ⟨n', q1, nw', q2, q3⟩)
          · exact Or.inl (Or.inr q)
          · rcases List.mem_cons.1 q1 with rfl | q1
            · rw [ht] at q2; cases q2; exact Or.inl (Or.inl q3)
            · exact Or.inr ⟨n', q1, nw', q2, q3⟩
      · rw [List.nodup_cons] at hnd
        refine h2 hnd.2 (fun x hx => ?_) ?_
        · rw [mem_sortedInsert] at hx
          rcases hx with rfl | hx
          · exact hnd.1
          · exact fun q => hfr x hx (List.mem_cons_of_mem _ q)
        · refine sorted_sortedInsert NTS.ntid _ _ hso fun y hy e => hfr y hy ?_
          rw [e]; exact List.mem_cons_self

theorem collectTypes_some {w : World} {a : Acc} (l : List ℕ) (h : ∀ k ∈ l, ∃ nt, w.s.nts k = some nt) : ∀ t, ∃ t', collectTypes w a l t = some t' := by
  induction l with
  | nil => intro t; exact ⟨t, rfl⟩
  | cons k r ih =>
    intro t
    obtain ⟨nt, ht⟩ := h k (by simp)
    rw [collectTypes, ht]
    exact ih (fun n' hm => h n' (List.mem_cons_of_mem _ hm)) _

/-! ## Application -/

/-- A network after `applyNetwork`. -/
def chained (hash : Bytes) (nw : NW) : NW := { nw with prev := nw.last, last := some hash }

theorem applyNw_spec (E : Env) (nts : NTS) (w : World) (nid : ℕ) : ∃ nws2, applyNw E nts w nid = { w with s := { w.s with nws := nws2 } } ∧
    (∀ n, n ≠ nid → nws2 n = w.s.nws n) ∧ (sectionFor nts nid = none → nws2 nid = w.s.nws nid) ∧
    (∀ x, sectionFor nts nid = some x → nws2 nid = (w.s.nws nid).map (chained (x.hash E nts.uid))) := by
  unfold applyNw
  cases hs : sectionFor nts nid with
  | none => exact ⟨w.s.nws, rfl, fun _ _ => rfl, fun _ => rfl, (fun x q => nomatch q)⟩
  | some x =>
    dsimp only
    cases hn : w.s.nws nid with
    | none => exact ⟨w.s.nws, rfl, fun _ _ => rfl, (fun q => nomatch q), (fun y _ => hn)⟩
    | some nw =>
      refine ⟨_, rfl, fun n hx => put_ne _ _ hx, (fun q => nomatch q), fun y q => ?_⟩
      cases q
      rw [put_self]; rfl

theorem applyNws_spec (E : Env) (nts : NTS) (l : List ℕ) : ∀ (w : World), ∃ nws2, l.foldl (applyNw E nts) w = { w with s := { w.s with nws := nws2 } } ∧
    (∀ n, n ∉ l → nws2 n = w.s.nws n) ∧ (∀ n, sectionFor nts n = none → nws2 n = w.s.nws n) ∧
    (l.Nodup → ∀ n ∈ l, ∀ x, sectionFor nts n = some x → nws2 n = (w.s.nws n).map (chained (x.hash E nts.uid))) := by
  induction l with
  | nil => intro w; exact ⟨w.s.nws, rfl, fun _ _ => rfl, fun _ _ => rfl, fun _ n hn => by cases hn⟩
  | cons m r ih =>
    intro w
    obtain ⟨nws1, e1, h1, h2, h3⟩ := applyNw_spec E nts w m
    rw [List.foldl_cons, e1]
    obtain ⟨nws2, e2, h4, h5, h6⟩ := ih { w with s := { w.s with nws := nws1 } }
    refine ⟨nws2, e2, fun n hn => ?_, fun n hn => ?_, fun hnd n hn x hx => ?_⟩
    · rw [h4 n (fun q => hn (List.mem_cons_of_mem _ q))]
      exact h1 n fun q => hn (by rw [q]; exact List.mem_cons_self)
    · rw [h5 n hn]
      by_cases hx : n = m
      · subst hx; exact h2 hn
      · exact h1 n hx
    · rw [List.nodup_cons] at hnd
      by_cases hz : n = m
      · subst hz
        rw [h4 n hnd.1]; exact h3 x hx
      · have hr : n ∈ r := by
          rcases List.mem_cons.1 hn with q | q
          · exact absurd q hz
          · exact q
        rw [h6 hnd.2 n hr x hx]
        dsimp only
        rw [h1 n hz]

theorem applySection_spec (E : Env) (ord : ℕ → List ℕ) (hord : ∀ k, (ord k).Nodup) (l : List NTS) : ∀ (w : World), ∃ nws2, applySection E ord w l = { w with s := { w.s with nws := nws2 } } ∧
    (∀ n, (∀ t ∈ l, sectionFor t n = none) → nws2 n = w.s.nws n) ∧
    (l.Pairwise (fun t t' => ∀ n, sectionFor t n = none ∨ sectionFor t' n = none) →
      ∀ t ∈ l, ∀ n x, sectionFor t n = some x → n ∈ ord t.ntid → nws2 n = (w.s.nws n).map (chained (x.hash E t.uid))) := by
  induction l with
  | nil => intro w; exact ⟨w.s.nws, rfl, fun _ _ => rfl, fun _ t ht => by cases ht⟩
  | cons t r ih =>
    intro w
    obtain ⟨nws1, e1, h1, h2, h3⟩ := applyNws_spec E t (ord t.ntid) w
    unfold applySection
    rw [List.foldl_cons, e1]
    obtain ⟨nws2, e2, h4, h5⟩ := ih { w with s := { w.s with nws := nws1 } }
    refine ⟨nws2, e2, fun n hn => ?_, fun hp t' ht' n x hx ho => ?_⟩
    · rw [h4 n fun t' ht' => hn t' (List.mem_cons_of_mem _ ht')]
      exact h2 n (hn t List.mem_cons_self)
    · rw [List.pairwise_cons] at hp
      rcases List.mem_cons.1 ht' with rfl | ht'
      · rw [h4 n fun t2 ht2 => by
          rcases hp.1 t2 ht2 n with q | q
          · rw [hx] at q; cases q
          · exact q]
        exact h3 (hord _) n ho x hx
      · rw [h5 hp.2 t' ht' n x hx ho]
        dsimp only
        rcases hp.1 t' ht' n with q | q
        · rw [h2 n q]
        · rw [hx] at q; cases q

end Verif.Btp
