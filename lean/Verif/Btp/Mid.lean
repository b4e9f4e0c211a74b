import Verif.Btp.Model

/-!
# BTP networks (C73): the state during a block
-/

namespace Verif.Btp

open Verif

/-- The variables fit together. -/
structure Good (E : Env) (s : Store) : Prop where
  ntPos : ∀ k nt, s.nts k = some nt → 1 ≤ k ∧ k ≤ s.ntCount
  nwPos : ∀ n nw, s.nws n = some nw → 1 ≤ n ∧ n ≤ s.nwCount
  nwAll : ∀ n, 1 ≤ n → n ≤ s.nwCount → ∃ nw, s.nws n = some nw
  ntUid : ∀ k nt, s.nts k = some nt → s.ntIdOf nt.uid = k ∧ ∃ dsa, E.dsaOf nt.uid = some dsa
  uidNt : ∀ uid, s.ntIdOf uid ≠ 0 → ∃ nt, s.nts (s.ntIdOf uid) = some nt ∧ nt.uid = uid
  act : ∀ k, k ∈ s.active ↔ ∃ nt, s.nts k = some nt
  nodup : ∀ k nt, s.nts k = some nt → nt.opened.Nodup
  opened : ∀ k nt, s.nts k = some nt → ∀ n, n ∈ nt.opened ↔ ∃ nw, s.nws n = some nw ∧ nw.isOpen = true ∧ nw.ntid = k
  typed : ∀ n nw, s.nws n = some nw → ∃ nt, s.nts nw.ntid = some nt

/-- The next number of a network, 0 if it is not there. -/
def sn0 (s : Store) (n : ℕ) : ℕ := ((s.nws n).map NW.sn).getD 0

/-- The hash of its last section. -/
def last0 (s : Store) (n : ℕ) : Option Bytes := (s.nws n).bind NW.last

/-- What was sent to a network. -/
def sentTo (msgs : List (ℕ × ℕ × Bytes)) (n : ℕ) : List (ℕ × ℕ × Bytes) := msgs.filter fun m => m.1 == n

/-- During a block that began with `s0`. -/
structure Mid (E : Env) (s0 : Store) (w : World) : Prop where
  good : Good E w.s
  oldNt : ∀ k nt0, s0.nts k = some nt0 → ∃ nt, w.s.nts k = some nt ∧ nt.uid = nt0.uid ∧ nt.ctx = nt0.ctx
  newNt : ∀ k nt, s0.nts k = none → w.s.nts k = some nt → nt.ctx ≠ none
  inact : ∀ k, w.inact k = true → ∃ nt, w.s.nts k = some nt ∧ nt.opened = []
  idle : ∀ k nt, w.s.nts k = some nt → nt.opened = [] → w.inact k = false →
    (∃ nt0, s0.nts k = some nt0 ∧ nt0.opened = []) ∧ ∀ n nw, w.s.nws n = some nw → nw.ntid = k → w.nwMod n = false
  pcOpen : ∀ k, w.pc k = true → ∃ nt, w.s.nts k = some nt ∧ ∀ n ∈ nt.opened, w.nwMod n = true
  wake : ∀ k nt nt0, w.s.nts k = some nt → nt.opened ≠ [] → s0.nts k = some nt0 → nt0.opened = [] → w.pc k = true
  newNw : ∀ n nw, s0.nws n = none → w.s.nws n = some nw → w.nwMod n = true
  oldNw : ∀ n nw0, s0.nws n = some nw0 → ∃ nw, w.s.nws n = some nw ∧ nw.ntid = nw0.ntid ∧ (nw.isOpen = true → nw0.isOpen = true)
  last : ∀ n nw, w.s.nws n = some nw → nw.last = last0 s0 n
  sn : ∀ n nw, w.s.nws n = some nw → nw.sn = sn0 s0 n + (sentTo w.msgs n).length
  modEx : ∀ n, w.nwMod n = true → ∃ nw, w.s.nws n = some nw
  msgMod : ∀ m ∈ w.msgs, w.nwMod m.1 = true
  sns : ∀ n, (sentTo w.msgs n).map (fun m => m.2.1) = List.range' (sn0 s0 n) (sentTo w.msgs n).length

theorem put_self {α β : Type} [DecidableEq α] (f : α → β) (k : α) (v : β) : put f k v k = v := by simp [put]

theorem put_ne {α β : Type} [DecidableEq α] (f : α → β) {k x : α} (v : β) (h : x ≠ k) : put f k v x = f x := by simp [put, h]

/-- `Mid` does not depend on keys and validators. -/
theorem Mid.other {E : Env} {s0 : Store} {w : World} (h : Mid E s0 w) (kk : Addr → Bytes → Option Bytes) (ko : Bytes → Option Addr) (km : Addr → ℕ) (ds : List Bytes) (dm : ℕ)
    (kc : Addr → List ℕ) (vs st : List Addr) (ht : ℕ) (od : Bool) :
    Mid E s0 ⟨⟨w.s.ntCount, w.s.ntIdOf, w.s.active, w.s.nts, w.s.nwCount, w.s.nws, kk, ko, km, ds, dm⟩, st, kc, w.pc, w.inact, w.nwMod, vs, ht, w.msgs, od⟩ :=
  ⟨⟨h.good.ntPos, h.good.nwPos, h.good.nwAll, h.good.ntUid, h.good.uidNt, h.good.act, h.good.nodup, h.good.opened, h.good.typed⟩,
    h.oldNt, h.newNt, h.inact, h.idle, h.pcOpen, h.wake, h.newNw, h.oldNw, h.last, h.sn, h.modEx, h.msgMod, h.sns⟩

/-! ## Opening -/

/-- The part of `Mid` that `addNet` keeps: the network type may be new. -/
theorem addNet_mid {E : Env} {s0 : Store} {w : World} (h : Mid E s0 w) (k : ℕ) (nt : NT) (name : Bytes) (owner : Option Addr) (dsa : Bytes) (hd : E.dsaOf nt.uid = some dsa)
    (tc : ℕ) (io : Bytes → ℕ) (ac : List ℕ) (dm : ℕ) (od : Bool) (hs0 : ∀ n, w.s.nwCount < n → s0.nws n = none)
    (hcase : (w.s.nts k = some nt ∧ tc = w.s.ntCount ∧ io = w.s.ntIdOf ∧ ac = w.s.active) ∨
      (w.s.nts k = none ∧ s0.nts k = none ∧ nt.opened = [] ∧ nt.ctx ≠ none ∧ k = w.s.ntCount + 1 ∧ tc = k ∧ io = put w.s.ntIdOf nt.uid k ∧ ac = w.s.active ++ [k] ∧ w.s.ntIdOf nt.uid = 0))
    (pc' : ℕ → Bool) (hpc : pc' = if nt.opened = [] ∧ w.s.nts k = some nt then put w.pc k true else w.pc) :
    Mid E s0 (addNet { w with s := { w.s with ntCount := tc, ntIdOf := io, active := ac, dsaMask := dm }, odd := od, pc := pc' } k nt name owner) := by
  obtain ⟨N, hN⟩ : ∃ N, N = w.s.nwCount + 1 := ⟨_, rfl⟩
  have hnew : w.s.nws N = none := by
    cases hc : w.s.nws N with
    | none => rfl
    | some nw => have := (h.good.nwPos N nw hc).2; omega
  have hno : ∀ k' nt', w.s.nts k' = some nt' → N ∉ nt'.opened := fun k' nt' hk hm => by
    obtain ⟨nw, e, _⟩ := (h.good.opened k' nt' hk N).1 hm
    rw [hnew] at e; cases e
  have hNm : ∀ m ∈ w.msgs, m.1 ≠ N := fun m hm e => by
    obtain ⟨nw, e'⟩ := h.modEx _ (h.msgMod m hm)
    rw [e, hnew] at e'; cases e'
  have hNs : sentTo w.msgs N = [] := by
    unfold sentTo
    rw [List.filter_eq_nil_iff]
    intro m hm
    simpa using hNm m hm
  have hkpos : 1 ≤ k := by
    rcases hcase with ⟨e, _⟩ | ⟨_, _, _, _, e, _⟩
    · exact (h.good.ntPos k nt e).1
    · omega
  have htc : w.s.ntCount ≤ tc ∧ k ≤ tc := by
    rcases hcase with ⟨e, e1, _⟩ | ⟨_, _, _, _, e, e1, _⟩
    · exact ⟨by omega, by have := (h.good.ntPos k nt e).2; omega⟩
    · omega
  have hopen : ∀ n, n ∈ nt.opened ↔ ∃ nw, w.s.nws n = some nw ∧ nw.isOpen = true ∧ nw.ntid = k := by
    rcases hcase with ⟨e, _⟩ | ⟨e, _, e2, _⟩
    · exact h.good.opened k nt e
    · intro n
      rw [e2]
      constructor
      · intro hm; cases hm
      · rintro ⟨nw, q1, q2, q3⟩
        obtain ⟨nt', q4⟩ := h.good.typed n nw q1
        rw [q3, e] at q4; cases q4
  have hnd : nt.opened.Nodup := by
    rcases hcase with ⟨e, _⟩ | ⟨e, _, e2, _⟩
    · exact h.good.nodup k nt e
    · rw [e2]; exact List.nodup_nil
  have hNn : N ∉ nt.opened := fun hm => by
    obtain ⟨nw, e, _⟩ := (hopen N).1 hm
    rw [hnew] at e; cases e
  have hk0 : ∀ k', k' ≠ k → pc' k' = w.pc k' := by
    intro k' hk'
    rw [hpc]
    split_ifs
    · exact put_ne _ _ hk'
    · rfl
  have hs0N : s0.nws N = none := hs0 N (by omega)
  have hio : ∀ uid, io uid ≠ 0 → io uid = k ∧ uid = nt.uid ∨ (io uid = w.s.ntIdOf uid ∧ w.s.ntIdOf uid ≠ 0) := by
    intro uid hu
    rcases hcase with ⟨e, _, e2, _⟩ | ⟨_, _, _, _, _, _, e2, _⟩
    · right; rw [e2] at hu ⊢; exact ⟨rfl, hu⟩
    · by_cases hx : uid = nt.uid
      · left; subst hx; rw [e2]; exact ⟨put_self _ _ _, rfl⟩
      · right; rw [e2, put_ne _ _ hx] at hu; exact ⟨by rw [e2, put_ne _ _ hx], hu⟩
  unfold addNet
  dsimp only
  rw [← hN]
  refine ⟨⟨?_, ?_, ?_, ?_, ?_, ?_, ?_, ?_, ?_⟩, ?_, ?_, ?_, ?_, ?_, ?_, ?_, ?_, ?_, ?_, ?_, ?_, ?_⟩ <;> dsimp only
  · -- ntPos
    intro k' nt' hk'
    by_cases hx : k' = k
    · subst hx; exact ⟨hkpos, htc.2⟩
    · rw [put_ne _ _ hx] at hk'
      have := h.good.ntPos k' nt' hk'
      exact ⟨this.1, by omega⟩
  · intro n nw hn
    by_cases hx : n = N
    · omega
    · rw [put_ne _ _ hx] at hn
      have := h.good.nwPos n nw hn; omega
  · intro n h1 h2
    by_cases hx : n = N
    · exact ⟨_, by rw [hx, put_self]⟩
    · rw [put_ne _ _ hx]; exact h.good.nwAll n h1 (by omega)
  · -- ntUid
    intro k' nt' hk'
    by_cases hx : k' = k
    · subst hx
      rw [put_self, Option.some.injEq] at hk'
      subst hk'
      refine ⟨?_, dsa, hd⟩
      dsimp only
      rcases hcase with ⟨e, _, e2, _⟩ | ⟨_, _, _, _, _, _, e2, _⟩
      · rw [e2]; exact (h.good.ntUid _ _ e).1
      · rw [e2, put_self]
    · rw [put_ne _ _ hx] at hk'
      obtain ⟨q1, q2⟩ := h.good.ntUid k' nt' hk'
      refine ⟨?_, q2⟩
      rcases hcase with ⟨e, _, e2, _⟩ | ⟨_, _, _, _, _, _, e2, _, e3⟩
      · rw [e2]; exact q1
      · rw [e2, put_ne]
        · exact q1
        · rintro e4
          rw [e4, e3] at q1
          have := (h.good.ntPos k' nt' hk').1
          omega
  · -- uidNt
    intro uid hu
    rcases hio uid hu with ⟨e1, e2⟩ | ⟨e1, e2⟩
    · rw [e1, put_self]; exact ⟨_, rfl, e2.symm⟩
    · rw [e1]
      obtain ⟨nt', q1, q2⟩ := h.good.uidNt uid e2
      by_cases hx : w.s.ntIdOf uid = k
      · rw [hx, put_self]
        refine ⟨_, rfl, ?_⟩
        rw [hx] at q1
        rcases hcase with ⟨e, _⟩ | ⟨e, _⟩
        · rw [e] at q1; cases q1; exact q2
        · rw [e] at q1; cases q1
      · rw [put_ne _ _ hx]; exact ⟨nt', q1, q2⟩
  · -- act
    intro k'
    by_cases hx : k' = k
    · subst hx
      rw [put_self]
      refine ⟨fun _ => ⟨_, rfl⟩, fun _ => ?_⟩
      rcases hcase with ⟨e, _, _, e2⟩ | ⟨_, _, _, _, _, _, _, e2, _⟩
      · rw [e2]; exact (h.good.act _).2 ⟨_, e⟩
      · rw [e2]; simp
    · rw [put_ne _ _ hx, ← h.good.act]
      rcases hcase with ⟨e, _, _, e2⟩ | ⟨_, _, _, _, _, _, _, e2, _⟩
      · rw [e2]
      · rw [e2]; simp [hx]
  · -- nodup
    intro k' nt' hk'
    by_cases hx : k' = k
    · subst hx
      rw [put_self, Option.some.injEq] at hk'
      subst hk'
      exact List.nodup_append.2 ⟨hnd, by simp, fun a ha b hb e => by
        rw [List.mem_singleton] at hb
        subst hb; subst e
        exact hNn ha⟩
    · rw [put_ne _ _ hx] at hk'; exact h.good.nodup k' nt' hk'
  · -- opened
    intro k' nt' hk' n
    by_cases hn : n = N
    · subst hn
      rw [put_self]
      by_cases hx : k' = k
      · subst hx
        rw [put_self, Option.some.injEq] at hk'
        subst hk'
        exact ⟨fun _ => ⟨_, rfl, rfl, rfl⟩, fun _ => by simp⟩
      · rw [put_ne _ _ hx] at hk'
        refine ⟨fun hm => absurd hm (hno k' nt' hk'), ?_⟩
        rintro ⟨nw, e1, _, e3⟩
        rw [Option.some.injEq] at e1
        subst e1
        exact absurd e3.symm hx
    · rw [put_ne _ _ hn]
      by_cases hx : k' = k
      · subst hx
        rw [put_self, Option.some.injEq] at hk'
        subst hk'
        rw [← hopen n]
        simp [hn]
      · rw [put_ne _ _ hx] at hk'; exact h.good.opened k' nt' hk' n
  · -- typed
    intro n nw hn
    have aux : ∀ t, (∃ nt', w.s.nts t = some nt') → ∃ nt', put w.s.nts k (some { nt with opened := nt.opened ++ [N] }) t = some nt' := by
      intro t ht
      by_cases hx : t = k
      · exact ⟨_, by rw [hx, put_self]⟩
      · rw [put_ne _ _ hx]; exact ht
    by_cases hx : n = N
    · subst hx
      rw [put_self, Option.some.injEq] at hn
      subst hn
      exact ⟨_, put_self _ _ _⟩
    · rw [put_ne _ _ hx] at hn; exact aux _ (h.good.typed n nw hn)
  · -- oldNt
    intro k' nt0 hk'
    obtain ⟨nt', q1, q2, q3⟩ := h.oldNt k' nt0 hk'
    by_cases hx : k' = k
    · subst hx
      rw [put_self]
      refine ⟨_, rfl, ?_⟩
      rcases hcase with ⟨e, _⟩ | ⟨e, _⟩
      · rw [e] at q1; cases q1; exact ⟨q2, q3⟩
      · rw [e] at q1; cases q1
    · rw [put_ne _ _ hx]; exact ⟨nt', q1, q2, q3⟩
  · -- newNt
    intro k' nt' h0 hk'
    by_cases hx : k' = k
    · subst hx
      rw [put_self, Option.some.injEq] at hk'
      subst hk'
      rcases hcase with ⟨e, _⟩ | ⟨_, _, _, e, _⟩
      · exact h.newNt _ nt h0 e
      · exact e
    · rw [put_ne _ _ hx] at hk'; exact h.newNt k' nt' h0 hk'
  · -- inact
    intro k' hk'
    have hx : k' ≠ k := by rintro rfl; rw [put_self] at hk'; cases hk'
    rw [put_ne _ _ hx] at hk' ⊢
    exact h.inact k' hk'
  · -- idle
    intro k' nt' hk' ho hi
    by_cases hx : k' = k
    · subst hx
      rw [put_self, Option.some.injEq] at hk'
      subst hk'
      simp at ho
    · rw [put_ne _ _ hx] at hk' hi
      obtain ⟨q1, q2⟩ := h.idle k' nt' hk' ho hi
      refine ⟨q1, fun n nw hn ht => ?_⟩
      by_cases hy : n = N
      · subst hy
        rw [put_self, Option.some.injEq] at hn
        subst hn
        exact absurd ht.symm hx
      · rw [put_ne _ _ hy] at hn ⊢; exact q2 n nw hn ht
  · -- pcOpen
    intro k' hk'
    by_cases hx : k' = k
    · subst hx
      rw [put_self]
      refine ⟨_, rfl, fun n hn => ?_⟩
      by_cases hy : n = N
      · rw [hy, put_self]
      · rw [put_ne _ _ hy]
        dsimp only at hn
        have hn' : n ∈ nt.opened := by simpa [hy] using hn
        rw [hpc] at hk'
        by_cases hz : nt.opened = [] ∧ w.s.nts k' = some nt
        · rw [hz.1] at hn'; cases hn'
        · rw [if_neg hz] at hk'
          obtain ⟨nt', q1, q2⟩ := h.pcOpen k' hk'
          rcases hcase with ⟨e, _⟩ | ⟨e, _⟩
          · rw [e] at q1; cases q1; exact q2 n hn'
          · rw [e] at q1; cases q1
    · rw [hk0 k' hx] at hk'
      obtain ⟨nt', q1, q2⟩ := h.pcOpen k' hk'
      rw [put_ne _ _ hx]
      refine ⟨nt', q1, fun n hn => ?_⟩
      rw [put_ne _ _ (fun e : n = N => hno k' nt' q1 (by rw [← e]; exact hn))]
      exact q2 n hn
  · -- wake
    intro k' nt' nt0 hk' ho h0 he
    by_cases hx : k' = k
    · subst hx
      rcases hcase with ⟨e, _⟩ | ⟨_, e, _⟩
      · by_cases hz : nt.opened = []
        · rw [hpc, if_pos ⟨hz, e⟩, put_self]
        · rw [hpc, if_neg (fun q => hz q.1)]
          exact h.wake _ nt nt0 e hz h0 he
      · rw [e] at h0; cases h0
    · rw [put_ne _ _ hx] at hk'
      rw [hk0 k' hx]
      exact h.wake k' nt' nt0 hk' ho h0 he
  · -- newNw
    intro n nw h0 hn
    by_cases hx : n = N
    · rw [hx, put_self]
    · rw [put_ne _ _ hx] at hn ⊢; exact h.newNw n nw h0 hn
  · -- oldNw
    intro n nw0 h0
    have hx : n ≠ N := by rintro rfl; rw [hs0N] at h0; cases h0
    rw [put_ne _ _ hx]; exact h.oldNw n nw0 h0
  · -- last
    intro n nw hn
    by_cases hx : n = N
    · subst hx
      rw [put_self, Option.some.injEq] at hn
      subst hn
      simp [last0, hs0N]
    · rw [put_ne _ _ hx] at hn; exact h.last n nw hn
  · -- sn
    intro n nw hn
    by_cases hx : n = N
    · subst hx
      rw [put_self, Option.some.injEq] at hn
      subst hn
      rw [hNs]
      simp [sn0, hs0N]
    · rw [put_ne _ _ hx] at hn; exact h.sn n nw hn
  · -- modEx
    intro n hn
    by_cases hx : n = N
    · rw [hx, put_self]; exact ⟨_, rfl⟩
    · rw [put_ne _ _ hx] at hn ⊢; exact h.modEx n hn
  · -- msgMod
    intro m hm
    rw [put_ne _ _ (hNm m hm)]; exact h.msgMod m hm
  · exact h.sns

theorem mid_bound {E : Env} {s0 : Store} {w : World} (h : Mid E s0 w) : ∀ n, w.s.nwCount < n → s0.nws n = none := by
  intro n hn
  cases hc : s0.nws n with
  | none => rfl
  | some nw0 =>
    obtain ⟨nw, e, _⟩ := h.oldNw n nw0 hc
    have := (h.good.nwPos n nw e).2
    omega

theorem openNet_mid {E : Env} {s0 : Store} {w w' : World} (h : Mid E s0 w) (uid name : Bytes) (owner : Option Addr) (he : openNet E w uid name owner = some w') : Mid E s0 w' := by
  unfold openNet at he
  cases hd : E.dsaOf uid with
  | none => rw [hd] at he; cases he
  | some dsa =>
    rw [hd] at he
    dsimp only at he
    by_cases h0 : w.s.ntIdOf uid = 0
    · rw [if_pos h0] at he
      cases hi : dsaIdx w.s dsa with
      | none => rw [hi] at he; cases he
      | some i =>
        rw [hi] at he
        dsimp only at he
        by_cases ha : (keysOf E w.s w.validators uid dsa).all Option.isSome = true
        · rw [if_pos ha] at he
          cases hc : newCtx E uid (keysOf E w.s w.validators uid dsa) with
          | none => rw [hc] at he; cases he
          | some c =>
            rw [hc] at he
            dsimp only at he
            rw [Option.some.injEq] at he
            subst he
            have hnone : w.s.nts (w.s.ntCount + 1) = none := by
              cases hx : w.s.nts (w.s.ntCount + 1) with
              | none => rfl
              | some nt => have := (h.good.ntPos _ nt hx).2; omega
            have hnone0 : s0.nts (w.s.ntCount + 1) = none := by
              cases hx : s0.nts (w.s.ntCount + 1) with
              | none => rfl
              | some nt0 =>
                obtain ⟨nt, e, _⟩ := h.oldNt _ nt0 hx
                rw [hnone] at e; cases e
            exact addNet_mid h (w.s.ntCount + 1) ⟨uid, some c, []⟩ name owner dsa hd (w.s.ntCount + 1) (put w.s.ntIdOf uid (w.s.ntCount + 1)) (w.s.active ++ [w.s.ntCount + 1]) (w.s.dsaMask ||| 2 ^ i)
              (w.odd || decide (w.validators ≠ w.start)) (mid_bound h) (Or.inr ⟨hnone, hnone0, rfl, by simp, rfl, rfl, rfl, rfl, h0⟩) w.pc (by rw [if_neg (fun q => by rw [hnone] at q; cases q.2)])
        · rw [if_neg ha] at he; cases he
    · rw [if_neg h0] at he
      cases hn : w.s.nts (w.s.ntIdOf uid) with
      | none => rw [hn] at he; cases he
      | some nt =>
        rw [hn] at he
        dsimp only at he
        rw [Option.some.injEq] at he
        subst he
        obtain ⟨nt', q1, q2⟩ := h.good.uidNt uid h0
        rw [hn] at q1
        cases q1
        have := addNet_mid h (w.s.ntIdOf uid) nt name owner dsa (by rw [q2]; exact hd) w.s.ntCount w.s.ntIdOf w.s.active w.s.dsaMask w.odd (mid_bound h) (Or.inl ⟨hn, rfl, rfl, rfl⟩) _ rfl
        by_cases ho : nt.opened = []
        · rw [if_pos ho]
          rw [if_pos ⟨ho, hn⟩] at this
          exact this
        · rw [if_neg ho]
          rw [if_neg (fun q => ho q.1)] at this
          exact this

/-! ## Closing -/

theorem closeNet_mid {E : Env} {s0 : Store} {w w' : World} (h : Mid E s0 w) (nid : ℕ) (he : closeNet w nid = some w') : Mid E s0 w' := by
  unfold closeNet at he
  cases hw : w.s.nws nid with
  | none => rw [hw] at he; cases he
  | some nw =>
    rw [hw] at he
    dsimp only at he
    cases ht : w.s.nts nw.ntid with
    | none => rw [ht] at he; cases he
    | some nt =>
      rw [ht] at he
      dsimp only at he
      by_cases hm : nid ∈ nt.opened
      · rw [if_pos hm, Option.some.injEq] at he
        obtain ⟨k, hk⟩ : ∃ k, k = nw.ntid := ⟨_, rfl⟩
        rw [← hk] at he ht
        have hwm : ∀ nw', w.s.nws nid = some nw' → nw' = nw := fun nw' e => by rw [hw] at e; cases e; rfl
        have hnd := h.good.nodup k nt ht
        have hmem : ∀ n, n ∈ nt.opened.erase nid ↔ n ≠ nid ∧ n ∈ nt.opened := fun n => hnd.mem_erase_iff
        -- the common part
        have key : ∀ ia : ℕ → Bool, ia = (if nt.opened.erase nid = [] then put w.inact k true else w.inact) →
            Mid E s0 { w with s := { w.s with nws := put w.s.nws nid (some { nw with isOpen := false }), nts := put w.s.nts k (some { nt with opened := nt.opened.erase nid }) }, inact := ia } := by
          intro ia hia
          have hk0 : ∀ k', k' ≠ k → ia k' = w.inact k' := by
            intro k' hk'
            rw [hia]; split_ifs
            · exact put_ne _ _ hk'
            · rfl
          have hact : w.inact k = false := by
            cases hc : w.inact k with
            | false => rfl
            | true =>
              obtain ⟨nt', e1, e2⟩ := h.inact k hc
              rw [ht] at e1; cases e1
              rw [e2] at hm; cases hm
          have nwEx : ∀ n nw', put w.s.nws nid (some { nw with isOpen := false }) n = some nw' → ∃ nw0, w.s.nws n = some nw0 ∧ nw'.ntid = nw0.ntid ∧ nw'.last = nw0.last ∧ nw'.sn = nw0.sn := by
            intro n nw' hn
            by_cases hx : n = nid
            · subst hx
              rw [put_self, Option.some.injEq] at hn
              subst hn
              exact ⟨nw, hw, rfl, rfl, rfl⟩
            · rw [put_ne _ _ hx] at hn; exact ⟨nw', hn, rfl, rfl, rfl⟩
          have exNw : ∀ n nw0, w.s.nws n = some nw0 → ∃ nw', put w.s.nws nid (some { nw with isOpen := false }) n = some nw' ∧ nw'.ntid = nw0.ntid ∧ (nw'.isOpen = true → nw0.isOpen = true) := by
            intro n nw0 hn
            by_cases hx : n = nid
            · subst hx
              rw [put_self]
              refine ⟨_, rfl, ?_, ?_⟩
              · rw [hwm nw0 hn]
              · intro q; cases q
            · rw [put_ne _ _ hx]; exact ⟨nw0, hn, rfl, fun q => q⟩
          have ntEx : ∀ k' nt', put w.s.nts k (some { nt with opened := nt.opened.erase nid }) k' = some nt' → ∃ nt0, w.s.nts k' = some nt0 ∧ nt'.uid = nt0.uid ∧ nt'.ctx = nt0.ctx ∧ (nt'.opened ⊆ nt0.opened) := by
            intro k' nt' hk'
            by_cases hx : k' = k
            · subst hx
              rw [put_self, Option.some.injEq] at hk'
              subst hk'
              exact ⟨nt, ht, rfl, rfl, List.erase_subset⟩
            · rw [put_ne _ _ hx] at hk'; exact ⟨nt', hk', rfl, rfl, fun _ q => q⟩
          have exNt : ∀ k' nt0, w.s.nts k' = some nt0 → ∃ nt', put w.s.nts k (some { nt with opened := nt.opened.erase nid }) k' = some nt' ∧ nt'.uid = nt0.uid ∧ nt'.ctx = nt0.ctx ∧ (nt'.opened ⊆ nt0.opened) := by
            intro k' nt0 hk'
            by_cases hx : k' = k
            · subst hx
              rw [put_self]
              rw [ht] at hk'; cases hk'
              exact ⟨_, rfl, rfl, rfl, List.erase_subset⟩
            · rw [put_ne _ _ hx]; exact ⟨nt0, hk', rfl, rfl, fun _ q => q⟩
          refine ⟨⟨?_, ?_, ?_, ?_, ?_, ?_, ?_, ?_, ?_⟩, ?_, ?_, ?_, ?_, ?_, ?_, ?_, ?_, ?_, ?_, ?_, ?_, ?_⟩ <;> dsimp only
          · intro k' nt' hk'
            obtain ⟨nt0, e, _⟩ := ntEx k' nt' hk'
            exact h.good.ntPos k' nt0 e
          · intro n nw' hn
            obtain ⟨nw0, e, _⟩ := nwEx n nw' hn
            exact h.good.nwPos n nw0 e
          · intro n h1 h2
            obtain ⟨nw0, e⟩ := h.good.nwAll n h1 h2
            obtain ⟨nw', e', _⟩ := exNw n nw0 e
            exact ⟨nw', e'⟩
          · intro k' nt' hk'
            obtain ⟨nt0, e, e1, _⟩ := ntEx k' nt' hk'
            rw [e1]; exact h.good.ntUid k' nt0 e
          · intro uid hu
            obtain ⟨nt0, e, e1⟩ := h.good.uidNt uid hu
            obtain ⟨nt', q1, q2, _⟩ := exNt _ nt0 e
            exact ⟨nt', q1, q2.trans e1⟩
          · intro k'
            rw [h.good.act]
            constructor
            · rintro ⟨nt0, e⟩
              obtain ⟨nt', q1, _⟩ := exNt _ nt0 e
              exact ⟨nt', q1⟩
            · rintro ⟨nt', e⟩
              obtain ⟨nt0, q1, _⟩ := ntEx _ nt' e
              exact ⟨nt0, q1⟩
          · intro k' nt' hk'
            by_cases hx : k' = k
            · subst hx
              rw [put_self, Option.some.injEq] at hk'
              subst hk'
              exact hnd.erase nid
            · rw [put_ne _ _ hx] at hk'; exact h.good.nodup k' nt' hk'
          · intro k' nt' hk' n
            by_cases hn : n = nid
            · subst hn
              rw [put_self]
              by_cases hx : k' = k
              · subst hx
                rw [put_self, Option.some.injEq] at hk'
                subst hk'
                dsimp only
                rw [hmem]
                constructor
                · intro q; exact absurd rfl q.1
                · rintro ⟨nw', e1, e2, _⟩
                  rw [Option.some.injEq] at e1
                  subst e1
                  cases e2
              · rw [put_ne _ _ hx] at hk'
                constructor
                · intro q
                  obtain ⟨nw', e1, _, e3⟩ := (h.good.opened k' nt' hk' n).1 q
                  rw [hwm nw' e1] at e3
                  exact absurd (e3.symm.trans hk.symm) hx
                · rintro ⟨nw', e1, e2, _⟩
                  rw [Option.some.injEq] at e1
                  subst e1
                  cases e2
            · rw [put_ne _ _ hn]
              by_cases hx : k' = k
              · subst hx
                rw [put_self, Option.some.injEq] at hk'
                subst hk'
                dsimp only
                rw [hmem, ← h.good.opened _ nt ht n]
                simp [hn]
              · rw [put_ne _ _ hx] at hk'; exact h.good.opened k' nt' hk' n
          · intro n nw' hn
            obtain ⟨nw0, e, e1, _⟩ := nwEx n nw' hn
            obtain ⟨nt0, e2⟩ := h.good.typed n nw0 e
            obtain ⟨nt', q, _⟩ := exNt _ nt0 e2
            rw [e1]; exact ⟨nt', q⟩
          · intro k' nt0 hk'
            obtain ⟨nt1, q1, q2, q3⟩ := h.oldNt k' nt0 hk'
            obtain ⟨nt', r1, r2, r3, _⟩ := exNt k' nt1 q1
            exact ⟨nt', r1, r2.trans q2, r3.trans q3⟩
          · intro k' nt' h0 hk'
            obtain ⟨nt0, e, _, e2, _⟩ := ntEx k' nt' hk'
            rw [e2]; exact h.newNt k' nt0 h0 e
          · intro k' hk'
            by_cases hx : k' = k
            · subst hx
              rw [hia] at hk'
              by_cases hz : nt.opened.erase nid = []
              · rw [put_self]; exact ⟨_, rfl, hz⟩
              · rw [if_neg hz, hact] at hk'; cases hk'
            · rw [hk0 k' hx] at hk'
              obtain ⟨nt', q1, q2⟩ := h.inact k' hk'
              rw [put_ne _ _ hx]; exact ⟨nt', q1, q2⟩
          · intro k' nt' hk' ho hi
            by_cases hx : k' = k
            · subst hx
              rw [put_self, Option.some.injEq] at hk'
              subst hk'
              dsimp only at ho
              rw [hia, if_pos ho, put_self] at hi
              cases hi
            · rw [put_ne _ _ hx] at hk'
              rw [hk0 k' hx] at hi
              obtain ⟨q1, q2⟩ := h.idle k' nt' hk' ho hi
              refine ⟨q1, fun n nw' hn hz => ?_⟩
              obtain ⟨nw0, e, e1, _⟩ := nwEx n nw' hn
              exact q2 n nw0 e (e1.symm.trans hz)
          · intro k' hk'
            obtain ⟨nt0, q1, q2⟩ := h.pcOpen k' hk'
            obtain ⟨nt', r1, _, _, r2⟩ := exNt k' nt0 q1
            exact ⟨nt', r1, fun n hn => q2 n (r2 hn)⟩
          · intro k' nt' nt0 hk' ho h0 hz
            obtain ⟨nt1, e, _, _, e2⟩ := ntEx k' nt' hk'
            exact h.wake k' nt1 nt0 e (fun q => ho (List.eq_nil_iff_forall_not_mem.2 fun n hn => by have := e2 hn; rw [q] at this; cases this)) h0 hz
          · intro n nw' h0 hn
            obtain ⟨nw0, e, _⟩ := nwEx n nw' hn
            exact h.newNw n nw0 h0 e
          · intro n nw0 h0
            obtain ⟨nw1, e1, e2, e3⟩ := h.oldNw n nw0 h0
            obtain ⟨nw', q1, q2, q3⟩ := exNw n nw1 e1
            exact ⟨nw', q1, q2.trans e2, fun q => e3 (q3 q)⟩
          · intro n nw' hn
            obtain ⟨nw0, e, _, e2, _⟩ := nwEx n nw' hn
            rw [e2]; exact h.last n nw0 e
          · intro n nw' hn
            obtain ⟨nw0, e, _, _, e2⟩ := nwEx n nw' hn
            rw [e2]; exact h.sn n nw0 e
          · intro n hn
            obtain ⟨nw0, e⟩ := h.modEx n hn
            obtain ⟨nw', q1, _⟩ := exNw n nw0 e
            exact ⟨nw', q1⟩
          · exact h.msgMod
          · exact h.sns
        subst he
        subst hk
        by_cases hz : nt.opened.erase nid = []
        · rw [if_pos hz]
          have := key _ rfl
          rw [if_pos hz] at this
          exact this
        · rw [if_neg hz]
          have := key _ rfl
          rw [if_neg hz] at this
          exact this
      · rw [if_neg hm] at he; cases he

/-! ## Sending -/

theorem send_mid {E : Env} {s0 : Store} {w w' : World} (h : Mid E s0 w) (sender : Addr) (nid : ℕ) (msg : Bytes) (he : send w sender nid msg = some w') : Mid E s0 w' := by
  unfold send at he
  by_cases hm : msg = []
  · rw [if_pos hm] at he; cases he
  rw [if_neg hm] at he
  cases hw : w.s.nws nid with
  | none => rw [hw] at he; cases he
  | some nw =>
    rw [hw] at he
    dsimp only at he
    by_cases ho : nw.isOpen = true
    · rw [if_pos ho] at he
      by_cases hs : nw.owner = some sender
      · rw [if_pos hs, Option.some.injEq] at he
        subst he
        have hwm : ∀ nw', w.s.nws nid = some nw' → nw' = nw := fun nw' e => by rw [hw] at e; cases e; rfl
        obtain ⟨nt, hnt⟩ := h.good.typed nid nw hw
        have hin : nid ∈ nt.opened := (h.good.opened _ nt hnt nid).2 ⟨nw, hw, ho, rfl⟩
        have nwEx : ∀ n nw', put w.s.nws nid (some { nw with sn := nw.sn + 1 }) n = some nw' → ∃ nw0, w.s.nws n = some nw0 ∧ nw'.ntid = nw0.ntid ∧ nw'.last = nw0.last ∧ nw'.isOpen = nw0.isOpen := by
          intro n nw' hn
          by_cases hx : n = nid
          · subst hx
            rw [put_self, Option.some.injEq] at hn
            subst hn
            exact ⟨nw, hw, rfl, rfl, rfl⟩
          · rw [put_ne _ _ hx] at hn; exact ⟨nw', hn, rfl, rfl, rfl⟩
        have exNw : ∀ n nw0, w.s.nws n = some nw0 → ∃ nw', put w.s.nws nid (some { nw with sn := nw.sn + 1 }) n = some nw' ∧ nw'.ntid = nw0.ntid ∧ nw'.isOpen = nw0.isOpen := by
          intro n nw0 hn
          by_cases hx : n = nid
          · subst hx
            rw [put_self]
            rw [hwm nw0 hn]
            exact ⟨_, rfl, rfl, rfl⟩
          · rw [put_ne _ _ hx]; exact ⟨nw0, hn, rfl, rfl⟩
        have hst : ∀ n, sentTo (w.msgs ++ [(nid, nw.sn, msg)]) n = sentTo w.msgs n ++ if n = nid then [(nid, nw.sn, msg)] else [] := by
          intro n
          unfold sentTo
          rw [List.filter_append]
          by_cases hx : n = nid
          · subst hx; simp
          · rw [if_neg hx]; simp [Ne.symm hx]
        refine ⟨⟨h.good.ntPos, ?_, ?_, h.good.ntUid, h.good.uidNt, h.good.act, h.good.nodup, ?_, ?_⟩, h.oldNt, h.newNt, h.inact, ?_, ?_, h.wake, ?_, ?_, ?_, ?_, ?_, ?_, ?_⟩ <;> dsimp only
        · intro n nw' hn
          obtain ⟨nw0, e, _⟩ := nwEx n nw' hn
          exact h.good.nwPos n nw0 e
        · intro n h1 h2
          obtain ⟨nw0, e⟩ := h.good.nwAll n h1 h2
          obtain ⟨nw', e', _⟩ := exNw n nw0 e
          exact ⟨nw', e'⟩
        · intro k nt' hk n
          rw [h.good.opened k nt' hk n]
          constructor
          · rintro ⟨nw0, e1, e2, e3⟩
            obtain ⟨nw', q1, q2, q3⟩ := exNw n nw0 e1
            exact ⟨nw', q1, q3.trans e2, q2.trans e3⟩
          · rintro ⟨nw', e1, e2, e3⟩
            obtain ⟨nw0, q1, q2, _, q3⟩ := nwEx n nw' e1
            exact ⟨nw0, q1, q3.symm.trans e2, q2.symm.trans e3⟩
        · intro n nw' hn
          obtain ⟨nw0, e, e1, _⟩ := nwEx n nw' hn
          rw [e1]; exact h.good.typed n nw0 e
        · intro k nt' hk hz hi
          obtain ⟨q1, q2⟩ := h.idle k nt' hk hz hi
          refine ⟨q1, fun n nw' hn ht => ?_⟩
          obtain ⟨nw0, e, e1, _⟩ := nwEx n nw' hn
          have := q2 n nw0 e (e1.symm.trans ht)
          rw [put_ne]
          · exact this
          · rintro rfl
            rw [hwm nw0 e] at e1
            have hke : nw.ntid = k := e1.symm.trans ht
            rw [hke, hk] at hnt
            cases hnt
            rw [hz] at hin; cases hin
        · intro k hk
          obtain ⟨nt', q1, q2⟩ := h.pcOpen k hk
          refine ⟨nt', q1, fun n hn => ?_⟩
          by_cases hx : n = nid
          · rw [hx, put_self]
          · rw [put_ne _ _ hx]; exact q2 n hn
        · intro n nw' h0 hn
          obtain ⟨nw0, e, _⟩ := nwEx n nw' hn
          by_cases hx : n = nid
          · rw [hx, put_self]
          · rw [put_ne _ _ hx]; exact h.newNw n nw0 h0 e
        · intro n nw0 h0
          obtain ⟨nw1, e1, e2, e3⟩ := h.oldNw n nw0 h0
          obtain ⟨nw', q1, q2, q3⟩ := exNw n nw1 e1
          exact ⟨nw', q1, q2.trans e2, fun q => e3 (q3.symm.trans q)⟩
        · intro n nw' hn
          obtain ⟨nw0, e, _, e2, _⟩ := nwEx n nw' hn
          rw [e2]; exact h.last n nw0 e
        · intro n nw' hn
          rw [hst]
          by_cases hx : n = nid
          · subst hx
            rw [put_self, Option.some.injEq] at hn
            subst hn
            rw [if_pos rfl, List.length_append, ← Nat.add_assoc, ← h.sn n nw hw]
            rfl
          · rw [put_ne _ _ hx] at hn
            rw [if_neg hx, List.append_nil]
            exact h.sn n nw' hn
        · intro n hn
          by_cases hx : n = nid
          · rw [hx, put_self]; exact ⟨_, rfl⟩
          · rw [put_ne _ _ hx] at hn ⊢; exact h.modEx n hn
        · intro m hm'
          rcases List.mem_append.1 hm' with hm' | hm'
          · by_cases hx : m.1 = nid
            · rw [hx, put_self]
            · rw [put_ne _ _ hx]; exact h.msgMod m hm'
          · rw [List.mem_singleton] at hm'
            rw [hm', put_self]
        · intro n
          rw [hst]
          by_cases hx : n = nid
          · subst hx
            rw [if_pos rfl, List.map_append, h.sns n, List.length_append, List.length_singleton, List.range'_concat]
            simp [h.sn n nw hw]
          · rw [if_neg hx, List.append_nil]; exact h.sns n
      · rw [if_neg hs] at he; cases he
    · rw [if_neg ho] at he; cases he

/-! ## Keys -/

theorem noteKey_eq {E : Env} {a : Addr} {dsa : Bytes} (mods : List Bytes) : ∀ {w w' : World}, noteKey E a dsa mods w = some w' → ∃ kc, w' = { w with keyChanged := kc } := by
  induction mods with
  | nil =>
    intro w w' he
    rw [noteKey, Option.some.injEq] at he
    exact ⟨w.keyChanged, he.symm⟩
  | cons uid r ih =>
    intro w w' he
    rw [noteKey] at he
    by_cases h1 : E.dsaOf uid = some dsa
    · rw [if_pos h1] at he
      by_cases h2 : w.s.ntIdOf uid = 0
      · rw [if_pos h2] at he; exact ih he
      · rw [if_neg h2] at he
        cases h3 : w.s.nts (w.s.ntIdOf uid) with
        | none => rw [h3] at he; cases he
        | some nt =>
          rw [h3] at he
          dsimp only at he
          by_cases h4 : nt.opened = []
          · rw [if_pos h4] at he; exact ih he
          · rw [if_neg h4] at he
            obtain ⟨kc, e⟩ := ih he
            exact ⟨kc, e⟩
    · rw [if_neg h1] at he; exact ih he

theorem setKey_mid {E : Env} {s0 : Store} {w w' : World} (h : Mid E s0 w) (a : Addr) (dsa key : Bytes) (mods : List Bytes) (he : setKey E w a dsa key mods = some w') : Mid E s0 w' := by
  unfold setKey at he
  by_cases h1 : E.known dsa = true
  · rw [if_pos h1] at he
    by_cases h2 : key = []
    · rw [if_pos h2] at he
      obtain ⟨kc, rfl⟩ := noteKey_eq mods he
      unfold dropKey dropOwner
      cases w.s.keys a dsa with
      | none => exact h.other _ _ _ _ _ _ _ _ _ _
      | some o => exact h.other _ _ _ _ _ _ _ _ _ _
    · rw [if_neg h2] at he
      cases hc : E.canon dsa key with
      | none => rw [hc] at he; cases he
      | some k =>
        rw [hc] at he
        dsimp only at he
        by_cases h3 : w.s.keyOwner (E.keyHash k) = none ∨ w.s.keyOwner (E.keyHash k) = some a
        · rw [if_pos h3] at he
          by_cases h4 : w.s.keys a dsa = some k
          · rw [if_pos h4, Option.some.injEq] at he
            subst he; exact h
          · rw [if_neg h4] at he
            obtain ⟨kc, rfl⟩ := noteKey_eq mods he
            unfold addKey dropOwner
            cases w.s.keys a dsa with
            | none => exact h.other _ _ _ _ _ _ _ _ _ _
            | some o => exact h.other _ _ _ _ _ _ _ _ _ _
        · rw [if_neg h3] at he; cases he
  · rw [if_neg h1] at he; cases he

mutual

theorem exec_mid {E : Env} {s0 : Store} (w : World) (c : Call) (h : Mid E s0 w) : Mid E s0 (exec E w c) := by
  match c with
  | .openNet uid name owner =>
    rw [exec]
    cases he : openNet E w uid name owner with
    | none => exact h
    | some w' => exact openNet_mid h uid name owner he
  | .closeNet nid =>
    rw [exec]
    cases he : closeNet w nid with
    | none => exact h
    | some w' => exact closeNet_mid h nid he
  | .send sender nid msg =>
    rw [exec]
    cases he : send w sender nid msg with
    | none => exact h
    | some w' => exact send_mid h sender nid msg he
  | .setKey a dsa key mods =>
    rw [exec]
    cases he : setKey E w a dsa key mods with
    | none => exact h
    | some w' => exact setKey_mid h a dsa key mods he
  | .setValidators vs => rw [exec]; exact h.other _ _ _ _ _ _ _ _ _ _
  | .frame ok inner =>
    rw [exec]
    cases ok with
    | true => rw [if_pos rfl]; exact execs_mid w inner h
    | false => rw [if_neg (by simp)]; exact h

theorem execs_mid {E : Env} {s0 : Store} (w : World) (cs : List Call) (h : Mid E s0 w) : Mid E s0 (execs E w cs) := by
  match cs with
  | [] => rw [execs]; exact h
  | c :: cs => rw [execs]; exact execs_mid _ cs (exec_mid w c h)

end

end Verif.Btp
