import Verif.Btp.Inv
import Mathlib.Data.List.Nodup

/-!
# BTP networks (C73): keys of validators
-/

namespace Verif.Btp

open Verif

/-- Only one algorithm is known. -/
def OneDsa (E : Env) : Prop := ∀ d d', E.known d = true → E.known d' = true → d = d'

/-- The variables of keys fit together. -/
structure KeyInv (E : Env) (s : Store) : Prop where
  canon : ∀ a d k, s.keys a d = some k → E.known d = true ∧ ∃ key, E.canon d key = some k
  inDsas : ∀ a d, s.keys a d ≠ none → d ∈ s.dsas
  nodup : s.dsas.Nodup
  mask : ∀ a i, (s.keyMask a).testBit i = true ↔ ∃ d, s.dsas[i]? = some d ∧ s.keys a d ≠ none
  used : ∀ k nt d, s.nts k = some nt → E.dsaOf nt.uid = some d → d ∈ s.dsas
  dmask : ∀ i, s.dsaMask.testBit i = true ↔ ∃ k nt d, s.nts k = some nt ∧ E.dsaOf nt.uid = some d ∧ s.dsas[i]? = some d
  owner : OneDsa E → ∀ a d k, s.keys a d = some k → s.keyOwner (E.keyHash k) = some a

/-- It depends on network types by their names only. -/
theorem KeyInv.congr {E : Env} {s s' : Store} (h : KeyInv E s) (h1 : s'.keys = s.keys) (h2 : s'.dsas = s.dsas) (h3 : s'.keyMask = s.keyMask) (h4 : s'.dsaMask = s.dsaMask) (h5 : s'.keyOwner = s.keyOwner)
    (h6 : ∀ k, (s'.nts k).map NT.uid = (s.nts k).map NT.uid) : KeyInv E s' := by
  have from_ : ∀ k nt', s'.nts k = some nt' → ∃ nt, s.nts k = some nt ∧ nt.uid = nt'.uid := by
    intro k nt' q
    have := h6 k
    rw [q, Option.map_some] at this
    cases e : s.nts k with
    | none => rw [e] at this; cases this
    | some nt =>
      rw [e, Option.map_some, Option.some.injEq] at this
      exact ⟨nt, rfl, this.symm⟩
  have to_ : ∀ k nt, s.nts k = some nt → ∃ nt', s'.nts k = some nt' ∧ nt.uid = nt'.uid := by
    intro k nt q
    have := h6 k
    rw [q, Option.map_some] at this
    cases e : s'.nts k with
    | none => rw [e] at this; cases this
    | some nt' =>
      rw [e, Option.map_some, Option.some.injEq] at this
      exact ⟨nt', rfl, this.symm⟩
  refine ⟨?_, ?_, ?_, ?_, ?_, ?_, ?_⟩
  · rw [h1]; exact h.canon
  · rw [h1, h2]; exact h.inDsas
  · rw [h2]; exact h.nodup
  · rw [h1, h2, h3]; exact h.mask
  · intro k nt' d q1 q2
    obtain ⟨nt, e1, e2⟩ := from_ k nt' q1
    rw [h2]; exact h.used k nt d e1 (by rw [e2]; exact q2)
  · intro i
    rw [h4, h.dmask, h2]
    constructor
    · rintro ⟨k, nt, d, q1, q2, q3⟩
      obtain ⟨nt', e1, e2⟩ := to_ k nt q1
      exact ⟨k, nt', d, e1, by rw [← e2]; exact q2, q3⟩
    · rintro ⟨k, nt', d, q1, q2, q3⟩
      obtain ⟨nt, e1, e2⟩ := from_ k nt' q1
      exact ⟨k, nt, d, e1, by rw [e2]; exact q2, q3⟩
  · rw [h1, h5]; exact h.owner

theorem dsaIdx_some {s : Store} {d : Bytes} {i : ℕ} (h : dsaIdx s d = some i) : s.dsas[i]? = some d := by
  unfold dsaIdx at h
  obtain ⟨q1, q2, _⟩ := List.findIdx?_eq_some_iff_getElem.1 h
  rw [List.getElem?_eq_getElem q1]
  simpa using q2

theorem dsaIdx_none {s : Store} {d : Bytes} (h : dsaIdx s d = none) : d ∉ s.dsas := by
  unfold dsaIdx at h
  rw [List.findIdx?_eq_none_iff] at h
  intro q
  have := h d q
  simp at this

theorem getElem?_nodup {α : Type} {l : List α} (h : l.Nodup) {i j : ℕ} {x : α} (h1 : l[i]? = some x) (h2 : l[j]? = some x) : i = j := by
  obtain ⟨q1, q2⟩ := List.getElem?_eq_some_iff.1 h1
  obtain ⟨q3, q4⟩ := List.getElem?_eq_some_iff.1 h2
  exact (List.Nodup.getElem_inj_iff h).1 (q2.trans q4.symm)

theorem testBit_or_pow (m i j : ℕ) : (m ||| 2 ^ i).testBit j = (m.testBit j || decide (i = j)) := by
  rw [Nat.testBit_or, Nat.testBit_two_pow]

theorem testBit_ldiff_pow (m i j : ℕ) : (Nat.ldiff m (2 ^ i)).testBit j = (m.testBit j && !decide (i = j)) := by
  rw [Nat.testBit_ldiff, Nat.testBit_two_pow]

/-! ## Setting keys -/

theorem dropOwner_keys (E : Env) (s : Store) (o : Option Bytes) : (dropOwner E s o).keys = s.keys ∧ (dropOwner E s o).dsas = s.dsas ∧ (dropOwner E s o).keyMask = s.keyMask ∧
    (dropOwner E s o).dsaMask = s.dsaMask ∧ (dropOwner E s o).nts = s.nts := by
  cases o with
  | none => exact ⟨rfl, rfl, rfl, rfl, rfl⟩
  | some o => exact ⟨rfl, rfl, rfl, rfl, rfl⟩

theorem dropOwner_other {E : Env} {s : Store} (h : KeyInv E s) (h1 : OneDsa E) (a : Addr) (d : Bytes) {b : Addr} {k : Bytes} (hb : b ≠ a) (hk : s.keyOwner (E.keyHash k) = some b) :
    (dropOwner E s (s.keys a d)).keyOwner (E.keyHash k) = some b := by
  cases ho : s.keys a d with
  | none => exact hk
  | some o =>
    unfold dropOwner
    dsimp only
    rw [put_ne]
    · exact hk
    · intro e
      have := h.owner h1 a d o ho
      rw [← e, hk] at this
      exact hb (Option.some.inj this)

theorem putKeys (s : Store) (a : Addr) (d : Bytes) (v : Option Bytes) (b : Addr) (d' : Bytes) :
    put s.keys a (put (s.keys a) d v) b d' = if b = a ∧ d' = d then v else s.keys b d' := by
  by_cases hb : b = a
  · subst hb
    rw [put_self]
    by_cases hd : d' = d
    · rw [if_pos ⟨rfl, hd⟩, hd, put_self]
    · rw [if_neg (fun q => hd q.2), put_ne _ _ hd]
  · rw [if_neg (fun q => hb q.1), put_ne _ _ hb]

theorem dropKey_inv {E : Env} {s : Store} (h : KeyInv E s) (a : Addr) (d : Bytes) : KeyInv E (dropKey (dropOwner E s (s.keys a d)) a d) := by
  obtain ⟨o1, o2, o3, o4, o5⟩ := dropOwner_keys E s (s.keys a d)
  have oi : dsaIdx (dropOwner E s (s.keys a d)) d = dsaIdx s d := by unfold dsaIdx; rw [o2]
  have hmask : ∀ b i, (dropBit s.keyMask a (dsaIdx s d) b).testBit i = true ↔
      (s.keyMask b).testBit i = true ∧ ¬ (b = a ∧ s.dsas[i]? = some d) := by
    intro b i
    cases hi : dsaIdx s d with
    | none =>
      unfold dropBit
      dsimp only
      refine ⟨fun q => ⟨q, fun e => dsaIdx_none hi (List.mem_of_getElem? e.2)⟩, fun q => q.1⟩
    | some j =>
      unfold dropBit
      dsimp only
      by_cases hb : b = a
      · subst hb
        rw [put_self, testBit_ldiff_pow, Bool.and_eq_true]
        refine and_congr Iff.rfl ?_
        constructor
        · intro q e
          have := getElem?_nodup h.nodup (dsaIdx_some hi) e.2
          simp [this] at q
        · intro q
          simp only [Bool.not_eq_true', decide_eq_false_iff_not]
          rintro rfl
          exact q ⟨rfl, dsaIdx_some hi⟩
      · rw [put_ne _ _ hb]
        exact ⟨fun q => ⟨q, fun e => hb e.1⟩, fun q => q.1⟩
  refine ⟨?_, ?_, ?_, ?_, ?_, ?_, ?_⟩
  · intro b d' k q
    unfold dropKey at q
    dsimp only at q
    rw [o1, putKeys] at q
    by_cases hc : b = a ∧ d' = d
    · rw [if_pos hc] at q; cases q
    · rw [if_neg hc] at q; exact h.canon b d' k q
  · intro b d' q
    unfold dropKey at q ⊢
    dsimp only at q ⊢
    rw [o1, putKeys] at q
    rw [o2]
    by_cases hc : b = a ∧ d' = d
    · rw [if_pos hc] at q; exact absurd rfl q
    · rw [if_neg hc] at q; exact h.inDsas b d' q
  · unfold dropKey; dsimp only; rw [o2]; exact h.nodup
  · intro b i
    unfold dropKey
    dsimp only
    rw [oi, o1, o2, o3, hmask, h.mask]
    constructor
    · rintro ⟨⟨d', q1, q2⟩, q3⟩
      refine ⟨d', q1, ?_⟩
      rw [putKeys, if_neg]
      · exact q2
      · rintro ⟨e1, e2⟩; exact q3 ⟨e1, e2 ▸ q1⟩
    · rintro ⟨d', q1, q2⟩
      rw [putKeys] at q2
      by_cases hc : b = a ∧ d' = d
      · rw [if_pos hc] at q2; exact absurd rfl q2
      · rw [if_neg hc] at q2
        refine ⟨⟨d', q1, q2⟩, fun e => hc ⟨e.1, ?_⟩⟩
        rw [q1] at e; exact Option.some.inj e.2
  · intro k nt d' q1 q2
    unfold dropKey at q1 ⊢
    dsimp only at q1 ⊢
    rw [o5] at q1
    rw [o2]; exact h.used k nt d' q1 q2
  · intro i
    unfold dropKey
    dsimp only
    rw [o4, o2, o5]; exact h.dmask i
  · intro h1 b d' k q
    unfold dropKey at q ⊢
    dsimp only at q ⊢
    rw [o1, putKeys] at q
    by_cases hc : b = a ∧ d' = d
    · rw [if_pos hc] at q; cases q
    · rw [if_neg hc] at q
      by_cases hb : b = a
      · subst hb
        -- another algorithm
        cases hk : s.keys b d with
        | none => exact h.owner h1 b d' k q
        | some o =>
          exact absurd ⟨rfl, h1 d' d (h.canon b d' k q).1 (h.canon b d o hk).1⟩ hc
      · exact dropOwner_other h h1 a d hb (h.owner h1 b d' k q)

theorem addKey_inv {E : Env} {s : Store} (h : KeyInv E s) (a : Addr) (d key k : Bytes) (hkn : E.known d = true) (hc : E.canon d key = some k)
    (ho : s.keyOwner (E.keyHash k) = none ∨ s.keyOwner (E.keyHash k) = some a) : KeyInv E (addKey E (dropOwner E s (s.keys a d)) a d k) := by
  obtain ⟨o1, o2, o3, o4, o5⟩ := dropOwner_keys E s (s.keys a d)
  have oi : dsaIdx (dropOwner E s (s.keys a d)) d = dsaIdx s d := by unfold dsaIdx; rw [o2]
  obtain ⟨l, hl⟩ : ∃ l, l = (if (dsaIdx s d).isSome then s.dsas else s.dsas ++ [d]) := ⟨_, rfl⟩
  obtain ⟨j, hj⟩ : ∃ j, j = (dsaIdx s d).getD s.dsas.length := ⟨_, rfl⟩
  have hlj : l[j]? = some d ∧ l.Nodup ∧ (∀ (i : ℕ) (x : Bytes), s.dsas[i]? = some x → l[i]? = some x) ∧ (∀ (i : ℕ) (x : Bytes), l[i]? = some x → x ≠ d → s.dsas[i]? = some x) ∧
      (∀ i : ℕ, l[i]? = some d → i = j) := by
    cases hi : dsaIdx s d with
    | some i =>
      rw [hi] at hl hj
      have e1 : l = s.dsas := hl
      have e2 : j = i := hj
      rw [e1, e2]
      exact ⟨dsaIdx_some hi, h.nodup, fun _ _ q => q, fun _ _ q _ => q, fun i' q => getElem?_nodup h.nodup q (dsaIdx_some hi)⟩
    | none =>
      rw [hi] at hl hj
      have e1 : l = s.dsas ++ [d] := hl
      have e2 : j = s.dsas.length := hj
      have hnd : (s.dsas ++ [d]).Nodup := by
        rw [List.nodup_append]
        refine ⟨h.nodup, by simp, fun x hx y hy => ?_⟩
        rw [List.mem_singleton] at hy
        rintro rfl
        exact dsaIdx_none hi (hy ▸ hx)
      have hlast : (s.dsas ++ [d])[s.dsas.length]? = some d := by simp
      rw [e1, e2]
      refine ⟨hlast, hnd, fun i x q => ?_, fun i x q hx => ?_, fun i q => getElem?_nodup hnd q hlast⟩
      · rw [List.getElem?_append_left (List.getElem?_eq_some_iff.1 q).1]; exact q
      · by_cases hlt : i < s.dsas.length
        · rw [List.getElem?_append_left hlt] at q; exact q
        · exfalso
          have := (List.getElem?_eq_some_iff.1 q).1
          have hi' : i = s.dsas.length := by simp at this; omega
          rw [hi', hlast] at q
          exact hx (Option.some.inj q).symm
  obtain ⟨g1, g2, g3, g4, g5⟩ := hlj
  have hsub : ∀ x ∈ s.dsas, x ∈ l := by
    intro x hx
    obtain ⟨i, hi⟩ := List.getElem?_of_mem hx
    exact List.mem_of_getElem? (g3 i x hi)
  unfold addKey
  rw [oi, o1, o2, o3, ← hl, ← hj]
  refine ⟨?_, ?_, g2, ?_, ?_, ?_, ?_⟩ <;> dsimp only
  · intro b d' k' q
    rw [putKeys] at q
    by_cases hcc : b = a ∧ d' = d
    · rw [if_pos hcc, Option.some.injEq] at q
      subst q; rw [hcc.2]; exact ⟨hkn, key, hc⟩
    · rw [if_neg hcc] at q; exact h.canon b d' k' q
  · intro b d' q
    rw [putKeys] at q
    by_cases hcc : b = a ∧ d' = d
    · rw [hcc.2]; exact List.mem_of_getElem? g1
    · rw [if_neg hcc] at q; exact hsub _ (h.inDsas b d' q)
  · intro b i
    by_cases hb : b = a
    · subst hb
      rw [put_self, testBit_or_pow, Bool.or_eq_true, h.mask, decide_eq_true_eq]
      constructor
      · rintro (⟨d', q1, q2⟩ | rfl)
        · refine ⟨d', g3 i d' q1, ?_⟩
          rw [putKeys]
          by_cases hcc : b = b ∧ d' = d
          · rw [if_pos hcc]; simp
          · rw [if_neg hcc]; exact q2
        · refine ⟨d, g1, ?_⟩
          rw [putKeys, if_pos ⟨rfl, rfl⟩]; simp
      · rintro ⟨d', q1, q2⟩
        by_cases hd : d' = d
        · subst hd; exact Or.inr (g5 i q1).symm
        · rw [putKeys, if_neg (fun q => hd q.2)] at q2
          exact Or.inl ⟨d', g4 i d' q1 hd, q2⟩
    · rw [put_ne _ _ hb, h.mask]
      constructor
      · rintro ⟨d', q1, q2⟩
        refine ⟨d', g3 i d' q1, ?_⟩
        rw [putKeys, if_neg (fun q => hb q.1)]; exact q2
      · rintro ⟨d', q1, q2⟩
        rw [putKeys, if_neg (fun q => hb q.1)] at q2
        refine ⟨d', ?_, q2⟩
        obtain ⟨i', hi'⟩ := List.getElem?_of_mem (h.inDsas b d' q2)
        rw [getElem?_nodup g2 q1 (g3 i' d' hi')]; exact hi'
  · intro k' nt d' q1 q2
    rw [o5] at q1
    exact hsub _ (h.used k' nt d' q1 q2)
  · intro i
    rw [o4, o5, h.dmask]
    constructor
    · rintro ⟨k', nt, d', q1, q2, q3⟩; exact ⟨k', nt, d', q1, q2, g3 i d' q3⟩
    · rintro ⟨k', nt, d', q1, q2, q3⟩
      refine ⟨k', nt, d', q1, q2, ?_⟩
      obtain ⟨i', hi'⟩ := List.getElem?_of_mem (h.used k' nt d' q1 q2)
      rw [getElem?_nodup g2 q3 (g3 i' d' hi')]; exact hi'
  · intro h1 b d' k' q
    rw [putKeys] at q
    by_cases hcc : b = a ∧ d' = d
    · rw [if_pos hcc, Option.some.injEq] at q
      subst q; rw [put_self, hcc.1]
    · rw [if_neg hcc] at q
      have hd : d' = d := h1 d' d (h.canon b d' k' q).1 hkn
      have hb : b ≠ a := fun e => hcc ⟨e, hd⟩
      have hob := h.owner h1 b d' k' q
      rw [put_ne]
      · exact dropOwner_other h h1 a d hb hob
      · intro e
        rw [← e, hob] at ho
        rcases ho with ho | ho
        · cases ho
        · exact hb (Option.some.inj ho)

/-! ## `CheckPublicKey` -/

theorem checkKey_iff {E : Env} {s : Store} (h : KeyInv E s) (a : Addr) :
    checkKey s a = true ↔ ∀ k nt d, s.nts k = some nt → E.dsaOf nt.uid = some d → s.keys a d ≠ none := by
  unfold checkKey
  rw [decide_eq_true_eq]
  constructor
  · intro q k nt d h1 h2
    obtain ⟨i, hi⟩ := List.getElem?_of_mem (h.used k nt d h1 h2)
    have hb : s.dsaMask.testBit i = true := (h.dmask i).2 ⟨k, nt, d, h1, h2, hi⟩
    rw [← q, Nat.testBit_and, Bool.and_eq_true] at hb
    obtain ⟨d', e1, e2⟩ := (h.mask a i).1 hb.1
    rw [hi] at e1
    rw [Option.some.inj e1]; exact e2
  · intro q
    apply Nat.eq_of_testBit_eq
    intro i
    rw [Nat.testBit_and]
    cases hb : s.dsaMask.testBit i with
    | false => simp
    | true =>
      obtain ⟨k, nt, d, h1, h2, h3⟩ := (h.dmask i).1 hb
      rw [(h.mask a i).2 ⟨d, h3, q k nt d h1 h2⟩]; rfl

end Verif.Btp
