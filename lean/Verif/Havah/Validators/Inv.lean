import Verif.Havah.Validators.Model
import Mathlib.Data.List.Nodup
import Mathlib.Tactic.Linarith
import Mathlib.Tactic.SplitIfs
import Mathlib.Tactic.Tauto

/-! # Invariants of the validator registry -/
namespace Verif.Havah.Val
open Verif.Havah

/-- The registry part of the state only. -/
structure Reg (s : St) : Prop where
  infoStatus : ∀ o, (s.info o).isSome ↔ (s.status o).isSome
  nodeOwner : ∀ o vi, s.info o = some vi → s.nodeOwner vi.node = some o
  ownerInfo : ∀ n o, s.nodeOwner n = some o → (s.info o).isSome
  mainIff : ∀ o, o ∈ s.main ↔ ∃ vi st, s.info o = some vi ∧ s.status o = some st ∧
    vi.grade = .main ∧ st.disqualified = false
  subIff : ∀ o, o ∈ s.sub ↔ ∃ vi st, s.info o = some vi ∧ s.status o = some st ∧
    vi.grade = .sub ∧ st.disqualified = false
  disqIff : ∀ o, o ∈ s.disq ↔ ∃ st, s.status o = some st ∧ st.disqualified = true
  mainNodup : s.main.Nodup
  subNodup : s.sub.Nodup
  disqNodup : s.disq.Nodup
  count : ∀ o st, s.status o = some st → st.enabledCount ≤ maxEnableCount
  mainEnabled : ∀ o vi st, s.info o = some vi → s.status o = some st → vi.grade = .main →
    st.disabled = false
  activeNodup : s.active.Nodup
  params : 0 ≤ s.period ∧ 0 ≤ s.allowance ∧ 0 ≤ s.count ∧ 0 ≤ s.net.period ∧ 0 ≤ s.net.allowance
  decCount : s.net.decentralized = true → 1 ≤ s.count

/-- Two states agree on the registry except for statuses. -/
structure SameReg (s t : St) : Prop where
  info : t.info = s.info
  nodeOwner : t.nodeOwner = s.nodeOwner
  main : t.main = s.main
  sub : t.sub = s.sub
  disq : t.disq = s.disq

theorem SameReg.refl (s : St) : SameReg s s := ⟨rfl, rfl, rfl, rfl, rfl⟩
theorem SameReg.trans {s t u : St} (a : SameReg s t) (b : SameReg t u) : SameReg s u :=
  ⟨b.info.trans a.info, b.nodeOwner.trans a.nodeOwner, b.main.trans a.main, b.sub.trans a.sub,
    b.disq.trans a.disq⟩

/-! ### The list operations -/

theorem indexOf_some {l : List Addr} {a : Addr} {i : ℕ} (h : indexOf l a = some i) :
    a ∈ l ∧ i = l.idxOf a ∧ l[i]? = some a := by
  unfold indexOf at h
  split_ifs at h with hm
  simp only [Option.some.injEq] at h
  subst h
  exact ⟨hm, rfl, List.getElem?_idxOf hm⟩

theorem indexOf_none {l : List Addr} {a : Addr} : indexOf l a = none ↔ a ∉ l := by
  unfold indexOf; split_ifs <;> simp_all

theorem vsSetAt_ok {l l' : List Addr} {i : ℕ} {a : Addr} (h : vsSetAt l i a = .ok l') :
    ∃ o, l[i]? = some o ∧ ((o = a ∧ l' = l) ∨ (o ≠ a ∧ a ∉ l ∧ l' = l.set i a)) := by
  unfold vsSetAt at h
  split at h
  · cases h
  · rename_i o ho
    split_ifs at h with h1 h2
    · cases h; exact ⟨o, ho, .inl ⟨h1, rfl⟩⟩
    · cases h; exact ⟨o, ho, .inr ⟨h1, h2, rfl⟩⟩

theorem nodup_set {l : List Addr} {i : ℕ} {a : Addr} (h : l.Nodup) (ha : a ∉ l) :
    (l.set i a).Nodup := by
  rw [List.nodup_iff_getElem?_ne_getElem?] at h ⊢
  intro j k hjk hk
  rw [List.length_set] at hk
  have := h j k hjk hk
  rw [List.getElem?_set, List.getElem?_set]
  have hj : j < l.length := by omega
  by_cases hij : i = j
  · subst hij
    have hik : i ≠ k := by omega
    simp only [if_true, hj, if_neg hik]
    intro he
    exact ha (List.mem_of_getElem? he.symm)
  · simp only [if_neg hij]
    by_cases hik : i = k
    · subst hik
      simp only [if_true, hk]
      intro he
      exact ha (List.mem_of_getElem? he)
    · simpa only [if_neg hik] using this

theorem vsSetAt_nodup {l l' : List Addr} {i : ℕ} {a : Addr} (h : vsSetAt l i a = .ok l')
    (hn : l.Nodup) : l'.Nodup := by
  obtain ⟨o, _, ⟨_, rfl⟩ | ⟨_, ha, rfl⟩⟩ := vsSetAt_ok h
  · exact hn
  · exact nodup_set hn ha

theorem mem_set_iff {l : List Addr} {i : ℕ} {a o : Addr} (hn : l.Nodup) (hi : l[i]? = some o)
    (ha : a ∉ l) (x : Addr) : x ∈ l.set i a ↔ x = a ∨ (x ∈ l ∧ x ≠ o) := by
  obtain ⟨hlt, hio⟩ := List.getElem?_eq_some_iff.mp hi
  constructor
  · intro hx
    obtain ⟨j, hj⟩ := List.mem_iff_getElem?.mp hx
    rw [List.getElem?_set] at hj
    split_ifs at hj with h1
    · left; simpa using hj.symm
    · right
      refine ⟨List.mem_of_getElem? hj, ?_⟩
      rintro rfl
      obtain ⟨hj', he⟩ := List.getElem?_eq_some_iff.mp hj
      exact h1 ((List.Nodup.getElem_inj_iff hn).mp (hio.trans he.symm))
  · rintro (rfl | ⟨hx, hne⟩)
    · exact List.mem_set hlt x
    · obtain ⟨j, hj⟩ := List.mem_iff_getElem?.mp hx
      refine List.mem_iff_getElem?.mpr ⟨j, ?_⟩
      rw [List.getElem?_set]
      split_ifs with h1
      · subst h1
        rw [hi] at hj
        exact absurd (Option.some.inj hj).symm hne
      · exact hj

/-- Removing an entry by "move the last one into its place" removes exactly that entry. -/
theorem removeFromArray_ok {l l' : List Addr} {o : Addr} (h : removeFromArray l o = .ok l')
    (hn : l.Nodup) : o ∈ l ∧ l'.Nodup ∧ ∀ x, x ∈ l' ↔ x ∈ l ∧ x ≠ o := by
  unfold removeFromArray at h
  split at h
  · cases h
  · rename_i last hl
    have hne : l ≠ [] := by rintro rfl; simp at hl
    have hlast : l = l.dropLast ++ [last] := by
      have := List.dropLast_append_getLast hne
      rw [List.getLast?_eq_some_getLast hne] at hl
      cases hl
      exact this.symm
    have hnd : (l.dropLast ++ [last]).Nodup := hlast ▸ hn
    have hnd' := List.nodup_append.mp hnd
    have hld : last ∉ l.dropLast := fun hm => hnd'.2.2 last hm last (by simp) rfl
    have hmem : ∀ x, x ∈ l ↔ x ∈ l.dropLast ∨ x = last := by
      intro x; conv_lhs => rw [hlast]
      simp
    split_ifs at h with h1 h2
    · cases h; subst h1
      refine ⟨(hmem o).mpr (.inr rfl), hnd'.1, fun x => ?_⟩
      rw [hmem]
      constructor
      · intro hx; exact ⟨.inl hx, fun e => hld (e ▸ hx)⟩
      · rintro ⟨hx | hx, hne⟩
        · exact hx
        · exact absurd hx hne
    · cases h
      refine ⟨(hmem o).mpr (.inl h2), nodup_set hnd'.1 hld, fun x => ?_⟩
      rw [mem_set_iff hnd'.1 (List.getElem?_idxOf h2) hld, hmem]
      constructor
      · rintro (rfl | ⟨hx, hne⟩)
        · exact ⟨.inr rfl, fun e => h1 e.symm⟩
        · exact ⟨.inl hx, hne⟩
      · rintro ⟨hx | hx, hne⟩
        · exact .inr ⟨hx, hne⟩
        · exact .inl hx

end Verif.Havah.Val
