import Verif.Trie.Api

/-!
# Histories: the invariant
-/

namespace Verif.Trie
open Verif

variable {H : Bytes → Bytes} {db : DB}

/-- The trie holds the map. -/
def Holds (t : Node) (m : Bytes → Option Bytes) : Prop :=
  Canon0 t ∧ Fits (find t) ∧ (∀ k, find t (bytesToNibs k) = m k) ∧
    ∀ q v, find t q = some v → ∃ k, q = bytesToNibs k

/-- The node stands for the map. -/
def Rep (H : Bytes → Bytes) (db : DB) (m : Bytes → Option Bytes) (n : Node) : Prop :=
  ∃ t, Holds t m ∧ Root H db t n

theorem holds_unique {t t' : Node} {m : Bytes → Option Bytes} (h : Holds t m) (h' : Holds t' m) : t = t' := by
  refine canon0_unique t t' h.1 h'.1 ?_
  intro q
  have half : ∀ t t' : Node, Holds t m → Holds t' m → ∀ v, find t q = some v → find t' q = some v := by
    intro t t' h h' v hv
    obtain ⟨k, rfl⟩ := h.2.2.2 q v hv
    rw [h'.2.2.1, ← h.2.2.1, hv]
  cases h1 : find t q with
  | some v => exact (half t t' h h' v h1).symm
  | none =>
    cases h2 : find t' q with
    | none => rfl
    | some v => rw [half t' t h' h v h2] at h1; cases h1

theorem holds_nil : Holds .nil (fun _ => none) :=
  ⟨Or.inl rfl, (by intro q v h; cases h), fun _ => rfl, (by intro q v h; cases h)⟩

theorem rep_nil : Rep H db (fun _ => none) .nil := ⟨.nil, holds_nil, Or.inl rfl⟩

theorem rep_mono {db' : DB} (hk : Keeps db db') {m : Bytes → Option Bytes} {n : Node} (h : Rep H db m n) :
    Rep H db' m n := by
  obtain ⟨t, h1, h2⟩ := h
  exact ⟨t, h1, root_mono hk h2⟩

theorem Get_spec (hH : Hash32 H) {m : Bytes → Option Bytes} {n : Node} (h : Rep H db m n) (k : Bytes) :
    (Get db n k).2 = .ok (m k) ∧ Rep H db m (Get db n k).1 := by
  obtain ⟨t, ht, hr⟩ := h
  obtain ⟨n', e, h1, h2⟩ := get_spec hH ht.1 ht.2.1 hr (bytesToNibs k) (fuelFor (bytesToNibs k))
    (by unfold fuelFor; omega)
  unfold Get
  rw [e]
  exact ⟨by rw [← ht.2.2.1], t, ht, Or.inl h1⟩

theorem Set_spec (hH : Hash32 H) {m : Bytes → Option Bytes} {n : Node} (h : Rep H db m n) (k v : Bytes)
    (hk : k.length < 2 ^ 61) (hv : v ≠ []) (hvl : v.length < 2 ^ 62) :
    (Set db n k v).2 = .ok (m k) ∧ Rep H db (fun x => if x = k then some v else m x) (Set db n k v).1 := by
  obtain ⟨t, ht, hr⟩ := h
  obtain ⟨e1, e2, _, h3, t', h4, h5, _, h6⟩ := set_spec hH ht.1 ht.2.1 hr (bytesToNibs k) v
    (fuelFor (bytesToNibs k)) (by unfold fuelFor; omega)
  unfold Set
  simp only
  rw [e1]
  refine ⟨by simp only [e2, ht.2.2.1], t', ⟨Or.inr h5, ?_, ?_, ?_⟩, Or.inl h4⟩
  · intro q w hq
    rw [h6] at hq
    by_cases hqk : q = bytesToNibs k
    · rw [if_pos hqk] at hq
      cases hq
      rw [hqk, nibs_length]
      exact ⟨by omega, hv, hvl⟩
    · rw [if_neg hqk] at hq
      exact ht.2.1 q w hq
  · intro x
    rw [h6]
    simp only
    by_cases hx : x = k
    · rw [if_pos hx, if_pos (by rw [hx])]
    · rw [if_neg hx, if_neg (fun h => hx (nibs_inj _ _ h)), ht.2.2.1]
  · intro q w hq
    rw [h6] at hq
    by_cases hqk : q = bytesToNibs k
    · exact ⟨k, hqk⟩
    · rw [if_neg hqk] at hq
      exact ht.2.2.2 q w hq

theorem Delete_spec (hH : Hash32 H) {m : Bytes → Option Bytes} {n : Node} (h : Rep H db m n) (k : Bytes)
    (ip : Bool) :
    (Delete db ip n k).2 = .ok (m k) ∧ Rep H db (fun x => if x = k then none else m x) (Delete db ip n k).1 := by
  obtain ⟨t, ht, hr⟩ := h
  obtain ⟨e1, e2, e3, h3, t', h4, h5, h6⟩ := delete_spec hH ht.1 ht.2.1 hr ip (bytesToNibs k)
    (fuelFor (bytesToNibs k)) (by unfold fuelFor; omega)
  have hh : Holds t' (fun x => if x = k then none else m x) := by
    refine ⟨h5, ?_, ?_, ?_⟩
    · intro q w hq
      rw [h6] at hq
      by_cases hqk : q = bytesToNibs k
      · rw [if_pos hqk] at hq; cases hq
      · rw [if_neg hqk] at hq; exact ht.2.1 q w hq
    · intro x
      rw [h6]
      simp only
      by_cases hx : x = k
      · rw [if_pos hx, if_pos (by rw [hx])]
      · rw [if_neg hx, if_neg (fun h => hx (nibs_inj _ _ h)), ht.2.2.1]
    · intro q w hq
      rw [h6] at hq
      by_cases hqk : q = bytesToNibs k
      · rw [if_pos hqk] at hq; cases hq
      · rw [if_neg hqk] at hq; exact ht.2.2.2 q w hq
  unfold Delete
  simp only
  rw [e1]
  refine ⟨by simp only [e2, ht.2.2.1], t', hh, ?_⟩
  by_cases hd : (delete db ip (fuelFor (bytesToNibs k)) n (bytesToNibs k)).dirty = true
  · rw [if_pos hd]; exact Or.inl h4
  · rw [if_neg hd]
    have hnone : find t (bytesToNibs k) = none := by
      rw [e3] at hd
      simpa using hd
    have htt : t' = t := by
      refine canon0_unique t' t h5 ht.1 (fun q => ?_)
      rw [h6]
      by_cases hq : q = bytesToNibs k
      · rw [if_pos hq, hq, hnone]
      · rw [if_neg hq]
    cases n with
    | hash h => rw [htt]; exact hr
    | _ => exact Or.inl h4

/-- The invariant of a history. -/
structure Inv (H : Bytes → Bytes) (s : St) (r : Ref) : Prop where
  rep : Rep H s.db r.m s.root
  saved : List.Forall₂ (fun h m => Rep H s.db m (newMPT (h.getD []))) s.saved r.saved

theorem forall2_getD {db : DB} {l : List (Option Bytes)} {l' : List (Bytes → Option Bytes)}
    (h : List.Forall₂ (fun h m => Rep H db m (newMPT (h.getD []))) l l') (i : Nat) :
    Rep H db (l'.getD i (fun _ => none)) (newMPT ((l.getD i none).getD [])) := by
  induction h generalizing i with
  | nil => exact rep_nil
  | cons h1 _ ih =>
    cases i with
    | zero => exact h1
    | succ i => exact ih i

theorem inv_mono {db' : DB} {s : St} {r : Ref} (h : Inv H s r) (hk : Keeps s.db db') :
    Inv H ⟨db', s.root, s.saved⟩ r :=
  ⟨rep_mono hk h.rep, h.saved.imp (fun _ _ h => rep_mono hk h)⟩

theorem inv_step (hH : Hash32 H) {s : St} {r : Ref} (h : Inv H s r) (o : Op) (hv : o.Valid)
    (hc : ¬ Clash s.db (o.out H s)) :
    Inv H (step H s o).1 (refStep r o).1 ∧ (step H s o).2 = .ok (refStep r o).2 := by
  cases o with
  | get k => exact ⟨⟨(Get_spec hH h.rep k).2, h.saved⟩, (Get_spec hH h.rep k).1⟩
  | set k v =>
    have := Set_spec hH h.rep k v hv.1 hv.2.1 hv.2.2
    exact ⟨⟨this.2, h.saved⟩, this.1⟩
  | delete k ip =>
    have := Delete_spec hH h.rep k ip
    exact ⟨⟨this.2, h.saved⟩, this.1⟩
  | flush =>
    refine ⟨?_, rfl⟩
    have hk := (noClash_spec _ _ hc).1
    obtain ⟨t, ht, hr⟩ := h.rep
    have hf := flush_root hH ht.1 hr hc
    exact ⟨⟨t, ht, hf.1⟩, List.Forall₂.cons ⟨t, ht, hf.2⟩ (inv_mono h hk).saved⟩
  | crash n i =>
    refine ⟨?_, rfl⟩
    have hk := (noClash_spec _ _ hc).1
    have := (inv_mono h hk).saved
    exact ⟨forall2_getD this i, this⟩
  | other e =>
    have hk := (noClash_spec _ _ hc).1
    exact ⟨inv_mono h hk, rfl⟩

theorem inv_run (hH : Hash32 H) (os : List Op) : ∀ (s : St) (r : Ref), Inv H s r → (∀ o ∈ os, o.Valid) →
    NoOverwrite H s os → Inv H (run H s os).1 (refRun r os).1 ∧
      (run H s os).2 = (refRun r os).2.map .ok := by
  induction os with
  | nil => intro s r h _ _; exact ⟨h, rfl⟩
  | cons o os ih =>
    intro s r h hv hc
    obtain ⟨h1, h2⟩ := inv_step hH h o (hv o (by simp)) hc.1
    obtain ⟨h3, h4⟩ := ih _ _ h1 (fun o ho => hv o (by simp [ho])) hc.2
    refine ⟨h3, ?_⟩
    simp only [run, refRun, h2, h4, List.map_cons]

theorem inv_init : Inv H St.init Ref.init := ⟨rep_nil, List.Forall₂.nil⟩

end Verif.Trie
