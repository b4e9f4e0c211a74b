import Verif.Dsign.PoolSpec
import Mathlib.Data.List.Perm.Basic

/-!
# The manager and the trackers keep the history
-/

namespace Verif.Dsign.Pool

theorem insertBack_perm (x : Key) (l : List Key) : (insertBack x l).Perm (x :: l) := by
  induction l with
  | nil => exact List.Perm.refl _
  | cons r t ih =>
    unfold insertBack
    split_ifs
    · exact List.Perm.refl _
    · exact (ih.cons r).trans (List.Perm.swap _ _ _)

theorem insert_perm (l : List Key) (x : Key) : (insert l x).Perm (x :: l) :=
  (List.reverse_perm _).trans ((insertBack_perm x _).trans ((List.reverse_perm l).cons x))

theorem insertBack_sorted (x : Key) (l : List Key) (h : l.Pairwise fun a b => b.height ≤ a.height) :
    (insertBack x l).Pairwise fun a b => b.height ≤ a.height := by
  induction l with
  | nil => exact List.pairwise_singleton _ _
  | cons r t ih =>
    obtain ⟨h1, h2⟩ := List.pairwise_cons.1 h
    unfold insertBack
    split_ifs with hr
    · refine List.pairwise_cons.2 ⟨?_, h⟩
      intro b hb
      rcases List.mem_cons.1 hb with rfl | hb
      · exact hr
      · have := h1 b hb; omega
    · refine List.pairwise_cons.2 ⟨?_, ih h2⟩
      intro b hb
      rcases List.mem_cons.1 ((insertBack_perm x t).mem_iff.1 hb) with rfl | hb
      · omega
      · exact h1 b hb

theorem insert_sorted (x : Key) (l : List Key) (h : l.Pairwise fun a b => a.height ≤ b.height) :
    (insert l x).Pairwise fun a b => a.height ≤ b.height := by
  unfold insert
  rw [List.pairwise_reverse]
  apply insertBack_sorted
  rw [List.pairwise_reverse]
  exact h

/-- The manager against what was added and committed (`C`). -/
structure ManInv (m : Manager) (A : Key → Prop) (C : Key → Prop) (f : Int) : Prop where
  nodup : (m.todo ++ m.done).Nodup
  map : ∀ k, m.reports k = true ↔ k ∈ m.todo ∨ k ∈ m.done
  todo : ∀ k, k ∈ m.todo ↔ A k ∧ ¬C k ∧ m.first ≤ k.height
  done : ∀ k, C k → m.first ≤ k.height → k ∈ m.done
  doneC : ∀ k ∈ m.done, C k
  sorted : m.todo.Pairwise fun a b => a.height ≤ b.height
  first : m.first = f
  low : -1 ≤ f
  none : m.first = -1 → ∀ k, ¬A k

theorem ManInv.congr {m : Manager} {A A' C C' : Key → Prop} {f : Int} (I : ManInv m A C f) (ha : ∀ k, A k ↔ A' k)
    (hc : ∀ k, C k ↔ C' k) : ManInv m A' C' f := by
  have h1 : A = A' := funext fun k => propext (ha k)
  have h2 : C = C' := funext fun k => propext (hc k)
  subst h1
  subst h2
  exact I

theorem ManInv.add {m m' : Manager} {A C : Key → Prop} {f : Int} (I : ManInv m A C f) {height : Int} {signer : Nat}
    (h : m.add height true (some signer) = some m') : ManInv m' (fun k => A k ∨ k = ⟨height, signer⟩) C f := by
  unfold Manager.add at h
  by_cases hf : m.first = -1 ∨ height < m.first
  · rw [if_pos hf] at h; simp at h
  rw [if_neg hf] at h
  simp only [Bool.not_true, Bool.false_eq_true, if_false] at h
  have hf1 : m.first ≠ -1 := fun h => hf (.inl h)
  have hf2 : m.first ≤ height := by
    by_contra hc
    exact hf (.inr (by omega))
  generalize hx : (⟨height, signer⟩ : Key) = x at h
  have hxh : x.height = height := by rw [← hx]
  by_cases hr : m.reports x = true
  · rw [if_pos hr, Option.some.injEq] at h
    subst h
    refine ⟨I.nodup, I.map, ?_, I.done, I.doneC, I.sorted, I.first, I.low, fun h => absurd h hf1⟩
    intro k
    rw [I.todo]
    constructor
    · rintro ⟨h1, h2⟩; exact ⟨.inl h1, h2⟩
    · rintro ⟨h1 | h1, h2, h3⟩
      · exact ⟨h1, h2, h3⟩
      · rw [h1]
        rw [h1] at h2
        rcases (I.map x).1 hr with h | h
        · exact (I.todo x).1 h
        · exact absurd (I.doneC x h) h2
  · rw [if_neg hr, Option.some.injEq] at h
    subst h
    have hnot : x ∉ m.todo ∧ x ∉ m.done := by
      constructor
      · intro h; exact hr ((I.map x).2 (.inl h))
      · intro h; exact hr ((I.map x).2 (.inr h))
    have hC : ¬C x := fun h => hnot.2 (I.done x h (by omega))
    have hp := insert_perm m.todo x
    refine ⟨?_, ?_, ?_, I.done, I.doneC, insert_sorted _ _ I.sorted, I.first, I.low, fun h => absurd h hf1⟩
    · rw [(hp.append_right m.done).nodup_iff]
      refine List.nodup_cons.2 ⟨?_, I.nodup⟩
      intro h
      rcases List.mem_append.1 h with h | h
      · exact hnot.1 h
      · exact hnot.2 h
    · intro k
      dsimp only
      rw [hp.mem_iff, List.mem_cons, Bool.or_eq_true, beq_iff_eq, I.map, or_assoc]
    · intro k
      dsimp only
      rw [hp.mem_iff, List.mem_cons, I.todo]
      constructor
      · rintro (rfl | ⟨h1, h2⟩)
        · exact ⟨.inr rfl, hC, by omega⟩
        · exact ⟨.inl h1, h2⟩
      · rintro ⟨h1 | h1, h2⟩
        · exact .inr ⟨h1, h2⟩
        · exact .inl h1

theorem ManInv.setFirst {m : Manager} {A C : Key → Prop} {f : Int} (I : ManInv m A C f) (h : Int) :
    ManInv (m.setFirst h) A C (max f h) := by
  have hff := I.first
  have hlow := I.low
  unfold Manager.setFirst
  by_cases hc : h ≤ m.first
  · rw [if_pos hc]
    have : max f h = f := by omega
    rw [this]
    exact I
  · rw [if_neg hc]
    refine ⟨?_, ?_, ?_, ?_, ?_, I.sorted.filter _, ?_, by omega, ?_⟩
    · dsimp only
      rw [← List.filter_append]
      exact I.nodup.filter _
    · intro k
      dsimp only
      rw [List.mem_filter, List.mem_filter, Bool.and_eq_true, I.map]
      simp only [Bool.not_eq_true', Bool.and_eq_false_iff, Bool.or_eq_false_iff, decide_eq_false_iff_not,
        List.contains_eq_mem]
      tauto
    · intro k
      dsimp only
      rw [List.mem_filter, I.todo]
      simp only [Bool.not_eq_true', decide_eq_false_iff_not]
      constructor
      · rintro ⟨⟨h1, h2, h3⟩, h4⟩; exact ⟨h1, h2, by omega⟩
      · rintro ⟨h1, h2, h3⟩; exact ⟨⟨h1, h2, by omega⟩, by omega⟩
    · intro k hk hh
      dsimp only at hh ⊢
      rw [List.mem_filter]
      exact ⟨I.done k hk (by omega), by simp; omega⟩
    · intro k hk
      exact I.doneC k (List.mem_filter.1 hk).1
    · dsimp only
      omega
    · dsimp only
      omega

theorem ManInv.commit1 {m : Manager} {A C : Key → Prop} {f : Int} (I : ManInv m A C f) (x : Key) :
    ManInv (m.commit1 x) A (fun k => C k ∨ k = x) f := by
  unfold Manager.commit1
  have hnd := List.nodup_append.1 I.nodup
  by_cases hr : m.reports x = true
  · rw [if_pos hr]
    by_cases ht : x ∈ m.todo
    · rw [if_pos (by simpa using ht)]
      have hp := insert_perm m.done x
      have he : (x :: m.todo.erase x).Perm m.todo := (List.perm_cons_erase ht).symm
      refine ⟨?_, ?_, ?_, ?_, ?_, I.sorted.sublist List.erase_sublist, I.first, I.low, I.none⟩
      · rw [(hp.append_left _).nodup_iff, List.perm_middle.nodup_iff]
        exact ((he.append_right m.done).nodup_iff).2 I.nodup
      · intro k
        dsimp only
        rw [I.map, hp.mem_iff, ← he.mem_iff, List.mem_cons, List.mem_cons]
        tauto
      · intro k
        dsimp only
        rw [hnd.1.mem_erase_iff, I.todo]
        tauto
      · intro k hk hf
        dsimp only
        rw [hp.mem_iff, List.mem_cons]
        rcases hk with hk | hk
        · exact .inr (I.done k hk hf)
        · exact .inl hk
      · intro k hk
        rcases List.mem_cons.1 (hp.mem_iff.1 hk) with hk | hk
        · exact .inr hk
        · exact .inl (I.doneC k hk)
    · rw [if_neg (by simpa using ht)]
      have hd : x ∈ m.done := ((I.map x).1 hr).resolve_left ht
      refine I.congr (fun _ => Iff.rfl) fun k => ?_
      constructor
      · exact .inl
      · rintro (h | rfl)
        · exact h
        · exact I.doneC _ hd
  · rw [if_neg hr]
    have hnot : x ∉ m.todo ∧ x ∉ m.done := by
      constructor
      · intro h; exact hr ((I.map x).2 (.inl h))
      · intro h; exact hr ((I.map x).2 (.inr h))
    have hp := insert_perm m.done x
    refine ⟨?_, ?_, ?_, ?_, ?_, I.sorted, I.first, I.low, I.none⟩
    · rw [(hp.append_left _).nodup_iff, List.perm_middle.nodup_iff]
      refine List.nodup_cons.2 ⟨?_, I.nodup⟩
      intro h
      rcases List.mem_append.1 h with h | h
      · exact hnot.1 h
      · exact hnot.2 h
    · intro k
      dsimp only
      rw [hp.mem_iff, List.mem_cons, Bool.or_eq_true, beq_iff_eq, I.map]
      tauto
    · intro k
      dsimp only
      constructor
      · intro hk
        obtain ⟨h1, h2, h3⟩ := (I.todo k).1 hk
        refine ⟨h1, ?_, h3⟩
        rintro (h | rfl)
        · exact h2 h
        · exact hnot.1 hk
      · rintro ⟨h1, h2, h3⟩
        exact (I.todo k).2 ⟨h1, fun h => h2 (.inl h), h3⟩
    · intro k hk hf
      dsimp only
      rw [hp.mem_iff, List.mem_cons]
      rcases hk with hk | hk
      · exact .inr (I.done k hk hf)
      · exact .inl hk
    · intro k hk
      rcases List.mem_cons.1 (hp.mem_iff.1 hk) with hk | hk
      · exact .inr hk
      · exact .inl (I.doneC k hk)

theorem ManInv.commit (ks : List Key) : ∀ {m : Manager} {A C : Key → Prop} {f : Int}, ManInv m A C f →
    ManInv (m.commit ks) A (fun k => C k ∨ k ∈ ks) f := by
  induction ks with
  | nil => intro m A C f I; exact I.congr (fun _ => Iff.rfl) (by simp)
  | cons x ks ih =>
    intro m A C f I
    refine (ih (I.commit1 x)).congr (fun _ => Iff.rfl) fun k => ?_
    rw [List.mem_cons]
    tauto

/-- The trackers against the branches. -/
structure TrkInv (s : Sys) (B : List (List Key)) (C : Key → Prop) : Prop where
  len : s.trk.length = B.length
  own : ∀ (i : Nat) (t : Tracker) (b : List Key), s.trk[i]? = some t → B[i]? = some b → ∀ k ∈ t.reports, k ∈ b
  up : ∀ (i : Nat) (t : Tracker) (b : List Key) (p : Nat), s.trk[i]? = some t → B[i]? = some b → t.parent = some p → p < i ∧ ∃ b', B[p]? = some b' ∧ ∀ k ∈ b', k ∈ b
  all : ∀ (i : Nat) (t : Tracker) (b : List Key), s.trk[i]? = some t → B[i]? = some b → ∀ k ∈ b, k ∈ t.reports ∨ C k ∨
    ∃ p b', t.parent = some p ∧ B[p]? = some b' ∧ k ∈ b'

theorem TrkInv.congr {s : Sys} {B : List (List Key)} {C C' : Key → Prop} (I : TrkInv s B C) (hc : ∀ k, C k ↔ C' k) :
    TrkInv s B C' := by
  have h2 : C = C' := funext fun k => propext (hc k)
  subst h2
  exact I

theorem commit_inv (n : Nat) : ∀ {s : Sys} {A C : Key → Prop} {f : Int} {B : List (List Key)} {i : Nat} {b : List Key},
    i < n → B[i]? = some b → ManInv s.man A C f → TrkInv s B C →
    ManInv (commit n s i).man A (fun k => C k ∨ k ∈ b) f ∧ TrkInv (commit n s i) B (fun k => C k ∨ k ∈ b) := by
  induction n with
  | zero => intro s A C f B i b hi; omega
  | succ n ih =>
    intro s A C f B i b hi hb M T
    have hlt : i < s.trk.length := by
      rw [T.len]
      exact (List.getElem?_eq_some_iff.1 hb).1
    have ht : s.trk[i]? = some s.trk[i] := List.getElem?_eq_getElem hlt
    generalize s.trk[i] = t at ht
    -- what the parent leaves
    obtain ⟨s1, C1, he, M1, T1, hC1, hC2⟩ : ∃ s1 C1, (match t.parent with
        | some p => commit n s p
        | none => s) = s1 ∧ ManInv s1.man A C1 f ∧ TrkInv s1 B C1 ∧
        (∀ k, C1 k → C k ∨ k ∈ b) ∧ (∀ k, C k ∨ k ∈ b → C1 k ∨ k ∈ t.reports) := by
      cases hp : t.parent with
      | none =>
        refine ⟨s, C, rfl, M, T, fun k h => .inl h, ?_⟩
        rintro k (h | h)
        · exact .inl h
        · rcases T.all i t b ht hb k h with h | h | ⟨p, b', h, _⟩
          · exact .inr h
          · exact .inl h
          · rw [hp] at h; simp at h
      | some p =>
        obtain ⟨hpi, b', hb', hsub⟩ := T.up i t b p ht hb hp
        obtain ⟨M1, T1⟩ := ih (by omega) hb' M T
        refine ⟨_, _, rfl, M1, T1, ?_, ?_⟩
        · rintro k (h | h)
          · exact .inl h
          · exact .inr (hsub k h)
        · rintro k (h | h)
          · exact .inl (.inl h)
          · rcases T.all i t b ht hb k h with h | h | ⟨q, b2, h, h2, h3⟩
            · exact .inr h
            · exact .inl (.inl h)
            · rw [hp, Option.some.injEq] at h
              subst h
              rw [hb', Option.some.injEq] at h2
              subst h2
              exact .inl (.inr h3)
    have hC : ∀ k, (C1 k ∨ k ∈ t.reports) ↔ (C k ∨ k ∈ b) := by
      intro k
      constructor
      · rintro (h | h)
        · exact hC1 k h
        · exact .inr (T.own i t b ht hb k h)
      · exact hC2 k
    have hcom : commit (n + 1) s i = ⟨s1.man.commit t.reports, s1.trk.set i ⟨[], none⟩⟩ := by
      rw [← he]
      show (match s.trk[i]? with
        | none => s
        | some t => _) = _
      rw [ht]
      rfl
    rw [hcom]
    refine ⟨(M1.commit t.reports).congr (fun _ => Iff.rfl) hC, ?_⟩
    have hlen1 : i < s1.trk.length := by rw [T1.len, ← T.len]; exact hlt
    refine ⟨?_, ?_, ?_, ?_⟩
    · rw [← T1.len]
      exact List.length_set
    · intro j u c hu hc k hk
      dsimp only at hu
      rw [List.getElem?_set] at hu
      split_ifs at hu with h1
      · rw [Option.some.injEq] at hu
        subst hu
        simp at hk
      · exact T1.own j u c hu hc k hk
    · intro j u c p hu hc hp
      dsimp only at hu
      rw [List.getElem?_set] at hu
      split_ifs at hu with h1
      · rw [Option.some.injEq] at hu
        subst hu
        simp at hp
      · exact T1.up j u c p hu hc hp
    · intro j u c hu hc k hk
      dsimp only at hu
      rw [List.getElem?_set] at hu
      split_ifs at hu with h1
      · subst h1
        rw [hb, Option.some.injEq] at hc
        subst hc
        exact .inr (.inl (.inr hk))
      · rcases T1.all j u c hu hc k hk with h | h | h
        · exact .inl h
        · exact .inr (.inl (hC1 k h))
        · exact .inr (.inr h)

/-- The invariant. -/
theorem Run.inv {s : Sys} {h : Hist} (r : Run s h) :
    ManInv s.man (· ∈ h.added) (· ∈ h.committed) h.first ∧ TrkInv s h.branch (· ∈ h.committed) := by
  induction r with
  | init =>
    refine ⟨⟨by simp [Manager.new], by simp [Manager.new], by simp [Manager.new], by simp, by simp [Manager.new],
      by simp [Manager.new], rfl, by decide, by simp⟩, ⟨rfl, ?_, ?_, ?_⟩⟩
    · intro i t b ht; simp at ht
    · intro i t b p ht; simp at ht
    · intro i t b ht; simp at ht
  | step _ st ih =>
    obtain ⟨M, T⟩ := ih
    cases st with
    | add height signer e => exact ⟨(M.add e).congr (by simp) fun _ => Iff.rfl, ⟨T.len, T.own, T.up, T.all⟩⟩
    | root =>
      refine ⟨M, ⟨by simp [T.len], ?_, ?_, ?_⟩⟩
      all_goals
        dsimp only
      · intro i t b ht hb k hk
        rw [List.getElem?_append] at ht hb
        rw [← T.len] at hb
        split_ifs at ht hb with hi
        · exact T.own i t b ht hb k hk
        · obtain ⟨rfl⟩ := List.mem_singleton.1 (List.mem_of_getElem? ht)
          simp at hk
      · intro i t b p ht hb hp
        rw [List.getElem?_append] at ht hb
        rw [← T.len] at hb
        split_ifs at ht hb with hi
        · obtain ⟨h1, b', h2, h3⟩ := T.up i t b p ht hb hp
          exact ⟨h1, b', by rw [List.getElem?_append_left (by rw [← T.len]; omega)]; exact h2, h3⟩
        · obtain ⟨rfl⟩ := List.mem_singleton.1 (List.mem_of_getElem? ht)
          simp at hp
      · intro i t b ht hb k hk
        rw [List.getElem?_append] at ht hb
        rw [← T.len] at hb
        split_ifs at ht hb with hi
        · rcases T.all i t b ht hb k hk with h | h | ⟨p, b', h1, h2, h3⟩
          · exact .inl h
          · exact .inr (.inl h)
          · refine .inr (.inr ⟨p, b', h1, ?_, h3⟩)
            rw [List.getElem?_append_left (List.getElem?_eq_some_iff.1 h2).1]; exact h2
        · obtain ⟨rfl⟩ := List.mem_singleton.1 (List.mem_of_getElem? hb)
          simp at hk
    | @child p up ks hp =>
      have hpl := (List.getElem?_eq_some_iff.1 hp).1
      refine ⟨M, ⟨by simp [T.len], ?_, ?_, ?_⟩⟩
      all_goals
        dsimp only
      · intro i t b ht hb k hk
        rw [List.getElem?_append] at ht hb
        rw [← T.len] at hb
        split_ifs at ht hb with hi
        · exact T.own i t b ht hb k hk
        · have h1 := List.mem_singleton.1 (List.mem_of_getElem? ht)
          have h2 := List.mem_singleton.1 (List.mem_of_getElem? hb)
          subst h1 h2
          exact List.mem_append_right _ hk
      · intro i t b q ht hb hq
        rw [List.getElem?_append] at ht hb
        rw [← T.len] at hb
        split_ifs at ht hb with hi
        · obtain ⟨h1, b', h2, h3⟩ := T.up i t b q ht hb hq
          exact ⟨h1, b', by rw [List.getElem?_append_left (by rw [← T.len]; omega)]; exact h2, h3⟩
        · have h1 := List.mem_singleton.1 (List.mem_of_getElem? ht)
          have h2 := List.mem_singleton.1 (List.mem_of_getElem? hb)
          subst h1 h2
          simp only [Option.some.injEq] at hq
          subst hq
          refine ⟨by rw [T.len] at hi; omega, up, ?_, fun k hk => List.mem_append_left _ hk⟩
          rw [List.getElem?_append_left hpl]; exact hp
      · intro i t b ht hb k hk
        rw [List.getElem?_append] at ht hb
        rw [← T.len] at hb
        split_ifs at ht hb with hi
        · rcases T.all i t b ht hb k hk with h | h | ⟨p, b', h1, h2, h3⟩
          · exact .inl h
          · exact .inr (.inl h)
          · refine .inr (.inr ⟨p, b', h1, ?_, h3⟩)
            rw [List.getElem?_append_left (List.getElem?_eq_some_iff.1 h2).1]; exact h2
        · have h1 := List.mem_singleton.1 (List.mem_of_getElem? ht)
          have h2 := List.mem_singleton.1 (List.mem_of_getElem? hb)
          subst h1 h2
          rcases List.mem_append.1 hk with hk | hk
          · refine .inr (.inr ⟨p, up, rfl, ?_, hk⟩)
            rw [List.getElem?_append_left hpl]; exact hp
          · exact .inl hk
    | @commit i ks hb =>
      obtain ⟨M', T'⟩ := commit_inv (i + 1) (Nat.lt_succ_self i) hb M T
      exact ⟨M'.congr (fun _ => Iff.rfl) (by simp), T'.congr (by simp)⟩
    | first f => exact ⟨M.setFirst f, ⟨T.len, T.own, T.up, T.all⟩⟩

/-- What a tracker has. -/
theorem has_inv {s : Sys} {A C : Key → Prop} {f : Int} {B : List (List Key)} (M : ManInv s.man A C f) (T : TrkInv s B C) (n : Nat) :
    ∀ {i : Nat} {b : List Key} {k : Key}, i < n → B[i]? = some b →
      (has s n i k = true → k ∈ b ∨ C k) ∧ (k ∈ b ∨ C k → f ≤ k.height → has s n i k = true) := by
  induction n with
  | zero => intro i b k hi; omega
  | succ n ih =>
    intro i b k hi hb
    have hlt : i < s.trk.length := by
      rw [T.len]
      exact (List.getElem?_eq_some_iff.1 hb).1
    have ht : s.trk[i]? = some s.trk[i] := List.getElem?_eq_getElem hlt
    generalize s.trk[i] = t at ht
    unfold has
    rw [ht]
    dsimp only
    by_cases hk : k ∈ t.reports
    · rw [if_pos (by simpa using hk)]
      exact ⟨fun _ => .inl (T.own i t b ht hb k hk), fun _ _ => rfl⟩
    · rw [if_neg (by simpa using hk)]
      cases hp : t.parent with
      | some p =>
        obtain ⟨hpi, b', hb', hsub⟩ := T.up i t b p ht hb hp
        obtain ⟨h1, h2⟩ := ih (k := k) (by omega : p < n) hb'
        refine ⟨?_, ?_⟩
        · intro h
          rcases h1 h with h | h
          · exact .inl (hsub k h)
          · exact .inr h
        · intro h hf
          refine h2 ?_ hf
          rcases h with h | h
          · rcases T.all i t b ht hb k h with h | h | ⟨q, b2, hq, h2, h3⟩
            · exact absurd h hk
            · exact .inr h
            · rw [hp, Option.some.injEq] at hq
              subst hq
              rw [hb', Option.some.injEq] at h2
              subst h2
              exact .inl h3
          · exact .inr h
      | none =>
        dsimp only
        unfold Manager.has
        have hnd := List.nodup_append.1 M.nodup
        refine ⟨?_, ?_⟩
        · intro h
          rw [Bool.and_eq_true, M.map] at h
          rcases h.1 with h1 | h1
          · have := h.2; simp [h1] at this
          · exact .inr (M.doneC k h1)
        · intro h hf
          have hC : C k := by
            rcases h with h | h
            · rcases T.all i t b ht hb k h with h | h | ⟨q, b2, hq, _⟩
              · exact absurd h hk
              · exact h
              · rw [hp] at hq; simp at hq
            · exact h
          have hd := M.done k hC (by rw [M.first]; exact hf)
          rw [Bool.and_eq_true, M.map]
          refine ⟨.inr hd, ?_⟩
          have : k ∉ s.man.todo := fun h => hnd.2.2 k h k hd rfl
          simpa using this

end Verif.Dsign.Pool
