import Verif.Streams.End
import Mathlib.Data.List.Forall2

/-!
# Both sides
-/

namespace Verif.Streams

theorem Side.other_other (x : Side) : x.other.other = x := by cases x <;> rfl

theorem Side.other_ne (x : Side) : x.other ≠ x := by cases x <;> simp [Side.other]

theorem Side.eq_or (x z : Side) : z = x ∨ z = x.other := by cases x <;> cases z <;> simp [Side.other]

theorem set_same {α : Type} (f : Side → α) (x : Side) (v : α) : set f x v x = v := by simp [set]

theorem set_other {α : Type} (f : Side → α) (x : Side) (v : α) : set f x v x.other = f x.other := by
  simp [set, Side.other_ne]

theorem set_other' {α : Type} (f : Side → α) (x : Side) (v : α) : set f x.other v x = f x := by
  simp [set, (Side.other_ne x).symm]

/-- The messages on the way: `S` is what was given to their sender, `k` the number of those the receiver took; the receiver knows that
`a` of its own were taken, of the `k'` that were. -/
structure Link (ts : List Tag) (net : List Msg) (S : List Data) (k a k' : Nat) : Prop where
  fits : List.Forall₂ (Fits S) ts net
  lo : ∀ t ∈ ts, k ≤ t.n ∧ t.n ≤ S.length
  ak : ∀ t ∈ ts, a ≤ t.k ∧ t.k ≤ k'
  mono : ts.Pairwise fun t t' => t.n ≤ t'.n ∧ t.k ≤ t'.k

theorem Link.out {ts : List Tag} {net : List Msg} {S : List Data} {k a k' : Nat} (L : Link ts net S k a k')
    (hk : k ≤ S.length) (ha : a ≤ k') {o : List Msg} (ho : Outs S k' o) : ∃ ts', Link ts' (net ++ o) S k a k' := by
  induction o generalizing ts net with
  | nil => exact ⟨ts, by rw [List.append_nil]; exact L⟩
  | cons m o ih =>
    obtain ⟨i, F⟩ := ho m List.mem_cons_self
    have L2 : Link (ts ++ [⟨i, S.length, k'⟩]) (net ++ [m]) S k a k' := by
      refine ⟨List.rel_append L.fits (List.Forall₂.cons F List.Forall₂.nil), ?_, ?_, ?_⟩
      · intro t ht
        rcases List.mem_append.1 ht with h | h
        · exact L.lo t h
        · rw [List.mem_singleton] at h
          rw [h]; exact ⟨hk, Nat.le_refl _⟩
      · intro t ht
        rcases List.mem_append.1 ht with h | h
        · exact L.ak t h
        · rw [List.mem_singleton] at h
          rw [h]; exact ⟨ha, Nat.le_refl _⟩
      · rw [List.pairwise_append]
        refine ⟨L.mono, List.pairwise_singleton _ _, ?_⟩
        intro t ht t' ht'
        rw [List.mem_singleton] at ht'
        rw [ht']
        exact ⟨(L.lo t ht).2, (L.ak t ht).2⟩
    obtain ⟨ts', h⟩ := ih L2 (fun m' hm' => ho m' (List.mem_cons_of_mem _ hm'))
    exact ⟨ts', by rw [← List.append_cons] at h; exact h⟩

theorem Link.grow {ts : List Tag} {net : List Msg} {S : List Data} {k a k' : Nat} (L : Link ts net S k a k') (l : List Data) :
    Link ts net (S ++ l) k a k' :=
  { L with
    fits := L.fits.imp fun _ _ h => h.mono l
    lo := fun t ht => ⟨(L.lo t ht).1, by rw [List.length_append]; exact Nat.le_trans (L.lo t ht).2 (Nat.le_add_right _ _)⟩ }

theorem Link.lose {ts : List Tag} {net net' : List Msg} {S : List Data} {k a k' : Nat} (L : Link ts net S k a k')
    (h : net'.Sublist net) : ∃ ts', Link ts' net' S k a k' := by
  suffices H : ∃ ts' : List Tag, ts'.Sublist ts ∧ List.Forall₂ (Fits S) ts' net' by
    obtain ⟨ts', h1, h2⟩ := H
    exact ⟨ts', h2, fun t ht => L.lo t (h1.subset ht), fun t ht => L.ak t (h1.subset ht), L.mono.sublist h1⟩
  have hf := L.fits
  clear L
  induction h generalizing ts with
  | slnil => exact ⟨[], List.nil_sublist _, List.Forall₂.nil⟩
  | cons m _ ih =>
    cases hf with
    | cons h1 h2 =>
      obtain ⟨ts', h3, h4⟩ := ih h2
      exact ⟨ts', h3.cons _, h4⟩
  | cons_cons m _ ih =>
    cases hf with
    | cons h1 h2 =>
      obtain ⟨ts', h3, h4⟩ := ih h2
      exact ⟨_ :: ts', h3.cons_cons _, List.Forall₂.cons h1 h4⟩

/-- What was taken, against what was sent. -/
structure Took (S : List Data) (T : List (Option Data)) : Prop where
  le : T.length ≤ S.length
  eq : ∀ (i : Nat) (d : Data), T[i]? = some (some d) → S[i]? = some d

/-- The invariant. -/
structure Inv (c : Sys) (h : Hist) (a : Side → Nat) : Prop where
  fin : ∀ x, End (c.str x) (h.sent x) (a x) (h.taken x.other).length
  ack : ∀ x, a x ≤ (h.taken x).length
  took : ∀ x, Took (h.sent x) (h.taken x)
  link : ∀ x, ∃ ts, Link ts (c.net x) (h.sent x) (h.taken x).length (a x.other) (h.taken x.other).length

theorem Inv.init : Inv Sys.new Hist.new fun _ => 0 :=
  ⟨fun _ => End.init, fun _ => Nat.le_refl _, fun _ => ⟨Nat.le_refl _, by simp [Hist.new]⟩,
    fun _ => ⟨[], List.Forall₂.nil, by simp, by simp, List.Pairwise.nil⟩⟩

/-- A side does something that does not depend on messages. -/
theorem Inv.act {c : Sys} {h : Hist} {a : Side → Nat} (I : Inv c h a) (x : Side) {s : Stream} {o : List Msg}
    (hs : End s (h.sent x) (a x) (h.taken x.other).length) (ho : Outs (h.sent x) (h.taken x.other).length o) :
    Inv ⟨set c.str x s, set c.net x (c.net x ++ o)⟩ h a := by
  refine ⟨fun z => ?_, I.ack, I.took, fun z => ?_⟩
  · dsimp only
    rcases Side.eq_or x z with rfl | rfl
    · rw [set_same]; exact hs
    · rw [set_other]; exact I.fin _
  · dsimp only
    rcases Side.eq_or x z with rfl | rfl
    · rw [set_same]
      obtain ⟨ts, L⟩ := I.link z
      refine L.out (I.took z).le ?_ ho
      have := I.ack z.other
      exact this
    · rw [set_other]; exact I.link _

theorem Took.append {S : List Data} {T : List (Option Data)} (h : Took S T) {o : Option Data} (hl : T.length < S.length)
    (ho : ∀ d, o = some d → S[T.length]? = some d) : Took S (T ++ [o]) := by
  refine ⟨by rw [List.length_append]; exact hl, ?_⟩
  intro i d hi
  by_cases hc : i < T.length
  · rw [List.getElem?_append_left hc] at hi
    exact h.eq i d hi
  · rw [List.getElem?_append_right (by omega)] at hi
    cases hk : i - T.length with
    | zero =>
      rw [hk] at hi
      have : i = T.length := by omega
      rw [this]
      exact ho d (by simpa using hi)
    | succ n => rw [hk] at hi; simp at hi

theorem Step.inv {c c' : Sys} {h h' : Hist} (s : Step c h c' h') {a : Side → Nat} (I : Inv c h a) : ∃ a', Inv c' h' a' := by
  cases s with
  | @send x d now ok s o hs =>
    obtain ⟨E, O⟩ := (I.fin x).send hs
    refine ⟨a, ?_⟩
    refine ⟨fun z => ?_, I.ack, fun z => ?_, fun z => ?_⟩
    · dsimp only
      rcases Side.eq_or x z with rfl | rfl
      · rw [set_same, set_same]; exact E
      · rw [set_other, set_other]; exact I.fin _
    · dsimp only
      rcases Side.eq_or x z with rfl | rfl
      · rw [set_same]
        have T := I.took z
        refine ⟨?_, fun i d' hi => ?_⟩
        · rw [List.length_append]; exact Nat.le_trans T.le (Nat.le_add_right _ _)
        · have := T.eq i d' hi
          have hlt : i < (h.sent z).length := by
            by_contra hc
            rw [List.getElem?_eq_none (by omega)] at this
            simp at this
          rw [List.getElem?_append_left hlt]; exact this
      · rw [set_other]; exact I.took _
    · dsimp only
      rcases Side.eq_or x z with rfl | rfl
      · rw [set_same, set_same]
        obtain ⟨ts, L⟩ := I.link z
        refine (L.grow [d]).out ?_ ?_ O
        · rw [List.length_append]; exact Nat.le_trans (I.took z).le (Nat.le_add_right _ _)
        · exact I.ack z.other
      · rw [set_other, set_other]; exact I.link _
  | @lose x l hl =>
    refine ⟨a, I.fin, I.ack, I.took, fun z => ?_⟩
    dsimp only
    rcases Side.eq_or x z with rfl | rfl
    · rw [set_same]
      obtain ⟨ts, L⟩ := I.link z
      exact L.lose hl
    · rw [set_other]; exact I.link _
  | repost x now ok => exact ⟨a, I.act x ((I.fin x).repost now ok).1 ((I.fin x).repost now ok).2⟩
  | ack x ok => exact ⟨a, I.act x ((I.fin x).ackTimer ok).1 ((I.fin x).ackTimer ok).2⟩
  | arrive x m ms now ok hn =>
    obtain ⟨ts, L⟩ := I.link x
    rw [hn] at L
    obtain ⟨fits, lo, ak, mono⟩ := L
    cases fits with
    | @cons t _ ts _ F Fs =>
      have hlo := lo t List.mem_cons_self
      have hak := ak t List.mem_cons_self
      rw [List.pairwise_cons] at mono
      have hE := I.fin x.other
      rw [Side.other_other] at hE
      have hwin := (I.fin x).win
      have hax := I.ack x
      have hay := I.took x.other
      obtain ⟨E1, O1, R1⟩ := hE.accept F hlo.1 (by omega) (ok 0)
      obtain ⟨E2, O2⟩ := E1.acknowledge F.ack hak.1 (Nat.le_trans hak.2 hay.le) now (fun i => ok (i + 1))
      have hstr : (receive (c.str x.other) m now ok).1 =
          (acknowledge (accept (c.str x.other) m (ok 0)).1 m now fun i => ok (i + 1)).1 := rfl
      have hout : (receive (c.str x.other) m now ok).2.1 = (accept (c.str x.other) m (ok 0)).2.1 ++
          (acknowledge (accept (c.str x.other) m (ok 0)).1 m now fun i => ok (i + 1)).2 := rfl
      have hres : (receive (c.str x.other) m now ok).2.2 = decide (t.i = (h.taken x).length + 1) := R1
      have O := O1.append O2
      have E := E2
      rw [← hstr] at E
      rw [← hout] at O
      generalize receive (c.str x.other) m now ok = rc at *
      have hile := F.le
      -- what is taken now
      obtain ⟨T, hT⟩ : ∃ T, T = if rc.2.2 then set h.taken x (h.taken x ++ [m.data]) else h.taken := ⟨_, rfl⟩
      have hTy : T x.other = h.taken x.other := by
        rw [hT]
        split_ifs
        · rw [set_other]
        · rfl
      have hTx : (T x).length = if t.i = (h.taken x).length + 1 then (h.taken x).length + 1 else (h.taken x).length := by
        rw [hT, hres]
        by_cases hc : t.i = (h.taken x).length + 1
        · rw [if_pos hc, if_pos (by simpa using hc), set_same, List.length_append]; rfl
        · rw [if_neg hc, if_neg (by simpa using hc)]
      have hTk : (T x).length ≤ (h.sent x).length ∧ (h.taken x).length ≤ (T x).length ∧ ∀ n, t.n ≤ n → (T x).length ≤ n := by
        rw [hTx]
        refine ⟨?_, ?_, fun n hn => ?_⟩ <;> split_ifs <;> omega
      have took : Took (h.sent x) (T x) := by
        rw [hT, hres]
        by_cases hc : t.i = (h.taken x).length + 1
        · rw [if_pos (by simpa using hc), set_same]
          refine (I.took x).append (by omega) ?_
          intro d hd
          obtain ⟨_, h2⟩ := F.dat d hd
          rw [hc] at h2
          exact h2
        · rw [if_neg (by simpa using hc)]
          exact I.took x
      rw [← hTx] at E O
      refine ⟨set a x.other t.k, ?_⟩
      refine ⟨fun z => ?_, fun z => ?_, fun z => ?_, fun z => ?_⟩ <;> dsimp only <;> rw [← hT]
      · rcases Side.eq_or x z with rfl | rfl
        · rw [set_other', set_other', hTy]; exact I.fin _
        · rw [set_same, set_same, Side.other_other]; exact E
      · rcases Side.eq_or x z with rfl | rfl
        · rw [set_other']
          exact Nat.le_trans hax hTk.2.1
        · rw [set_same, hTy]; exact hak.2
      · rcases Side.eq_or x z with rfl | rfl
        · exact took
        · rw [hTy]; exact hay
      · rcases Side.eq_or x z with rfl | rfl
        · rw [set_other', set_same, set_same, hTy]
          refine ⟨ts, Fs, fun t' ht' => ⟨?_, (lo t' (List.mem_cons_of_mem _ ht')).2⟩, fun t' ht' => ⟨?_, (ak t' (List.mem_cons_of_mem _ ht')).2⟩, mono.2⟩
          · exact hTk.2.2 _ (mono.1 t' ht').1
          · exact (mono.1 t' ht').2
        · rw [set_same, Side.other_other, set_other', hTy]
          obtain ⟨ts2, L2⟩ := I.link x.other
          rw [Side.other_other] at L2
          have L3 : Link ts2 (c.net x.other) (h.sent x.other) (h.taken x.other).length (a x) (T x).length :=
            { L2 with ak := fun t' ht' => ⟨(L2.ak t' ht').1, Nat.le_trans (L2.ak t' ht').2 hTk.2.1⟩ }
          exact L3.out hay.le (Nat.le_trans hax hTk.2.1) O

theorem Run.inv {c : Sys} {h : Hist} (r : Run c h) : ∃ a, Inv c h a := by
  induction r with
  | init => exact ⟨_, Inv.init⟩
  | step _ s ih =>
    obtain ⟨a, I⟩ := ih
    exact s.inv I

end Verif.Streams
