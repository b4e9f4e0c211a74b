import Verif.VList.Steps

/-! # The validator list: the memory behaves like plain values -/

namespace Verif.VList

/-! ### Snapshots -/

theorem Rel.putSn {E : Env} {w : World} {p : Plain} (h : Rel E w p) {k : Nat} {sn sn' : Snap}
    {y : List Vd × Bool} (hk : w.snaps[k]? = some sn) (hy : p.snaps[k]? = some y) (h1 : sn'.lst = sn.lst)
    (h2 : sn'.dirty = sn.dirty) (h3 : ∀ b, sn'.ser = some b → b = bytesOf E y.1)
    (h4 : ∀ b, sn'.hash = some b → b = hashOf E y.1) : Rel E (w.putSn k sn') p := by
  have hlt : k < w.snaps.length := (List.getElem?_eq_some_iff.1 hk).1
  have hget : ∀ (j : Nat) (s : Snap), (w.putSn k sn').snaps[j]? = some s →
      ∃ s0 : Snap, w.snaps[j]? = some s0 ∧ s.lst = s0.lst := by
    intro j s hj
    by_cases e : j = k
    · subst e
      simp only [World.putSn, List.getElem?_set_self hlt, Option.some.injEq] at hj
      subst hj; exact ⟨sn, hk, h1⟩
    · simp only [World.putSn, List.getElem?_set_ne (Ne.symm e)] at hj
      exact ⟨s, hj, rfl⟩
  refine ⟨h.sep.congr (le_refl _) rfl, by simp [World.putSn, h.snl], h.stl, ?_, ?_, ?_, h.db⟩
  · intro j s y' hj hy'
    by_cases e : j = k
    · subst e
      simp only [World.putSn, List.getElem?_set_self hlt, Option.some.injEq] at hj
      subst hj
      rw [hy] at hy'; cases hy'
      obtain ⟨a, b, c, _⟩ := h.sn j sn y hk hy
      exact ⟨by rw [h1]; exact a.congr rfl rfl, b, by rw [h2]; exact c, h3, h4⟩
    · simp only [World.putSn, List.getElem?_set_ne (Ne.symm e)] at hj
      obtain ⟨a, b⟩ := h.sn j s y' hj hy'
      exact ⟨a.congr rfl rfl, b⟩
  · intro s st x hs hx
    obtain ⟨a, b, c, d⟩ := h.st s st x hs hx
    refine ⟨a.congr rfl rfl, b, c, fun j hj => ?_⟩
    obtain ⟨s0, e1, e2⟩ := d j hj
    by_cases e : j = k
    · subst e
      refine ⟨sn', by simp only [World.putSn, List.getElem?_set_self hlt], ?_⟩
      rw [hk] at e1; cases e1; rw [h1, e2]
    · exact ⟨s0, by simp only [World.putSn, List.getElem?_set_ne (Ne.symm e)]; exact e1, e2⟩
  · intro s st hs hn
    obtain ⟨o1, o2⟩ := h.own s st hs hn
    refine ⟨fun j s' hj => ?_, o2⟩
    obtain ⟨s0, e1, e2⟩ := hget j s' hj
    rw [e2]; exact o1 j s0 e1

theorem Rel.addSn {E : Env} {w : World} {p : Plain} (h : Rel E w p) {sn : Snap} {l : List Vd}
    (hl : Holds w sn.lst l) (hd : Distinct l) (h3 : ∀ b, sn.ser = some b → b = bytesOf E l)
    (h4 : ∀ b, sn.hash = some b → b = hashOf E l)
    (ho : ∀ (s : Nat) (st : St), w.states[s]? = some st → st.snap = none → sn.lst ≠ st.lst) :
    Rel E { w with snaps := w.snaps ++ [sn] } { p with snaps := p.snaps ++ [(l, sn.dirty)] } := by
  have key : ∀ (j : Nat) (s : Snap), (w.snaps ++ [sn])[j]? = some s →
      (w.snaps[j]? = some s ∧ j < w.snaps.length) ∨ (j = w.snaps.length ∧ s = sn) := by
    intro j s hj
    by_cases e : j < w.snaps.length
    · rw [List.getElem?_append_left e] at hj; exact Or.inl ⟨hj, e⟩
    · right
      have : j < (w.snaps ++ [sn]).length := (List.getElem?_eq_some_iff.1 hj).1
      simp only [List.length_append, List.length_singleton] at this
      have e2 : j = w.snaps.length := by omega
      subst e2
      simp at hj
      exact ⟨rfl, hj.symm⟩
  refine ⟨h.sep.congr (le_refl _) rfl, by simp [h.snl], h.stl, ?_, ?_, ?_, h.db⟩
  · intro j s y hj hy
    rcases key j s hj with ⟨h1, h2⟩ | ⟨h1, h2⟩
    · dsimp only at hy
      rw [List.getElem?_append_left (by rw [← h.snl]; exact h2)] at hy
      obtain ⟨a, b⟩ := h.sn j s y h1 hy
      exact ⟨a.congr rfl rfl, b⟩
    · subst h1; subst h2
      dsimp only at hy
      rw [h.snl] at hy
      simp at hy
      subst hy
      exact ⟨hl.congr rfl rfl, hd, rfl, h3, h4⟩
  · intro s st x hs hx
    obtain ⟨a, b, c, d⟩ := h.st s st x hs hx
    refine ⟨a.congr rfl rfl, b, c, fun j hj => ?_⟩
    obtain ⟨s0, e1, e2⟩ := d j hj
    refine ⟨s0, ?_, e2⟩
    dsimp only
    rw [List.getElem?_append_left (List.getElem?_eq_some_iff.1 e1).1]; exact e1
  · intro s st hs hn
    obtain ⟨o1, o2⟩ := h.own s st hs hn
    refine ⟨fun j s' hj => ?_, o2⟩
    rcases key j s' hj with ⟨h1, _⟩ | ⟨_, h2⟩
    · exact o1 j s' h1
    · rw [h2]; exact ho s st hs hn

/-- A state is set to a snapshot. -/
theorem Rel.share {E : Env} {w : World} {p : Plain} (h : Rel E w p) {s k : Nat} {st : St} {sn : Snap}
    {y : List Vd × Bool} (hst : w.states[s]? = some st) (hk : w.snaps[k]? = some sn) (hy : p.snaps[k]? = some y) :
    Rel E (w.putSt s ⟨sn.lst, some k⟩) { p with states := p.states.set s (y.1, some k) } := by
  have hlt : s < w.states.length := (List.getElem?_eq_some_iff.1 hst).1
  have hlt' : s < p.states.length := by rw [← h.stl]; exact hlt
  refine ⟨h.sep.congr (le_refl _) rfl, h.snl, by simp [World.putSt, h.stl], ?_, ?_, ?_, h.db⟩
  · intro j s' y' hj hy'
    obtain ⟨a, b⟩ := h.sn j s' y' hj hy'
    exact ⟨a.congr rfl rfl, b⟩
  · intro s' st' x e1 e2
    by_cases es : s' = s
    · subst es
      simp only [World.putSt, List.getElem?_set_self hlt, Option.some.injEq] at e1
      simp only [List.getElem?_set_self hlt', Option.some.injEq] at e2
      subst e1; subst e2
      obtain ⟨a, b, _⟩ := h.sn k sn y hk hy
      exact ⟨a.congr rfl rfl, b, rfl, by intro k' hk'; cases hk'; exact ⟨sn, hk, rfl⟩⟩
    · simp only [World.putSt, List.getElem?_set_ne (Ne.symm es)] at e1
      simp only [List.getElem?_set_ne (Ne.symm es)] at e2
      obtain ⟨a, b⟩ := h.st s' st' x e1 e2
      exact ⟨a.congr rfl rfl, b⟩
  · intro s' st' e1 hn
    by_cases es : s' = s
    · subst es
      simp only [World.putSt, List.getElem?_set_self hlt, Option.some.injEq] at e1
      subst e1; cases hn
    · simp only [World.putSt, List.getElem?_set_ne (Ne.symm es)] at e1
      obtain ⟨o1, o2⟩ := h.own s' st' e1 hn
      refine ⟨o1, fun s2 st2 hne h2 => ?_⟩
      by_cases e2 : s2 = s
      · subst e2
        simp only [World.putSt, List.getElem?_set_self hlt, Option.some.injEq] at h2
        subst h2
        exact o1 k sn hk
      · simp only [World.putSt, List.getElem?_set_ne (Ne.symm e2)] at h2
        exact o2 s2 st2 hne h2

theorem getSnapshot_spec {E : Env} {w : World} {p : Plain} (h : Rel E w p) {s : Nat} {st : St}
    {x : List Vd × Option Nat} (hst : w.states[s]? = some st) (hx : p.states[s]? = some x) :
    (doGetSnapshot w s st).2 = (specSt p s x .getSnapshot).2 ∧
      Rel E (doGetSnapshot w s st).1 (specSt p s x .getSnapshot).1 := by
  obtain ⟨hr, hd, hs, _⟩ := h.st s st x hst hx
  have hlt : s < w.states.length := (List.getElem?_eq_some_iff.1 hst).1
  have hlt' : s < p.states.length := by rw [← h.stl]; exact hlt
  simp only [specSt]
  unfold doGetSnapshot
  rw [← hs]
  cases hsn : st.snap with
  | some k => exact ⟨rfl, h⟩
  | none =>
    dsimp only
    refine ⟨by rw [h.snl], ?_⟩
    obtain ⟨o1, o2⟩ := h.own s st hst hsn
    have key : ∀ (j : Nat) (s : Snap), (w.snaps ++ [(⟨st.lst, true, none, none⟩ : Snap)])[j]? = some s →
        (w.snaps[j]? = some s ∧ j < w.snaps.length) ∨ (j = w.snaps.length ∧ s = ⟨st.lst, true, none, none⟩) := by
      intro j s hj
      by_cases e : j < w.snaps.length
      · rw [List.getElem?_append_left e] at hj; exact Or.inl ⟨hj, e⟩
      · right
        have := (List.getElem?_eq_some_iff.1 hj).1
        simp only [List.length_append, List.length_singleton] at this
        have e2 : j = w.snaps.length := by omega
        subst e2
        simp at hj
        exact ⟨rfl, hj.symm⟩
    refine ⟨h.sep.congr (le_refl _) rfl, by simp [World.putSt, h.snl], by simp [World.putSt, h.stl], ?_, ?_, ?_, h.db⟩
    · intro j s' y hj hy
      rcases key j s' hj with ⟨h1, h2⟩ | ⟨h1, h2⟩
      · dsimp only at hy
        rw [List.getElem?_append_left (by rw [← h.snl]; exact h2)] at hy
        obtain ⟨a, b⟩ := h.sn j s' y h1 hy
        exact ⟨a.congr rfl rfl, b⟩
      · subst h1; subst h2
        dsimp only at hy
        rw [h.snl] at hy
        simp at hy
        subst hy
        exact ⟨hr.congr rfl rfl, hd, rfl, (by intro b hb; cases hb), (by intro b hb; cases hb)⟩
    · intro s' st' x' e1 e2
      by_cases es : s' = s
      · subst es
        simp only [World.putSt, List.getElem?_set_self hlt, Option.some.injEq] at e1
        simp only [List.getElem?_set_self hlt', Option.some.injEq] at e2
        subst e1; subst e2
        refine ⟨hr.congr rfl rfl, hd, by rw [h.snl], ?_⟩
        intro k' hk'; cases hk'
        exact ⟨⟨st.lst, true, none, none⟩, by simp [World.putSt], rfl⟩
      · simp only [World.putSt, List.getElem?_set_ne (Ne.symm es)] at e1
        simp only [List.getElem?_set_ne (Ne.symm es)] at e2
        obtain ⟨a, b, c, d⟩ := h.st s' st' x' e1 e2
        refine ⟨a.congr rfl rfl, b, c, fun j hj => ?_⟩
        obtain ⟨s0, f1, f2⟩ := d j hj
        refine ⟨s0, ?_, f2⟩
        simp only [World.putSt]
        rw [List.getElem?_append_left (List.getElem?_eq_some_iff.1 f1).1]; exact f1
    · intro s' st' e1 hn
      by_cases es : s' = s
      · subst es
        simp only [World.putSt, List.getElem?_set_self hlt, Option.some.injEq] at e1
        subst e1; cases hn
      · simp only [World.putSt, List.getElem?_set_ne (Ne.symm es)] at e1
        obtain ⟨q1, q2⟩ := h.own s' st' e1 hn
        refine ⟨fun j s2 hj => ?_, fun s2 st2 hne h2 => ?_⟩
        · rcases key j s2 hj with ⟨h1, _⟩ | ⟨_, h2⟩
          · exact q1 j s2 h1
          · rw [h2]; exact q2 s st (Ne.symm es) hst
        · by_cases e2 : s2 = s
          · subst e2
            simp only [World.putSt, List.getElem?_set_self hlt, Option.some.injEq] at h2
            subst h2
            exact q2 s2 st hne hst
          · simp only [World.putSt, List.getElem?_set_ne (Ne.symm e2)] at h2
            exact q2 s2 st2 hne h2

/-! ### Bytes and hashes -/

theorem serialize_spec {E : Env} {w : World} {sn : Snap} {l : List Vd} (hl : Holds w sn.lst l)
    (h3 : ∀ b, sn.ser = some b → b = bytesOf E l) :
    (serialize E w sn).lst = sn.lst ∧ (serialize E w sn).dirty = sn.dirty ∧ (serialize E w sn).hash = sn.hash ∧
      (serialize E w sn).ser.getD [] = bytesOf E l ∧ (∀ b, (serialize E w sn).ser = some b → b = bytesOf E l) := by
  unfold serialize
  cases hs : sn.ser with
  | some b =>
    dsimp only
    refine ⟨rfl, rfl, rfl, ?_, h3⟩
    rw [hs]; exact h3 b hs
  | none =>
    dsimp only
    by_cases h0 : (w.obj sn.lst).len > 0
    · rw [if_pos h0]
      have hne : l ≠ [] := by
        rintro rfl; rw [hl.len] at h0; simp at h0
      have hb : bytesOf E l = E.enc l := by rw [bytesOf, if_neg hne]
      refine ⟨rfl, rfl, rfl, ?_, ?_⟩
      · dsimp only; rw [hl.vals, hb]; rfl
      · intro b e; cases e; rw [hl.vals, hb]
    · rw [if_neg h0]
      have he : l = [] := by
        rw [hl.len] at h0
        exact List.eq_nil_of_length_eq_zero (by omega)
      refine ⟨rfl, rfl, rfl, ?_, h3⟩
      rw [hs, bytesOf, if_pos he]; rfl

theorem hashed_spec {E : Env} {w : World} {sn : Snap} {l : List Vd} (hl : Holds w sn.lst l)
    (h3 : ∀ b, sn.ser = some b → b = bytesOf E l) (h4 : ∀ b, sn.hash = some b → b = hashOf E l) :
    (hashed E w sn).lst = sn.lst ∧ (hashed E w sn).dirty = sn.dirty ∧
      (hashed E w sn).hash.getD [] = hashOf E l ∧ (∀ b, (hashed E w sn).ser = some b → b = bytesOf E l) ∧
      (∀ b, (hashed E w sn).hash = some b → b = hashOf E l) := by
  obtain ⟨s1, s2, s3, s4, s5⟩ := serialize_spec hl h3
  unfold hashed
  cases hs : sn.hash with
  | some b =>
    dsimp only
    exact ⟨rfl, rfl, by rw [hs]; exact h4 b hs, h3, h4⟩
  | none =>
    dsimp only
    by_cases h0 : (w.obj sn.lst).len > 0
    · rw [if_pos h0]
      have hne : l ≠ [] := by
        rintro rfl; rw [hl.len] at h0; simp at h0
      have hb : hashOf E l = E.sha ((serialize E w sn).ser.getD []) := by
        rw [s4, hashOf, if_neg hne, bytesOf, if_neg hne]
      refine ⟨s1, s2, hb.symm, s5, ?_⟩
      intro b e; cases e; exact hb.symm
    · rw [if_neg h0]
      have he : l = [] := by
        rw [hl.len] at h0
        exact List.eq_nil_of_length_eq_zero (by omega)
      exact ⟨rfl, rfl, by rw [hs, hashOf, if_pos he]; rfl, h3, h4⟩

theorem hashOf_ne {E : Env} (hE : E.Good) {l : List Vd} (h : l ≠ []) : hashOf E l ≠ [] := by
  rw [hashOf, if_neg h]; exact hE.sha_ne _

theorem Rel.setDb {E : Env} {w : World} {p : Plain} (h : Rel E w p) {db : Bytes → Option Bytes}
    {pdb : Bytes → Option (List Vd)} (hs : Stored E db pdb) : Rel E { w with db := db } { p with db := pdb } :=
  ⟨h.sep.congr (le_refl _) rfl, h.snl, h.stl,
    fun k sn y a b => ⟨(h.sn k sn y a b).1.congr rfl rfl, (h.sn k sn y a b).2⟩,
    fun s st x a b => ⟨(h.st s st x a b).1.congr rfl rfl, (h.st s st x a b).2⟩, h.own, hs⟩

theorem flush_spec {E : Env} (hE : E.Good) {w : World} {p : Plain} (h : Rel E w p) {k : Nat} {sn : Snap}
    {y : List Vd × Bool} (hk : w.snaps[k]? = some sn) (hy : p.snaps[k]? = some y) :
    (doFlush E w k sn).2 = (specSn E p y .flush).2 ∧ Rel E (doFlush E w k sn).1 (specSn E p y .flush).1 := by
  obtain ⟨a, b, c, d, e⟩ := h.sn k sn y hk hy
  simp only [specSn]
  unfold doFlush
  rw [c]
  obtain ⟨s1, s2, s3, s4, s5⟩ := serialize_spec a d
  by_cases hdirty : y.2 = true
  · rw [if_pos hdirty]
    obtain ⟨t1, t2, t3, t4, t5⟩ := hashed_spec (sn := serialize E w sn) (l := y.1) (by rw [s1]; exact a) s5
      (by rw [s3]; exact e)
    have hput := h.putSn hk hy (t1.trans s1) (t2.trans s2) t4 t5
    dsimp only
    rw [t3, s4]
    by_cases hne : y.1 ≠ []
    · rw [if_pos ⟨hdirty, hne⟩]
      refine ⟨rfl, hput.setDb ⟨?_, ?_⟩⟩
      · intro hh hhne
        by_cases e1 : hh = hashOf E y.1
        · simp only [e1, if_true, Option.map_some, bytesOf, if_neg hne]
        · simp only [e1, if_false]; exact h.db.agree hh hhne
      · intro hh l hl
        by_cases e1 : hh = hashOf E y.1
        · simp only [e1, if_true, Option.some.injEq] at hl
          subst hl; exact ⟨hne, b, e1⟩
        · simp only [e1, if_false] at hl; exact h.db.good hh l hl
    · rw [if_neg (by tauto)]
      have hnil : y.1 = [] := not_not.1 hne
      refine ⟨rfl, ?_⟩
      have hz : hashOf E y.1 = [] := by rw [hashOf, if_pos hnil]
      rw [hz]
      refine hput.setDb (p := p) (pdb := p.db) ⟨?_, h.db.good⟩
      intro hh hhne
      simp only [hhne, if_false]
      exact h.db.agree hh hhne
  · have : ¬ (y.2 = true ∧ y.1 ≠ []) := by tauto
    rw [if_neg hdirty, if_neg this]
    exact ⟨rfl, h⟩

/-! ### One call -/

theorem exec_spec {E : Env} (hE : E.Good) {w : World} {p : Plain} (h : Rel E w p) (op : Op) (hf : op.Fine) :
    (exec E w op).2 = (specExec E p op).2 ∧ Rel E (exec E w op).1 (specExec E p op).1 := by
  cases op with
  | fromSlice vl =>
    simp only [exec, specExec]
    refine ⟨by show Out.ref w.snaps.length = _; rw [h.snl], ?_⟩
    have h1 := h.alloc vl 0
    exact h1.addSn (sn := ⟨w.lists.length, true, none, none⟩) (alloc_holds w vl 0) hf (by intro b hb; cases hb)
      (by intro b hb; cases hb) (fun s st hs _ => by have := h.st_lt (s := s) hs; dsimp only; omega)
  | fromHash hh =>
    simp only [exec, specExec]
    unfold doFromHash
    by_cases h0 : hh = []
    · rw [if_pos h0, if_pos h0]
      refine ⟨by show Out.ref w.snaps.length = _; rw [h.snl], ?_⟩
      have h1 := h.alloc [] 0
      exact h1.addSn (sn := ⟨w.lists.length, false, none, none⟩) (alloc_holds w [] 0) (by simp [Distinct])
        (by intro b hb; cases hb)
        (by intro b hb; cases hb) (fun s st hs _ => by have := h.st_lt (s := s) hs; dsimp only; omega)
    · rw [if_neg h0, if_neg h0]
      have ha := h.db.agree hh h0
      cases hp : p.db hh with
      | none =>
        rw [hp] at ha
        simp only [ha, Option.map_none, Option.getD_none, if_true]
        exact ⟨trivial, h⟩
      | some l =>
        obtain ⟨g1, g2, g3⟩ := h.db.good hh l hp
        rw [hp] at ha
        simp only [ha, Option.map_some, Option.getD_some]
        rw [if_neg (hE.enc_ne l), hE.dec_enc l]
        refine ⟨by show Out.ref w.snaps.length = _; rw [h.snl], ?_⟩
        have h1 := h.alloc l (E.slack l.length)
        exact h1.addSn (sn := ⟨w.lists.length, false, some (E.enc l), some hh⟩) (alloc_holds w l _) g2
          (by intro b hb; cases hb; rw [bytesOf, if_neg g1])
          (by intro b hb; cases hb; exact g3) (fun s st hs _ => by have := h.st_lt (s := s) hs; dsimp only; omega)
  | stateFrom k =>
    simp only [exec, specExec]
    cases hk : w.snaps[k]? with
    | none =>
      have : p.snaps[k]? = none := by
        rw [List.getElem?_eq_none_iff] at hk ⊢; rw [← h.snl]; exact hk
      rw [this]; exact ⟨rfl, h⟩
    | some sn =>
      have hlt : k < p.snaps.length := by rw [← h.snl]; exact (List.getElem?_eq_some_iff.1 hk).1
      have hy := List.getElem?_eq_getElem hlt
      rw [hy]
      generalize p.snaps[k] = y at hy ⊢
      dsimp only [doStateFrom]
      refine ⟨by rw [h.stl], ?_⟩
      obtain ⟨a, b, _⟩ := h.sn k sn y hk hy
      have key : ∀ (j : Nat) (s : St), (w.states ++ [(⟨sn.lst, some k⟩ : St)])[j]? = some s →
          (w.states[j]? = some s ∧ j < w.states.length) ∨ (j = w.states.length ∧ s = ⟨sn.lst, some k⟩) := by
        intro j s hj
        by_cases e : j < w.states.length
        · rw [List.getElem?_append_left e] at hj; exact Or.inl ⟨hj, e⟩
        · right
          have := (List.getElem?_eq_some_iff.1 hj).1
          simp only [List.length_append, List.length_singleton] at this
          have e2 : j = w.states.length := by omega
          subst e2
          simp at hj
          exact ⟨rfl, hj.symm⟩
      refine ⟨h.sep.congr (le_refl _) rfl, h.snl, by simp [h.stl], ?_, ?_, ?_, h.db⟩
      · intro j s' y' hj hy'
        obtain ⟨a, b⟩ := h.sn j s' y' hj hy'
        exact ⟨a.congr rfl rfl, b⟩
      · intro s st x e1 e2
        rcases key s st e1 with ⟨h1, h2⟩ | ⟨h1, h2⟩
        · dsimp only at e2
          rw [List.getElem?_append_left (by rw [← h.stl]; exact h2)] at e2
          obtain ⟨a, b⟩ := h.st s st x h1 e2
          exact ⟨a.congr rfl rfl, b⟩
        · subst h1; subst h2
          dsimp only at e2
          rw [h.stl] at e2
          simp at e2
          subst e2
          exact ⟨a.congr rfl rfl, b, rfl, by intro j hj; cases hj; exact ⟨sn, hk, rfl⟩⟩
      · intro s st e1 hn
        rcases key s st e1 with ⟨h1, h2⟩ | ⟨h1, h2⟩
        · obtain ⟨o1, o2⟩ := h.own s st h1 hn
          refine ⟨o1, fun s2 st2 hne g => ?_⟩
          rcases key s2 st2 g with ⟨f1, f2⟩ | ⟨f1, f2⟩
          · exact o2 s2 st2 hne f1
          · rw [f2]; exact o1 k sn hk
        · subst h2; cases hn
  | st s o =>
    simp only [exec, specExec]
    cases hst : w.states[s]? with
    | none =>
      have : p.states[s]? = none := by
        rw [List.getElem?_eq_none_iff] at hst ⊢; rw [← h.stl]; exact hst
      rw [this]; exact ⟨rfl, h⟩
    | some st =>
      obtain ⟨x, hx⟩ := states_of h hst
      rw [hx]
      dsimp only
      obtain ⟨hr, hd, hs, hsn⟩ := h.st s st x hst hx
      cases o with
      | len => exact ⟨by simp only [execSt, specSt, lenOf, hr.len], h⟩
      | get i => exact ⟨by simp only [execSt, specSt, hr.get], h⟩
      | indexOf a =>
        obtain ⟨i1, i2, _⟩ := indexOf_spec h hr hd a
        exact ⟨by simp only [execSt, specSt]; rw [i1], i2⟩
      | set vl => exact doSet_spec h hst hx vl
      | add v => exact doAdd_spec h hst hx v
      | remove v => exact doRemove_spec h hst hx v
      | replace ov nv => exact doReplace_spec h hst hx ov nv
      | setAt i v => exact doSetAt_spec h hst hx i v
      | getSnapshot => exact getSnapshot_spec h hst hx
      | reset k =>
        simp only [execSt, specSt]
        cases hk : w.snaps[k]? with
        | none =>
          have : p.snaps[k]? = none := by
            rw [List.getElem?_eq_none_iff] at hk ⊢; rw [← h.snl]; exact hk
          rw [this]; exact ⟨rfl, h⟩
        | some sn =>
          have hlt : k < p.snaps.length := by rw [← h.snl]; exact (List.getElem?_eq_some_iff.1 hk).1
          have hy := List.getElem?_eq_getElem hlt
          rw [hy]
          generalize p.snaps[k] = y at hy ⊢
          have hshare := h.share hst hk hy
          dsimp only
          unfold doReset
          by_cases e : st.snap = some k
          · rw [if_pos e]
            refine ⟨rfl, ?_⟩
            obtain ⟨sn', e1, e2⟩ := hsn k e
            rw [hk] at e1; cases e1
            have hw : w.putSt s ⟨sn.lst, some k⟩ = w := by
              have : (⟨sn.lst, some k⟩ : St) = st := by rw [e2, ← e]
              rw [this]
              unfold World.putSt
              have : w.states.set s st = w.states := by
                apply List.ext_getElem?
                intro j
                have hlt2 : s < w.states.length := (List.getElem?_eq_some_iff.1 hst).1
                by_cases ej : j = s
                · subst ej; rw [List.getElem?_set_self hlt2, hst]
                · rw [List.getElem?_set_ne (Ne.symm ej)]
              rw [this]
            rw [hw] at hshare
            exact hshare
          · rw [if_neg e]
            exact ⟨rfl, hshare⟩
  | sn k o =>
    simp only [exec, specExec]
    cases hk : w.snaps[k]? with
    | none =>
      have : p.snaps[k]? = none := by
        rw [List.getElem?_eq_none_iff] at hk ⊢; rw [← h.snl]; exact hk
      rw [this]; exact ⟨rfl, h⟩
    | some sn =>
      have hlt : k < p.snaps.length := by rw [← h.snl]; exact (List.getElem?_eq_some_iff.1 hk).1
      have hy := List.getElem?_eq_getElem hlt
      rw [hy]
      generalize p.snaps[k] = y at hy ⊢
      dsimp only
      obtain ⟨a, b, c, d, e⟩ := h.sn k sn y hk hy
      cases o with
      | len => exact ⟨by simp only [execSn, specSn, lenOf, a.len], h⟩
      | get i => exact ⟨by simp only [execSn, specSn, a.get], h⟩
      | indexOf x =>
        obtain ⟨i1, i2, _⟩ := indexOf_spec h a b x
        exact ⟨by simp only [execSn, specSn]; rw [i1], i2⟩
      | hash =>
        obtain ⟨t1, t2, t3, t4, t5⟩ := hashed_spec a d e
        exact ⟨by simp only [execSn, specSn, t3], h.putSn hk hy t1 t2 t4 t5⟩
      | bytes =>
        obtain ⟨s1, s2, s3, s4, s5⟩ := serialize_spec a d
        exact ⟨by simp only [execSn, specSn, s4], h.putSn hk hy s1 s2 s5 (by rw [s3]; exact e)⟩
      | flush => exact flush_spec hE h hk hy

theorem run_spec {E : Env} (hE : E.Good) (ops : List Op) : ∀ {w : World} {p : Plain}, Rel E w p →
    (∀ op ∈ ops, op.Fine) →
    (run E w ops).2 = (specRun E p ops).2 ∧ Rel E (run E w ops).1 (specRun E p ops).1 := by
  induction ops with
  | nil => intro w p h _; exact ⟨rfl, h⟩
  | cons op ops ih =>
    intro w p h hf
    obtain ⟨h1, h2⟩ := exec_spec hE h op (hf op (by simp))
    obtain ⟨h3, h4⟩ := ih h2 (fun o ho => hf o (by simp [ho]))
    exact ⟨by simp only [run, specRun, h1, h3], h4⟩

theorem start_rel {E : Env} {db : Bytes → Option Bytes} {pdb : Bytes → Option (List Vd)} (hs : Stored E db pdb) :
    Rel E (World.start db) (Plain.start pdb) :=
  ⟨⟨fun r hr => by simp [World.start] at hr, fun r _ hr => by simp [World.start] at hr⟩, rfl, rfl,
    fun k sn y hk => by simp [World.start] at hk, fun s st x hk => by simp [World.start] at hk,
    fun s st hk => by simp [World.start] at hk, hs⟩

end Verif.VList
