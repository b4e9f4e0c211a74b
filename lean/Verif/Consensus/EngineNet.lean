import Verif.Consensus.EngineOwn
import Verif.Consensus.VoteSetProps

/-!
# Votes of others

The part of the invariant that concerns the votes a node has taken in: they are authentic, so what a vote
set decides is backed by more than two thirds of the validators.
-/

namespace Verif.Consensus.Engine

open VoteSet (Rep voters)

variable {D B P : Type} [DecidableEq B] [DecidableEq P] {c : Cfg D B P}

/-- Votes of more than two thirds of the validators for `q`, all of type `t` and round `r`. -/
def Quo (c : Cfg D B P) (A : ℕ → Vote D → Prop) (t : VoteType) (r : ℤ) (q : Option P) : Prop :=
  ∃ S : Finset ℕ, S ⊆ Finset.range c.n ∧ 2 * c.n < 3 * S.card ∧
    ∀ j ∈ S, ∃ v, A j v ∧ v.typ = t ∧ v.round = r ∧ c.psid v.dec = q

theorem Quo.mono {A A' : ℕ → Vote D → Prop} (h : ∀ j v, A j v → A' j v) {t r q}
    (k : Quo c A t r q) : Quo c A' t r q := by
  obtain ⟨S, h1, h2, h3⟩ := k
  refine ⟨S, h1, h2, fun j hj => ?_⟩
  obtain ⟨v, a, b⟩ := h3 j hj
  exact ⟨v, h j v a, b⟩

/-- The vote sets hold authentic votes under the right round and type. -/
def HvsOK (c : Cfg D B P) (A : ℕ → Vote D → Prop) (h : Hvs D B P) : Prop :=
  ∀ r t, ∃ cur, Rep c.dig c.psid c.n cur (h.get c.n r t) ∧
    ∀ j v, cur j = some v → A j v ∧ v.round = r ∧ v.typ = t

theorem HvsOK.mono {A A' : ℕ → Vote D → Prop} (h : ∀ j v, A j v → A' j v) {x : Hvs D B P}
    (k : HvsOK c A x) : HvsOK c A' x := by
  intro r t
  obtain ⟨cur, h1, h2⟩ := k r t
  exact ⟨cur, h1, fun j v e => ⟨h j v (h2 j v e).1, (h2 j v e).2⟩⟩

theorem HvsOK.nil {A : ℕ → Vote D → Prop} : HvsOK c A [] := by
  intro r t
  exact ⟨fun _ => none, VoteSet.Built.new.rep, fun j v e => by cases e⟩

theorem get_add (h : Hvs D B P) (j : ℕ) (v : Vote D) (r : ℤ) (t : VoteType) :
    (h.add c j v).1.get c.n r t =
      if (r, t) = (v.round, v.typ) then ((h.get c.n r t).add c.dig c.psid j v).1 else h.get c.n r t := by
  unfold Hvs.add
  simp only []
  by_cases e : (r, t) = (v.round, v.typ)
  · rw [if_pos e]
    simp only [Prod.mk.injEq] at e
    obtain ⟨rfl, rfl⟩ := e
    rw [show Hvs.get c.n (((v.round, v.typ), (VoteSet.add c.dig c.psid (h.get c.n v.round v.typ) j v).1) ::
      List.filter (fun e => decide (e.1 ≠ (v.round, v.typ))) h) v.round v.typ =
      (VoteSet.add c.dig c.psid (h.get c.n v.round v.typ) j v).1 from by
        conv_lhs => unfold Hvs.get
        rw [List.find?_cons_of_pos (by simp)]
        rfl]
  · rw [if_neg e]
    have e' : ¬ ((v.round, v.typ) = (r, t)) := fun x => e x.symm
    conv_lhs => unfold Hvs.get
    rw [List.find?_cons_of_neg (by simpa using e')]
    conv_rhs => unfold Hvs.get
    have : (List.filter (fun e => decide (e.1 ≠ (v.round, v.typ))) h).find?
        (fun e => decide (e.1 = (r, t))) = h.find? (fun e => decide (e.1 = (r, t))) := by
      induction h with
      | nil => rfl
      | cons a l ih =>
        by_cases ha : a.1 = (v.round, v.typ)
        · rw [List.filter_cons_of_neg (by simp [ha]), ih, List.find?_cons_of_neg (by simp [ha, e'])]
        · rw [List.filter_cons_of_pos (by simp [ha])]
          by_cases hb : a.1 = (r, t)
          · rw [List.find?_cons_of_pos (by simp [hb]), List.find?_cons_of_pos (by simp [hb])]
          · rw [List.find?_cons_of_neg (by simp [hb]), List.find?_cons_of_neg (by simp [hb]), ih]
    rw [this]

theorem HvsOK.add {A : ℕ → Vote D → Prop} {h : Hvs D B P} (k : HvsOK c A h) {j : ℕ} {v : Vote D}
    (hj : j < c.n) (ha : A j v) : HvsOK c A (h.add c j v).1 := by
  intro r t
  rw [get_add]
  split
  · rename_i e
    simp only [Prod.mk.injEq] at e
    obtain ⟨rfl, rfl⟩ := e
    obtain ⟨cur, h1, h2⟩ := k v.round v.typ
    refine ⟨_, VoteSet.rep_add h1 j v hj, ?_⟩
    intro i w hw
    split at hw
    · by_cases hi : i = j
      · subst hi
        simp only [Function.update_self, Option.some.injEq] at hw
        subst hw
        exact ⟨ha, rfl, rfl⟩
      · rw [Function.update_of_ne hi] at hw
        exact h2 i w hw
    · exact h2 i w hw
  · exact k r t

theorem HvsOK.addAll {A : ℕ → Vote D → Prop} {h : Hvs D B P} (k : HvsOK c A h)
    {l : List (Signed D)} (hl : ∀ x ∈ l, x.1 < c.n ∧ A x.1 x.2) : HvsOK c A (h.addAll c l) := by
  unfold Hvs.addAll
  induction l generalizing h with
  | nil => exact k
  | cons x l ih =>
    rw [List.foldl_cons]
    have := hl x List.mem_cons_self
    exact ih (k.add this.1 this.2) (fun y hy => hl y (List.mem_cons_of_mem _ hy))

theorem get_removeLower (h : Hvs D B P) (lo ex r : ℤ) (t : VoteType) :
    (h.removeLower lo ex).get c.n r t = if r < lo ∧ r ≠ ex then VoteSet.new c.n else h.get c.n r t := by
  unfold Hvs.removeLower Hvs.get
  induction h with
  | nil => simp
  | cons a l ih =>
    by_cases ha : a.1.1 < lo ∧ a.1.1 ≠ ex
    · rw [List.filter_cons_of_neg (by simp [ha.1, ha.2]), ih]
      by_cases hb : a.1 = (r, t)
      · have : a.1.1 = r := by rw [hb]
        rw [this] at ha
        rw [if_pos ha, if_pos ha]
      · rw [List.find?_cons_of_neg (by simp [hb])]
    · rw [List.filter_cons_of_pos (by
        simp only [Bool.not_eq_true', Bool.and_eq_false_iff, decide_eq_false_iff_not]; tauto)]
      by_cases hb : a.1 = (r, t)
      · have : a.1.1 = r := by rw [hb]
        rw [this] at ha
        rw [if_neg ha, List.find?_cons_of_pos (by simp [hb]), List.find?_cons_of_pos (by simp [hb])]
      · rw [List.find?_cons_of_neg (by simp [hb]), List.find?_cons_of_neg (by simp [hb]), ih]

theorem HvsOK.removeLower {A : ℕ → Vote D → Prop} {h : Hvs D B P} (k : HvsOK c A h) (lo ex : ℤ) :
    HvsOK c A (h.removeLower lo ex) := by
  intro r t
  rw [get_removeLower]
  split
  · exact ⟨fun _ => none, VoteSet.Built.new.rep, fun j v e => by cases e⟩
  · exact k r t

/-- What is assumed of the configuration: an honest vote for `p` is for `p`, and decisions with the same
digest are for the same block (the digest is a hash of the decision). -/
structure Cfg.Sound (c : Cfg D B P) : Prop where
  honest : ∀ t p, c.psid (c.honest t p) = p
  dig : ∀ d d', c.dig d = c.dig d' → c.psid d = c.psid d'

/-- A decision of a vote set in terms of its votes. -/
theorem over_rep (hc : c.Sound) {cur vs} (r : Rep c.dig c.psid c.n cur vs) {q : Option P}
    (h : vs.overPSID = some q) : ∃ b, 2 * c.n < 3 * (voters c.dig c.n cur b).card ∧
      ∀ v, c.dig v.dec = b → c.psid (v : Vote D).dec = q := by
  unfold VoteSet.overPSID at h
  rw [Option.map_eq_some_iff] at h
  obtain ⟨⟨b, ps⟩, h1, h2⟩ := h
  simp only at h2
  subst h2
  obtain ⟨_, d, e1, e2⟩ := (VoteSet.getOver_spec r.good).2.1 b ps h1
  refine ⟨b, (r.over b).1 ⟨ps, h1⟩, fun v hv => ?_⟩
  rw [← e2]; exact hc.dig _ _ (hv.trans e1.symm)

theorem rep_over {cur vs} (r : Rep c.dig c.psid c.n cur vs) {b : B}
    (h : 2 * c.n < 3 * (voters c.dig c.n cur b).card) : ∃ q, vs.overPSID = some q := by
  obtain ⟨ps, e⟩ := (r.over b).2 h
  exact ⟨ps, by unfold VoteSet.overPSID; rw [e]; rfl⟩

theorem voters_quo {A : ℕ → Vote D → Prop} {cur : ℕ → Option (Vote D)} {b : B} {t r q}
    (h2 : ∀ j v, cur j = some v → A j v ∧ v.round = r ∧ v.typ = t)
    (hb : 2 * c.n < 3 * (voters c.dig c.n cur b).card)
    (hq : ∀ v, c.dig v.dec = b → c.psid (v : Vote D).dec = q) : Quo c A t r q := by
  refine ⟨voters c.dig c.n cur b, Finset.filter_subset _ _, hb, ?_⟩
  intro j hj
  unfold VoteSet.voters at hj
  rw [Finset.mem_filter] at hj
  obtain ⟨v, e1, e2⟩ := hj.2
  have := h2 j v e1
  exact ⟨v, this.1, this.2.2, this.2.1, hq v e2⟩

theorem HvsOK.quo (hc : c.Sound) {A : ℕ → Vote D → Prop} {h : Hvs D B P} (k : HvsOK c A h) {r t q}
    (e : (h.get c.n r t).overPSID = some q) : Quo c A t r q := by
  obtain ⟨cur, h1, h2⟩ := k r t
  obtain ⟨b, h3, h4⟩ := over_rep hc h1 e
  exact voters_quo h2 h3 h4

/-- The votes of a vote set. -/
theorem mem_votesIn {cur : ℕ → Option (Vote D)} {vs : VoteSet D B P}
    (r : Rep c.dig c.psid c.n cur vs) (x : Signed D) :
    x ∈ votesIn vs ↔ x.1 < c.n ∧ cur x.1 = some x.2 := by
  unfold votesIn
  rw [r.msgs, List.mem_filterMap]
  constructor
  · rintro ⟨⟨o, k⟩, hk, e⟩
    rw [List.mem_zipIdx_iff_getElem?] at hk
    simp only at hk e
    rw [Option.map_eq_some_iff] at e
    obtain ⟨v, rfl, rfl⟩ := e
    rw [List.getElem?_map, Option.map_eq_some_iff] at hk
    obtain ⟨m, h1, h2⟩ := hk
    rw [List.getElem?_eq_some_iff] at h1
    obtain ⟨h3, h4⟩ := h1
    simp only [List.getElem_range] at h4
    subst h4
    simp only [List.length_range] at h3
    exact ⟨h3, h2⟩
  · rintro ⟨h1, h2⟩
    refine ⟨(cur x.1, x.1), ?_, by simp [h2]⟩
    rw [List.mem_zipIdx_iff_getElem?]
    simp [List.getElem?_map, List.getElem?_range h1]

theorem votesIn_nodup (vs : VoteSet D B P) : ((votesIn vs).map Prod.fst).Nodup := by
  unfold votesIn
  have : ∀ (l : List (Option (Vote D))) (k : ℕ),
      ((l.zipIdx k).filterMap (fun x => x.1.map (fun v => (x.2, v)))).map Prod.fst |>.Nodup := by
    intro l
    induction l with
    | nil => intro k; simp
    | cons a l ih =>
      intro k
      rw [List.zipIdx_cons]
      cases a with
      | none => simpa using ih (k + 1)
      | some v =>
        simp only [List.filterMap_cons, Option.map_some, List.map_cons, List.nodup_cons]
        refine ⟨?_, ih (k + 1)⟩
        intro hm
        simp only [List.mem_map, List.mem_filterMap] at hm
        obtain ⟨x, ⟨y, hy, e⟩, hk⟩ := hm
        have := List.le_snd_of_mem_zipIdx hy
        rw [Option.map_eq_some_iff] at e
        obtain ⟨_, _, rfl⟩ := e
        simp only at hk
        omega
  exact this vs.msgs 0

/-! ### Adding the votes of a decision again -/

/-- A list of prevotes of round `r` with more than two thirds for `p`. -/
def PolkaList (c : Cfg D B P) (A : ℕ → Vote D → Prop) (L : List (Signed D)) (r : ℤ) (p : P) : Prop :=
  (∀ x ∈ L, x.1 < c.n ∧ A x.1 x.2 ∧ x.2.round = r ∧ x.2.typ = .prevote) ∧ (L.map Prod.fst).Nodup ∧
    ∃ (b : B) (S : Finset ℕ), S ⊆ Finset.range c.n ∧ 2 * c.n < 3 * S.card ∧
      ∀ j ∈ S, ∃ v, (j, v) ∈ L ∧ c.dig v.dec = b ∧ c.psid v.dec = some p

theorem PolkaList.mono {A A' : ℕ → Vote D → Prop} (h : ∀ j v, A j v → A' j v) {L r p}
    (k : PolkaList c A L r p) : PolkaList c A' L r p :=
  ⟨fun x hx => ⟨(k.1 x hx).1, h _ _ (k.1 x hx).2.1, (k.1 x hx).2.2⟩, k.2⟩

theorem PolkaList.quo {A : ℕ → Vote D → Prop} {L r p} (k : PolkaList c A L r p) :
    Quo c A .prevote r (some p) := by
  obtain ⟨h1, _, b, S, h2, h3, h4⟩ := k
  refine ⟨S, h2, h3, fun j hj => ?_⟩
  obtain ⟨v, e1, e2, e3⟩ := h4 j hj
  have := h1 _ e1
  exact ⟨v, this.2.1, this.2.2.2, this.2.2.1, e3⟩

theorem PolkaList.ne {A : ℕ → Vote D → Prop} {L r p} (k : PolkaList c A L r p) : L ≠ [] := by
  obtain ⟨_, _, b, S, _, h3, h4⟩ := k
  rintro rfl
  have : S = ∅ := by
    rw [Finset.eq_empty_iff_forall_notMem]
    intro j hj
    obtain ⟨v, e, _⟩ := h4 j hj
    simp at e
  subst this
  simp at h3

theorem votesIn_polka (hc : c.Sound) {A : ℕ → Vote D → Prop} {h : Hvs D B P} (k : HvsOK c A h) {r p}
    (e : (h.get c.n r .prevote).overPSID = some (some p)) :
    PolkaList c A (votesIn (h.get c.n r .prevote)) r p := by
  obtain ⟨cur, h1, h2⟩ := k r .prevote
  obtain ⟨b, h3, h4⟩ := over_rep hc h1 e
  refine ⟨?_, votesIn_nodup _, b, voters c.dig c.n cur b, Finset.filter_subset _ _, h3, ?_⟩
  · intro x hx
    rw [mem_votesIn h1] at hx
    exact ⟨hx.1, (h2 _ _ hx.2)⟩
  · intro j hj
    unfold VoteSet.voters at hj
    rw [Finset.mem_filter, Finset.mem_range] at hj
    obtain ⟨v, e1, e2⟩ := hj.2
    exact ⟨v, (mem_votesIn h1 (j, v)).2 ⟨hj.1, e1⟩, e2, h4 v e2⟩

/-- Adding votes one after the other. -/
def addList (c : Cfg D B P) (vs : VoteSet D B P) (l : List (Signed D)) : VoteSet D B P :=
  l.foldl (fun vs x => (vs.add c.dig c.psid x.1 x.2).1) vs

theorem addList_spec {vs : VoteSet D B P} {cur} (r : Rep c.dig c.psid c.n cur vs)
    (l : List (Signed D)) (hl : ∀ x ∈ l, x.1 < c.n) (hn : (l.map Prod.fst).Nodup) :
    ∃ cur', Rep c.dig c.psid c.n cur' (addList c vs l) ∧
      (∀ b, 2 * c.n < 3 * (voters c.dig c.n cur b).card → 2 * c.n < 3 * (voters c.dig c.n cur' b).card) ∧
      ((∃ b, 2 * c.n < 3 * (voters c.dig c.n cur' b).card) ∨
        ((∀ j, j ∉ l.map Prod.fst → cur' j = cur j) ∧
         ∀ x ∈ l, ∃ v, cur' x.1 = some v ∧ c.dig v.dec = c.dig x.2.dec)) := by
  induction l generalizing vs cur with
  | nil => exact ⟨cur, r, fun _ h => h, Or.inr ⟨fun _ _ => rfl, by simp⟩⟩
  | cons x l ih =>
    have hx := hl x List.mem_cons_self
    simp only [List.map_cons, List.nodup_cons] at hn
    have r1 := VoteSet.rep_add r x.1 x.2 hx
    obtain ⟨cur', k1, k2, k3⟩ := ih r1 (fun y hy => hl y (List.mem_cons_of_mem _ hy)) hn.2
    refine ⟨cur', k1, fun b hb => k2 b (VoteSet.over_stable r b hb x.1 x.2 hx), ?_⟩
    rcases k3 with k3 | ⟨k3, k4⟩
    · exact Or.inl k3
    · by_cases hd : ∃ b, 2 * c.n < 3 * (voters c.dig c.n cur b).card
      · obtain ⟨b, hb⟩ := hd
        exact Or.inl ⟨b, k2 b (VoteSet.over_stable r b hb x.1 x.2 hx)⟩
      · right
        have hslot : ∃ v, cur' x.1 = some v ∧ c.dig v.dec = c.dig x.2.dec := by
          rw [k3 x.1 hn.1]
          by_cases ha : (vs.add c.dig c.psid x.1 x.2).2 = true
          · rw [if_pos ha]; exact ⟨x.2, by simp, rfl⟩
          · rw [if_neg ha]
            have hm : vs.msgs[x.1]? = some (cur x.1) := by
              rw [r.msgs, List.getElem?_map, List.getElem?_range hx]; rfl
            unfold VoteSet.add at ha
            rw [hm] at ha
            rcases ho : cur x.1 with _ | o
            · rw [ho] at ha; simp at ha
            · rw [ho] at ha
              simp only at ha
              split at ha
              · rename_i he
                refine ⟨o, rfl, ?_⟩
                unfold Vote.equalExceptSigs at he
                simp only [Bool.and_eq_true, decide_eq_true_eq] at he
                exact he.1.2
              · split at ha
                · rename_i hov
                  exfalso
                  apply hd
                  rw [Option.map_eq_some_iff] at hov
                  obtain ⟨⟨b, ps⟩, e1, _⟩ := hov
                  exact ⟨b, (r.over b).1 ⟨ps, e1⟩⟩
                · simp at ha
        constructor
        · intro j hj
          simp only [List.map_cons, List.mem_cons, not_or] at hj
          rw [k3 j hj.2]
          split
          · rw [Function.update_of_ne hj.1]
          · rfl
        · intro y hy
          rcases List.mem_cons.1 hy with rfl | hy
          · exact hslot
          · exact k4 y hy

theorem get_addAll (h : Hvs D B P) (l : List (Signed D)) (r : ℤ) (t : VoteType)
    (hl : ∀ x ∈ l, x.2.round = r ∧ x.2.typ = t) :
    (h.addAll c l).get c.n r t = addList c (h.get c.n r t) l := by
  unfold Hvs.addAll addList
  induction l generalizing h with
  | nil => rfl
  | cons x l ih =>
    rw [List.foldl_cons, List.foldl_cons, ih _ (fun y hy => hl y (List.mem_cons_of_mem _ hy)), get_add]
    have := hl x List.mem_cons_self
    rw [if_pos (by rw [this.1, this.2])]

/-- Two decisions of one round and type are the same. -/
def OneDecision (c : Cfg D B P) (A : ℕ → Vote D → Prop) : Prop :=
  ∀ t r q q', Quo c A t r q → Quo c A t r q' → q = q'

/-- **Replay.** Adding the votes of a list with a decision for `p` to any vote sets makes them decide
`p`. -/
theorem addAll_polka (hc : c.Sound) {A : ℕ → Vote D → Prop} (hu : OneDecision c A) {h : Hvs D B P}
    (k : HvsOK c A h) {L r p} (hL : PolkaList c A L r p) :
    ((h.addAll c L).get c.n r .prevote).overPSID = some (some p) := by
  have k' : HvsOK c A (h.addAll c L) := k.addAll (fun x hx => ⟨(hL.1 x hx).1, (hL.1 x hx).2.1⟩)
  have hdec : ∃ q, ((h.addAll c L).get c.n r .prevote).overPSID = some q := by
    obtain ⟨cur, h1, _⟩ := k r .prevote
    rw [get_addAll h L r .prevote (fun x hx => (hL.1 x hx).2.2)]
    obtain ⟨cur', e1, _, e3⟩ := addList_spec h1 L (fun x hx => (hL.1 x hx).1) hL.2.1
    rcases e3 with ⟨b, hb⟩ | ⟨_, e4⟩
    · exact rep_over e1 hb
    · obtain ⟨b, S, s1, s2, s3⟩ := hL.2.2
      refine rep_over e1 (b := b) (lt_of_lt_of_le s2 (Nat.mul_le_mul_left _ (Finset.card_le_card ?_)))
      intro j hj
      unfold VoteSet.voters
      rw [Finset.mem_filter]
      obtain ⟨v, m1, m2, _⟩ := s3 j hj
      obtain ⟨w, n1, n2⟩ := e4 _ m1
      exact ⟨s1 hj, w, n1, n2.trans m2⟩
  obtain ⟨q, hq⟩ := hdec
  rw [hq, hu _ _ _ _ (k'.quo hc hq) hL.quo]

/-! ### Authenticity along steps -/

/-- All votes a node holds, in memory and in its logs, are authentic. -/
structure Net (c : Cfg D B P) (A : ℕ → Vote D → Prop) (nd : Node D B P) : Prop where
  hvs : HvsOK c A nd.hvs
  rlist : ∀ l, RRec.list l ∈ nd.rwal → ∀ x ∈ l, x.1 < c.n ∧ A x.1 x.2
  llist : ∀ l, LRec.list l ∈ nd.lwal → ∀ x ∈ l, x.1 < c.n ∧ A x.1 x.2
  clist : ∀ l ∈ nd.cwal, ∀ x ∈ l, x.1 < c.n ∧ A x.1 x.2

theorem Net.mono {A A' : ℕ → Vote D → Prop} (h : ∀ j v, A j v → A' j v) {nd : Node D B P}
    (k : Net c A nd) : Net c A' nd :=
  ⟨k.hvs.mono h, fun l hl x hx => ⟨(k.rlist l hl x hx).1, h _ _ (k.rlist l hl x hx).2⟩,
    fun l hl x hx => ⟨(k.llist l hl x hx).1, h _ _ (k.llist l hl x hx).2⟩,
    fun l hl x hx => ⟨(k.clist l hl x hx).1, h _ _ (k.clist l hl x hx).2⟩⟩

/-- Same vote sets and logs. -/
def SameNet (nd nd' : Node D B P) : Prop :=
  nd'.hvs = nd.hvs ∧ nd'.rwal = nd.rwal ∧ nd'.lwal = nd.lwal ∧ nd'.cwal = nd.cwal

theorem Net.same {A : ℕ → Vote D → Prop} {nd nd' : Node D B P} (k : Net c A nd) (h : SameNet nd nd') :
    Net c A nd' := by
  obtain ⟨h1, h2, h3, h4⟩ := h
  exact ⟨by rw [h1]; exact k.hvs, by rw [h2]; exact k.rlist, by rw [h3]; exact k.llist,
    by rw [h4]; exact k.clist⟩

theorem votesIn_ok {A : ℕ → Vote D → Prop} {nd : Node D B P} (k : HvsOK c A nd.hvs) (r t) :
    ∀ x ∈ votesIn (nd.votes c r t), x.1 < c.n ∧ A x.1 x.2 := by
  intro x hx
  obtain ⟨cur, h1, h2⟩ := k r t
  unfold Node.votes at hx
  rw [mem_votesIn h1] at hx
  exact ⟨hx.1, (h2 _ _ hx.2).1⟩

namespace Node

variable {A : ℕ → Vote D → Prop}

theorem seePrevotes_net (nd : Node D B P) (mr o) : SameNet nd (nd.seePrevotes mr o) := by
  cases o with
  | none => exact ⟨rfl, rfl, rfl, rfl⟩
  | some q =>
    unfold seePrevotes seePolka
    cases q <;> simp only [] <;> split_ifs <;> exact ⟨rfl, rfl, rfl, rfl⟩

theorem enterCommit_net {nd : Node D B P} (k : Net c A nd) (r p) : Net c A (nd.enterCommit c r p) := by
  refine ⟨k.hvs, k.rlist, k.llist, ?_⟩
  intro l hl
  simp only [enterCommit, List.mem_append, List.mem_singleton] at hl
  rcases hl with hl | rfl
  · exact k.clist l hl
  · exact votesIn_ok k.hvs _ _

theorem reset_net {nd : Node D B P} (k : Net c A nd) (r) : Net c A (nd.resetForNewRound r) :=
  ⟨k.hvs.removeLower _ _, k.rlist, k.llist, k.clist⟩

theorem setAct_net {nd : Node D B P} (k : Net c A nd) (a) : Net c A { nd with act := a } :=
  ⟨k.hvs, k.rlist, k.llist, k.clist⟩

theorem handlePrevote_net {nd : Node D B P} (k : Net c A nd) (mr) : Net c A (nd.handlePrevote c mr) := by
  unfold handlePrevote
  split
  · exact k
  · simp only []
    have k1 := k.same (nd.seePrevotes_net mr (nd.votes c mr .prevote).overPSID)
    generalize (nd.votes c mr .prevote).overPSID = o at k1 ⊢
    generalize nd.seePrevotes mr o = nd1 at k1 ⊢
    split
    · exact setAct_net k1 _
    split
    · exact setAct_net k1 _
    split
    · exact setAct_net k1 _
    split
    · split
      · exact setAct_net k1 _
      · exact k1
    split
    · exact setAct_net (reset_net k1 _) _
    · exact k1

theorem handlePrecommit_net {nd : Node D B P} (k : Net c A nd) (mr) :
    Net c A (nd.handlePrecommit c mr) := by
  unfold handlePrecommit
  simp only []
  split
  · split
    · exact enterCommit_net k _ _
    · exact k
  split
  · exact setAct_net k _
  split
  · exact setAct_net k _
  split
  · split
    · exact enterCommit_net k _ _
    · exact setAct_net k _
    · exact k
  split
  · exact setAct_net (reset_net k _) _
  · exact k

theorem recvVote_net {nd : Node D B P} (k : Net c A nd) {j v} (hj : j < c.n) (ha : A j v) :
    Net c A (nd.recvVote c j v) := by
  unfold recvVote
  simp only []
  have k1 : Net c A { nd with hvs := (nd.hvs.add c j v).1 } :=
    ⟨k.hvs.add hj ha, k.rlist, k.llist, k.clist⟩
  split
  · exact k1
  split
  · exact k1
  split
  · exact handlePrevote_net k1 _
  · exact handlePrecommit_net k1 _

theorem syncBlock_net {nd : Node D B P} (k : Net c A nd) {r p l}
    (hl : ∀ x ∈ l, x.1 < c.n ∧ A x.1 x.2) : Net c A (nd.syncBlock c r p l) := by
  have k1 : Net c A { nd with hvs := nd.hvs.addAll c l } :=
    ⟨k.hvs.addAll hl, k.rlist, k.llist, k.clist⟩
  unfold syncBlock
  simp only []
  split
  · split
    · refine enterCommit_net ?_ _ _
      exact k1.same ⟨rfl, rfl, rfl, rfl⟩
    · exact k1.same ⟨rfl, rfl, rfl, rfl⟩
  · exact k1

theorem log_net {nd : Node D B P} (k : Net c A nd) (r : RRec D) (n : ℕ)
    (hr : ∀ l, r = .list l → ∀ x ∈ l, x.1 < c.n ∧ A x.1 x.2) :
    Net c A { nd with rwal := nd.rwal ++ [r], rsync := n } := by
  refine ⟨k.hvs, ?_, k.llist, k.clist⟩
  intro l hl
  simp only [List.mem_append, List.mem_singleton] at hl
  rcases hl with hl | hl
  · exact k.rlist l hl
  · exact hr l hl.symm

theorem doPrevote_net {nd : Node D B P} (k : Net c A nd) (ch) : Net c A (nd.doPrevote c ch) := by
  unfold doPrevote
  split
  · exact k.same ⟨rfl, rfl, rfl, rfl⟩
  · split
    · exact k.same ⟨rfl, rfl, rfl, rfl⟩
    · split
      · exact k.same ⟨rfl, rfl, rfl, rfl⟩
      split
      · exact k.same ⟨rfl, rfl, rfl, rfl⟩
      split
      · exact k.same ⟨rfl, rfl, rfl, rfl⟩
      split
      · exact k.same ⟨rfl, rfl, rfl, rfl⟩
      · exact k.same ⟨rfl, rfl, rfl, rfl⟩

theorem doPrecommit_net {nd nd' : Node D B P} (k : Net c A nd) (e : nd.doPrecommit c = some nd') :
    Net c A nd' := by
  unfold doPrecommit at e
  split at e
  · cases e; exact k.same ⟨rfl, rfl, rfl, rfl⟩
  · cases e; exact k.same ⟨rfl, rfl, rfl, rfl⟩
  · split at e
    · cases e; exact k.same ⟨rfl, rfl, rfl, rfl⟩
    · split at e
      · split at e
        · cases e
          refine ⟨k.hvs, k.rlist, ?_, k.clist⟩
          intro l hl
          simp only [List.mem_append, List.mem_cons, List.not_mem_nil, or_false, reduceCtorEq,
            LRec.list.injEq] at hl
          rcases hl with hl | rfl
          · exact k.llist l hl
          · exact votesIn_ok k.hvs _ _
        · split at e
          · cases e
          · cases e; exact k.same ⟨rfl, rfl, rfl, rfl⟩
      · cases e; exact k.same ⟨rfl, rfl, rfl, rfl⟩

theorem runAct_net {i ch a} {nd nd' : Node D B P} (k : Net c A nd)
    (hv : ∀ v, a = .recv v → i < c.n ∧ A i v) (e : nd.runAct c i ch a = some nd') : Net c A nd' := by
  have kb : ∀ {s x}, nd.begin_ s = some x → Net c A x := by
    intro s x hx
    obtain ⟨_, rfl⟩ := begin_eq hx
    exact k.same ⟨rfl, rfl, rfl, rfl⟩
  cases a with
  | propose =>
    simp only [runAct, Option.map_eq_some_iff] at e
    obtain ⟨x, hx, rfl⟩ := e
    have kx := kb hx
    unfold doPropose
    split
    · split
      · refine (log_net kx (.proposal x.round) (x.rwal.length + 1) (by simp)).same ⟨rfl, rfl, rfl, rfl⟩
      · exact kx
    · split
      · exact setAct_net kx _
      · exact kx
  | prevote =>
    simp only [runAct, Option.map_eq_some_iff] at e
    obtain ⟨x, hx, rfl⟩ := e
    exact doPrevote_net (kb hx) _
  | prevoteWait =>
    simp only [runAct, Option.map_eq_some_iff] at e
    obtain ⟨x, hx, rfl⟩ := e
    have kx := kb hx
    have k1 := log_net kx (.list (votesIn (x.votes c x.round .prevote))) x.rsync
      (by intro l hl; cases hl; exact votesIn_ok kx.hvs _ _)
    unfold doPrevoteWait
    simp only []
    split
    · exact setAct_net k1 _
    · exact k1
  | precommit =>
    simp only [runAct, Option.bind_eq_some_iff] at e
    obtain ⟨x, hx, e⟩ := e
    exact doPrecommit_net (kb hx) e
  | precommitWait =>
    simp only [runAct, Option.map_eq_some_iff] at e
    obtain ⟨x, hx, rfl⟩ := e
    have kx := kb hx
    have k1 := log_net kx (.list (votesIn (x.votes c x.round .precommit))) x.rsync
      (by intro l hl; cases hl; exact votesIn_ok kx.hvs _ _)
    unfold doPrecommitWait
    simp only []
    split
    · exact enterCommit_net k1 _ _
    · exact setAct_net k1 _
    · exact k1
  | newRound =>
    simp only [runAct, Option.some.injEq] at e
    subst e
    unfold doNewRound
    simp only []
    split
    · exact reset_net k _
    · exact setAct_net (reset_net k _) _
  | lockVote p =>
    simp only [runAct, Option.some.injEq] at e
    subst e
    exact k.same ⟨rfl, rfl, rfl, rfl⟩
  | vote t p =>
    simp only [runAct, Option.some.injEq] at e
    subst e
    unfold doVote
    split
    · exact (log_net k (.vote ⟨c.height, nd.round, t, c.honest t p, ch.ts⟩) nd.rsync (by simp)).same
        ⟨rfl, rfl, rfl, rfl⟩
    · exact k
  | flush v =>
    simp only [runAct, Option.some.injEq] at e
    subst e
    exact k.same ⟨rfl, rfl, rfl, rfl⟩
  | recv v =>
    simp only [runAct, Option.some.injEq] at e
    subst e
    have := hv v rfl
    exact recvVote_net k this.1 this.2
  | commit =>
    simp only [runAct, Option.some.injEq] at e
    subst e
    exact k.same ⟨rfl, rfl, rfl, rfl⟩

theorem afterParts_net {nd : Node D B P} (k : Net c A nd) : Net c A (nd.afterParts c) := by
  unfold afterParts
  split
  · exact setAct_net k _
  · exact k

theorem applyRound_hvs {i : ℕ} (l : List (RRec D)) (s : Hvs D B P × (ℤ × ℕ)) (hs : HvsOK c A s.1)
    (h1 : ∀ x, RRec.list x ∈ l → ∀ y ∈ x, y.1 < c.n ∧ A y.1 y.2)
    (h2 : ∀ v ∈ ownVotes l, i < c.n ∧ A i v) : HvsOK c A (applyRound c i l s).1 := by
  induction l generalizing s with
  | nil => exact hs
  | cons r l ih =>
    have h1' : ∀ x, RRec.list x ∈ l → ∀ y ∈ x, y.1 < c.n ∧ A y.1 y.2 :=
      fun x hx => h1 x (List.mem_cons_of_mem _ hx)
    have h2' : ∀ v ∈ ownVotes l, i < c.n ∧ A i v := by
      intro v hv
      apply h2
      unfold ownVotes at hv ⊢
      rw [List.filterMap_cons]
      split
      · exact hv
      · exact List.mem_cons_of_mem _ hv
    cases r with
    | proposal r => simp only [applyRound]; exact ih _ hs h1' h2'
    | vote w =>
      simp only [applyRound]
      have := h2 w (by simp [ownVotes])
      exact ih _ (hs.add this.1 this.2) h1' h2'
    | list x =>
      simp only [applyRound]
      exact ih _ (hs.addAll (h1 x List.mem_cons_self)) h1' h2'

theorem applyLock_hvs (l : List (LRec D P)) (s : LockScan D B P) (hs : HvsOK c A s.hvs)
    (h1 : ∀ x, LRec.list x ∈ l → ∀ y ∈ x, y.1 < c.n ∧ A y.1 y.2) : HvsOK c A (applyLock c l s).hvs := by
  induction l generalizing s with
  | nil => exact hs
  | cons r l ih =>
    have h1' : ∀ x, LRec.list x ∈ l → ∀ y ∈ x, y.1 < c.n ∧ A y.1 y.2 :=
      fun x hx => h1 x (List.mem_cons_of_mem _ hx)
    cases r with
    | list x => simp only [applyLock]; exact ih _ (hs.addAll (h1 x List.mem_cons_self)) h1'
    | parts p => simp only [applyLock]; exact ih _ hs h1'

theorem applyCommit_hvs (l : List (List (Signed D))) (s : Hvs D B P × (ℤ × ℕ)) (hs : HvsOK c A s.1)
    (h1 : ∀ x ∈ l, ∀ y ∈ x, y.1 < c.n ∧ A y.1 y.2) : HvsOK c A (applyCommit c l s).1 := by
  induction l generalizing s with
  | nil => exact hs
  | cons x l ih =>
    simp only [applyCommit]
    exact ih _ (hs.addAll (h1 x List.mem_cons_self)) (fun y hy => h1 y (List.mem_cons_of_mem _ hy))

theorem restart_net {i kr kl kc} {nd : Node D B P} (k : Net c A nd)
    (h2 : ∀ v ∈ ownVotes (nd.rwal.take kr), i < c.n ∧ A i v) :
    Net c A (nd.restart c i kr kl kc) := by
  have hr : ∀ x, RRec.list x ∈ nd.rwal.take kr → ∀ y ∈ x, y.1 < c.n ∧ A y.1 y.2 :=
    fun x hx => k.rlist x (List.mem_of_mem_take hx)
  have hl : ∀ x, LRec.list x ∈ nd.lwal.take kl → ∀ y ∈ x, y.1 < c.n ∧ A y.1 y.2 :=
    fun x hx => k.llist x (List.mem_of_mem_take hx)
  have hc' : ∀ x ∈ nd.cwal.take kc, ∀ y ∈ x, y.1 < c.n ∧ A y.1 y.2 :=
    fun x hx => k.clist x (List.mem_of_mem_take hx)
  unfold restart
  obtain ⟨_, e2, _, e4, _, e6, _, _, _, e10, _⟩ := resume_eqs (nd.loaded c i kr kl kc)
  refine ⟨?_, by rw [e2]; exact hr, by rw [e4]; exact hl, by rw [e6]; exact hc'⟩
  rw [e10]
  unfold loaded scan
  simp only []
  refine applyCommit_hvs _ _ ?_ hc'
  refine applyLock_hvs _ _ ?_ hl
  exact applyRound_hvs _ _ HvsOK.nil hr h2

theorem timeout_net {nd nd' : Node D B P} (k : Net c A nd) (e : nd.timeout = some nd') : Net c A nd' := by
  unfold timeout at e
  split at e
  · cases e; exact k.same ⟨rfl, rfl, rfl, rfl⟩
  split at e
  · cases e; exact setAct_net k _
  split at e
  · cases e; exact setAct_net k _
  split at e
  · cases e; exact setAct_net k _
  split at e
  · cases e; exact setAct_net k _
  · cases e

theorem imported_net {nd nd' : Node D B P} {ok} (k : Net c A nd) (e : nd.imported ok = some nd') :
    Net c A nd' := by
  unfold imported at e
  split at e
  · cases e
  · simp only [] at e
    split at e
    · cases e; exact k.same ⟨rfl, rfl, rfl, rfl⟩
    split at e
    · split at e
      · split at e
        · cases e
        · cases e; exact k.same ⟨rfl, rfl, rfl, rfl⟩
      · split at e
        · split at e
          · cases e; exact k.same ⟨rfl, rfl, rfl, rfl⟩
          · cases e
        · cases e; exact k.same ⟨rfl, rfl, rfl, rfl⟩
    · split at e
      · cases e; exact k.same ⟨rfl, rfl, rfl, rfl⟩
      · cases e; exact k.same ⟨rfl, rfl, rfl, rfl⟩

theorem proposed_net {nd nd' : Node D B P} {i p} (k : Net c A nd) (e : nd.proposed c i p = some nd') :
    Net c A nd' := by
  unfold proposed at e
  split at e
  · split at e
    · cases e; exact setAct_net k _
    · cases e
      exact (log_net k (.proposal nd.round) (nd.rwal.length + 1) (by simp)).same ⟨rfl, rfl, rfl, rfl⟩
  · cases e

theorem nodeStep_net {i ev} {nd nd' : Node D B P} (k : Net c A nd) (ho : Own c i nd)
    (hA : ∀ v ∈ nd'.sent, A i v)
    (hd : ∀ j v, ev = .recv j v → j < c.n ∧ A j v)
    (hs : ∀ r p l, ev = .syncBlock r p l → ∀ x ∈ l, x.1 < c.n ∧ A x.1 x.2)
    (e : nodeStep c i nd ev = some nd') : Net c A nd' := by
  have ho' := nodeStep_own ho e
  unfold nodeStep at e
  split at e
  · cases e
  · cases ev with
    | restart kr kl kc =>
      simp only [] at e
      split at e
      · rename_i hk
        cases e
        refine restart_net k (fun v hv => ?_)
        have hm : v ∈ (nd.restart c i kr kl kc).sent := by
          unfold restart
          rw [(resume_eqs _).1]
          exact List.mem_append_left _ hv
        exact ⟨(ho'.base.form v hm).1, hA v hm⟩
      · cases e
    | run ch =>
      simp only [] at e
      split at e
      · rename_i a ha
        refine runAct_net (setAct_net k none) ?_ e
        rintro v rfl
        have hm : v ∈ nd.sent := ho.act _ ha
        have he : nd'.sent = nd.sent := by
          simp only [runAct, Option.some.injEq] at e
          subst e
          exact (recvVote_passive _ _ _).sent
        exact ⟨(ho.base.form v hm).1, hA v (he ▸ hm)⟩
      · split at e
        · cases e
          rename_i kk ks _
          cases kk <;> unfold runChk <;> simp only [] <;> split <;> exact k.same ⟨rfl, rfl, rfl, rfl⟩
        · cases e
    | recv j v =>
      simp only [] at e; split at e
      · cases e; have := hd j v rfl; exact recvVote_net k this.1 this.2
      · cases e
    | timeout =>
      simp only [] at e; split at e
      · exact timeout_net k e
      · cases e
    | proposal mr p pol got =>
      simp only [] at e; split at e
      · cases e
        unfold proposal
        split
        · exact k
        split
        · exact k
        · refine afterParts_net ?_
          exact k.same ⟨rfl, rfl, rfl, rfl⟩
      · cases e
    | parts b =>
      simp only [] at e; split at e
      · cases e
        unfold parts
        split
        · exact k
        · split
          · exact k
          · refine afterParts_net ?_
            exact k.same ⟨rfl, rfl, rfl, rfl⟩
      · cases e
    | imported ok =>
      simp only [] at e; split at e
      · exact imported_net k e
      · cases e
    | proposed p =>
      simp only [] at e; split at e
      · exact proposed_net k e
      · cases e
    | syncBlock r p l =>
      simp only [] at e; split at e
      · cases e; exact syncBlock_net k (hs r p l rfl)
      · cases e
    | finalize =>
      simp only [] at e; split at e
      · unfold finalize at e
        split at e
        · cases e
        · split at e
          · cases e; exact k.same ⟨rfl, rfl, rfl, rfl⟩
          · cases e
      · cases e

theorem init_net : Net c A (init : Node D B P) :=
  ⟨HvsOK.nil, by simp [init], by simp [init], by simp [init]⟩

end Node
end Verif.Consensus.Engine
