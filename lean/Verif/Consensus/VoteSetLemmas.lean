import Verif.Consensus.VoteSet
import Mathlib.Data.List.Nodup
import Mathlib.Tactic.Linarith

namespace Verif.Consensus.VoteSet

variable {D B P : Type} [DecidableEq B] (dig : D → B) (psid : D → Option P)

/-- Does this slot hold a vote with digest `b`? -/
def isFor (b : B) (m : Option (Vote D)) : Bool :=
  match m with
  | none => false
  | some v => decide (dig v.dec = b)

/-- Number of slots with a vote for `b`. -/
def cnt (ms : List (Option (Vote D))) (b : B) : ℕ := ms.countP (isFor dig b)

/-- The counters are right for the counting function `f`. -/
structure CI (f : B → ℕ) (cs : List (Counter B P)) : Prop where
  nodup : (cs.map (·.digest)).Nodup
  eq : ∀ c ∈ cs, c.count = f c.digest ∧ 0 < c.count
  all : ∀ b, 0 < f b → ∃ c ∈ cs, c.digest = b
  ps : ∀ c ∈ cs, ∃ d, dig d = c.digest ∧ psid d = c.ps

variable {dig psid}

theorem CI.perm {f : B → ℕ} {cs cs' : List (Counter B P)} (h : CI dig psid f cs) (p : cs.Perm cs') :
    CI dig psid f cs' where
  nodup := (p.map _).nodup_iff.1 h.nodup
  eq := fun c hc => h.eq c (p.mem_iff.2 hc)
  all := fun b hb => by obtain ⟨c, hc, e⟩ := h.all b hb; exact ⟨c, p.mem_iff.1 hc, e⟩
  ps := fun c hc => h.ps c (p.mem_iff.2 hc)

theorem swapRemove_perm (l r : List (Counter B P)) (c : Counter B P) :
    (swapRemove (l ++ c :: r) l.length).Perm (l ++ r) := by
  unfold swapRemove
  rcases List.eq_nil_or_concat r with rfl | ⟨r', x, rfl⟩
  · have : (l ++ [c]).getLast? = some c := by simp
    rw [this]
    simp
  · have e : (l ++ c :: (r' ++ [x])).getLast? = some x := by
      rw [show l ++ c :: (r' ++ [x]) = (l ++ c :: r') ++ [x] by simp]
      exact List.getLast?_concat ..
    simp only [List.concat_eq_append]
    rw [e]
    simp only []
    rw [List.set_append_right _ _ (by omega), Nat.sub_self, List.set_cons_zero,
      show l ++ x :: (r' ++ [x]) = (l ++ x :: r') ++ [x] by simp, List.dropLast_concat]
    apply List.Perm.append_left
    have := List.perm_append_comm (l₁ := [x]) (l₂ := r')
    simpa using this

theorem decLoop_perm (b : B) : ∀ (suf pre : List (Counter B P)),
    (∀ c ∈ pre, c.digest ≠ b) → ∀ (l r : List (Counter B P)) (c : Counter B P),
    suf = l ++ c :: r → c.digest = b → (∀ c ∈ l, c.digest ≠ b) →
    (decLoop b (pre ++ suf) suf pre.length).Perm
      (if c.count - 1 = 0 then pre ++ (l ++ r) else
        pre ++ (l ++ { c with count := c.count - 1 } :: r)) := by
  intro suf
  induction suf with
  | nil => intro pre _ l r c e; simp at e
  | cons x xs ih =>
    intro pre hpre l r c e hc hl
    cases l with
    | nil =>
      simp only [List.nil_append, List.cons.injEq] at e
      obtain ⟨rfl, rfl⟩ := e
      unfold decLoop
      rw [if_pos hc]
      simp only []
      rw [List.set_append_right _ _ (by omega), Nat.sub_self, List.set_cons_zero]
      by_cases h : x.count - 1 = 0
      · rw [if_pos h, if_pos h]; exact swapRemove_perm _ _ _
      · rw [if_neg h, if_neg h]; simp
    | cons y ys =>
      simp only [List.cons_append, List.cons.injEq] at e
      obtain ⟨rfl, rfl⟩ := e
      unfold decLoop
      rw [if_neg (hl x (by simp))]
      have := ih (pre ++ [x]) (by
        intro c' hc'
        rcases List.mem_append.1 hc' with h | h
        · exact hpre c' h
        · rw [List.mem_singleton.1 h]; exact hl x (by simp)) ys r c rfl hc
        (fun c' hc' => hl c' (List.mem_cons_of_mem _ hc'))
      simpa using this

theorem split_digest {cs : List (Counter B P)} {b : B} (h : ∃ c ∈ cs, c.digest = b) :
    ∃ l c r, cs = l ++ c :: r ∧ c.digest = b ∧ ∀ c ∈ l, c.digest ≠ b := by
  induction cs with
  | nil => obtain ⟨c, hc, _⟩ := h; simp at hc
  | cons x xs ih =>
    by_cases e : x.digest = b
    · exact ⟨[], x, xs, rfl, e, by simp⟩
    · obtain ⟨l, c, r, h1, h2, h3⟩ := ih (by
        obtain ⟨c, hc, e'⟩ := h
        rcases List.mem_cons.1 hc with rfl | hc
        · exact absurd e' e
        · exact ⟨c, hc, e'⟩)
      refine ⟨x :: l, c, r, by rw [h1]; rfl, h2, ?_⟩
      intro c' hc'
      rcases List.mem_cons.1 hc' with rfl | hc'
      · exact e
      · exact h3 c' hc'

theorem CI.dec {f : B → ℕ} {cs : List (Counter B P)} (h : CI dig psid f cs) {b : B} (hb : 0 < f b) :
    CI dig psid (fun b' => if b' = b then f b - 1 else f b') (decLoop b cs cs 0) := by
  obtain ⟨l, c, r, rfl, hc, hl⟩ := split_digest (h.all b hb)
  have hp := decLoop_perm b (l ++ c :: r) [] (by simp) l r c rfl hc hl
  simp only [List.nil_append, List.length_nil] at hp
  have hnd := h.nodup
  have hcnt := h.eq c (by simp)
  rw [hc] at hcnt
  have hnd' : b ∉ (l.map (·.digest)) ∧ b ∉ (r.map (·.digest)) := by
    rw [List.map_append, List.map_cons, hc, List.nodup_middle] at hnd
    rw [List.nodup_cons] at hnd
    simpa using hnd.1
  have hlr : ∀ c' ∈ l ++ r, c'.digest ≠ b := by
    intro c' hc' e
    rcases List.mem_append.1 hc' with h' | h'
    · exact hnd'.1 (List.mem_map.2 ⟨c', h', e⟩)
    · exact hnd'.2 (List.mem_map.2 ⟨c', h', e⟩)
  have hsub : ∀ c' ∈ l ++ r, c' ∈ l ++ c :: r := by
    intro c' hc'
    rcases List.mem_append.1 hc' with h' | h'
    · exact List.mem_append_left _ h'
    · exact List.mem_append_right _ (List.mem_cons_of_mem _ h')
  by_cases h0 : c.count - 1 = 0
  · rw [if_pos h0] at hp
    refine CI.perm ⟨?_, ?_, ?_, ?_⟩ hp.symm
    · rw [List.map_append, List.map_cons, List.nodup_middle, List.nodup_cons] at hnd
      simpa using hnd.2
    · intro c' hc'
      rw [if_neg (hlr c' hc')]; exact h.eq c' (hsub c' hc')
    · intro b' hb'
      by_cases e : b' = b
      · rw [if_pos e] at hb'; omega
      · rw [if_neg e] at hb'
        obtain ⟨c', hc', e'⟩ := h.all b' hb'
        refine ⟨c', ?_, e'⟩
        rcases List.mem_append.1 hc' with h' | h'
        · exact List.mem_append_left _ h'
        · rcases List.mem_cons.1 h' with rfl | h'
          · exact absurd (e'.symm.trans hc) e
          · exact List.mem_append_right _ h'
    · exact fun c' hc' => h.ps c' (hsub c' hc')
  · rw [if_neg h0] at hp
    refine CI.perm ⟨?_, ?_, ?_, ?_⟩ hp.symm
    · simpa using hnd
    · intro c' hc'
      rcases List.mem_append.1 hc' with h' | h'
      · rw [if_neg (hlr c' (List.mem_append_left _ h'))]
        exact h.eq c' (List.mem_append_left _ h')
      · rcases List.mem_cons.1 h' with rfl | h'
        · simp only [hc, if_true]; omega
        · rw [if_neg (hlr c' (List.mem_append_right _ h'))]
          exact h.eq c' (hsub c' (List.mem_append_right _ h'))
    · intro b' hb'
      by_cases e : b' = b
      · exact ⟨_, List.mem_append_right _ (List.mem_cons_self ..), by simp [hc, e]⟩
      · rw [if_neg e] at hb'
        obtain ⟨c', hc', e'⟩ := h.all b' hb'
        refine ⟨c', ?_, e'⟩
        rcases List.mem_append.1 hc' with h' | h'
        · exact List.mem_append_left _ h'
        · rcases List.mem_cons.1 h' with rfl | h'
          · exact absurd (e'.symm.trans hc) e
          · exact List.mem_append_right _ (List.mem_cons_of_mem _ h')
    · intro c' hc'
      rcases List.mem_append.1 hc' with h' | h'
      · exact h.ps c' (List.mem_append_left _ h')
      · rcases List.mem_cons.1 h' with rfl | h'
        · exact h.ps c (by simp)
        · exact h.ps c' (hsub c' (List.mem_append_right _ h'))

theorem incLoop_spec (b : B) : ∀ (suf pre : List (Counter B P)),
    (∀ c ∈ pre, c.digest ≠ b) →
    ((∀ c ∈ suf, c.digest ≠ b) → incLoop b (pre ++ suf) suf pre.length = none) ∧
    (∀ (l r : List (Counter B P)) (c : Counter B P),
      suf = l ++ c :: r → c.digest = b → (∀ c ∈ l, c.digest ≠ b) →
      incLoop b (pre ++ suf) suf pre.length =
        some (pre ++ (l ++ { c with count := c.count + 1 } :: r))) := by
  intro suf
  induction suf with
  | nil => intro pre _; exact ⟨fun _ => rfl, fun l r c e => by simp at e⟩
  | cons x xs ih =>
    intro pre hpre
    have step : x.digest ≠ b → ∀ c' ∈ pre ++ [x], c'.digest ≠ b := by
      intro hx c' hc'
      rcases List.mem_append.1 hc' with h | h
      · exact hpre c' h
      · rw [List.mem_singleton.1 h]; exact hx
    refine ⟨fun hs => ?_, fun l r c e hc hl => ?_⟩
    · have hx := hs x (by simp)
      unfold incLoop
      rw [if_neg hx]
      have := (ih (pre ++ [x]) (step hx)).1 (fun c' hc' => hs c' (List.mem_cons_of_mem _ hc'))
      simpa using this
    · cases l with
      | nil =>
        simp only [List.nil_append, List.cons.injEq] at e
        obtain ⟨rfl, rfl⟩ := e
        unfold incLoop
        rw [if_pos hc, List.set_append_right _ _ (by omega), Nat.sub_self, List.set_cons_zero]
        rfl
      | cons y ys =>
        simp only [List.cons_append, List.cons.injEq] at e
        obtain ⟨rfl, rfl⟩ := e
        have hx := hl x (by simp)
        unfold incLoop
        rw [if_neg hx]
        have := (ih (pre ++ [x]) (step hx)).2 ys r c rfl hc
          (fun c' hc' => hl c' (List.mem_cons_of_mem _ hc'))
        simpa using this

theorem CI.inc {f : B → ℕ} {cs : List (Counter B P)} (h : CI dig psid f cs) (d : D) :
    CI dig psid (fun b' => if b' = dig d then f (dig d) + 1 else f b')
      (match incLoop (dig d) cs cs 0 with
        | some cs => cs
        | none => cs ++ [⟨dig d, psid d, 1⟩]) := by
  by_cases hb : ∃ c ∈ cs, c.digest = dig d
  · obtain ⟨l, c, r, rfl, hc, hl⟩ := split_digest hb
    have e := (incLoop_spec (dig d) (l ++ c :: r) [] (by simp)).2 l r c rfl hc hl
    simp only [List.nil_append, List.length_nil] at e
    rw [e]
    simp only []
    have hnd := h.nodup
    have hcnt := h.eq c (by simp)
    rw [hc] at hcnt
    have hnd' : dig d ∉ (l.map (·.digest)) ∧ dig d ∉ (r.map (·.digest)) := by
      rw [List.map_append, List.map_cons, hc, List.nodup_middle] at hnd
      rw [List.nodup_cons] at hnd
      simpa using hnd.1
    refine ⟨by simpa using hnd, ?_, ?_, ?_⟩
    · intro c' hc'
      rcases List.mem_append.1 hc' with h' | h'
      · rw [if_neg (fun e => hnd'.1 (List.mem_map.2 ⟨c', h', e⟩))]
        exact h.eq c' (List.mem_append_left _ h')
      · rcases List.mem_cons.1 h' with rfl | h'
        · simp only [hc, if_true]; omega
        · rw [if_neg (fun e => hnd'.2 (List.mem_map.2 ⟨c', h', e⟩))]
          exact h.eq c' (List.mem_append_right _ (List.mem_cons_of_mem _ h'))
    · intro b' hb'
      by_cases e2 : b' = dig d
      · exact ⟨_, List.mem_append_right _ (List.mem_cons_self ..), by simp [hc, e2]⟩
      · rw [if_neg e2] at hb'
        obtain ⟨c', hc', e'⟩ := h.all b' hb'
        refine ⟨c', ?_, e'⟩
        rcases List.mem_append.1 hc' with h' | h'
        · exact List.mem_append_left _ h'
        · rcases List.mem_cons.1 h' with rfl | h'
          · exact absurd (e'.symm.trans hc) e2
          · exact List.mem_append_right _ (List.mem_cons_of_mem _ h')
    · intro c' hc'
      rcases List.mem_append.1 hc' with h' | h'
      · exact h.ps c' (List.mem_append_left _ h')
      · rcases List.mem_cons.1 h' with rfl | h'
        · exact h.ps c (by simp)
        · exact h.ps c' (List.mem_append_right _ (List.mem_cons_of_mem _ h'))
  · push Not at hb
    have e := (incLoop_spec (dig d) cs [] (by simp)).1 hb
    simp only [List.nil_append, List.length_nil] at e
    rw [e]
    simp only []
    have h0 : f (dig d) = 0 := by
      rcases Nat.eq_zero_or_pos (f (dig d)) with h0 | h0
      · exact h0
      · obtain ⟨c, hc, e⟩ := h.all _ h0; exact absurd e (hb c hc)
    refine ⟨?_, ?_, ?_, ?_⟩
    · rw [List.map_append]
      simp only [List.map_cons, List.map_nil]
      rw [List.nodup_append]
      refine ⟨h.nodup, by simp, ?_⟩
      intro a ha b' hb' e'
      obtain ⟨c, hc, rfl⟩ := List.mem_map.1 ha
      simp only [List.mem_singleton] at hb'
      exact hb c hc (e'.trans hb')
    · intro c' hc'
      rcases List.mem_append.1 hc' with h' | h'
      · rw [if_neg (hb c' h')]; exact h.eq c' h'
      · rw [List.mem_singleton.1 h']; simp [h0]
    · intro b' hb'
      by_cases e : b' = dig d
      · exact ⟨_, List.mem_append_right _ (List.mem_singleton.2 rfl), e.symm⟩
      · rw [if_neg e] at hb'
        obtain ⟨c', hc', e'⟩ := h.all b' hb'
        exact ⟨c', List.mem_append_left _ hc', e'⟩
    · intro c' hc'
      rcases List.mem_append.1 hc' with h' | h'
      · exact h.ps c' h'
      · rw [List.mem_singleton.1 h']; exact ⟨d, rfl, rfl⟩

/-! ### the largest counter -/

theorem findMax_spec : ∀ (cs : List (Counter B P)) (i : ℕ) (mi mx : ℤ),
    ((findMax cs i mi mx).1 = mi ∧ (findMax cs i mi mx).2 = mx ∧ ∀ c ∈ cs, c.count ≤ mx) ∨
    (∃ j c, cs[j]? = some c ∧ (findMax cs i mi mx).1 = ((i + j : ℕ) : ℤ) ∧
      (findMax cs i mi mx).2 = c.count ∧ mx < c.count ∧ ∀ c' ∈ cs, c'.count ≤ c.count) := by
  intro cs
  induction cs with
  | nil => intro i mi mx; left; simp [findMax]
  | cons x xs ih =>
    intro i mi mx
    unfold findMax
    by_cases h : x.count > mx
    · rw [if_pos h]
      right
      rcases ih (i + 1) (i : ℤ) x.count with ⟨h1, h2, h3⟩ | ⟨j, c, h1, h2, h3, h4, h5⟩
      · refine ⟨0, x, rfl, by simpa using h1, h2, h, ?_⟩
        intro c' hc'
        rcases List.mem_cons.1 hc' with rfl | hc'
        · omega
        · exact h3 c' hc'
      · refine ⟨j + 1, c, by simpa using h1, by rw [h2]; omega, h3, by omega, ?_⟩
        intro c' hc'
        rcases List.mem_cons.1 hc' with rfl | hc'
        · omega
        · exact h5 c' hc'
    · rw [if_neg h]
      rcases ih (i + 1) mi mx with ⟨h1, h2, h3⟩ | ⟨j, c, h1, h2, h3, h4, h5⟩
      · left
        refine ⟨h1, h2, ?_⟩
        intro c' hc'
        rcases List.mem_cons.1 hc' with rfl | hc'
        · omega
        · exact h3 c' hc'
      · right
        refine ⟨j + 1, c, by simpa using h1, by rw [h2]; omega, h3, by omega, ?_⟩
        intro c' hc'
        rcases List.mem_cons.1 hc' with rfl | hc'
        · omega
        · exact h5 c' hc'

/-- Two digests cannot both have more than two thirds of the slots. -/
theorem cnt_two (ms : List (Option (Vote D))) {b b' : B} (h : b ≠ b') :
    cnt dig ms b + cnt dig ms b' ≤ ms.length := by
  induction ms with
  | nil => simp [cnt]
  | cons m ms ih =>
    unfold cnt at ih ⊢
    rw [List.countP_cons, List.countP_cons, List.length_cons]
    cases m with
    | none =>
      have h1 : isFor dig b (none : Option (Vote D)) = false := rfl
      have h2 : isFor dig b' (none : Option (Vote D)) = false := rfl
      rw [h1, h2]; simp; omega
    | some v =>
      have h1 : isFor dig b (some v) = decide (dig v.dec = b) := rfl
      have h2 : isFor dig b' (some v) = decide (dig v.dec = b') := rfl
      rw [h1, h2]
      by_cases e : dig v.dec = b
      · have e' : ¬ dig v.dec = b' := fun e' => h (e.symm.trans e')
        rw [decide_eq_true e, decide_eq_false e']; simp; omega
      · rw [decide_eq_false e]
        by_cases e' : dig v.dec = b'
        · rw [decide_eq_true e']; simp; omega
        · rw [decide_eq_false e']; simp; omega

/-- The representation invariant of a vote set for `n` validators whose current votes are `ms`. -/
structure Good (dig : D → B) (psid : D → Option P) (n : ℕ) (vs : VoteSet D B P) : Prop where
  len : vs.msgs.length = n
  ci : CI dig psid (cnt dig vs.msgs) vs.counters
  count : vs.count = (vs.msgs.countP (·.isSome) : ℕ)
  cache : vs.maxIndex < 0 ∨ ∃ c, vs.counters[vs.maxIndex.toNat]? = some c ∧
    ∀ c' ∈ vs.counters, c'.count ≤ c.count
  mask : BitArray.Good n (fun i => ∃ v, vs.msgs[i]? = some (some v)) vs.mask

theorem new_good (dig : D → B) (psid : D → Option P) (n : ℕ) : Good dig psid n (new n) where
  len := by simp [new]
  ci := by
    have h0 : ∀ b, cnt dig (new n : VoteSet D B P).msgs b = 0 := by
      intro b
      unfold cnt
      rw [List.countP_eq_zero]
      intro m hm
      rw [List.eq_of_mem_replicate hm]; simp [isFor]
    refine ⟨by simp [new], by simp [new], ?_, by simp [new]⟩
    intro b hb; rw [h0] at hb; omega
  count := by
    have : (new n : VoteSet D B P).msgs.countP (·.isSome) = 0 := by
      rw [List.countP_eq_zero]
      intro m hm
      rw [List.eq_of_mem_replicate hm]; simp
    rw [this]; rfl
  cache := Or.inl (by simp [new])
  mask := by
    obtain ⟨b, e, g⟩ := BitArray.new_good n
    have : (new n : VoteSet D B P).mask = b := by simp [new, e]
    rw [this]
    refine ⟨g.num, g.len, ?_, ?_⟩
    · intro k; rw [g.bits k]
      simp only [new, List.getElem?_replicate]
      constructor
      · exact False.elim
      · rintro ⟨v, hv⟩; split at hv <;> simp at hv
    · rintro k ⟨v, hv⟩
      simp only [new, List.getElem?_replicate] at hv
      split at hv
      · assumption
      · simp at hv

/-- Same content, whatever is remembered about the largest counter. -/
theorem getOver_fst (vs : VoteSet D B P) :
    vs.getOver.1 = vs ∨ vs.getOver.1 = { vs with maxIndex := vs.getOver.1.maxIndex } := by
  unfold getOver
  by_cases h : vs.maxIndex < 0
  · simp only [if_pos h]; right; split <;> rfl
  · simp only [if_neg h]; left; split <;> rfl

theorem getOver_fst' (vs : VoteSet D B P) :
    vs.getOver.1.msgs = vs.msgs ∧ vs.getOver.1.counters = vs.counters ∧
    vs.getOver.1.count = vs.count ∧ vs.getOver.1.mask = vs.mask ∧ vs.getOver.1.round = vs.round := by
  rcases getOver_fst vs with h | h <;> rw [h] <;> simp

theorem getOver_spec {n : ℕ} {vs : VoteSet D B P} (g : Good dig psid n vs) :
    Good dig psid n vs.getOver.1 ∧
    (∀ b ps, vs.getOver.2 = some (b, ps) →
      n * 2 / 3 < cnt dig vs.msgs b ∧ ∃ d, dig d = b ∧ psid d = ps) ∧
    (∀ b, n * 2 / 3 < cnt dig vs.msgs b → ∃ ps, vs.getOver.2 = some (b, ps)) := by
  have key : ∃ m : ℤ, ∃ mx : ℤ, (vs.getOver = (if mx > ((n * 2 / 3 : ℕ) : ℤ) then
      ({ vs with maxIndex := m }, (vs.counters[m.toNat]?).map (fun c => (c.digest, c.ps)))
      else ({ vs with maxIndex := m }, none))) ∧
      ((m < 0 ∧ mx = 0 ∧ vs.counters = []) ∨
        (∃ c, vs.counters[m.toNat]? = some c ∧ mx = c.count ∧ ∀ c' ∈ vs.counters, c'.count ≤ c.count)) := by
    by_cases h : vs.maxIndex < 0
    · refine ⟨(findMax vs.counters 0 vs.maxIndex 0).1, (findMax vs.counters 0 vs.maxIndex 0).2, ?_, ?_⟩
      · unfold getOver; simp only [if_pos h, g.len]
      · rcases findMax_spec vs.counters 0 vs.maxIndex 0 with ⟨h1, h2, h3⟩ | ⟨j, c, h1, h2, h3, h4, h5⟩
        · left
          refine ⟨by rw [h1]; exact h, h2, ?_⟩
          rcases hcs : vs.counters with _ | ⟨c, cs⟩
          · rfl
          · have := h3 c (by rw [hcs]; simp)
            have := (g.ci.eq c (by rw [hcs]; simp)).2
            omega
        · right
          refine ⟨c, ?_, h3, h5⟩
          rw [h2]; simpa using h1
    · obtain ⟨c, hc, hmax⟩ := g.cache.resolve_left h
      refine ⟨vs.maxIndex, c.count, ?_, Or.inr ⟨c, hc, rfl, hmax⟩⟩
      unfold getOver; simp only [if_neg h, g.len, hc, Option.map_some, Option.getD_some]
  obtain ⟨m, mx, hg, hm⟩ := key
  have good' : Good dig psid n { vs with maxIndex := m } := by
    refine ⟨g.len, g.ci, g.count, ?_, g.mask⟩
    rcases hm with ⟨h, _, _⟩ | ⟨c, h1, _, h2⟩
    · exact Or.inl h
    · exact Or.inr ⟨c, h1, h2⟩
  refine ⟨?_, ?_, ?_⟩
  · rw [hg]; split <;> exact good'
  · intro b ps e
    rw [hg] at e
    split at e
    · rename_i hgt
      rcases hm with ⟨_, h0, _⟩ | ⟨c, h1, h2, _⟩
      · omega
      · simp only [h1, Option.map_some, Option.some.injEq, Prod.mk.injEq] at e
        have hmem := List.mem_of_getElem? h1
        have := g.ci.eq c hmem
        obtain ⟨d, hd, hp⟩ := g.ci.ps c hmem
        rw [e.1] at this hd
        refine ⟨by omega, d, hd, hp.trans e.2⟩
    · simp at e
  · intro b hb
    obtain ⟨c, hc, e⟩ := g.ci.all b (by omega)
    have hcc := (g.ci.eq c hc).1
    rw [e] at hcc
    rcases hm with ⟨_, _, h0⟩ | ⟨c', h1, h2, h3⟩
    · rw [h0] at hc; simp at hc
    · have hle := h3 c hc
      have hmem := List.mem_of_getElem? h1
      have hc' := (g.ci.eq c' hmem).1
      have hgt : mx > ((n * 2 / 3 : ℕ) : ℤ) := by omega
      have : c'.digest = b := by
        by_contra hne
        have := cnt_two (dig := dig) vs.msgs hne
        rw [g.len] at this
        omega
      refine ⟨c'.ps, ?_⟩
      rw [hg, if_pos hgt]
      simp [h1, this]

/-! ### storing a vote -/

theorem countP_set_none {ms : List (Option (Vote D))} {i : ℕ} (h : ms[i]? = some none)
    (p : Option (Vote D) → Bool) (hp : p none = false) (v : Vote D) :
    (ms.set i (some v)).countP p = ms.countP p + (if p (some v) then 1 else 0) := by
  have hlt : i < ms.length := by
    by_contra hc
    rw [List.getElem?_eq_none (by omega)] at h; simp at h
  rw [List.countP_set hlt]
  have : ms[i] = none := by rw [List.getElem?_eq_getElem hlt] at h; simpa using h
  simp [this, hp]

theorem countP_set_some {ms : List (Option (Vote D))} {i : ℕ} {o : Vote D}
    (h : ms[i]? = some (some o)) (p : Option (Vote D) → Bool) (v : Vote D) :
    (ms.set i (some v)).countP p =
      ms.countP p - (if p (some o) then 1 else 0) + (if p (some v) then 1 else 0) := by
  have hlt : i < ms.length := by
    by_contra hc
    rw [List.getElem?_eq_none (by omega)] at h; simp at h
  rw [List.countP_set hlt]
  have : ms[i] = some o := by rw [List.getElem?_eq_getElem hlt] at h; simpa using h
  simp [this]

theorem countP_pos {ms : List (Option (Vote D))} {i : ℕ} {o : Vote D}
    (h : ms[i]? = some (some o)) (p : Option (Vote D) → Bool) (hp : p (some o) = true) :
    0 < ms.countP p := by
  rw [List.countP_pos_iff]
  exact ⟨some o, List.mem_of_getElem? h, hp⟩

/-- `put` on counters already corrected for the slot being overwritten. -/
theorem put_good {n : ℕ} {vs : VoteSet D B P} {i : ℕ} {v : Vote D} (hlen : vs.msgs.length = n)
    (hi : i < n) (f : B → ℕ) (hci : CI dig psid f vs.counters)
    (hf : ∀ b, cnt dig (vs.msgs.set i (some v)) b = if b = dig v.dec then f (dig v.dec) + 1 else f b)
    (hcount : vs.count + 1 = ((vs.msgs.set i (some v)).countP (·.isSome) : ℕ))
    (hmask : BitArray.Good n (fun i => ∃ v, vs.msgs[i]? = some (some v)) vs.mask) :
    Good dig psid n (put dig psid vs i v) where
  len := by simp [put, hlen]
  ci := by
    have := hci.inc v.dec
    have e : cnt dig (put dig psid vs i v).msgs =
        fun b' => if b' = dig v.dec then f (dig v.dec) + 1 else f b' := funext hf
    rw [e]
    exact this
  count := hcount
  cache := Or.inl (by simp [put])
  mask := by
    obtain ⟨b, e, g⟩ := BitArray.set_good hmask i
    have : (put dig psid vs i v).mask = b := by simp [put, e]
    rw [this]
    refine ⟨g.num, g.len, ?_, ?_⟩
    · intro k
      rw [g.bits k]
      show _ ↔ ∃ w, (vs.msgs.set i (some v))[k]? = some (some w)
      rw [List.getElem?_set]
      by_cases h : i = k
      · subst h; simp [hlen, hi]
      · rw [if_neg h]
        have : k ≠ i := fun e => h e.symm
        simp [this]
    · rintro k ⟨w, hw⟩
      have := (List.getElem?_eq_some_iff.1 hw).1
      simp [put, hlen] at this; exact this

theorem put_none_good {n : ℕ} {vs : VoteSet D B P} (g : Good dig psid n vs) {i : ℕ}
    (h : vs.msgs[i]? = some none) (v : Vote D) : Good dig psid n (put dig psid vs i v) := by
  have hi : i < n := by
    have := (List.getElem?_eq_some_iff.1 h).1; rw [← g.len]; exact this
  refine put_good g.len hi (cnt dig vs.msgs) g.ci ?_ ?_ g.mask
  · intro b
    unfold cnt
    rw [countP_set_none h _ (by rfl)]
    by_cases e : b = dig v.dec
    · subst e; simp [isFor]
    · have : ¬ dig v.dec = b := fun h => e h.symm
      simp [isFor, e, this]
  · rw [countP_set_none h _ (by rfl), g.count]; simp

theorem put_some_good {n : ℕ} {vs : VoteSet D B P} (g : Good dig psid n vs) {i : ℕ} {o : Vote D}
    (h : vs.msgs[i]? = some (some o)) (v : Vote D) :
    Good dig psid n (put dig psid { vs with
      counters := decLoop (dig o.dec) vs.counters vs.counters 0
      count := vs.count - 1 } i v) := by
  have hi : i < n := by
    have := (List.getElem?_eq_some_iff.1 h).1; rw [← g.len]; exact this
  have hpos : 0 < cnt dig vs.msgs (dig o.dec) := countP_pos h _ (by simp [isFor])
  refine put_good (vs := { vs with
      counters := decLoop (dig o.dec) vs.counters vs.counters 0
      count := vs.count - 1 }) g.len hi _ (g.ci.dec hpos) ?_ ?_ g.mask
  · intro b
    show cnt dig (vs.msgs.set i (some v)) b = _
    have hs := countP_set_some h (isFor dig b) v
    unfold cnt at hpos ⊢
    rw [hs]
    by_cases e : b = dig v.dec
    · subst e
      by_cases e2 : dig v.dec = dig o.dec
      · simp only [e2, isFor, decide_true, if_true]
      · have : ¬ dig o.dec = dig v.dec := fun h => e2 h.symm
        simp [isFor, e2, this]
    · have e' : ¬ dig v.dec = b := fun h => e h.symm
      by_cases e2 : b = dig o.dec
      · subst e2; simp [isFor, e, e']
      · have : ¬ dig o.dec = b := fun h => e2 h.symm
        simp [isFor, e, e', e2, this]
  · show vs.count - 1 + 1 = ((vs.msgs.set i (some v)).countP (·.isSome) : ℕ)
    have := countP_pos h (·.isSome) rfl
    rw [countP_set_some h, g.count]
    simp; omega

theorem add_good {n : ℕ} {vs : VoteSet D B P} (g : Good dig psid n vs) (i : ℕ) (v : Vote D) :
    Good dig psid n (add dig psid vs i v).1 := by
  unfold add
  split
  · exact g
  · rename_i h; exact put_none_good g h v
  · rename_i o h
    split
    · exact g
    · simp only []
      split
      · exact (getOver_spec g).1
      · have := put_some_good (getOver_spec g).1 (i := i) (o := o)
          (by rw [(getOver_fst' vs).1]; exact h) v
        exact this

end Verif.Consensus.VoteSet
