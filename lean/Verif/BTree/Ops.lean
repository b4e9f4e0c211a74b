import Verif.BTree.Fin

/-! # The operations keep the tree -/

namespace Verif.BTree

variable {ch : Chain} {cands : Id → Nat} {f : Nat}

/-- Candidates for removed blocks are for blocks that are not above the last finalized one. -/
def Stale (ch : Chain) (s : St) (cands : Id → Nat) (f : Nat) : Prop :=
  ∀ i, 0 < cands i → s.nmap i = none → ¬ Below ch (s.heap f).block i

theorem finalize_tree {s : St} {p : Nat} (hl : NoLoop ch) (h : Tree ch s cands f) (st : Stale ch s cands f)
    (hp : s.In p) (hpar : (s.heap p).parent = some f) :
    Tree ch (({ removeNodeExcept s f p with finalized := some p } : St).ref p 1) cands p ∧
    Stale ch (({ removeNodeExcept s f p with finalized := some p } : St).ref p 1) cands p ∧
    ch.prev (s.heap p).block = some (s.heap f).block ∧
    (({ removeNodeExcept s f p with finalized := some p } : St).ref p 1).stuck = s.stuck ∧
    (({ removeNodeExcept s f p with finalized := some p } : St).ref p 1).running = s.running ∧
    (({ removeNodeExcept s f p with finalized := some p } : St).ref p 1).tasks = s.tasks ∧
    (({ removeNodeExcept s f p with finalized := some p } : St).ref p 1).crashed = s.crashed ∧
    ((({ removeNodeExcept s f p with finalized := some p } : St).ref p 1).heap p).block = (s.heap p).block := by
  obtain ⟨a1, a2, a3, a4, a5, a6, a7, a8, a9, a10⟩ := rne_spec h hp hpar
  have hpf : p ≠ f := by rintro rfl; rw [h.finPar] at hpar; cases hpar
  obtain ⟨f', e1, _, hprev, hmem, hlt⟩ := h.up hp hpf
  obtain rfl : f' = f := by rw [hpar] at e1; exact (Option.some.inj e1).symm
  obtain ⟨r1, r2, r3, r4, r5⟩ := ref_fields ({ removeNodeExcept s f' p with finalized := some p } : St) p 1
  have b1 : ∀ x, ((({ removeNodeExcept s f' p with finalized := some p } : St).ref p 1).heap x).parent
    = ((removeNodeExcept s f' p).heap x).parent := r1
  have b2 : ∀ x, ((({ removeNodeExcept s f' p with finalized := some p } : St).ref p 1).heap x).children
    = (s.heap x).children := fun x => (r2 x).trans (a2 x)
  have b3 : ∀ x, ((({ removeNodeExcept s f' p with finalized := some p } : St).ref p 1).heap x).block
    = (s.heap x).block := fun x => (r3 x).trans (a3 x)
  have b4 : ∀ x, ((({ removeNodeExcept s f' p with finalized := some p } : St).ref p 1).heap x).held
    = ((removeNodeExcept s f' p).heap x).held := r4
  have b5 : ∀ x, ((({ removeNodeExcept s f' p with finalized := some p } : St).ref p 1).heap x).nRef
    = if x = p then (s.heap x).nRef + 1 else (s.heap x).nRef := by
    intro x; rw [r5]; dsimp only; rw [a4]
  have b6 : ∀ i, (({ removeNodeExcept s f' p with finalized := some p } : St).ref p 1).nmap i
    = (removeNodeExcept s f' p).nmap i := fun i => rfl
  have b7 : (({ removeNodeExcept s f' p with finalized := some p } : St).ref p 1).finalized = some p := rfl
  have b8 : (({ removeNodeExcept s f' p with finalized := some p } : St).ref p 1).next = s.next := a1.next
  have c1 : (({ removeNodeExcept s f' p with finalized := some p } : St).ref p 1).stuck = s.stuck := a1.stuck
  have c2 : (({ removeNodeExcept s f' p with finalized := some p } : St).ref p 1).running = s.running := a1.running
  have c3 : (({ removeNodeExcept s f' p with finalized := some p } : St).ref p 1).tasks = s.tasks := a1.tasks
  have c4 : (({ removeNodeExcept s f' p with finalized := some p } : St).ref p 1).crashed = s.crashed := a1.crashed
  revert b1 b2 b3 b4 b5 b6 b7 b8 c1 c2 c3 c4
  clear r1 r2 r3 r4 r5
  generalize ({ removeNodeExcept s f' p with finalized := some p } : St).ref p 1 = s'
  intro b1 b2 b3 b4 b5 b6 b7 b8 c1 c2 c3 c4
  have hshr : ∀ i, s'.nmap i = s.nmap i ∨ s'.nmap i = none := by
    intro i
    rw [b6]
    by_cases hi : ∀ x, Pruned s f' p x → (s.heap x).block ≠ i
    · exact .inl (a10 i hi)
    · push Not at hi
      obtain ⟨x, hx, e⟩ := hi
      exact .inr (e ▸ a9 x hx)
  have hRin : ∀ x, Pruned s f' p x → s.In x := by
    rintro x (rfl | ⟨c, hc, _, u⟩)
    · exact h.finIn
    · exact (h.under (h.down h.finIn hc).1 u).1
  have hin : ∀ x, s'.In x ↔ s.In x ∧ ¬ Pruned s f' p x := by
    intro x
    unfold St.In
    rw [b3]
    constructor
    · intro hx
      refine ⟨?_, fun hR => ?_⟩
      · rcases hshr (s.heap x).block with e | e
        · rw [← e]; exact hx
        · rw [e] at hx; cases hx
      · rw [b6, a9 x hR] at hx; cases hx
    · rintro ⟨hx, hR⟩
      rw [b6, a10]
      · exact hx
      · intro y hy e
        exact hR (In.inj (hRin y hy) hx e ▸ hy)
  have hpR : ¬ Pruned s f' p p := by
    rintro (e | ⟨c, hc, hne, u⟩)
    · exact hpf e
    · exact hne (h.single h.finIn hc hmem p p (Nat.le_refl _) u (.refl p))
  -- the parent of a node that stays
  have hupR : ∀ x q, ¬ Pruned s f' p x → x ≠ p → s.In q → x ∈ (s.heap q).children → ¬ Pruned s f' p q := by
    rintro x q hx hxp hq hxq (rfl | ⟨c, hc, hne, u⟩)
    · exact hx (.inr ⟨x, hxq, hxp, .refl x⟩)
    · exact hx (.inr ⟨c, hc, hne, u.snoc hxq⟩)
  have hdownR : ∀ x c, ¬ Pruned s f' p x → s.In x → c ∈ (s.heap x).children → ¬ Pruned s f' p c := by
    rintro x c hx hxin hc (rfl | ⟨c', hc', hne, u⟩)
    · have := (h.down hxin hc).2.1
      rw [h.finPar] at this; cases this
    · rcases u.last with rfl | ⟨y, u1, u2⟩
      · have h1 := (h.down hxin hc).2.1
        rw [(h.down h.finIn hc').2.1] at h1
        exact hx (.inl (Option.some.inj h1).symm)
      · have hy := (h.under (h.down h.finIn hc').1 u1).1
        have h1 := (h.down hxin hc).2.1
        rw [(h.down hy u2).2.1] at h1
        obtain rfl := Option.some.inj h1
        exact hx (.inr ⟨c', hc', hne, u1⟩)
  refine ⟨?_, ?_, hprev, c1, c2, c3, c4, b3 p⟩
  · constructor
    · exact b7
    · exact (hin p).2 ⟨hp, hpR⟩
    · simp
    · rw [b1]; exact a5
    · intro i r hr
      rw [b3]
      rcases hshr i with e | e
      · exact h.map i r (e ▸ hr)
      · rw [e] at hr; cases hr
    · intro x hx _ hxp
      obtain ⟨hx, hR⟩ := (hin x).1 hx
      have hxf : x ≠ f' := fun e => hR (.inl e)
      obtain ⟨q, g1, g2, g3, g4, g5⟩ := h.up hx hxf
      exact ⟨q, by rw [b1, a6 x hR hxp]; exact g1, (hin q).2 ⟨g2, hupR x q hR hxp g2 g4⟩, by simp,
        by rw [b3, b3]; exact g3, by rw [b2]; exact g4, g5⟩
    · intro x hx _ c hc
      obtain ⟨hx, hR⟩ := (hin x).1 hx
      rw [b2] at hc
      obtain ⟨g1, g2, _, _⟩ := h.down hx hc
      have hcR := hdownR x c hR hx hc
      have hcp : c ≠ p := by
        rintro rfl
        rw [hpar] at g2
        exact hR (.inl (Option.some.inj g2).symm)
      exact .inr ⟨(hin c).2 ⟨g1, hcR⟩, by rw [b1, a6 c hcR hcp]; exact g2⟩
    · intro x hx
      rw [b2, b8]
      exact h.lt x (.inl ((hin x).1 (hx.resolve_right (by simp))).1)
    · intro x hx hxD
      rw [b2]; exact h.nodup x ((hin x).1 hx).1 hxD
    · intro x hx hxD
      obtain ⟨hx, hR⟩ := (hin x).1 hx
      have hxf : x ≠ f' := fun e => hR (.inl e)
      have := h.nRef x hx hxD
      rw [if_neg hxf] at this
      rw [b5, b2, b3]
      by_cases e : x = p
      · rw [if_pos e, if_pos e, this]; simp
      · rw [if_neg e, if_neg e, this]
    · intro x hx hxD hxp he
      obtain ⟨hx, hR⟩ := (hin x).1 hx
      have hxf : x ≠ f' := fun e => hR (.inl e)
      rw [b5, if_neg hxp]
      exact h.pos x hx hxD hxf he
    · intro x hx hxD
      obtain ⟨hx, hR⟩ := (hin x).1 hx
      rw [b4, a7 x hR]
      exact h.held x hx hxD
    · intro x hx
      rw [b4]
      by_cases hR : Pruned s f' p x
      · exact a8 x hR
      · rw [a7 x hR]
        refine h.free x (.inl fun hx' => ?_)
        rcases hx with hx | hx
        · exact hx ((hin x).2 ⟨hx', hR⟩)
        · simp at hx
    · intro x hx; simp at hx
    · intro x hx; simp at hx
  · intro i hi hni
    rw [b3]
    intro hbel
    rcases hs : s.nmap i with _ | x
    · exact st i hi hs ((Below.up hprev .refl).trans hbel)
    · obtain ⟨hx, rfl⟩ := h.in_of hs
      have hR : Pruned s f' p x := by
        by_contra hR
        have := (hin x).2 ⟨hx, hR⟩
        rw [St.In, b3, hni] at this
        cases this
      rcases hR with rfl | ⟨c, hc, hne, u⟩
      · exact hl _ _ hprev hbel
      · have hc1 := h.down h.finIn hc
        rcases hbel.linear (h.under hc1.1 u).2.2 with g | g
        · have hcprev := hc1.2.2.2
          generalize hbc : (s.heap c).block = bc at *
          cases g with
          | refl => exact hne (In.inj hc1.1 hp hbc)
          | up e g' =>
            rw [hcprev] at e
            obtain rfl := Option.some.inj e
            exact hl _ _ hprev g'
        · generalize hbp : (s.heap p).block = bp at *
          cases g with
          | refl => exact hne (In.inj hc1.1 hp (by rw [hbp]))
          | up e g' =>
            rw [hprev] at e
            obtain rfl := Option.some.inj e
            exact hl _ _ hc1.2.2.2 g'

/-- One more candidate. -/
def more (cands : Id → Nat) (b : Id) : Id → Nat := fun i => if i = b then cands i + 1 else cands i

/-- One candidate less. -/
def less (cands : Id → Nat) (b : Id) : Id → Nat := fun i => if i = b then cands i - 1 else cands i

/-- A candidate for a block that is there. -/
theorem ref_tree {s : St} {p : Nat} {b : Id} (h : Tree ch s cands f) (st : Stale ch s cands f)
    (hb : s.nmap b = some p) :
    Tree ch (s.ref p 1) (more cands b) f ∧ Stale ch (s.ref p 1) (more cands b) f := by
  obtain ⟨hp, rfl⟩ := h.in_of hb
  obtain ⟨r1, r2, r3, r4, r5⟩ := ref_fields s p 1
  constructor
  · refine h.reref (.mod _ _ _) rfl r1 r2 r3 r4 ?_ ?_
    · intro x hx hxD
      rw [r5, h.nRef x hx hxD]
      by_cases e : x = p
      · rw [if_pos e, e]; simp [more]; omega
      · have : (s.heap x).block ≠ (s.heap p).block := fun e' => e (In.inj hx hp e')
        rw [if_neg e]; simp [more, this]
    · intro x hx hxD hxf he
      have := h.pos x hx hxD hxf he
      rw [r5]
      split_ifs <;> omega
  · intro i hi hni
    rw [r3]
    have hni : s.nmap i = none := hni
    refine st i ?_ hni
    have : i ≠ (s.heap p).block := by rintro rfl; rw [hb] at hni; cases hni
    simpa [more, this] using hi

/-- A candidate is disposed. -/
theorem dispose_tree {s : St} {b : Id} (h : Tree ch s cands f) (st : Stale ch s cands f) (hc : 0 < cands b) :
    Tree ch (doDispose s b) (less cands b) f ∧ Stale ch (doDispose s b) (less cands b) f ∧
    Same s (doDispose s b) ∧ ((doDispose s b).heap f).block = (s.heap f).block := by
  unfold doDispose
  rcases hb : s.nmap b with _ | p
  · dsimp only
    refine ⟨?_, ?_, .refl s, rfl⟩
    · refine h.reref (.refl s) rfl (fun _ => rfl) (fun _ => rfl) (fun _ => rfl) (fun _ => rfl) ?_ (fun x => h.pos x)
      intro x hx hxD
      rw [h.nRef x hx hxD]
      have : (s.heap x).block ≠ b := by
        intro e
        unfold St.In at hx
        rw [e, hb] at hx; cases hx
      simp [less, this]
    · intro i hi hni
      refine st i ?_ hni
      by_cases e : i = b
      · rw [e]; exact hc
      · simpa [less, e] using hi
  · obtain ⟨hp, hbp⟩ := h.in_of hb
    have h1 : InvD ch s (less cands b) f [] (some p) 1 := by
      refine h.reref (.refl s) rfl (fun _ => rfl) (fun _ => rfl) (fun _ => rfl) (fun _ => rfl) ?_
        (fun x a b c _ => h.pos x a b c (by simp))
      intro x hx hxD
      rw [h.nRef x hx hxD]
      by_cases e : x = p
      · subst e
        rw [hbp]
        simp [less]
        omega
      · have : (s.heap x).block ≠ b := fun e' => e (In.inj hx hp (e'.trans hbp.symm))
        have e2 : ¬ (some p = some x) := by simpa using Ne.symm e
        simp [less, this, Ne.symm e]
    obtain ⟨g1, g2, g3⟩ := unref_inv (s.next + 1) s p [] h1 hp (by simp)
      (by have := (h.lt p (.inl hp)).1; omega)
    refine ⟨g1, ?_, g2.same, g2.block f⟩
    intro i hi hni
    dsimp only at hni ⊢
    rw [g2.block]
    have hi' : 0 < cands i := by
      unfold less at hi
      split_ifs at hi <;> omega
    rcases hs : s.nmap i with _ | x
    · exact st i hi' hs
    · obtain ⟨hx, rfl⟩ := h.in_of hs
      have := g3 x hx (by simp) (by
        unfold St.In
        rw [g2.block, hni]
        simp)
      omega

/-- A new node. -/
theorem add_tree {s : St} {b : Id} {q : Nat} (h : Tree ch s cands f) (st : Stale ch s cands f)
    (hb : s.nmap b = none) {pb : Id} (hprev : ch.prev b = some pb) (hq : s.nmap pb = some q) :
    ∃ s', addNode s (some q) b = some (s', s.next) ∧
    Tree ch (s'.ref s.next 1) (more cands b) f ∧ Stale ch (s'.ref s.next 1) (more cands b) f ∧
    (s'.stuck = s.stuck ∧ s'.running = s.running ∧ s'.tasks = s.tasks ∧ s'.crashed = s.crashed) ∧
    ((s'.ref s.next 1).heap f).block = (s.heap f).block := by
  obtain ⟨hqin, hqb⟩ := h.in_of hq
  have hqlt := (h.lt q (.inl hqin)).1
  have hcb : cands b = 0 := by
    rcases Nat.eq_zero_or_pos (cands b) with e | e
    · exact e
    · exfalso
      refine st b e hb (Below.up hprev ?_)
      rw [← hqb]; exact h.below hqin
  have hlt : ∀ x, s.In x → x < s.next := fun x hx => (h.lt x (.inl hx)).1
  have hqn : q ≠ s.next := by omega
  simp only [addNode]
  refine ⟨_, rfl, ?_⟩
  generalize hs' : St.ref (St.mk _ _ _ _ _ _ _ _) s.next 1 = s'
  have hn : s'.next = s.next + 1 := by rw [← hs']; rfl
  have hf : s'.finalized = s.finalized := by rw [← hs']; rfl
  have hnm : ∀ i, s'.nmap i = if i = b then some s.next else s.nmap i := by intro i; rw [← hs']; rfl
  have hnew : s'.heap s.next = ⟨some q, [], b, true, 1⟩ := by
    rw [← hs']; simp [St.ref, St.mod, Ne.symm hqn]
  have hqh : s'.heap q = { s.heap q with children := (s.heap q).children ++ [s.next], nRef := (s.heap q).nRef + 1 } := by
    rw [← hs']; simp [St.ref, St.mod, hqn]
  have hot : ∀ x, x ≠ s.next → x ≠ q → s'.heap x = s.heap x := by
    intro x e1 e2; rw [← hs']; simp [St.ref, St.mod, e1, e2]
  clear hs'
  have hbk : ∀ x, x ≠ s.next → (s'.heap x).block = (s.heap x).block := by
    intro x e
    by_cases e2 : x = q
    · subst e2; rw [hqh]
    · rw [hot x e e2]
  have hpa : ∀ x, x ≠ s.next → (s'.heap x).parent = (s.heap x).parent := by
    intro x e
    by_cases e2 : x = q
    · subst e2; rw [hqh]
    · rw [hot x e e2]
  have hhe : ∀ x, x ≠ s.next → (s'.heap x).held = (s.heap x).held := by
    intro x e
    by_cases e2 : x = q
    · subst e2; rw [hqh]
    · rw [hot x e e2]
  have hin : ∀ x, x ≠ s.next → (s'.In x ↔ s.In x) := by
    intro x e
    unfold St.In
    rw [hbk x e, hnm]
    split_ifs with e2
    · rw [e2, hb]
      simp
      exact fun h => e h.symm
    · rfl
  have hne : ∀ x, s.In x → x ≠ s.next := fun x hx e => by have := hlt x hx; omega
  have hinN : s'.In s.next := by unfold St.In; rw [hnew, hnm]; simp
  have hfn : f ≠ s.next := hne f h.finIn
  have hsubc : ∀ x, x ≠ s.next → ∀ c ∈ (s.heap x).children, c ∈ (s'.heap x).children := by
    intro x e c hc
    by_cases e2 : x = q
    · subst e2; rw [hqh]; simp [hc]
    · rw [hot x e e2]; exact hc
  refine ⟨?_, ?_, ⟨rfl, rfl, rfl, rfl⟩, hbk f hfn⟩
  · constructor
    · rw [hf]; exact h.fin
    · exact (hin f hfn).2 h.finIn
    · simp
    · rw [hpa f hfn]; exact h.finPar
    · intro i r hr
      rw [hnm] at hr
      split_ifs at hr with e
      · obtain rfl := Option.some.inj hr
        rw [hnew, e]
      · obtain ⟨g1, g2⟩ := h.in_of hr
        rw [hbk r (hne r g1)]; exact g2
    · intro x hx hxD hxf
      by_cases e : x = s.next
      · subst e
        refine ⟨q, by rw [hnew], (hin q hqn).2 hqin, by simp, ?_, by rw [hqh]; simp, hqlt⟩
        rw [hnew, hbk q hqn, hqb]; exact hprev
      · have hx := (hin x e).1 hx
        obtain ⟨r, g1, g2, g3, g4, g5⟩ := h.up hx hxf
        exact ⟨r, by rw [hpa x e]; exact g1, (hin r (hne r g2)).2 g2, by simp,
          by rw [hbk x e, hbk r (hne r g2)]; exact g3, hsubc r (hne r g2) x g4, g5⟩
    · intro x hx hxD c hc
      right
      by_cases e : x = s.next
      · subst e; rw [hnew] at hc; simp at hc
      · have hx := (hin x e).1 hx
        by_cases e2 : x = q
        · subst e2
          rw [hqh] at hc
          simp only [List.mem_append, List.mem_singleton] at hc
          rcases hc with hc | rfl
          · obtain ⟨g1, g2, _, _⟩ := h.down hx hc
            exact ⟨(hin c (hne c g1)).2 g1, by rw [hpa c (hne c g1)]; exact g2⟩
          · exact ⟨hinN, by rw [hnew]⟩
        · rw [hot x e e2] at hc
          obtain ⟨g1, g2, _, _⟩ := h.down hx hc
          exact ⟨(hin c (hne c g1)).2 g1, by rw [hpa c (hne c g1)]; exact g2⟩
    · intro x hx
      have hx := hx.resolve_right (by simp)
      rw [hn]
      by_cases e : x = s.next
      · subst e; rw [hnew]; simp
      · have hx := (hin x e).1 hx
        have g := h.lt x (.inl hx)
        refine ⟨by omega, ?_⟩
        by_cases e2 : x = q
        · subst e2
          rw [hqh]
          simp only [List.mem_append, List.mem_singleton]
          rintro c (hc | rfl)
          · exact g.2 c hc
          · exact g.1
        · rw [hot x e e2]; exact g.2
    · intro x hx hxD
      by_cases e : x = s.next
      · subst e; rw [hnew]; simp
      · have hx := (hin x e).1 hx
        by_cases e2 : x = q
        · subst e2
          rw [hqh]
          rw [List.nodup_append]
          refine ⟨h.nodup x hx hxD, by simp, ?_⟩
          intro c hc d hd
          simp at hd
          subst hd
          exact hne c (h.down hx hc).1
        · rw [hot x e e2]; exact h.nodup x hx hxD
    · intro x hx hxD
      by_cases e : x = s.next
      · subst e; rw [hnew]
        have : ¬ (s.next = f) := Ne.symm hfn
        simp [more, hcb, this]
      · have hx := (hin x e).1 hx
        have g := h.nRef x hx hxD
        have hxb : (s.heap x).block ≠ b := by
          intro e'
          unfold St.In at hx
          rw [e', hb] at hx; cases hx
        by_cases e2 : x = q
        · subst e2
          rw [hqh]
          simp only [more, if_neg hxb, List.countP_append, g]
          simp
          omega
        · rw [hot x e e2, g]; simp [more, hxb]
    · intro x hx hxD hxf he
      by_cases e : x = s.next
      · subst e; rw [hnew]; simp
      · have hx := (hin x e).1 hx
        have g := h.pos x hx hxD hxf he
        by_cases e2 : x = q
        · subst e2
          rw [hqh]
          dsimp only
          omega
        · rw [hot x e e2]; exact g
    · intro x hx hxD
      by_cases e : x = s.next
      · subst e; rw [hnew]
      · rw [hhe x e]; exact h.held x ((hin x e).1 hx) hxD
    · intro x hx
      have hx := hx.resolve_right (by simp)
      by_cases e : x = s.next
      · subst e; exact absurd hinN hx
      · rw [hhe x e]
        exact h.free x (.inl fun hx' => hx ((hin x e).2 hx'))
    · intro x hx; simp at hx
    · intro x hx; simp at hx
  · intro i hi hni
    rw [hnm] at hni
    split_ifs at hni with e
    rw [hbk f hfn]
    exact st i (by simpa [more, e] using hi) hni

/-- The end: nothing is left. -/
theorem term_tree {s : St} (h : Tree ch s cands f) :
    Same s (removeNode s f) ∧ (∀ i, (removeNode s f).nmap i = none) ∧
    (∀ x, ((removeNode s f).heap x).held = false) := by
  have k := removeSubs_killed (s.next + 1) s (s.heap f).children s.next
    (fun c hc => h.deep (h.down h.finIn hc).1) (fun c hc => by omega)
  simp only [removeNode]
  revert k
  generalize removeSubs (s.next + 1) s (s.heap f).children = s1
  intro k
  have hfC : ¬ ∃ c ∈ (s.heap f).children, Under s.heap c f := by
    rintro ⟨c, hc, u⟩
    have h1 := h.down h.finIn hc
    have := (h.under h1.1 u).2.1
    omega
  have hpar : ((s1.disposeNode f).heap f).parent = none := by
    simp [St.disposeNode, k.other f hfC, h.finPar]
  rw [hpar]
  dsimp only
  have hbf : ((s1.disposeNode f).heap f).block = (s.heap f).block := by
    simp [St.disposeNode, k.block]
  rw [hbf]
  refine ⟨k.same.trans ⟨rfl, rfl, rfl, rfl, rfl, rfl⟩, ?_, ?_⟩
  · intro i
    simp only [del_nmap]
    split_ifs with e
    · rfl
    · have hm : (s1.disposeNode f).nmap = s1.nmap := rfl
      rw [hm]
      rcases hs : s.nmap i with _ | x
      · rcases k.shrink i with e2 | e2
        · rw [e2]; exact hs
        · exact e2
      · obtain ⟨hx, rfl⟩ := h.in_of hs
        have hxf : x ≠ f := by rintro rfl; exact e rfl
        exact k.gone x (h.top hx hxf)
  · intro x
    simp only [del_heap]
    by_cases e : x = f
    · simp [St.disposeNode, e]
    · have : ((s1.disposeNode f).heap x).held = (s1.heap x).held := by simp [St.disposeNode, e]
      rw [this]
      by_cases hx : s.In x
      · exact k.held x (h.top hx e)
      · by_cases hC : ∃ c ∈ (s.heap f).children, Under s.heap c x
        · exact k.held x hC
        · rw [k.other x hC]; exact h.free x (.inl hx)

end Verif.BTree
