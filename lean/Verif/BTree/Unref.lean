import Verif.BTree.Inv

/-! # `unrefNode` keeps the invariant -/

namespace Verif.BTree

/-- The invariant of the tree while the nodes of `D` are being removed and the node `ex` has `k` references
too many. -/
structure InvD (ch : Chain) (s : St) (cands : Id → Nat) (f : Nat) (D : List Nat) (ex : Option Nat) (k : Int) : Prop where
  fin : s.finalized = some f
  finIn : s.In f
  finD : f ∉ D
  finPar : (s.heap f).parent = none
  map : ∀ i p, s.nmap i = some p → (s.heap p).block = i
  up : ∀ x, s.In x → x ∉ D → x ≠ f → ∃ q : Nat, (s.heap x).parent = some q ∧ s.In q ∧ q ∉ D ∧
    ch.prev (s.heap x).block = some (s.heap q).block ∧ x ∈ (s.heap q).children ∧ q < x
  down : ∀ x, s.In x → x ∉ D → ∀ c ∈ (s.heap x).children, c ∈ D ∨ (s.In c ∧ (s.heap c).parent = some x)
  lt : ∀ x, s.In x ∨ x ∈ D → x < s.next ∧ ∀ c ∈ (s.heap x).children, x < c
  nodup : ∀ x, s.In x → x ∉ D → (s.heap x).children.Nodup
  nRef : ∀ x, s.In x → x ∉ D → (s.heap x).nRef = (cands (s.heap x).block : Int)
    + ((s.heap x).children.countP (fun c => decide (c ∉ D)) : Nat) + (if x = f then 1 else 0) + (if ex = some x then k else 0)
  pos : ∀ x, s.In x → x ∉ D → x ≠ f → ex ≠ some x → 0 < (s.heap x).nRef
  held : ∀ x, s.In x → x ∉ D → (s.heap x).held = true
  free : ∀ x, ¬ s.In x ∨ x ∈ D → (s.heap x).held = false
  dIn : ∀ x, x ∈ D → s.In x ∨ s.nmap (s.heap x).block = none
  dC : ∀ x, x ∈ D → ∀ c ∈ (s.heap x).children, c ∈ D

/-- Nodes may go, nothing comes. -/
structure Shr (s s' : St) : Prop where
  same : Same s s'
  block : ∀ x, (s'.heap x).block = (s.heap x).block
  children : ∀ x c, c ∈ (s'.heap x).children → c ∈ (s.heap x).children
  nmap : ∀ i, s'.nmap i = s.nmap i ∨ s'.nmap i = none

theorem Shr.refl (s : St) : Shr s s := ⟨.refl s, fun _ => rfl, fun _ _ h => h, fun _ => .inl rfl⟩

theorem Shr.trans {a b c : St} (h : Shr a b) (k : Shr b c) : Shr a c where
  same := h.same.trans k.same
  block x := (k.block x).trans (h.block x)
  children x y hy := h.children x y (k.children x y hy)
  nmap i := by
    rcases k.nmap i with e | e
    · rw [e]; exact h.nmap i
    · exact .inr e

theorem Shr.in {s s' : St} (h : Shr s s') {x : Nat} (hx : s'.In x) : s.In x := by
  unfold St.In at hx ⊢
  rw [h.block] at hx
  rcases h.nmap (s.heap x).block with e | e
  · rw [← e]; exact hx
  · rw [e] at hx; cases hx

theorem Killed.shr {C : Nat → Prop} {s s' : St} (h : Killed C s s') : Shr s s' :=
  ⟨h.same, h.block, fun x c hc => by rw [h.children] at hc; exact hc, h.shrink⟩

theorem In.inj {s : St} {x y : Nat} (hx : s.In x) (hy : s.In y) (e : (s.heap x).block = (s.heap y).block) : x = y := by
  unfold St.In at hx hy
  rw [e, hy] at hx
  exact (Option.some.inj hx).symm

variable {ch : Chain} {cands : Id → Nat} {f : Nat}

/-- Removing nodes that are doomed anyway keeps the invariant. -/
theorem InvD.kill {s s' : St} {D : List Nat} {ex : Option Nat} {kk : Int} {C : Nat → Prop} (h : InvD ch s cands f D ex kk)
    (hC : ∀ x, C x → x ∈ D) (k : Killed C s s') : InvD ch s' cands f D ex kk := by
  have hin : ∀ x, x ∉ D → (s'.In x ↔ s.In x) := by
    intro x hx
    refine ⟨k.shr.in, fun hx' => ?_⟩
    unfold St.In at hx' ⊢
    rw [k.block, k.kept _ (fun y hy e => ?_)]
    · exact hx'
    · rcases h.dIn y (hC y hy) with hy' | hy'
      · exact hx (In.inj hy' hx' e ▸ hC y hy)
      · rw [e, hx'] at hy'; cases hy'
  have hot : ∀ x, x ∉ D → s'.heap x = s.heap x := fun x hx => k.other x fun c => hx (hC x c)
  constructor
  · rw [k.same.fin]; exact h.fin
  · exact (hin f h.finD).2 h.finIn
  · exact h.finD
  · rw [hot f h.finD]; exact h.finPar
  · intro i p hp
    rw [k.block]
    rcases k.shrink i with e | e
    · exact h.map i p (e ▸ hp)
    · rw [e] at hp; cases hp
  · intro x hx hxD hxf
    obtain ⟨q, h1, h2, h3, h4, h5, h6⟩ := h.up x ((hin x hxD).1 hx) hxD hxf
    exact ⟨q, by rw [hot x hxD]; exact h1, (hin q h3).2 h2, h3, by rw [k.block, k.block]; exact h4,
      by rw [k.children]; exact h5, h6⟩
  · intro x hx hxD c hc
    rw [k.children] at hc
    rcases h.down x ((hin x hxD).1 hx) hxD c hc with h1 | ⟨h1, h2⟩
    · exact .inl h1
    · by_cases hcD : c ∈ D
      · exact .inl hcD
      · exact .inr ⟨(hin c hcD).2 h1, by rw [hot c hcD]; exact h2⟩
  · intro x hx
    rw [k.children, k.same.next]
    exact h.lt x (hx.imp_left k.shr.in)
  · intro x hx hxD
    rw [k.children]; exact h.nodup x ((hin x hxD).1 hx) hxD
  · intro x hx hxD
    rw [hot x hxD]; exact h.nRef x ((hin x hxD).1 hx) hxD
  · intro x hx hxD
    rw [hot x hxD]; exact h.pos x ((hin x hxD).1 hx) hxD
  · intro x hx hxD
    rw [hot x hxD]; exact h.held x ((hin x hxD).1 hx) hxD
  · intro x hx
    by_cases hc : C x
    · exact k.held x hc
    · rw [k.other x hc]
      by_cases hxD : x ∈ D
      · exact h.free x (.inr hxD)
      · exact h.free x (.inl fun h' => hx.elim (fun a => a ((hin x hxD).2 h')) hxD)
  · intro x hx
    rw [k.block]
    rcases k.shrink (s.heap x).block with e | e
    · rcases h.dIn x hx with h1 | h1
      · exact .inl (by unfold St.In; rw [k.block, e]; exact h1)
      · exact .inr (e.trans h1)
    · exact .inr e
  · intro x hx c hc
    rw [k.children] at hc
    exact h.dC x hx c hc

theorem InvD.under {s : St} {D : List Nat} {ex : Option Nat} {kk : Int} (h : InvD ch s cands f D ex kk) {c x : Nat}
    (hc : c ∈ D) (u : Under s.heap c x) : x ∈ D := by
  induction u with
  | refl => exact hc
  | child hd _ ih => exact ih (h.dC _ hc _ hd)

theorem InvD.deep {s : St} {D : List Nat} {ex : Option Nat} {kk : Int} (h : InvD ch s cands f D ex kk) {c : Nat}
    (hc : c ∈ D) : Deep s.heap s.next c :=
  fun x u => h.lt x (.inr (h.under hc u))

theorem countP_erase_ne {l : List Nat} {p : Nat} {D : List Nat} (hn : l.Nodup) (hp : p ∈ l) (hD : p ∉ D) :
    l.countP (fun c => decide (c ∉ D)) = l.countP (fun c => decide (c ∉ p :: D)) + 1 := by
  have e1 := (List.perm_cons_erase hp).countP_eq (fun c => decide (c ∉ D))
  have e2 := (List.perm_cons_erase hp).countP_eq (fun c => decide (c ∉ p :: D))
  rw [e1, e2, List.countP_cons, List.countP_cons]
  have : ∀ c ∈ l.erase p, c ≠ p := fun c hc => by
    rintro rfl
    exact (List.Nodup.not_mem_erase hn) hc
  have e3 : (l.erase p).countP (fun c => decide (c ∉ D)) = (l.erase p).countP (fun c => decide (c ∉ p :: D)) := by
    apply List.countP_congr
    intro c hc
    have := this c hc
    simp [this]
  rw [e3]
  simp [hD]

/-- A change of reference counts and of the books of the user only. -/
theorem InvD.reref {s s' : St} {D : List Nat} {ex ex' : Option Nat} {k k' : Int} {cands' : Id → Nat}
    (h : InvD ch s cands f D ex k) (hs : Same s s') (hm : s'.nmap = s.nmap)
    (hp : ∀ x, (s'.heap x).parent = (s.heap x).parent) (hc : ∀ x, (s'.heap x).children = (s.heap x).children)
    (hb : ∀ x, (s'.heap x).block = (s.heap x).block) (hh : ∀ x, (s'.heap x).held = (s.heap x).held)
    (hn : ∀ x, s.In x → x ∉ D → (s'.heap x).nRef = (cands' (s.heap x).block : Int)
      + ((s.heap x).children.countP (fun c => decide (c ∉ D)) : Nat) + (if x = f then 1 else 0)
      + (if ex' = some x then k' else 0))
    (hpos : ∀ x, s.In x → x ∉ D → x ≠ f → ex' ≠ some x → 0 < (s'.heap x).nRef) :
    InvD ch s' cands' f D ex' k' := by
  have hin : ∀ x, s'.In x ↔ s.In x := by intro x; unfold St.In; rw [hm, hb]
  constructor
  · rw [hs.fin]; exact h.fin
  · exact (hin f).2 h.finIn
  · exact h.finD
  · rw [hp]; exact h.finPar
  · intro i p; rw [hm, hb]; exact h.map i p
  · intro x hx hxD hxf
    obtain ⟨q, h1, h2, h3, h4, h5, h6⟩ := h.up x ((hin x).1 hx) hxD hxf
    exact ⟨q, by rw [hp]; exact h1, (hin q).2 h2, h3, by rw [hb, hb]; exact h4, by rw [hc]; exact h5, h6⟩
  · intro x hx hxD c hcc
    rw [hc] at hcc
    rw [hin, hp]
    exact h.down x ((hin x).1 hx) hxD c hcc
  · intro x hx
    rw [hin] at hx
    rw [hc, hs.next]; exact h.lt x hx
  · intro x hx hxD; rw [hc]; exact h.nodup x ((hin x).1 hx) hxD
  · intro x hx hxD; rw [hc, hb]; exact hn x ((hin x).1 hx) hxD
  · intro x hx hxD; exact hpos x ((hin x).1 hx) hxD
  · intro x hx hxD; rw [hh]; exact h.held x ((hin x).1 hx) hxD
  · intro x hx; rw [hin] at hx; rw [hh]; exact h.free x hx
  · intro x hx; rw [hin, hm, hb]; exact h.dIn x hx
  · intro x hx c hcc; rw [hc] at hcc; exact h.dC x hx c hcc

theorem ref_fields (s : St) (p : Nat) (k : Int) : (∀ x, ((s.ref p k).heap x).parent = (s.heap x).parent) ∧
    (∀ x, ((s.ref p k).heap x).children = (s.heap x).children) ∧
    (∀ x, ((s.ref p k).heap x).block = (s.heap x).block) ∧
    (∀ x, ((s.ref p k).heap x).held = (s.heap x).held) ∧
    (∀ x, ((s.ref p k).heap x).nRef = if x = p then (s.heap x).nRef + k else (s.heap x).nRef) := by
  refine ⟨?_, ?_, ?_, ?_, ?_⟩ <;> intro x <;> by_cases e : x = p <;> simp [St.ref, e]

/-- The node `p`, which nobody refers to, joins the nodes being removed; its parent has one reference too many. -/
theorem InvD.doom {s : St} {D : List Nat} {p q : Nat} (h : InvD ch s cands f D (some p) 0) (hp : s.In p) (hpD : p ∉ D)
    (hpf : p ≠ f) (hq : (s.heap p).parent = some q) (hall : ∀ c ∈ (s.heap p).children, c ∈ D) :
    InvD ch (s.disposeNode p) cands f (p :: D) (some q) 1 ∧ s.In q ∧ q ∉ p :: D ∧ q < p := by
  obtain ⟨q', e, hqIn, hqD, hprev, hmem, hlt⟩ := h.up p hp hpD hpf
  obtain rfl : q' = q := by rw [hq] at e; exact (Option.some.inj e).symm
  have hqp : q' ≠ p := by omega
  have hc : ∀ x, ((s.disposeNode p).heap x).children = (s.heap x).children := by
    intro x; by_cases e : x = p <;> simp [St.disposeNode, e]
  have hb : ∀ x, ((s.disposeNode p).heap x).block = (s.heap x).block := by
    intro x; by_cases e : x = p <;> simp [St.disposeNode, e]
  have hpa : ∀ x, ((s.disposeNode p).heap x).parent = (s.heap x).parent := by
    intro x; by_cases e : x = p <;> simp [St.disposeNode, e]
  have hnr : ∀ x, ((s.disposeNode p).heap x).nRef = (s.heap x).nRef := by
    intro x; by_cases e : x = p <;> simp [St.disposeNode, e]
  have hh : ∀ x, x ≠ p → ((s.disposeNode p).heap x).held = (s.heap x).held := by
    intro x e; simp [St.disposeNode, e]
  have hin : ∀ x, (s.disposeNode p).In x ↔ s.In x := by intro x; unfold St.In; rw [hb]; rfl
  refine ⟨?_, hqIn, by simp [hqp, hqD], hlt⟩
  have hd : ∀ x, x ∉ p :: D → x ≠ p ∧ x ∉ D := fun x hx => by simpa using hx
  constructor
  · exact h.fin
  · exact (hin f).2 h.finIn
  · simp [h.finD, Ne.symm hpf]
  · rw [hpa]; exact h.finPar
  · intro i r hr; rw [hb]; exact h.map i r hr
  · intro x hx hxD hxf
    obtain ⟨hxp, hxD2⟩ := hd x hxD
    obtain ⟨r, h1, h2, h3, h4, h5, h6⟩ := h.up x ((hin x).1 hx) hxD2 hxf
    refine ⟨r, by rw [hpa]; exact h1, (hin r).2 h2, ?_, by rw [hb, hb]; exact h4, by rw [hc]; exact h5, h6⟩
    simp only [List.mem_cons, not_or]
    refine ⟨?_, h3⟩
    rintro rfl
    exact hxD2 (hall x h5)
  · intro x hx hxD c hcc
    obtain ⟨hxp, hxD⟩ := hd x hxD
    rw [hc] at hcc
    rw [hin, hpa]
    exact (h.down x ((hin x).1 hx) hxD c hcc).imp_left (by simp; exact fun a => .inr a)
  · intro x hx
    rw [hc]
    refine h.lt x ?_
    rcases hx with hx | hx
    · exact .inl ((hin x).1 hx)
    · rcases List.mem_cons.1 hx with rfl | hx
      · exact .inl hp
      · exact .inr hx
  · intro x hx hxD
    rw [hc]; exact h.nodup x ((hin x).1 hx) (hd x hxD).2
  · intro x hx hxD
    obtain ⟨hxp, hxD2⟩ := hd x hxD
    have hx2 := (hin x).1 hx
    have := h.nRef x hx2 hxD2
    rw [hnr, hc, hb, this]
    have e1 : ¬ (some p = some x) := by simpa using Ne.symm hxp
    rw [if_neg e1]
    by_cases e : q' = x
    · subst e
      have := countP_erase_ne (h.nodup q' hx2 hxD2) hmem hpD
      rw [this]
      simp
      omega
    · have e2 : ¬ (some q' = some x) := by simpa using e
      rw [if_neg e2]
      have : (s.heap x).children.countP (fun c => decide (c ∉ D)) =
          (s.heap x).children.countP (fun c => decide (c ∉ p :: D)) := by
        apply List.countP_congr
        intro c hcc
        have : c ≠ p := by
          intro ecp
          rw [ecp] at hcc
          rcases h.down x hx2 hxD2 p hcc with h1 | ⟨_, h1⟩
          · exact hpD h1
          · rw [hq] at h1; exact e (Option.some.inj h1)
        simp [this]
      rw [this]
  · intro x hx hxD hxf he
    obtain ⟨hxp, hxD⟩ := hd x hxD
    rw [hnr]
    exact h.pos x ((hin x).1 hx) hxD hxf (by simpa using Ne.symm hxp)
  · intro x hx hxD
    obtain ⟨hxp, hxD⟩ := hd x hxD
    rw [hh x hxp]; exact h.held x ((hin x).1 hx) hxD
  · intro x hx
    by_cases e : x = p
    · subst e; simp [St.disposeNode]
    · rw [hh x e]
      refine h.free x ?_
      rw [hin] at hx
      simpa [e] using hx
  · intro x hx
    rw [hin, hb]
    rcases List.mem_cons.1 hx with rfl | hx
    · exact .inl hp
    · exact h.dIn x hx
  · intro x hx c hcc
    rw [hc] at hcc
    rcases List.mem_cons.1 hx with rfl | hx
    · exact List.mem_cons_of_mem _ (hall c hcc)
    · exact List.mem_cons_of_mem _ (h.dC x hx c hcc)

/-- The node `p` leaves for good: it is taken out of the map and out of the list of its parent. -/
theorem InvD.undoom {s0 s : St} {D : List Nat} {p q : Nat} {ex : Option Nat} {k : Int}
    (h0 : InvD ch s0 cands f D ex k) (hp0 : s0.In p) (hpD : p ∉ D) (hq : (s0.heap p).parent = some q) (hqp : q ≠ p)
    (hD : ∀ x ∈ D, ∀ c ∈ (s.heap x).children, c ∈ D)
    (hsh : Shr s0 s)
    (h : InvD ch s cands f (p :: D) none 0) :
    InvD ch (((s.unparent p).del ((s.unparent p).heap p).block).mod q
      fun nd => { nd with children := swapRemove nd.children p }) cands f D none 0 := by
  have hd : ∀ x, x ≠ p → x ∉ D → x ∉ p :: D := fun x h1 h2 => by simp [h1, h2]
  have hbp : ((s.unparent p).heap p).block = (s.heap p).block := by simp [St.unparent]
  rw [hbp]
  generalize hs' : (((s.unparent p).del (s.heap p).block).mod q
      fun nd => { nd with children := swapRemove nd.children p }) = s'
  have hb : ∀ x, (s'.heap x).block = (s.heap x).block := by
    intro x; subst hs'; by_cases e : x = p <;> by_cases e2 : x = q <;> simp [St.unparent, e, e2]
    all_goals (first | split_ifs <;> simp_all)
  have hnr : ∀ x, (s'.heap x).nRef = (s.heap x).nRef := by
    intro x; subst hs'; by_cases e : x = p <;> by_cases e2 : x = q <;> simp [St.unparent, e, e2]
    all_goals (first | split_ifs <;> simp_all)
  have hh : ∀ x, (s'.heap x).held = (s.heap x).held := by
    intro x; subst hs'; by_cases e : x = p <;> by_cases e2 : x = q <;> simp [St.unparent, e, e2]
    all_goals (first | split_ifs <;> simp_all)
  have hpa : ∀ x, x ≠ p → (s'.heap x).parent = (s.heap x).parent := by
    intro x e; subst hs'; by_cases e2 : x = q <;> simp [St.unparent, e, e2]
    all_goals (first | split_ifs <;> simp_all)
  have hc : ∀ x, x ≠ q → (s'.heap x).children = (s.heap x).children := by
    intro x e2; subst hs'; by_cases e : x = p <;> simp [St.unparent, e, e2]
    all_goals (first | split_ifs <;> simp_all)
  have hcq : (s'.heap q).children = swapRemove (s.heap q).children p := by
    subst hs'; simp [St.unparent, hqp]
  have hnm : ∀ i, s'.nmap i = if i = (s.heap p).block then none else s.nmap i := by
    intro i; subst hs'; rfl
  have hsame : Same s s' := by subst hs'; exact ⟨rfl, rfl, rfl, rfl, rfl, rfl⟩
  clear hs'
  -- the map
  have hpIn : s.In p ∨ s.nmap (s.heap p).block = none := h.dIn p (by simp)
  have hin : ∀ x, x ≠ p → (s'.In x ↔ s.In x) := by
    intro x hx
    unfold St.In
    rw [hb, hnm]
    constructor
    · intro h1; split_ifs at h1; exact h1
    · intro h1
      rw [if_neg]
      · exact h1
      · intro e
        rcases hpIn with h2 | h2
        · exact hx (In.inj h1 h2 e)
        · rw [e, h2] at h1; cases h1
  have hpn : ¬ s'.In p := by
    unfold St.In
    rw [hb, hnm, if_pos rfl]; simp
  have hne : ∀ x, s'.In x → x ≠ p := fun x hx e => hpn (e ▸ hx)
  -- the children of nodes that are kept
  have hmem : ∀ x, s.In x → x ∉ D → x ≠ q → p ∉ (s.heap x).children := by
    intro x hx hxD hxq hpc
    rcases h0.down x (hsh.in hx) hxD p (hsh.children x p hpc) with h1 | ⟨_, h1⟩
    · exact hpD h1
    · rw [hq] at h1; exact hxq (Option.some.inj h1).symm
  have hch : ∀ x, s.In x → x ∉ p :: D → (s'.heap x).children.Perm ((s.heap x).children.erase p) := by
    intro x hx hxD
    by_cases e : x = q
    · subst e
      rw [hcq]
      by_cases hm : p ∈ (s.heap x).children
      · exact swapRemove_perm hm
      · rw [swapRemove_not_mem hm, List.erase_of_not_mem hm]
    · rw [hc x e, List.erase_of_not_mem (hmem x hx (by simp at hxD; exact hxD.2) e)]
  have hcnt : ∀ l : List Nat, l.Nodup → (l.erase p).countP (fun c => decide (c ∉ D)) =
      l.countP (fun c => decide (c ∉ p :: D)) := by
    intro l hl
    by_cases hm : p ∈ l
    · rw [(List.perm_cons_erase hm).countP_eq (fun c => decide (c ∉ p :: D)), List.countP_cons]
      simp only [List.mem_cons, true_or, not_true_eq_false, decide_false, Bool.false_eq_true, if_false, Nat.add_zero]
      apply List.countP_congr
      intro c hcc
      have : c ≠ p := by rintro rfl; exact (List.Nodup.not_mem_erase hl) hcc
      simp [this]
    · rw [List.erase_of_not_mem hm]
      apply List.countP_congr
      intro c hcc
      have : c ≠ p := by rintro rfl; exact hm hcc
      simp [this]
  have hfp : f ≠ p := by have := h.finD; simp at this; exact this.1
  have hsub : ∀ x c, c ∈ (s'.heap x).children → c ∈ (s.heap x).children := by
    intro x c hcc
    by_cases e : x = q
    · subst e
      rw [hcq] at hcc
      by_cases hm : p ∈ (s.heap x).children
      · exact List.mem_of_mem_erase ((swapRemove_perm hm).mem_iff.1 hcc)
      · rwa [swapRemove_not_mem hm] at hcc
    · rwa [hc x e] at hcc
  constructor
  · rw [hsame.fin]; exact h.fin
  · exact (hin f hfp).2 h.finIn
  · have := h.finD; simp at this; exact this.2
  · rw [hpa f hfp]; exact h.finPar
  · intro i r hr
    rw [hnm] at hr
    split_ifs at hr
    rw [hb]; exact h.map i r hr
  · intro x hx hxD hxf
    have hxp := hne x hx
    obtain ⟨r, h1, h2, h3, h4, h5, h6⟩ := h.up x ((hin x hxp).1 hx) (hd x hxp hxD) hxf
    have hrp : r ≠ p := by rintro rfl; simp at h3
    refine ⟨r, by rw [hpa x hxp]; exact h1, (hin r hrp).2 h2, by simp at h3; exact h3.2,
      by rw [hb, hb]; exact h4, ?_, h6⟩
    rw [(hch r h2 h3).mem_iff]
    exact (List.mem_erase_of_ne hxp).2 h5
  · intro x hx hxD c hcc
    have hxp := hne x hx
    have hx' := (hin x hxp).1 hx
    have hcp : c ≠ p := by
      rintro rfl
      rw [(hch x hx' (hd x hxp hxD)).mem_iff] at hcc
      exact (List.Nodup.not_mem_erase (h.nodup x hx' (hd x hxp hxD))) hcc
    rcases h.down x hx' (hd x hxp hxD) c (hsub x c hcc) with h1 | ⟨h1, h2⟩
    · exact .inl ((List.mem_cons.1 h1).resolve_left hcp)
    · exact .inr ⟨(hin c hcp).2 h1, by rw [hpa c hcp]; exact h2⟩
  · intro x hx
    have : s.In x ∨ x ∈ p :: D := by
      rcases hx with hx | hx
      · exact .inl ((hin x (hne x hx)).1 hx)
      · exact .inr (by simp [hx])
    have := h.lt x this
    rw [hsame.next]
    exact ⟨this.1, fun c hcc => this.2 c (hsub x c hcc)⟩
  · intro x hx hxD
    have hxp := hne x hx
    have hx' := (hin x hxp).1 hx
    rw [(hch x hx' (hd x hxp hxD)).nodup_iff]
    exact (h.nodup x hx' (hd x hxp hxD)).erase p
  · intro x hx hxD
    have hxp := hne x hx
    have hx' := (hin x hxp).1 hx
    rw [hnr, hb, (hch x hx' (hd x hxp hxD)).countP_eq, hcnt _ (h.nodup x hx' (hd x hxp hxD))]
    exact h.nRef x hx' (hd x hxp hxD)
  · intro x hx hxD hxf he
    have hxp := hne x hx
    rw [hnr]
    exact h.pos x ((hin x hxp).1 hx) (hd x hxp hxD) hxf he
  · intro x hx hxD
    have hxp := hne x hx
    rw [hh]
    exact h.held x ((hin x hxp).1 hx) (hd x hxp hxD)
  · intro x hx
    rw [hh]
    refine h.free x ?_
    by_cases e : x = p
    · exact .inr (by simp [e])
    · rw [hin x e] at hx
      simpa [e] using hx
  · intro x hx
    have hxp : x ≠ p := by rintro rfl; exact hpD hx
    rw [hin x hxp, hb, hnm]
    rcases h.dIn x (by simp [hx]) with h1 | h1
    · exact .inl h1
    · right; split_ifs
      · rfl
      · exact h1
  · intro x hx c hcc
    exact hD x hx c (hsub x c hcc)

theorem leave_block (s : St) (p q : Nat) (i : Id) (x : Nat) :
    ((((s.unparent p).del i).mod q fun nd => { nd with children := swapRemove nd.children p }).heap x).block =
      (s.heap x).block := by
  simp only [mod_heap, del_heap, St.unparent]
  by_cases e : x = q
  · rw [if_pos e]; dsimp only; split_ifs <;> rfl
  · rw [if_neg e]; split_ifs <;> rfl

/-- What `unrefNode` does to the tree. -/
theorem unref_inv : ∀ (n : Nat) (s : St) (p : Nat) (D : List Nat), InvD ch s cands f D (some p) 1 → s.In p → p ∉ D →
    p < n → InvD ch (unrefNode n s p) cands f D none 0 ∧ Shr s (unrefNode n s p) ∧
      ∀ x, s.In x → x ∉ D → ¬ (unrefNode n s p).In x → cands (s.heap x).block = 0
  | 0, _, _, _, _, _, _, hn => absurd hn (by omega)
  | n + 1, s, p, D, h, hp, hpD, hn => by
    rw [unrefNode]
    have hr := h.nRef p hp hpD
    rw [if_pos rfl] at hr
    obtain ⟨rp, rc, rb, rh, rn⟩ := ref_fields s p (-1)
    have e1 := rn p
    rw [if_pos rfl] at e1
    have hshr : Shr s (s.ref p (-1)) :=
      ⟨.mod _ _ _, rb, fun x c hc => by rw [rc] at hc; exact hc, fun i => .inl rfl⟩
    have hin1 : ∀ x, (s.ref p (-1)).In x ↔ s.In x := by
      intro x; unfold St.In; rw [rb]; rfl
    have hnr1 : ∀ x, s.In x → x ∉ D → ((s.ref p (-1)).heap x).nRef = (cands (s.heap x).block : Int)
      + ((s.heap x).children.countP (fun c => decide (c ∉ D)) : Nat) + (if x = f then 1 else 0) := by
      intro x hx hxD
      rw [rn]
      by_cases e : x = p
      · subst e; rw [if_pos rfl]; omega
      · rw [if_neg e, h.nRef x hx hxD, if_neg (show ¬ (some p = some x) by simpa using Ne.symm e)]; omega
    by_cases hz : ((s.ref p (-1)).heap p).nRef = 0
    case neg =>
      dsimp only
      rw [if_neg hz]
      refine ⟨?_, hshr, fun x hx _ hx' => absurd ((hin1 x).2 hx) hx'⟩
      refine h.reref (.mod _ _ _) rfl rp rc rb rh ?_ ?_
      · intro x hx hxD
        rw [hnr1 x hx hxD]; simp
      · intro x hx hxD hxf _
        by_cases e : x = p
        · subst e
          have : (if x = f then (1 : Int) else 0) ≥ 0 := by split_ifs <;> omega
          omega
        · rw [rn, if_neg e]; exact h.pos x hx hxD hxf (by simpa using Ne.symm e)
    case pos =>
      dsimp only
      rw [if_pos hz]
      rw [e1] at hz
      have hpf : p ≠ f := by
        rintro rfl
        rw [if_pos rfl] at hr; omega
      rw [if_neg hpf] at hr
      have hc0 : cands (s.heap p).block = 0 := by omega
      have hcnt : (s.heap p).children.countP (fun c => decide (c ∉ D)) = 0 := by omega
      have hall : ∀ c ∈ (s.heap p).children, c ∈ D := by
        intro c hc
        have := List.countP_eq_zero.1 hcnt c hc
        simpa using this
      obtain ⟨q, hq, hqIn, hqD, hprev, hmem, hlt⟩ := h.up p hp hpD hpf
      have h1 : InvD ch (s.ref p (-1)) cands f D (some p) 0 := by
        refine h.reref (.mod _ _ _) rfl rp rc rb rh ?_ ?_
        · intro x hx hxD
          rw [hnr1 x hx hxD]; simp
        · intro x hx hxD hxf he
          rw [rn, if_neg (fun e => he (by rw [e]))]; exact h.pos x hx hxD hxf he
      have k := removeSubs_killed ((s.ref p (-1)).next + 1) (s.ref p (-1)) ((s.ref p (-1)).heap p).children
        (s.ref p (-1)).next (fun c hc => h1.deep (hall c (by rw [rc] at hc; exact hc))) (fun c hc => by omega)
      rw [rp p, hq]
      revert k
      generalize removeSubs ((s.ref p (-1)).next + 1) (s.ref p (-1)) ((s.ref p (-1)).heap p).children = s2
      intro k
      have h2 : InvD ch s2 cands f D (some p) 0 := h1.kill
        (fun x ⟨c, hc, u⟩ => h1.under (hall c (by rw [rc] at hc; exact hc)) u) k
      have hnk : ¬ ∃ c ∈ ((s.ref p (-1)).heap p).children, Under (s.ref p (-1)).heap c p := by
        rintro ⟨c, hc, u⟩
        exact hpD (h1.under (hall c (by rw [rc] at hc; exact hc)) u)
      have hp2 : s2.heap p = (s.ref p (-1)).heap p := k.other p hnk
      have hpin2 : s2.In p := by
        have hp1 : (s.ref p (-1)).In p := (hin1 p).2 hp
        unfold St.In
        rw [hp2, k.kept]
        · exact hp1
        · rintro x ⟨c, hc, u⟩ e
          have hxD := h1.under (hall c (by rw [rc] at hc; exact hc)) u
          rcases h1.dIn x hxD with h3 | h3
          · exact hpD (In.inj h3 hp1 e ▸ hxD)
          · rw [e] at h3; rw [St.In, h3] at hp1; cases hp1
      obtain ⟨h3, hq2, hqD', _⟩ := h2.doom (q := q) hpin2 hpD hpf (by rw [hp2, rp]; exact hq)
        (by rw [hp2, rc]; exact hall)
      have hpar3 : ((s2.disposeNode p).heap p).parent = some q := by
        simp [St.disposeNode, hp2, rp, hq]
      rw [hpar3]
      have hs3 : Shr s2 (s2.disposeNode p) := ⟨.mod _ _ _,
        fun x => by by_cases e : x = p <;> simp [St.disposeNode, e],
        fun x c => by by_cases e : x = p <;> simp [St.disposeNode, e], fun i => .inl rfl⟩
      have hb3 := hs3.block
      have hq3 : (s2.disposeNode p).In q := by unfold St.In; rw [hb3]; exact hq2
      have ih := unref_inv n (s2.disposeNode p) q (p :: D) h3 hq3 hqD' (by omega)
      dsimp only
      revert ih
      generalize unrefNode n (s2.disposeNode p) q = s4
      rintro ⟨h4, sh4, z4⟩
      have shAll : Shr s s4 := ((hshr.trans k.shr).trans hs3).trans sh4
      refine ⟨?_, ?_, ?_⟩
      · exact h.undoom hp hpD hq (by omega) (fun x hx c hc => h.dC x hx c (shAll.children x c hc)) shAll h4
      · refine shAll.trans ⟨⟨rfl, rfl, rfl, rfl, rfl, rfl⟩, ?_, ?_, ?_⟩
        · exact fun x => leave_block s4 p q _ x
        · intro x c
          by_cases e2 : x = q
          · subst e2
            have hxp : x ≠ p := Nat.ne_of_lt hlt
            simp only [mod_heap, del_heap, St.unparent, if_neg hxp, if_true]
            intro hcc
            by_cases hm : p ∈ (s4.heap x).children
            · exact List.mem_of_mem_erase ((swapRemove_perm hm).mem_iff.1 hcc)
            · rwa [swapRemove_not_mem hm] at hcc
          · by_cases e : x = p
            · simp only [mod_heap, del_heap, St.unparent, if_neg e2, if_pos e]; exact fun h => h
            · simp only [mod_heap, del_heap, St.unparent, if_neg e2, if_neg e]; exact fun h => h
        · intro i
          simp only [mod_nmap, del_nmap, St.unparent]
          split_ifs
          · exact .inr rfl
          · exact .inl rfl
      · intro x hx hxD hx'
        by_cases e : x = p
        · rw [e]; exact hc0
        · have hx3 : (s2.disposeNode p).In x := by
            have hx2 : s2.In x := by
              have hx1 := (hin1 x).2 hx
              unfold St.In
              rw [k.block, k.kept]
              · exact hx1
              · rintro y ⟨c, hc, u⟩ e
                have hyD := h1.under (hall c (by rw [rc] at hc; exact hc)) u
                rcases h1.dIn y hyD with h3 | h3
                · exact hxD (In.inj h3 hx1 e ▸ hyD)
                · rw [e] at h3; rw [St.In, h3] at hx1; cases hx1
            unfold St.In; rw [hb3]; exact hx2
          have hx4 : ¬ s4.In x := by
            intro hx4
            apply hx'
            unfold St.In at hx4 ⊢
            rw [leave_block]
            simp only [mod_nmap, del_nmap]
            rw [if_neg]
            · exact hx4
            · intro e6
              have e7 : ((s4.unparent p).heap p).block = (s4.heap p).block := by simp [St.unparent]
              rw [e7, shAll.block, shAll.block] at e6
              exact e (In.inj hx hp e6)
          have := z4 x hx3 (by simp [e, hxD]) hx4
          rwa [hb3, k.block, rb] at this

end Verif.BTree
