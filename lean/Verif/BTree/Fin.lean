import Verif.BTree.Unref

/-! # The tree under each operation -/

namespace Verif.BTree

variable {ch : Chain} {cands : Id → Nat} {f : Nat}

theorem Below.trans {a b c : Id} (h1 : Below ch a b) (h2 : Below ch b c) : Below ch a c := by
  induction h2 with
  | refl => exact h1
  | up e _ ih => exact .up e ih

/-- Two blocks below a third: one is below the other. -/
theorem Below.linear {a b c : Id} (h1 : Below ch a c) (h2 : Below ch b c) : Below ch a b ∨ Below ch b a := by
  induction h1 with
  | refl => exact .inr h2
  | @up x y e h ih =>
    cases h2 with
    | refl => exact .inl (.up e h)
    | @up x' _ e' h' =>
      rw [e] at e'
      obtain rfl := Option.some.inj e'
      exact ih h'

theorem InvD.other {s s' : St} {D : List Nat} {ex : Option Nat} {k : Int} (h : InvD ch s cands f D ex k)
    (hh : s'.heap = s.heap) (hm : s'.nmap = s.nmap) (hn : s'.next = s.next) (hf : s'.finalized = s.finalized) :
    InvD ch s' cands f D ex k := by
  obtain ⟨heap, next, nmap, fin, _, _, _, _⟩ := s
  obtain ⟨heap', next', nmap', fin', _, _, _, _⟩ := s'
  dsimp only at hh hm hn hf
  subst hh hm hn hf
  exact ⟨h.fin, h.finIn, h.finD, h.finPar, h.map, h.up, h.down, h.lt, h.nodup, h.nRef, h.pos, h.held, h.free,
    h.dIn, h.dC⟩

theorem InvD.in_of {s : St} {D : List Nat} {ex : Option Nat} {k : Int} (h : InvD ch s cands f D ex k) {i : Id}
    {p : Nat} (hp : s.nmap i = some p) : s.In p ∧ (s.heap p).block = i := by
  have := h.map i p hp
  exact ⟨by unfold St.In; rw [this]; exact hp, this⟩

/-- The clean tree. -/
abbrev Tree (ch : Chain) (s : St) (cands : Id → Nat) (f : Nat) : Prop := InvD ch s cands f [] none 0

theorem Tree.up {s : St} (h : Tree ch s cands f) {x : Nat} (hx : s.In x) (hf : x ≠ f) : ∃ q : Nat,
    (s.heap x).parent = some q ∧ s.In q ∧
    ch.prev (s.heap x).block = some (s.heap q).block ∧ x ∈ (s.heap q).children ∧ q < x := by
  obtain ⟨q, h1, h2, _, h4, h5, h6⟩ := InvD.up h x hx (by simp) hf
  exact ⟨q, h1, h2, h4, h5, h6⟩

theorem Tree.down {s : St} (h : Tree ch s cands f) {x c : Nat} (hx : s.In x) (hc : c ∈ (s.heap x).children) :
    s.In c ∧ (s.heap c).parent = some x ∧ x < c ∧ ch.prev (s.heap c).block = some (s.heap x).block := by
  have h1 := (InvD.down h x hx (by simp) c hc).resolve_left (by simp)
  have hcf : c ≠ f := by
    rintro rfl
    rw [h.finPar] at h1; exact absurd h1.2 (by simp)
  obtain ⟨q, e1, e2, e3, _, _⟩ := Tree.up h h1.1 hcf
  obtain rfl : q = x := by rw [h1.2] at e1; exact (Option.some.inj e1).symm
  exact ⟨h1.1, h1.2, (h.lt q (.inl hx)).2 c hc, e3⟩

theorem Tree.under {s : St} (h : Tree ch s cands f) {c x : Nat} (hc : s.In c) (u : Under s.heap c x) :
    s.In x ∧ c ≤ x ∧ Below ch (s.heap c).block (s.heap x).block := by
  induction u with
  | refl => exact ⟨hc, Nat.le_refl _, .refl⟩
  | child hd u ih =>
    obtain ⟨h1, h2, h3, h4⟩ := h.down hc hd
    obtain ⟨g1, g2, g3⟩ := ih h1
    exact ⟨g1, by omega, (Below.up h4 .refl).trans g3⟩

theorem Tree.deep {s : St} (h : Tree ch s cands f) {c : Nat} (hc : s.In c) : Deep s.heap s.next c :=
  fun x u => h.lt x (.inl (h.under hc u).1)

/-- Each node is under the last finalized one. -/
theorem Tree.root {s : St} (h : Tree ch s cands f) : ∀ (n x : Nat), x ≤ n → s.In x → Under s.heap f x := by
  intro n
  induction n with
  | zero =>
    intro x hx hin
    by_cases e : x = f
    · rw [e]; exact .refl f
    · obtain ⟨q, _, _, _, _, hlt⟩ := h.up hin e
      omega
  | succ n ih =>
    intro x hx hin
    by_cases e : x = f
    · rw [e]; exact .refl f
    · obtain ⟨q, _, h2, _, h4, hlt⟩ := h.up hin e
      exact (ih q (by omega) h2).snoc h4

theorem Tree.below {s : St} (h : Tree ch s cands f) {x : Nat} (hx : s.In x) :
    Below ch (s.heap f).block (s.heap x).block :=
  (h.under h.finIn (h.root x x (Nat.le_refl _) hx)).2.2

theorem Tree.top {s : St} (h : Tree ch s cands f) {x : Nat} (hx : s.In x) (hf : x ≠ f) :
    ∃ c ∈ (s.heap f).children, Under s.heap c x := by
  have u := h.root x x (Nat.le_refl _) hx
  cases u with
  | refl => exact absurd rfl hf
  | child hc u => exact ⟨_, hc, u⟩

/-- The last step to a node is from its parent. -/
theorem Under.last {g : Nat → Node} {c x : Nat} (u : Under g c x) : x = c ∨ ∃ y, Under g c y ∧ x ∈ (g y).children := by
  induction u with
  | refl => exact .inl rfl
  | @child p d x hd u ih =>
    rcases ih with rfl | ⟨y, h1, h2⟩
    · exact .inr ⟨p, .refl p, hd⟩
    · exact .inr ⟨y, .child hd h1, h2⟩

/-- A node is under one child of a node only. -/
theorem Tree.single {s : St} (h : Tree ch s cands f) {r c d : Nat} (hr : s.In r) (hc : c ∈ (s.heap r).children)
    (hd : d ∈ (s.heap r).children) : ∀ (n x : Nat), x ≤ n → Under s.heap c x → Under s.heap d x → c = d := by
  have hcr := h.down hr hc
  have hdr := h.down hr hd
  intro n
  induction n with
  | zero =>
    intro x hx uc ud
    have := (h.under hcr.1 uc).2.1
    omega
  | succ n ih =>
    intro x hx uc ud
    have hxin := (h.under hcr.1 uc).1
    rcases uc.last with rfl | ⟨y, u1, u2⟩
    · rcases ud.last with e | ⟨z, v1, v2⟩
      · exact e
      · have hz := h.under hdr.1 v1
        have := (h.down hz.1 v2).2.1
        rw [hcr.2.1] at this
        obtain rfl := Option.some.inj this
        omega
    · have hy := h.under hcr.1 u1
      have hyx := h.down hy.1 u2
      rcases ud.last with e | ⟨z, v1, v2⟩
      · subst e
        have := hyx.2.1
        rw [hdr.2.1] at this
        obtain rfl := Option.some.inj this
        omega
      · have hz := h.under hdr.1 v1
        have := (h.down hz.1 v2).2.1
        rw [hyx.2.1] at this
        obtain rfl := Option.some.inj this
        exact ih y (by omega) u1 v1

/-! ## Finalize -/

theorem rce_append (e : Nat) (l1 l2 : List Nat) (s : St) :
    removeChildrenExcept e (l1 ++ l2) s = removeChildrenExcept e l2 (removeChildrenExcept e l1 s) := by
  induction l1 generalizing s with
  | nil => rfl
  | cons c l1 ih => simp only [List.cons_append, removeChildrenExcept]; rw [ih]

theorem rce_killed (e : Nat) : ∀ (l : List Nat) (s : St), e ∉ l → (∀ c ∈ l, Deep s.heap s.next c) →
    Killed (fun x => ∃ c ∈ l, Under s.heap c x) s (removeChildrenExcept e l s)
  | [], s, _, _ => .none s (by simp)
  | c :: l, s, he, hd => by
    simp only [removeChildrenExcept]
    have hce : c ≠ e := by rintro rfl; simp at he
    rw [if_neg hce]
    have k1 := removeSub_killed (s.next + 1) s c s.next (hd c (by simp)) (by omega)
    revert k1
    generalize removeSub (s.next + 1) s c = s1
    intro k1
    have k2 := rce_killed e l s1 (fun h => he (by simp [h]))
      (fun c' hc' => by
        rw [k1.same.next]
        exact (hd c' (by simp [hc'])).congr k1.children)
    refine (k1.comp k2).congr ?_
    intro x
    constructor
    · rintro (u | ⟨c', hc', u⟩)
      · exact ⟨c, by simp, u⟩
      · exact ⟨c', by simp [hc'], u.congr fun y => (k1.children y).symm⟩
    · rintro ⟨c', hc', u⟩
      rcases List.mem_cons.1 hc' with rfl | hc'
      · exact .inl u
      · exact .inr ⟨c', hc', u.congr k1.children⟩

/-- The nodes that `Finalize` removes. -/
def Pruned (s : St) (f p x : Nat) : Prop := x = f ∨ ∃ c ∈ (s.heap f).children, c ≠ p ∧ Under s.heap c x

/-- What `removeNodeExcept` does. -/
theorem rne_spec {s : St} {p : Nat} (h : Tree ch s cands f) (hp : s.In p) (hpar : (s.heap p).parent = some f) :
    Same s (removeNodeExcept s f p) ∧
    (∀ x, ((removeNodeExcept s f p).heap x).children = (s.heap x).children) ∧
    (∀ x, ((removeNodeExcept s f p).heap x).block = (s.heap x).block) ∧
    (∀ x, ((removeNodeExcept s f p).heap x).nRef = (s.heap x).nRef) ∧
    ((removeNodeExcept s f p).heap p).parent = none ∧
    (∀ x, ¬ Pruned s f p x → x ≠ p → ((removeNodeExcept s f p).heap x).parent = (s.heap x).parent) ∧
    (∀ x, ¬ Pruned s f p x → ((removeNodeExcept s f p).heap x).held = (s.heap x).held) ∧
    (∀ x, Pruned s f p x → ((removeNodeExcept s f p).heap x).held = false) ∧
    (∀ x, Pruned s f p x → (removeNodeExcept s f p).nmap (s.heap x).block = none) ∧
    (∀ i, (∀ x, Pruned s f p x → (s.heap x).block ≠ i) → (removeNodeExcept s f p).nmap i = s.nmap i) := by
  have hpf : p ≠ f := by rintro rfl; rw [h.finPar] at hpar; cases hpar
  obtain ⟨f', e1, _, _, hmem, hlt⟩ := h.up hp hpf
  obtain rfl : f' = f := by rw [hpar] at e1; exact (Option.some.inj e1).symm
  obtain ⟨l1, l2, el⟩ := List.append_of_mem hmem
  have hnd : (l1 ++ p :: l2).Nodup := el ▸ h.nodup f' h.finIn (by simp)
  have hp1 : p ∉ l1 := by
    intro hh
    rw [List.nodup_append] at hnd
    exact hnd.2.2 p hh p (by simp) rfl
  have hp2 : p ∉ l2 := by
    rw [List.nodup_append] at hnd
    exact (List.nodup_cons.1 hnd.2.1).1
  have hdeep : ∀ c ∈ (s.heap f').children, Deep s.heap s.next c := fun c hc => h.deep (h.down h.finIn hc).1
  have k1 := rce_killed p l1 s hp1 (fun c hc => hdeep c (by rw [el]; simp [hc]))
  have hrne : removeNodeExcept s f' p = (
      let s3 := removeChildrenExcept p l2 ((removeChildrenExcept p l1 s).unparent p)
      let s4 := s3.disposeNode f'
      let s5 := match (s4.heap f').parent with
        | some q => (unrefNode (s4.next + 1) s4 q).unparent f'
        | none => s4
      s5.del (s5.heap f').block) := by
    simp only [removeNodeExcept]
    rw [el, rce_append]
    simp only [removeChildrenExcept, if_true]
    rfl
  rw [hrne]
  clear hrne
  revert k1
  generalize removeChildrenExcept p l1 s = s1
  intro k1
  have u1 : ∀ x, ((s1.unparent p).heap x).children = (s1.heap x).children := by
    intro x; by_cases e : x = p <;> simp [St.unparent, e]
  have u2 : ∀ x, ((s1.unparent p).heap x).block = (s1.heap x).block := by
    intro x; by_cases e : x = p <;> simp [St.unparent, e]
  have u3 : ∀ x, ((s1.unparent p).heap x).nRef = (s1.heap x).nRef := by
    intro x; by_cases e : x = p <;> simp [St.unparent, e]
  have u4 : ∀ x, ((s1.unparent p).heap x).held = (s1.heap x).held := by
    intro x; by_cases e : x = p <;> simp [St.unparent, e]
  have u5 : ∀ x, x ≠ p → ((s1.unparent p).heap x).parent = (s1.heap x).parent := by
    intro x e; simp [St.unparent, e]
  have u6 : ((s1.unparent p).heap p).parent = none := by simp [St.unparent]
  have hcc : ∀ x, ((s1.unparent p).heap x).children = (s.heap x).children := fun x => (u1 x).trans (k1.children x)
  have k2 := rce_killed p l2 (s1.unparent p) hp2 (fun c hc => by
    have := (hdeep c (by rw [el]; simp [hc])).congr hcc
    rw [show (s1.unparent p).next = s.next from k1.same.next]
    exact this)
  revert k2
  have us : Same s1 (s1.unparent p) := Same.mod _ _ _
  have um : ∀ i, (s1.unparent p).nmap i = s1.nmap i := fun i => rfl
  revert u1 u2 u3 u4 u5 u6 hcc us um
  generalize s1.unparent p = s2
  intro u1 u2 u3 u4 u5 u6 hcc us um
  generalize removeChildrenExcept p l2 s2 = s3
  intro k2
  -- who is removed by the two loops
  have hC : ∀ x, (∃ c ∈ (s.heap f').children, c ≠ p ∧ Under s.heap c x) ↔
      (∃ c ∈ l1, Under s.heap c x) ∨ ∃ c ∈ l2, Under s2.heap c x := by
    intro x
    constructor
    · rintro ⟨c, hc, hne, u⟩
      rw [el] at hc
      rcases List.mem_append.1 hc with hc | hc
      · exact .inl ⟨c, hc, u⟩
      · rcases List.mem_cons.1 hc with rfl | hc
        · exact absurd rfl hne
        · exact .inr ⟨c, hc, u.congr hcc⟩
    · rintro (⟨c, hc, u⟩ | ⟨c, hc, u⟩)
      · exact ⟨c, by rw [el]; simp [hc], fun e => hp1 (e ▸ hc), u⟩
      · exact ⟨c, by rw [el]; simp [hc], fun e => hp2 (e ▸ hc), u.congr fun y => (hcc y).symm⟩
  have hfC : ¬ ∃ c ∈ (s.heap f').children, c ≠ p ∧ Under s.heap c f' := by
    rintro ⟨c, hc, _, u⟩
    have h1 := h.down h.finIn hc
    have := (h.under h1.1 u).2.1
    omega
  have hpC : ¬ ∃ c ∈ (s.heap f').children, c ≠ p ∧ Under s.heap c p := by
    rintro ⟨c, hc, hne, u⟩
    exact hne (h.single h.finIn hc hmem p p (Nat.le_refl _) u (.refl p))
  have hfp3 : (s3.heap f').parent = none := by
    rw [k2.other f' (fun hh => hfC ((hC f').2 (.inr hh))), u5 f' (Ne.symm hpf),
      k1.other f' (fun hh => hfC ((hC f').2 (.inl hh)))]
    exact h.finPar
  have hpar4 : ((s3.disposeNode f').heap f').parent = none := by simp [St.disposeNode, hfp3]
  dsimp only
  rw [hpar4]
  dsimp only
  have hb4 : ∀ x, ((s3.disposeNode f').heap x).block = (s3.heap x).block := by
    intro x; by_cases e : x = f' <;> simp [St.disposeNode, e]
  have hb3 : ∀ x, (s3.heap x).block = (s.heap x).block := fun x => by rw [k2.block, u2, k1.block]
  simp only [del_heap]
  refine ⟨?_, ?_, ?_, ?_, ?_, ?_, ?_, ?_, ?_, ?_⟩
  · exact (k1.same.trans us).trans (k2.same.trans ⟨rfl, rfl, rfl, rfl, rfl, rfl⟩)
  · intro x
    have : ((s3.disposeNode f').heap x).children = (s3.heap x).children := by
      by_cases e : x = f' <;> simp [St.disposeNode, e]
    rw [this, k2.children, hcc]
  · intro x; rw [hb4, hb3]
  · intro x
    have : ((s3.disposeNode f').heap x).nRef = (s3.heap x).nRef := by
      by_cases e : x = f' <;> simp [St.disposeNode, e]
    rw [this, k2.nRef, u3, k1.nRef]
  · have : ((s3.disposeNode f').heap p).parent = (s3.heap p).parent := by simp [St.disposeNode, hpf]
    rw [this, k2.other p (fun hh => hpC ((hC p).2 (.inr hh)))]
    exact u6
  · intro x hx hxp
    have hxf : x ≠ f' := fun e => hx (.inl e)
    have hxC := fun e => hx (.inr e)
    have : ((s3.disposeNode f').heap x).parent = (s3.heap x).parent := by simp [St.disposeNode, hxf]
    rw [this, k2.other x (fun hh => hxC ((hC x).2 (.inr hh))), u5 x hxp,
      k1.other x (fun hh => hxC ((hC x).2 (.inl hh)))]
  · intro x hx
    have hxf : x ≠ f' := fun e => hx (.inl e)
    have hxC := fun e => hx (.inr e)
    have : ((s3.disposeNode f').heap x).held = (s3.heap x).held := by simp [St.disposeNode, hxf]
    rw [this, k2.other x (fun hh => hxC ((hC x).2 (.inr hh))), u4 x,
      k1.other x (fun hh => hxC ((hC x).2 (.inl hh)))]
  · intro x hx
    by_cases e : x = f'
    · simp [St.disposeNode, e]
    · have : ((s3.disposeNode f').heap x).held = (s3.heap x).held := by simp [St.disposeNode, e]
      rw [this]
      rcases (hC x).1 (hx.resolve_left e) with h1 | h1
      · by_cases h2 : ∃ c ∈ l2, Under s2.heap c x
        · exact k2.held x h2
        · rw [k2.other x h2, u4]; exact k1.held x h1
      · exact k2.held x h1
  · intro x hx
    simp only [del_nmap]
    split_ifs with e0
    · rfl
    · have hm : (s3.disposeNode f').nmap = s3.nmap := rfl
      rw [hm]
      rw [hb4, hb3] at e0
      rcases hx with rfl | hx
      · exact absurd rfl e0
      · rcases (hC x).1 hx with h1 | h1
        · have := k1.gone x h1
          rcases k2.shrink (s.heap x).block with e | e
          · rw [e, um]; exact this
          · exact e
        · have := k2.gone x h1
          rwa [u2, k1.block] at this
  · intro i hi
    simp only [del_nmap]
    rw [hb4, hb3, if_neg (Ne.symm (hi f' (.inl rfl)))]
    have hm : (s3.disposeNode f').nmap = s3.nmap := rfl
    rw [hm, k2.kept, um, k1.kept]
    · exact fun x hx => hi x (.inr ((hC x).2 (.inl hx)))
    · intro x hx
      rw [u2, k1.block]
      exact hi x (.inr ((hC x).2 (.inr hx)))

end Verif.BTree
