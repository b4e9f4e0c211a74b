import Verif.BTree.Spec

/-! # The invariant of the tree, and `_removeNode` -/

namespace Verif.BTree

/-- A node object that the map knows. -/
def St.In (s : St) (p : Nat) : Prop := s.nmap (s.heap p).block = some p

@[simp] theorem mod_heap (s : St) (p : Nat) (f : Node → Node) (q : Nat) :
    (s.mod p f).heap q = if q = p then f (s.heap q) else s.heap q := rfl
@[simp] theorem mod_nmap (s : St) (p : Nat) (f : Node → Node) : (s.mod p f).nmap = s.nmap := rfl
@[simp] theorem mod_next (s : St) (p : Nat) (f : Node → Node) : (s.mod p f).next = s.next := rfl
@[simp] theorem mod_fin (s : St) (p : Nat) (f : Node → Node) : (s.mod p f).finalized = s.finalized := rfl
@[simp] theorem mod_running (s : St) (p : Nat) (f : Node → Node) : (s.mod p f).running = s.running := rfl
@[simp] theorem mod_tasks (s : St) (p : Nat) (f : Node → Node) : (s.mod p f).tasks = s.tasks := rfl
@[simp] theorem mod_stuck (s : St) (p : Nat) (f : Node → Node) : (s.mod p f).stuck = s.stuck := rfl
@[simp] theorem mod_crashed (s : St) (p : Nat) (f : Node → Node) : (s.mod p f).crashed = s.crashed := rfl
@[simp] theorem del_heap (s : St) (i : Id) : (s.del i).heap = s.heap := rfl
@[simp] theorem del_nmap (s : St) (i j : Id) : (s.del i).nmap j = if j = i then none else s.nmap j := rfl
@[simp] theorem del_next (s : St) (i : Id) : (s.del i).next = s.next := rfl
@[simp] theorem del_fin (s : St) (i : Id) : (s.del i).finalized = s.finalized := rfl
@[simp] theorem del_running (s : St) (i : Id) : (s.del i).running = s.running := rfl
@[simp] theorem del_tasks (s : St) (i : Id) : (s.del i).tasks = s.tasks := rfl
@[simp] theorem del_stuck (s : St) (i : Id) : (s.del i).stuck = s.stuck := rfl
@[simp] theorem del_crashed (s : St) (i : Id) : (s.del i).crashed = s.crashed := rfl

/-- Everything but the heap and the map is the same. -/
structure Same (s s' : St) : Prop where
  next : s'.next = s.next
  fin : s'.finalized = s.finalized
  running : s'.running = s.running
  tasks : s'.tasks = s.tasks
  stuck : s'.stuck = s.stuck
  crashed : s'.crashed = s.crashed

theorem Same.refl (s : St) : Same s s := ⟨rfl, rfl, rfl, rfl, rfl, rfl⟩
theorem Same.trans {a b c : St} (h : Same a b) (k : Same b c) : Same a c :=
  ⟨k.next.trans h.next, k.fin.trans h.fin, k.running.trans h.running, k.tasks.trans h.tasks,
    k.stuck.trans h.stuck, k.crashed.trans h.crashed⟩
theorem Same.mod (s : St) (p : Nat) (f : Node → Node) : Same s (s.mod p f) := ⟨rfl, rfl, rfl, rfl, rfl, rfl⟩
theorem Same.del (s : St) (i : Id) : Same s (s.del i) := ⟨rfl, rfl, rfl, rfl, rfl, rfl⟩

/-- `x` is `p` or a node under it, along the lists of children of `h`. -/
inductive Under (h : Nat → Node) : Nat → Nat → Prop
  | refl (p : Nat) : Under h p p
  | child {p c x : Nat} : c ∈ (h p).children → Under h c x → Under h p x

theorem Under.trans {h : Nat → Node} {a b c : Nat} (h1 : Under h a b) (h2 : Under h b c) : Under h a c := by
  induction h1 with
  | refl => exact h2
  | child hc _ ih => exact .child hc (ih h2)

theorem Under.snoc {h : Nat → Node} {a b c : Nat} (h1 : Under h a b) (h2 : c ∈ (h b).children) : Under h a c :=
  h1.trans (.child h2 (.refl c))

theorem Under.congr {h h' : Nat → Node} (e : ∀ x, (h' x).children = (h x).children) {a b : Nat}
    (u : Under h a b) : Under h' a b := by
  induction u with
  | refl => exact .refl _
  | child hc _ ih => exact .child (by rw [e]; exact hc) ih

/-- The nodes of `C` are removed: their handles are disposed, they have no parent, the map does not know them. -/
structure Killed (C : Nat → Prop) (s s' : St) : Prop where
  same : Same s s'
  children : ∀ x, (s'.heap x).children = (s.heap x).children
  block : ∀ x, (s'.heap x).block = (s.heap x).block
  nRef : ∀ x, (s'.heap x).nRef = (s.heap x).nRef
  other : ∀ x, ¬ C x → s'.heap x = s.heap x
  held : ∀ x, C x → (s'.heap x).held = false
  parent : ∀ x, C x → (s'.heap x).parent = none
  gone : ∀ x, C x → s'.nmap (s.heap x).block = none
  kept : ∀ i, (∀ x, C x → (s.heap x).block ≠ i) → s'.nmap i = s.nmap i

theorem Killed.none {C : Nat → Prop} (s : St) (h : ∀ x, ¬ C x) : Killed C s s where
  same := .refl s
  children _ := rfl
  block _ := rfl
  nRef _ := rfl
  other _ _ := rfl
  held x hx := absurd hx (h x)
  parent x hx := absurd hx (h x)
  gone x hx := absurd hx (h x)
  kept _ _ := rfl

theorem Killed.shrink {C : Nat → Prop} {s s' : St} (h : Killed C s s') (i : Id) :
    s'.nmap i = s.nmap i ∨ s'.nmap i = Option.none := by
  by_cases hi : ∀ x, C x → (s.heap x).block ≠ i
  · exact .inl (h.kept i hi)
  · push Not at hi
    obtain ⟨x, hx, e⟩ := hi
    exact .inr (e ▸ h.gone x hx)

theorem Killed.comp {C D : Nat → Prop} {a b c : St} (h : Killed C a b) (k : Killed D b c) :
    Killed (fun x => C x ∨ D x) a c where
  same := h.same.trans k.same
  children x := (k.children x).trans (h.children x)
  block x := (k.block x).trans (h.block x)
  nRef x := (k.nRef x).trans (h.nRef x)
  other x hx := (k.other x fun d => hx (.inr d)).trans (h.other x fun d => hx (.inl d))
  held x hx := by
    by_cases d : D x
    · exact k.held x d
    · rw [k.other x d]; exact h.held x (hx.resolve_right d)
  parent x hx := by
    by_cases d : D x
    · exact k.parent x d
    · rw [k.other x d]; exact h.parent x (hx.resolve_right d)
  gone x hx := by
    by_cases d : D x
    · have := k.gone x d
      rwa [h.block] at this
    · have := h.gone x (hx.resolve_right d)
      rcases k.shrink (a.heap x).block with e | e
      · rw [e]; exact this
      · exact e
  kept i hi := by
    rw [k.kept i, h.kept i]
    · exact fun x hx => hi x (.inl hx)
    · exact fun x hx => by rw [h.block]; exact hi x (.inr hx)

theorem Killed.congr {C D : Nat → Prop} {a b : St} (h : Killed C a b) (e : ∀ x, C x ↔ D x) : Killed D a b := by
  have : C = D := funext fun x => propext (e x)
  exact this ▸ h

/-- The depth that `removeSub` needs is there. -/
def Deep (h : Nat → Node) (N : Nat) (p : Nat) : Prop :=
  ∀ x, Under h p x → x < N ∧ ∀ c ∈ (h x).children, x < c

theorem Deep.child {h : Nat → Node} {N : Nat} {p c : Nat} (d : Deep h N p) (hc : c ∈ (h p).children) :
    Deep h N c := fun x hx => d x (.child hc hx)

theorem Deep.congr {h h' : Nat → Node} {N : Nat} {p : Nat} (e : ∀ x, (h' x).children = (h x).children)
    (d : Deep h N p) : Deep h' N p := by
  intro x hx
  have := d x (hx.congr fun y => (e y).symm)
  exact ⟨this.1, fun c hc => this.2 c (by rw [← e]; exact hc)⟩

theorem subs_killed (n : Nat) (ih : ∀ (s : St) (p : Nat) (N : Nat), Deep s.heap N p → N < p + n →
    Killed (Under s.heap p) s (removeSub n s p)) : ∀ (s : St) (cs : List Nat) (N : Nat), (∀ c ∈ cs, Deep s.heap N c) →
    (∀ c ∈ cs, N < c + n) → Killed (fun x => ∃ c ∈ cs, Under s.heap c x) s (removeSubs n s cs)
  | s, [], N, d, hn => by
    exact .none s (by simp)
  | s, c :: cs, N, d, hn => by
    have k1 := ih s c N (d c (by simp)) (hn c (by simp))
    simp only [removeSubs, List.foldl]
    revert k1
    generalize removeSub n s c = s1
    intro k1
    have k2 := subs_killed n ih s1 cs N
      (fun c' hc' => (d c' (by simp [hc'])).congr k1.children) (fun c' hc' => hn c' (by simp [hc']))
    refine (k1.comp k2).congr ?_
    intro x
    constructor
    · rintro (u | ⟨c', hc', u⟩)
      · exact ⟨c, by simp, u⟩
      · exact ⟨c', by simp [hc'], u.congr fun y => (k1.children y).symm⟩
    · rintro ⟨c', hc', u⟩
      rcases List.mem_cons.1 hc' with rfl | hc'
      · exact .inl u
      · exact .inr ⟨c', hc', u.congr k1.children⟩

theorem removeSub_killed : ∀ (n : Nat) (s : St) (p : Nat) (N : Nat), Deep s.heap N p → N < p + n →
    Killed (Under s.heap p) s (removeSub n s p)
  | 0, s, p, N, d, hn => by
    exact absurd (d p (.refl p)).1 (by omega)
  | n + 1, s, p, N, d, hn => by
    have k := subs_killed n (removeSub_killed n) s (s.heap p).children N (fun c hc => d.child hc)
      (fun c hc => by have := (d p (.refl p)).2 c hc; omega)
    rw [removeSub]
    change Killed _ s (let s1 := removeSubs n s (s.heap p).children
      let s1 := s1.disposeNode p
      let s1 := s1.unparent p
      s1.del (s1.heap p).block)
    revert k
    generalize removeSubs n s (s.heap p).children = s1
    intro k
    have k2 : Killed (fun x => x = p) s1 (((s1.disposeNode p).unparent p).del
        (((s1.disposeNode p).unparent p).heap p).block) := by
      constructor
      · exact ((Same.mod _ _ _).trans (Same.mod _ _ _)).trans (Same.del _ _)
      · intro x; by_cases e : x = p <;> simp [St.disposeNode, St.unparent, e]
      · intro x; by_cases e : x = p <;> simp [St.disposeNode, St.unparent, e]
      · intro x; by_cases e : x = p <;> simp [St.disposeNode, St.unparent, e]
      · intro x e; simp [St.disposeNode, St.unparent, e]
      · intro x e; simp [St.disposeNode, St.unparent, e]
      · intro x e; simp [St.disposeNode, St.unparent, e]
      · intro x e; simp [St.disposeNode, St.unparent, e]
      · intro i hi
        have := hi p rfl
        simp [St.disposeNode, St.unparent]
        intro e; exact absurd e.symm this
    refine (k.comp k2).congr ?_
    intro x
    constructor
    · rintro (⟨c, hc, u⟩ | rfl)
      · exact .child hc u
      · exact .refl _
    · intro u
      cases u with
      | refl => exact .inr rfl
      | child hc u => exact .inl ⟨_, hc, u⟩

theorem removeSubs_killed (n : Nat) (s : St) (cs : List Nat) (N : Nat) (hd : ∀ c ∈ cs, Deep s.heap N c)
    (hn : ∀ c ∈ cs, N < c + n) : Killed (fun x => ∃ c ∈ cs, Under s.heap c x) s (removeSubs n s cs) :=
  subs_killed n (removeSub_killed n) s cs N hd hn

/-! ## Lists of children -/

theorem swapRemove_perm {cs : List Nat} {p : Nat} (h : p ∈ cs) : (swapRemove cs p).Perm (cs.erase p) := by
  have hne : cs ≠ [] := by rintro rfl; simp at h
  simp only [swapRemove, List.getLast?_eq_some_getLast hne, if_pos h]
  obtain ⟨l1, l2, rfl, hl⟩ := List.eq_append_cons_of_mem h
  have e1 : (l1 ++ p :: l2).idxOf p = l1.length := by
    rw [List.idxOf_append_of_notMem hl]; simp
  have e2 : (l1 ++ p :: l2).erase p = l1 ++ l2 := by
    rw [List.erase_append_right _ hl]; simp
  rw [e1, e2]
  rcases List.eq_nil_or_concat l2 with rfl | ⟨l3, x, e⟩
  · simp
  · rw [List.concat_eq_append] at e
    subst e
    have e3 : (l1 ++ p :: (l3 ++ [x])).getLast hne = x := by simp
    rw [e3]
    have e4 : (l1 ++ p :: (l3 ++ [x])).set l1.length x = (l1 ++ x :: l3) ++ [x] := by simp
    rw [e4, List.dropLast_concat, ← List.append_assoc]
    have : (l1 ++ x :: l3).Perm (x :: (l1 ++ l3)) := List.perm_middle
    exact this.trans (List.perm_append_singleton x (l1 ++ l3)).symm

theorem swapRemove_not_mem {cs : List Nat} {p : Nat} (h : p ∉ cs) : swapRemove cs p = cs := by
  simp only [swapRemove, if_neg h]
  cases cs.getLast? <;> rfl

end Verif.BTree
