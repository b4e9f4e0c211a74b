import Verif.Sync.Layer
import Verif.Trie.Props

/-!
# Synchronization of a trie (C69)

The requester of `common/trie/ompt` for a trie with byte values.
-/

namespace Verif.Sync
open Verif.Trie

variable {H : Bytes → Bytes}

/-- What `extension.resolve` and `branch.resolve` request (`extension.go:283-288`, `branch.go:367-385`): the children that are hashes; those that are part of the node can be
realized (`mpt.go:561`).  Values of bytes request nothing (`bytesobject.go:41-43`). -/
def links : Node → List (Ref Unit Bytes Unit)
  | .ext _ (.hash h) => [⟨(), h, (), true⟩]
  | .branch c _ => nibs16.filterMap (fun i => match c i with | .hash h => some ⟨(), h, (), true⟩ | _ => none)
  | _ => []

/-- `nodeRequester.OnData` (`mpt.go:548-554`), `realize` (`mpt.go:146-170`); the bucket `MerkleTrie` with its hash function. -/
def trieEnv (H : Bytes → Bytes) : Env Unit Unit Bytes Bytes Unit where
  hasher _ := some ()
  hash _ d := H d
  onData _ d := match deserialize d with
    | .ok n => (links n, true)
    | .error _ => ([], false)
  usable _ d := match deserialize d with
    | .ok _ => decide (d ≠ [])
    | .error _ => false

/-- A child of a node. -/
inductive Child : Node → Node → Prop
  | ext (k : List Nib) (n : Node) : Child (.ext k n) n
  | branch (c : Nib → Node) (v : Option Bytes) (i : Nib) : Child (.branch c v) (c i)

/-- A node of a trie. -/
inductive Sub (t : Node) : Node → Prop
  | refl : Sub t t
  | step {x y : Node} : Sub t x → Child x y → Sub t y

theorem child_canon {x y : Node} (h : Child x y) (hc : Canon x) : y = .nil ∨ Canon y := by
  cases h with
  | ext k n => exact Or.inr hc.2.2
  | branch c v i => exact hc.1 i

theorem sub_canon {t x : Node} (h : Sub t x) (hc : Canon t) : x = .nil ∨ Canon x := by
  induction h with
  | refl => exact Or.inr hc
  | step _ h ih =>
    rcases ih with rfl | ih
    · cases h
    · exact child_canon h ih

theorem sub_bounded {t x : Node} (h : Sub t x) (hb : Bounded t) : Bounded x := by
  induction h with
  | refl => exact hb
  | step _ h ih =>
    cases h with
    | ext k n => exact ih.2
    | branch c v i => exact ih.1 i

theorem child_writes {x y : Node} (h : Child x y) (r : Bool) : writes H false y ⊆ writes H r x := by
  cases h with
  | ext k n => intro e he; simp only [writes]; exact List.mem_append_left _ he
  | branch c v i =>
    intro e he
    simp only [writes]
    apply List.mem_append_left
    rw [List.mem_flatten]
    exact ⟨_, List.mem_map.mpr ⟨i, by simp [nibs16], rfl⟩, he⟩

theorem own_writes {x : Node} (hc : Canon x) (r : Bool) (h : r = true ∨ (ser H x).length > 32) : (H (ser H x), ser H x) ∈ writes H r x := by
  cases x with
  | nil => exact hc.elim
  | hash _ => exact hc.elim
  | leaf k v => simp only [writes]; rw [if_pos (by tauto)]; simp
  | ext k n => simp only [writes]; rw [if_pos (by tauto)]; simp
  | branch c v => simp only [writes]; rw [if_pos (by tauto)]; simp

theorem sub_writes {t x : Node} (h : Sub t x) (hx : Canon x) (hk : x = t ∨ (ser H x).length > 32) : (H (ser H x), ser H x) ∈ writes H true t := by
  have key : ∀ y, Sub t y → y = t ∨ writes H false y ⊆ writes H true t := by
    intro y hy
    induction hy with
    | refl => exact Or.inl rfl
    | step _ hc ih =>
      right
      rcases ih with rfl | ih
      · exact child_writes hc true
      · exact fun e he => ih (child_writes hc false he)
  rcases hk with rfl | hk
  · exact own_writes hx true (Or.inl rfl)
  · rcases key x h with rfl | hs
    · exact own_writes hx true (Or.inl rfl)
    · exact hs (own_writes hx false (Or.inr hk))

theorem stub_hash {n : Node} {h : Bytes} (hc : n = .nil ∨ Canon n) (e : stub H n (ser H n) (shallow H n) = .hash h) : (ser H n).length > 32 ∧ h = H (ser H n) := by
  rcases hc with rfl | hc
  · simp [stub] at e
  · cases n with
    | nil => exact hc.elim
    | hash _ => exact hc.elim
    | leaf k v =>
      simp only [stub] at e
      split_ifs at e with hl
      · simp only [Node.hash.injEq] at e; exact ⟨hl, e.symm⟩
      · simp [shallow] at e
    | ext k v =>
      simp only [stub] at e
      split_ifs at e with hl
      · simp only [Node.hash.injEq] at e; exact ⟨hl, e.symm⟩
      · simp [shallow] at e
    | branch k v =>
      simp only [stub] at e
      split_ifs at e with hl
      · simp only [Node.hash.injEq] at e; exact ⟨hl, e.symm⟩
      · simp [shallow] at e

theorem stub_long {n : Node} (hc : Canon n) (hl : (ser H n).length > 32) : stub H n (ser H n) (shallow H n) = .hash (H (ser H n)) := by
  cases n with
  | nil => exact hc.elim
  | hash _ => exact hc.elim
  | leaf k v => simp only [stub]; rw [if_pos hl]
  | ext k v => simp only [stub]; rw [if_pos hl]
  | branch k v => simp only [stub]; rw [if_pos hl]

theorem ext_links (k : List Nib) (n : Node) (r : Ref Unit Bytes Unit) : r ∈ links (.ext k n) ↔ ∃ h, n = .hash h ∧ r = ⟨(), h, (), true⟩ := by
  cases n <;> simp [links]

/-- What is requested for a node: its children of more than 32 bytes. -/
theorem mem_links {x : Node} (hc : Canon x) (r : Ref Unit Bytes Unit) :
    r ∈ links (shallow H x) ↔ ∃ y, Child x y ∧ (ser H y).length > 32 ∧ r = ⟨(), H (ser H y), (), true⟩ := by
  cases x with
  | nil => exact hc.elim
  | hash _ => exact hc.elim
  | leaf k v =>
    simp only [shallow, links, List.not_mem_nil, false_iff]
    rintro ⟨y, h, _⟩
    cases h
  | ext k n =>
    simp only [shallow, ext_links]
    constructor
    · rintro ⟨h, e, rfl⟩
      obtain ⟨h1, h2⟩ := stub_hash (Or.inr hc.2.2) e
      exact ⟨n, .ext k n, h1, by rw [h2]⟩
    · rintro ⟨y, hy, hl, rfl⟩
      cases hy
      exact ⟨_, stub_long hc.2.2 hl, rfl⟩
  | branch c v =>
    simp only [shallow, links, List.mem_filterMap]
    constructor
    · rintro ⟨i, _, e⟩
      cases hs : stub H (c i) (ser H (c i)) (shallow H (c i)) with
      | hash h =>
        rw [hs] at e
        simp only [Option.some.injEq] at e
        obtain ⟨h1, h2⟩ := stub_hash (hc.1 i) hs
        exact ⟨c i, .branch c v i, h1, by rw [← h2]; exact e.symm⟩
      | nil => rw [hs] at e; cases e
      | leaf _ _ => rw [hs] at e; cases e
      | ext _ _ => rw [hs] at e; cases e
      | branch _ _ => rw [hs] at e; cases e
    · rintro ⟨y, hy, hl, rfl⟩
      cases hy with
      | branch _ _ i =>
        refine ⟨i, by simp [nibs16], ?_⟩
        have hci : Canon (c i) := by
          rcases hc.1 i with e | e
          · rw [e] at hl; simp [ser] at hl
          · exact e
        rw [stub_long hci hl]

/-- No other data has the hash of a node of `t`. -/
def NoCollision (H : Bytes → Bytes) (t : Node) : Prop := ∀ e ∈ writes H true t, ∀ d, H d = H e.2 → d = e.2

/-- The nodes of `t` that have a hash. -/
def Nodes (H : Bytes → Bytes) (t : Node) : Unit → Bytes → Unit → Prop :=
  fun _ k _ => ∃ x, Sub t x ∧ Canon x ∧ (x = t ∨ (ser H x).length > 32) ∧ k = H (ser H x)

theorem node_data (hH : Hash32 H) {t x : Node} (hb : Bounded t) (hn : NoCollision H t) (hs : Sub t x) (hx : Canon x)
    (hk : x = t ∨ (ser H x).length > 32) {d : Bytes} (hd : H d = H (ser H x)) : d = ser H x ∧ (trieEnv H).onData () d = (links (shallow H x), true) := by
  have := hn _ (sub_writes hs hx hk) d hd
  refine ⟨this, ?_⟩
  simp only [trieEnv]
  rw [this, deserialize_canon hH hx (sub_bounded hs hb)]

theorem child_node {t x y : Node} (hs : Sub t x) (hx : Canon x) (hy : Child x y) (hl : (ser H y).length > 32) : Sub t y ∧ Canon y := by
  refine ⟨Sub.step hs hy, ?_⟩
  rcases child_canon hy hx with e | e
  · rw [e] at hl; simp [ser] at hl
  · exact e

theorem trie_world (hH : Hash32 H) {t : Node} (hb : Bounded t) (hn : NoCollision H t) : World (trieEnv H) (Nodes H t) where
  hasher _ := ⟨(), rfl⟩
  closed := by
    rintro b k q n d ⟨x, hs, hx, hk, rfl⟩ _ hd c hc
    have := (node_data hH hb hn hs hx hk hd).2
    rw [show (trieEnv H).onData q d = (links (shallow H x), true) from this] at hc
    obtain ⟨y, hy, hl, rfl⟩ := (mem_links hx c).mp hc
    obtain ⟨h1, h2⟩ := child_node hs hx hy hl
    exact ⟨y, h1, h2, Or.inr hl, rfl⟩
  agree _ _ _ _ := rfl
  nofix := by
    rintro b k q n d ⟨x, hs, hx, hk, rfl⟩ _ hd c hc ⟨_, hck⟩
    have := (node_data hH hb hn hs hx hk hd).2
    rw [show (trieEnv H).onData q d = (links (shallow H x), true) from this] at hc
    obtain ⟨y, hy, hl, rfl⟩ := (mem_links hx c).mp hc
    dsimp only at hck
    obtain ⟨h1, h2⟩ := child_node hs hx hy hl
    -- descend for ever
    have key : ∀ z : Node, Sub t z → Canon z → (ser H z).length > 32 → H (ser H z) = H (ser H x) → False := by
      intro z
      have next : Sub t z → Canon z → (ser H z).length > 32 → H (ser H z) = H (ser H x) →
          ∃ w, Child z w ∧ Sub t w ∧ Canon w ∧ (ser H w).length > 32 ∧ H (ser H w) = H (ser H x) := by
        intro g1 g2 g3 g4
        have e1 : ser H z = ser H x := (node_data hH hb hn hs hx hk g4).1
        have e2 : shallow H z = shallow H x := by
          have a := deserialize_canon hH g2 (sub_bounded g1 hb)
          have b' := deserialize_canon hH hx (sub_bounded hs hb)
          rw [e1, b'] at a
          simpa using a.symm
        rw [← e2] at hc
        obtain ⟨w, hw, hwl, e⟩ := (mem_links g2 _).mp hc
        obtain ⟨f1, f2⟩ := child_node g1 g2 hw hwl
        simp only [Ref.mk.injEq, true_and, and_true] at e
        exact ⟨w, hw, f1, f2, hwl, by rw [← e]; exact hck⟩
      induction z with
      | nil => intro _ h; exact h.elim
      | hash _ => intro _ h; exact h.elim
      | leaf k v =>
        intro g1 g2 g3 g4
        obtain ⟨w, hw, _⟩ := next g1 g2 g3 g4
        cases hw
      | ext k m ih =>
        intro g1 g2 g3 g4
        obtain ⟨w, hw, f1, f2, f3, f4⟩ := next g1 g2 g3 g4
        cases hw
        refine ih ?_ f1 f2 f3 f4
        intro g1 g2 g3 g4
        have e1 : ser H m = ser H x := (node_data hH hb hn hs hx hk g4).1
        have e2 : shallow H m = shallow H x := by
          have a := deserialize_canon hH g2 (sub_bounded g1 hb)
          have b' := deserialize_canon hH hx (sub_bounded hs hb)
          rw [e1, b'] at a
          simpa using a.symm
        rw [← e2] at hc
        obtain ⟨w, hw, hwl, e⟩ := (mem_links g2 _).mp hc
        obtain ⟨f1, f2⟩ := child_node g1 g2 hw hwl
        simp only [Ref.mk.injEq, true_and, and_true] at e
        exact ⟨w, hw, f1, f2, hwl, by rw [← e]; exact hck⟩
      | branch c v ih =>
        intro g1 g2 g3 g4
        obtain ⟨w, hw, f1, f2, f3, f4⟩ := next g1 g2 g3 g4
        cases hw with
        | branch _ _ i =>
          refine ih i ?_ f1 f2 f3 f4
          intro g1 g2 g3 g4
          have e1 : ser H (c i) = ser H x := (node_data hH hb hn hs hx hk g4).1
          have e2 : shallow H (c i) = shallow H x := by
            have a := deserialize_canon hH g2 (sub_bounded g1 hb)
            have b' := deserialize_canon hH hx (sub_bounded hs hb)
            rw [e1, b'] at a
            simpa using a.symm
          rw [← e2] at hc
          obtain ⟨w, hw, hwl, e⟩ := (mem_links g2 _).mp hc
          obtain ⟨f1, f2⟩ := child_node g1 g2 hw hwl
          simp only [Ref.mk.injEq, true_and, and_true] at e
          exact ⟨w, hw, f1, f2, hwl, by rw [← e]; exact hck⟩
    exact key y h1 h2 hl hck

/-- In a node that is part of its parent there are no hashes. -/
theorem small_child (hH : Hash32 H) {x y : Node} (h : Child x y) (hx : Canon x) (hl : (ser H x).length ≤ 32) : (ser H y).length ≤ 32 := by
  by_contra hc
  have hlong : (ser H y).length > 32 := by omega
  have hy : Canon y := by
    rcases child_canon h hx with e | e
    · rw [e] at hlong; simp [ser] at hlong
    · exact e
  have hlink : linkOf H y (ser H y) = rlpEncodeBytes (H (ser H y)) := by
    cases y with
    | nil => exact hy.elim
    | hash _ => exact hy.elim
    | leaf k v => simp only [linkOf]; rw [if_pos hlong]
    | ext k v => simp only [linkOf]; rw [if_pos hlong]
    | branch k v => simp only [linkOf]; rw [if_pos hlong]
  have h33 : (rlpEncodeBytes (H (ser H y))).length ≥ 32 := by
    have := hH (ser H y)
    unfold rlpEncodeBytes
    split_ifs <;> simp_all
  have hin : ∀ l : List Bytes, rlpEncodeBytes (H (ser H y)) ∈ l → 32 ≤ l.flatten.length := by
    intro l hl
    have := List.Sublist.length_le (List.sublist_flatten_of_mem hl)
    omega
  cases h with
  | ext k n =>
    simp only [ser] at hl
    have h1 := encodeList_length [rlpEncodeBytes (encodeKeys 0x00 k), linkOf H y (ser H y)]
    have h2 := hin [rlpEncodeBytes (encodeKeys 0x00 k), linkOf H y (ser H y)] (by simp [hlink])
    omega
  | branch c v i =>
    simp only [ser] at hl
    have h1 := encodeList_length (nibs16.map (fun i => linkOf H (c i) (ser H (c i))) ++ [rlpEncodeBytes (v.getD [])])
    have h2 := hin (nibs16.map (fun i => linkOf H (c i) (ser H (c i))) ++ [rlpEncodeBytes (v.getD [])])
      (List.mem_append_left _ (List.mem_map.mpr ⟨i, by simp [nibs16], hlink⟩))
    omega

theorem sub_child {x y z : Node} (h : Child x y) (hs : Sub y z) : Sub x z := by
  induction hs with
  | refl => exact Sub.step Sub.refl h
  | step _ hc ih => exact Sub.step ih hc

theorem stored_of {db : DB} (x : Node) : (x = .nil ∨ Canon x) →
    (∀ w y, Sub x w → Child w y → Canon y → (ser H y).length > 32 → db (H (ser H y)) = some (ser H y)) → Stored H db x := by
  induction x with
  | nil => intro _ _; trivial
  | hash _ => rintro (h | h) <;> cases h
  | leaf k v => intro _ _; trivial
  | ext k n ih =>
    intro hx h
    have hx : Canon (.ext k n) := hx.resolve_left (by simp)
    exact ⟨fun hl => h _ n Sub.refl (.ext k n) hx.2.2 hl, ih (Or.inr hx.2.2) (fun w y hw => h w y (sub_child (.ext k n) hw))⟩
  | branch c v ih =>
    intro hx h
    have hx : Canon (.branch c v) := hx.resolve_left (by simp)
    intro i
    refine ⟨fun hl => h _ (c i) Sub.refl (.branch c v i) ?_ hl, ih i (hx.1 i) (fun w y hw => h w y (sub_child (.branch c v i) hw))⟩
    rcases hx.1 i with e | e
    · rw [e] at hl; simp [ser] at hl
    · exact e

/-- The request for a trie. -/
abbrev rootRef (h : Bytes) : Ref Unit Bytes Unit := ⟨(), h, (), true⟩

theorem below_of (hH : Hash32 H) {t : Node} (ht : Canon t) (hb : Bounded t) (hn : NoCollision H t) {σ : Unit → Bytes → Option Bytes}
    (hc : Complete (trieEnv H) σ (rootRef (H (ser H t)))) {y : Node} (hs : Sub t y) (hy : Canon y) (hk : y = t ∨ (ser H y).length > 32) :
    Below (trieEnv H) σ (rootRef (H (ser H t))) (rootRef (H (ser H y))) ∧ σ () (H (ser H y)) = some (ser H y) := by
  have got : ∀ y, Sub t y → Canon y → (y = t ∨ (ser H y).length > 32) → Below (trieEnv H) σ (rootRef (H (ser H t))) (rootRef (H (ser H y))) →
      σ () (H (ser H y)) = some (ser H y) := by
    intro y hs hy hk hbel
    obtain ⟨_, d, _, h2, h3, _⟩ := hc _ hbel
    have := (node_data hH hb hn hs hy hk (show H d = H (ser H y) from h3)).1
    rw [← this]
    rw [this]
    rw [this] at h2
    exact h2
  suffices h : Below (trieEnv H) σ (rootRef (H (ser H t))) (rootRef (H (ser H y))) from ⟨h, got y hs hy hk h⟩
  induction hs with
  | refl => exact Below.refl
  | @step x y hs hch ih =>
    rcases hk with rfl | hl
    · exact Below.refl
    · have hx : Canon x := by
        rcases sub_canon hs ht with e | e
        · rw [e] at hch; cases hch
        · exact e
      have hkx : x = t ∨ (ser H x).length > 32 := by
        right
        by_contra hsm
        have := small_child hH hch hx (by omega)
        omega
      have hbx := ih hx hkx
      have hst := got x hs hx hkx hbx
      refine Below.child hbx hst ?_
      have e := (node_data hH hb hn hs hx hkx rfl).2
      change _ ∈ ((trieEnv H).onData () (ser H x)).1
      rw [e]
      exact (mem_links hx _).mpr ⟨y, hch, hl, rfl⟩

/-- **C69.** A trie is built somewhere by any operations; here only its root hash `h` is known.  It is requested, any number of times, in any moments, on a database that is
empty or has whole tries; peers send whatever they like.  When nothing is unresolved, every key can be read here, with its value there. -/
theorem C69_trie (hH : Hash32 H) (os : List Op) (hv : ∀ o ∈ os, o.Valid) (hm : ∀ o ∈ os, o.InMemory) {h : Bytes}
    (hr : rootHash H (Verif.Trie.run H St.init os).1.root = some h) (hn : NoCollision H (Verif.Trie.run H St.init os).1.root)
    {σ : Unit → Bytes → Option Bytes} (h0 : Whole (trieEnv H) (Nodes H (Verif.Trie.run H St.init os).1.root) σ)
    (evs : List (Ev Unit Bytes Bytes Unit)) (hone : rootRef h ∈ roots evs) (hall : ∀ r ∈ roots evs, r = rootRef h)
    (hd : unresolved (run (trieEnv H) σ evs) = 0) (k : Bytes) :
    (Get ((run (trieEnv H) σ evs).store ()) (newMPT h) k).2 = .ok ((refRun Ref.init os).1.m k) := by
  have hh := inMemory_holds hH os hv hm
  generalize (Verif.Trie.run H St.init os).1.root = t at *
  have hb := bounded0 hh.1 hh.2.1
  have ht : Canon t := by
    rcases hh.1 with e | e
    · rw [e] at hr; cases hr
    · exact e
  have hh' : h = H (ser H t) := by
    cases t with
    | nil => exact ht.elim
    | hash _ => exact ht.elim
    | leaf _ _ => simpa [rootHash] using hr.symm
    | ext _ _ => simpa [rootHash] using hr.symm
    | branch _ _ => simpa [rootHash] using hr.symm
  subst hh'
  have hU : ∀ r ∈ roots evs, Nodes H t r.bucket r.key r.req := by
    intro r hrr
    rw [hall r hrr]
    exact ⟨t, Sub.refl, ht, Or.inl rfl, rfl⟩
  have hc := C69_complete (trie_world hH hb hn) h0 evs hU hd _ hone
  have hst : Stored H ((run (trieEnv H) σ evs).store ()) t := by
    refine stored_of t (Or.inr ht) ?_
    intro w y hw hy hyc hl
    exact (below_of hH ht hb hn hc (Sub.step hw hy) hyc (Or.inr hl)).2
  refine (Get_spec hH ⟨t, hh, Or.inr ⟨?_, ?_, ?_, hst⟩⟩ k).1
  · rintro rfl; exact ht.elim
  · exact newMPT_hash hH _
  · exact (below_of hH ht hb hn hc Sub.refl ht (Or.inl rfl)).2

/-- Anything is whole that has none of the nodes. -/
theorem whole_empty (t : Node) : Whole (trieEnv H) (Nodes H t) (fun _ _ => none) := by
  intro b k q n d _ _ h
  cases h

/-! ## A concrete case: a trie of two stored nodes -/

/-- How it is built. -/
def demoOps : List Op := [.set [0x12] (List.replicate 40 7), .set [0x25] [1]]

/-- The big leaf. -/
def demoLeaf : Bytes := ser (fun _ => []) (.leaf [2] (List.replicate 40 7))

/-- The root, with the hash of the leaf in it. -/
def demoRoot : Bytes := ser (fun _ => List.replicate 32 1) (Verif.Trie.run (fun _ => []) St.init demoOps).1.root

/-- A hash function that tells them from everything else. -/
def demoHash (d : Bytes) : Bytes := if d = demoLeaf then List.replicate 32 1 else if d = demoRoot then List.replicate 32 2 else List.replicate 32 0

theorem demo_32 : Hash32 demoHash := by
  intro x
  unfold demoHash
  split_ifs <;> rfl

theorem demo_noCollision : NoCollision demoHash (Verif.Trie.run demoHash St.init demoOps).1.root := by
  have h : ∀ e ∈ writes demoHash true (Verif.Trie.run demoHash St.init demoOps).1.root, e.2 = demoLeaf ∨ e.2 = demoRoot := by decide +kernel
  have hne : ¬ demoRoot = demoLeaf := by decide +kernel
  intro e he d hd
  rcases h e he with e' | e' <;> rw [e'] at hd ⊢ <;> unfold demoHash at hd
  · rw [if_pos rfl] at hd
    by_contra hc
    rw [if_neg hc] at hd
    split_ifs at hd <;> revert hd <;> decide
  · rw [if_neg hne, if_pos rfl] at hd
    by_contra hc
    rw [if_neg hc] at hd
    split_ifs at hd <;> revert hd <;> decide

/-- The root is requested; a peer sends rubbish and the leaf, too early; then the root, the root again, and the leaf. -/
def demoEvs : List (Ev Unit Bytes Bytes Unit) :=
  [.root (rootRef (List.replicate 32 2)), .data [((), [1, 2, 3]), ((), demoLeaf)], .data [((), demoRoot), ((), demoRoot), ((), demoLeaf)]]

example : rootHash demoHash (Verif.Trie.run demoHash St.init demoOps).1.root = some (List.replicate 32 2) := by decide +kernel
example : (∀ o ∈ demoOps, o.Valid) ∧ ∀ o ∈ demoOps, o.InMemory := by
  constructor <;> intro o ho <;> simp only [demoOps, List.mem_cons, List.not_mem_nil, or_false] at ho <;> rcases ho with rfl | rfl <;> simp [Op.Valid, Op.InMemory]
example : unresolved (run (trieEnv demoHash) (fun _ _ => none) (demoEvs.take 2)) = 1 := by decide +kernel
example : unresolved (run (trieEnv demoHash) (fun _ _ => none) demoEvs) = 0 ∧ (run (trieEnv demoHash) (fun _ _ => none) demoEvs).resolved = 2 := by decide +kernel
example : (Get ((run (trieEnv demoHash) (fun _ _ => none) demoEvs).store ()) (newMPT (List.replicate 32 2)) [0x12]).2 = .ok (some (List.replicate 40 7)) := by decide +kernel

end Verif.Sync
