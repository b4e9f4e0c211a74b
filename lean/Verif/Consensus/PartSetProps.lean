import Verif.Consensus.PartSetLemmas

/-!
# C42: block part sets

A block is cut by a `PartSetBuffer`; its part set has an id; whoever knows the id collects the parts in
any order, from anybody, and reads the block.
-/

namespace Verif.Consensus
open Verif Verif.Trie

/-! ## Specification -/

/-- `ps` is the part set that results from writing `data`, in any number of `Write` calls, to a buffer
for parts of `size` bytes. -/
def PartsOf (H : Bytes → Bytes) (size : ℕ) (data : Bytes) (ps : PartSet) : Prop :=
  ∃ (ws : List Bytes) (b : PartSetBuffer), ws.flatten = data ∧
    (newPartSetBuffer size).writes ws = some b ∧ b.partSet H = some ps

/-- The data of the parts, `none` for a part that is missing. -/
def PartSet.datas (ps : PartSet) : List (Option Bytes) := ps.parts.map (fun p => p.map Part.data)

/-- A sequence of `AddPart` calls (index and proof of each part object) and their results. -/
def receive (H : Bytes → Bytes) (f : ℕ) : PartSet → List (ℤ × List Bytes) → PartSet × List AddRes
  | ps, [] => (ps, [])
  | ps, a :: as =>
    let r := ps.addPart H f a.1 a.2
    let s := receive H f r.1 as
    (s.1, r.2 :: s.2)

/-- The serialized nodes of the trie of a sequence of pieces: the strings that are hashed for the root
hash. -/
def partNodes (H : Bytes → Bytes) (ds : List Bytes) : List Bytes :=
  (Trie.writes H true (buildTree 0 ds .nil)).map Prod.snd

/-- No two different strings of the list have the same hash. -/
def NoCollision (H : Bytes → Bytes) (l : List Bytes) : Prop :=
  ∀ x ∈ l, ∀ y ∈ l, H x = H y → x = y

/-! ## The cut -/

theorem bareParts_get (ds : List Bytes) : ∀ (i j : ℕ),
    (bareParts i ds)[j]? = (ds[j]?).map (fun d => some ⟨i + j, [], d⟩) := by
  induction ds with
  | nil => intro i j; simp [bareParts]
  | cons d ds ih =>
    intro i j
    cases j with
    | zero => simp [bareParts]
    | succ j => simp only [bareParts, List.getElem?_cons_succ, ih]; rw [show i + 1 + j = i + (j + 1) by omega]

theorem makeParts_get {H : Bytes → Bytes} {n : Node} (ds : List Bytes) : ∀ (i : ℕ) (ps : List (Option Part)),
    makeParts H n i ds = some ps → ∀ j : ℕ,
    (∃ p, GetProof H (fun _ => none) n (partKey (i + j)) = some p ∧
      ps[j]? = (ds[j]?).map (fun d => some ⟨i + j, p, d⟩)) ∨ (ds.length ≤ j ∧ ps[j]? = none) := by
  induction ds with
  | nil => intro i ps h j; cases h; right; simp
  | cons d ds ih =>
    intro i ps h j
    unfold makeParts at h
    split at h
    · rename_i p r hp hr
      cases h
      cases j with
      | zero => left; exact ⟨p, hp, by simp⟩
      | succ j =>
        rcases ih (i + 1) r hr j with ⟨q, h1, h2⟩ | h
        · left
          rw [show i + 1 + j = i + (j + 1) by omega] at h1 h2
          exact ⟨q, h1, by simpa using h2⟩
        · right; simpa using h
    · cases h

theorem makeParts_some {H : Bytes → Bytes} {n : Node} (ds : List Bytes) : ∀ (i : ℕ),
    (∀ j, i ≤ j → j < i + ds.length → ∃ p, GetProof H (fun _ => none) n (partKey j) = some p) →
    ∃ ps, makeParts H n i ds = some ps := by
  induction ds with
  | nil => intro i _; exact ⟨_, rfl⟩
  | cons d ds ih =>
    intro i h
    simp only [List.length_cons] at h
    obtain ⟨p, hp⟩ := h i (le_refl _) (by omega)
    obtain ⟨r, hr⟩ := ih (i + 1) (fun j h1 h2 => h j (by omega) (by omega))
    exact ⟨some ⟨i, p, d⟩ :: r, by unfold makeParts; rw [hp, hr]⟩

theorem datas_ext {l : List (Option Part)} {ds : List Bytes}
    (h : ∀ j : ℕ, (l[j]?).map (fun p => p.map Part.data) = (ds[j]?).map some) :
    l.map (fun p => p.map Part.data) = ds.map some := by
  apply List.ext_getElem?
  intro j
  rw [List.getElem?_map, List.getElem?_map]
  exact h j

/-- What is known of a part set made by a buffer. -/
structure SetOf (H : Bytes → Bytes) (b : PartSetBuffer) (ps : PartSet) : Prop where
  datas : ps.datas = b.pieces.map some
  idx : ∀ (i : ℕ) (p : Part), ps.parts[i]? = some (some p) → p.idx = i
  added : ps.added = b.pieces.length
  mask : ps.ba = fullMask b.pieces.length
  hash : ps.hash = if b.part.isSome then rootHash H (treeOf b.pieces) else none
  proofs : ∀ (i : ℕ) (p : Part), ps.parts[i]? = some (some p) →
    if b.part.isSome then GetProof H (fun _ => none) (treeOf b.pieces) (partKey i) = some p.proof
    else p.proof = []

theorem partSet_spec {H : Bytes → Bytes} {b : PartSetBuffer} {ps : PartSet} (h : b.partSet H = some ps) :
    SetOf H b ps := by
  unfold PartSetBuffer.partSet at h
  cases hb : b.part with
  | none =>
    rw [hb] at h
    simp only [Option.some.injEq] at h
    subst h
    have hp : b.pieces = b.parts := by unfold PartSetBuffer.pieces; rw [hb]; simp
    refine ⟨?_, ?_, by rw [hp], by rw [hp], by simp [hb], ?_⟩
    · rw [hp]
      apply datas_ext
      intro j
      simp only
      rw [bareParts_get]
      cases b.parts[j]? <;> rfl
    · intro i p hi
      simp only [bareParts_get] at hi
      cases hd : b.parts[i]? with
      | none => rw [hd] at hi; cases hi
      | some d => rw [hd] at hi; cases hi; simp
    · intro i p hi
      rw [hb]
      simp only [bareParts_get] at hi
      cases hd : b.parts[i]? with
      | none => rw [hd] at hi; cases hi
      | some d => rw [hd] at hi; cases hi; simp
  | some d =>
    rw [hb] at h
    have hp : b.pieces = b.parts ++ [d.take b.offset] := by unfold PartSetBuffer.pieces; rw [hb]
    simp only at h
    rw [← hp] at h
    cases hm : makeParts H (buildTree 0 b.pieces .nil) 0 b.pieces with
    | none => rw [hm] at h; cases h
    | some parts =>
      rw [hm] at h
      simp only [Option.some.injEq] at h
      subst h
      have key := makeParts_get b.pieces 0 parts hm
      refine ⟨?_, ?_, rfl, rfl, by simp [hb], ?_⟩
      · apply datas_ext
        intro j
        rcases key j with ⟨p, _, e⟩ | ⟨h1, h2⟩
        · simp only; rw [e]; cases b.pieces[j]? <;> rfl
        · simp only; rw [h2, List.getElem?_eq_none h1]; rfl
      · intro i p hi
        simp only at hi
        rcases key i with ⟨q, _, e⟩ | ⟨h1, h2⟩
        · rw [e] at hi
          cases hd : b.pieces[i]? with
          | none => rw [hd] at hi; cases hi
          | some d => rw [hd] at hi; cases hi; simp
        · rw [h2] at hi; cases hi
      · intro i p hi
        rw [hb]
        simp only at hi
        rcases key i with ⟨q, hq, e⟩ | ⟨h1, h2⟩
        · rw [e] at hi
          cases hd : b.pieces[i]? with
          | none => rw [hd] at hi; cases hi
          | some d => rw [hd] at hi; cases hi; simpa using hq
        · rw [h2] at hi; cases hi

theorem flatten_full {l : List Bytes} {n : ℕ} (h : ∀ d ∈ l, d.length = n) : l.flatten.length = l.length * n := by
  induction l with
  | nil => simp
  | cons d l ih =>
    simp only [List.flatten_cons, List.length_append, List.length_cons]
    rw [ih (fun x hx => h x (by simp [hx])), h d (by simp)]
    ring

theorem part_iff {b : PartSetBuffer} (h : BufOk b) : b.part.isSome ↔ b.content.length % b.size ≠ 0 := by
  have hs := h.size
  unfold PartSetBuffer.content
  have hp := h.part
  rw [List.length_append, flatten_full h.full]
  cases hb : b.part with
  | none => simp
  | some d =>
    rw [hb] at hp
    simp only at hp
    simp only [Option.isSome_some, true_iff, List.length_take]
    rw [Nat.mul_comm, Nat.mul_add_mod, Nat.min_eq_left (by omega), Nat.mod_eq_of_lt hp.2.2]
    omega

theorem pieces_count {b : PartSetBuffer} (h : BufOk b) :
    b.pieces.length = (b.content.length + b.size - 1) / b.size := by
  have hs := h.size
  have hp := h.part
  unfold PartSetBuffer.content PartSetBuffer.pieces
  rw [List.length_append, List.length_append, flatten_full h.full]
  cases hb : b.part with
  | none =>
    simp only [List.length_nil, Nat.add_zero]
    rw [show b.parts.length * b.size + b.size - 1 = b.size * b.parts.length + (b.size - 1) by
      rw [Nat.mul_comm]; omega, Nat.mul_add_div (by omega), Nat.div_eq_of_lt (by omega)]
    omega
  | some d =>
    rw [hb] at hp
    simp only at hp
    simp only [List.length_take, List.length_singleton]
    rw [Nat.min_eq_left (by omega)]
    rw [show b.parts.length * b.size + b.offset + b.size - 1 =
      b.size * b.parts.length + (b.size + (b.offset - 1)) by rw [Nat.mul_comm]; omega,
      Nat.mul_add_div (by omega), Nat.add_div_left _ (by omega), Nat.div_eq_of_lt (by omega)]

/-- A buffer that `data` was written to. -/
theorem partsOf_buf {H : Bytes → Bytes} {size : ℕ} {data : Bytes} {ps : PartSet} (hs : 2 ≤ size)
    (h : PartsOf H size data ps) : ∃ b, BufOk b ∧ b.content = data ∧ b.size = size ∧ SetOf H b ps := by
  obtain ⟨ws, b, rfl, hw, hp⟩ := h
  obtain ⟨b', h1, h2, h3, h4⟩ := writes_ok ws _ (newBuf_ok hs)
  rw [h1] at hw
  cases hw
  exact ⟨b, h2, by rw [h3]; simp [PartSetBuffer.content, newPartSetBuffer], h4, partSet_spec hp⟩

theorem pieces_ok {b : PartSetBuffer} (h : BufOk b) (hsz : b.size < 2 ^ 62) (hne : b.content ≠ [])
    (hfew : b.pieces.length < 2 ^ 16) : Pieces b.pieces := by
  refine ⟨hfew, fun e => hne (by rw [← pieces_flatten, e]; rfl), fun d hd => ?_⟩
  obtain ⟨i, hi⟩ := List.getElem?_of_mem hd
  have := pieces_cut h i d hi
  exact ⟨fun e => by rw [e] at this; simp at this, by omega⟩

/-- A key has a proof. -/
theorem piece_proof {H : Bytes → Bytes} (hH : Hash32 H) {ds : List Bytes} (h : Pieces ds) {j : ℕ} {d : Bytes}
    (hj : ds[j]? = some d) : ∃ p, GetProof H (fun _ => none) (treeOf ds) (partKey j) = some p ∧
      Prove H ((rootHash H (treeOf ds)).getD []) (partKey j) p = .ok d := by
  have hjl : j < ds.length := (List.getElem?_eq_some_iff.1 hj).1
  have := h.few
  obtain ⟨h1, h2⟩ := treeOf_run H ds
  have hk : (refRun Ref.init (partOps 0 ds)).1.m (partKey j) = some d := by
    rw [treeOf_map h j (by omega), hj]
  obtain ⟨p, hp⟩ := C48_complete hH (partOps 0 ds) (h.valid 0)
    (inMemory_db (H := H) _ (Pieces.inMemory 0) St.init).2 (partKey j) d hk
  rw [h1, h2] at hp
  exact ⟨p, hp⟩

/-- **C42 (cut).** Writing any bytes, in any portions, and asking for the part set never fails; the parts
are numbered from 0, all but the last have exactly `size` bytes and the last between 1 and `size`, and
their concatenation is what was written. -/
theorem C42_cut (H : Bytes → Bytes) (hH : Hash32 H) (size : ℕ) (hs : 2 ≤ size) (hs' : size < 2 ^ 62)
    (ws : List Bytes) (hfew : ws.flatten.length ≤ size * 65535) :
    ∃ b ps, (newPartSetBuffer size).writes ws = some b ∧ b.partSet H = some ps ∧ ps.isComplete = true ∧
      ps.parts.length = (ws.flatten.length + size - 1) / size ∧
      ∃ ds, ps.datas = ds.map some ∧ ds.flatten = ws.flatten ∧ Cut size ds ∧
        ∀ (i : ℕ) (p : Part), ps.parts[i]? = some (some p) → p.idx = i := by
  obtain ⟨b, h1, h2, h3, h4⟩ := writes_ok ws _ (newBuf_ok hs)
  have hc : b.content = ws.flatten := by rw [h3]; simp [PartSetBuffer.content, newPartSetBuffer]
  have hsz : b.size = size := h4
  have hcount := pieces_count h2
  rw [hsz, hc] at hcount
  have hlen : b.pieces.length < 2 ^ 16 := by
    rw [hcount]
    have : (ws.flatten.length + size - 1) / size < 65536 := by
      rw [Nat.div_lt_iff_lt_mul (by omega)]; omega
    omega
  have hps : ∃ ps, b.partSet H = some ps := by
    unfold PartSetBuffer.partSet
    cases hb : b.part with
    | none => exact ⟨_, rfl⟩
    | some d =>
      have hp : b.pieces = b.parts ++ [d.take b.offset] := by unfold PartSetBuffer.pieces; rw [hb]
      simp only
      rw [← hp]
      have hne : b.content ≠ [] := by
        intro e
        have := (part_iff h2).1 (by rw [hb]; rfl)
        rw [e] at this
        simp at this
      have hok := pieces_ok h2 (by omega) hne hlen
      obtain ⟨r, hr⟩ := makeParts_some (H := H) (n := treeOf b.pieces) b.pieces 0 (fun j _ hj => by
        obtain ⟨d, hd⟩ : ∃ d, b.pieces[j]? = some d := ⟨_, List.getElem?_eq_getElem (by omega)⟩
        obtain ⟨p, hp, _⟩ := piece_proof hH hok hd
        exact ⟨p, hp⟩)
      rw [hr]
      exact ⟨_, rfl⟩
  obtain ⟨ps, hps⟩ := hps
  have sp := partSet_spec hps
  have hpl : ps.parts.length = b.pieces.length := by
    have := congrArg List.length sp.datas
    simpa [PartSet.datas] using this
  refine ⟨b, ps, h1, hps, ?_, by rw [hpl, hcount], b.pieces, sp.datas, by rw [pieces_flatten, hc], ?_, sp.idx⟩
  · unfold PartSet.isComplete; rw [sp.added, hpl]; simp
  · rw [← hsz]; exact pieces_cut h2

/-! ## Transfer -/

theorem newMPT_32 {h : Bytes} (hl : h.length = 32) : newMPT h = .hash h := by
  unfold newMPT
  rw [if_neg (by omega)]

theorem root_hash {H : Bytes → Bytes} (hH : Hash32 H) {ds : List Bytes} (h : Pieces ds) :
    rootHash H (treeOf ds) = some (H (ser H (treeOf ds))) := rootHash_canon (treeOf_canon hH h)

theorem prove_pieces_sound {H : Bytes → Bytes} (hH : Hash32 H) {ds : List Bytes} (h : Pieces ds) {j : ℕ}
    (hj : j < 2 ^ 16) {ps : List Bytes} {f : ℕ} {r : Option Bytes}
    (hp : prove H f none (.hash (H (ser H (treeOf ds)))) (bytesToNibs (partKey j)) ps = .ok r) :
    r = ds[j]? ∨ PColl H ps (Trie.writes H true (treeOf ds)) := by
  have hh := treeOf_holds hH h
  have hc := treeOf_canon hH h
  have hb := bounded_of_fits _ hc hh.2.1
  rcases prove_hash_sound hH hc hb true (Or.inr rfl)
    (fun f o h => prove_sound hH _ true _ _ _ hc hb f o h) f none hp with e | e
  · left; rw [e, hh.2.2.1, treeOf_map h j hj]
  · exact Or.inr e

theorem prove_hash_nopanic {H : Bytes → Bytes} (hH : Hash32 H) {t : Node} (hc : Canon t) (hb : Bounded t)
    {keys : List Nib} {ps : List Bytes} (root : Bool) (hr : (ser H t).length > 32 ∨ root = true)
    (top : ∀ f o, prove H f o (shallow H t) keys ps = .error .panic → PColl H ps (Trie.writes H root t))
    (f : ℕ) (o : Option Bytes) (h : prove H f o (.hash (H (ser H t))) keys ps = .error .panic) :
    PColl H ps (Trie.writes H root t) := by
  cases f with
  | zero => simp [prove] at h
  | succ f =>
    cases ps with
    | nil => simp [prove] at h
    | cons b ps =>
      simp only [prove] at h
      by_cases hb' : H b = H (ser H t)
      · rw [if_pos hb'] at h
        by_cases he : b = ser H t
        · rw [he, deserialize_canon hH hc hb] at h
          rw [he] at top ⊢
          exact top f _ h
        · exact ⟨b, by simp, _, writes_self hc root hr, he, hb'⟩
      · rw [if_neg hb'] at h; cases h

theorem prove_nopanic {H : Bytes → Bytes} (hH : Hash32 H) (t : Node) : ∀ root keys ps, Canon t → Bounded t →
    ∀ f o, prove H f o (shallow H t) keys ps = .error .panic → PColl H ps (Trie.writes H root t) := by
  have link : ∀ t : Node, (∀ root keys ps, Canon t → Bounded t →
      ∀ f o, prove H f o (shallow H t) keys ps = .error .panic → PColl H ps (Trie.writes H root t)) →
      Canon t → Bounded t →
      ∀ keys ps f, prove H f none (stub H t (ser H t) (shallow H t)) keys ps = .error .panic →
        PColl H ps (Trie.writes H false t) := by
    intro t ih hc hb keys ps f h
    rw [stub_of hc] at h
    by_cases hl : (ser H t).length > 32
    · rw [if_pos hl] at h
      exact prove_hash_nopanic hH hc hb false (Or.inl hl) (ih false keys ps hc hb) f none h
    · rw [if_neg hl] at h
      exact ih false keys ps hc hb f none h
  induction t with
  | nil => intro _ _ _ h; exact h.elim
  | hash _ => intro _ _ _ h; exact h.elim
  | leaf k w =>
    intro root keys ps _ _ f o h
    cases f with
    | zero => simp [prove] at h
    | succ f =>
      cases o with
      | none => simp only [shallow, prove] at h; split_ifs at h <;> cases h
      | some s => simp only [shallow, prove] at h; split_ifs at h <;> cases h
  | ext k n ih =>
    intro root keys ps hc hb f o h
    cases f with
    | zero => simp [prove] at h
    | succ f =>
      simp only [shallow, prove] at h
      split at h
      · cases h
      · rename_i qs hq
        by_cases hk : (compareKeys k keys).1 < k.length
        · rw [if_pos hk] at h; cases h
        · rw [if_neg hk] at h
          exact (link n ih hc.2.2 hb.2 _ _ f h).mono (strip_subset hq) (writes_ext root k n)
  | branch c w ih =>
    intro root keys ps hc hb f o h
    cases f with
    | zero => simp [prove] at h
    | succ f =>
      simp only [shallow, prove] at h
      split at h
      · cases h
      · rename_i qs hq
        cases keys with
        | nil => simp only at h; cases h
        | cons i ks =>
          simp only at h
          rcases hc.1 i with h0 | hci
          · rw [h0] at h
            simp only [stub] at h
            cases h
          · have hx' : stub H (c i) (ser H (c i)) (shallow H (c i)) ≠ .nil := by
              intro hx
              rw [stub_of hci] at hx
              split_ifs at hx
              exact shallow_nil hci hx
            have h' : prove H f none (stub H (c i) (ser H (c i)) (shallow H (c i))) ks qs = .error .panic := by
              cases hx : stub H (c i) (ser H (c i)) (shallow H (c i)) with
              | nil => exact absurd hx hx'
              | _ => rw [hx] at h; exact h
            exact (link (c i) (ih i) hci (hb.1 i) _ _ f h').mono (strip_subset hq) (writes_branch root c w i)

/-- The state of a receiver that collects the pieces `ds`. -/
structure RecvOk (H : Bytes → Bytes) (S : Bytes → Prop) (ds : List Bytes) (n : ℕ) (ps : PartSet) : Prop where
  len : ps.parts.length = n
  tree : Sim H S ps.tree (.hash (H (ser H (treeOf ds))))
  right : ∀ (i : ℕ) (p : Part), ps.parts[i]? = some (some p) → ds[i]? = some p.data ∧ p.idx = i
  added : ps.added = (ps.parts.filter Option.isSome).length
  mask : BitArray.Made n (fun i => ∃ p, ps.parts[i]? = some (some p)) ps.ba

theorem count_set {l : List (Option Part)} {i : ℕ} {p : Part} (h : l[i]? = some none) :
    ((l.set i (some p)).filter Option.isSome).length = (l.filter Option.isSome).length + 1 := by
  induction l generalizing i with
  | nil => simp at h
  | cons a l ih =>
    cases i with
    | zero =>
      simp only [List.getElem?_cons_zero, Option.some.injEq] at h
      subst h
      simp
    | succ i =>
      simp only [List.getElem?_cons_succ] at h
      simp only [List.set_cons_succ, List.filter_cons]
      split <;> simp [ih h]

theorem join_none {l : List (Option Part)} {i : ℕ} (hi : i < l.length) (h : (l[i]?).join = none) :
    l[i]? = some none := by
  rw [List.getElem?_eq_getElem hi] at h ⊢
  simpa using h

theorem addPart_ok {H : Bytes → Bytes} (hH : Hash32 H) {ds : List Bytes} (h : Pieces ds) {S : Bytes → Prop}
    (hS : ∀ x, S x → ∀ y, S y → H x = H y → x = y) (hN : ∀ x ∈ partNodes H ds, S x) (f : ℕ) {n : ℕ}
    (hn : n = ds.length) {ps : PartSet} (r : RecvOk H S ds n ps) (i : ℤ) (proof : List Bytes)
    (hp : ∀ x ∈ proof, S x) :
    RecvOk H S ds n (ps.addPart H f i proof).1 ∧ (ps.addPart H f i proof).2 ≠ .panic ∧
      ((ps.addPart H f i proof).2 = .added ↔
        ∃ j : ℕ, i = (j : ℤ) ∧ ps.parts[j]? = some none ∧
          ∃ v, prove H f none (.hash (H (ser H (treeOf ds)))) (bytesToNibs (partKey j)) proof = .ok (some v)) ∧
      (∀ (j : ℕ) (p : Part), ps.parts[j]? = some (some p) →
        (ps.addPart H f i proof).1.parts[j]? = some (some p)) ∧
      (∀ j : ℕ, (ps.addPart H f i proof).2 = .added → i = (j : ℤ) →
        ∃ p, (ps.addPart H f i proof).1.parts[j]? = some (some p)) := by
  have hfew := h.few
  by_cases hr : i < 0 ∨ i ≥ ps.parts.length
  · have e : ps.addPart H f i proof = (ps, .invalidIndex) := by unfold PartSet.addPart; rw [if_pos hr]
    rw [e]
    refine ⟨r, by simp, ⟨fun h => by simp at h, ?_⟩, fun _ _ h => h, fun j h => by simp at h⟩
    rintro ⟨j, rfl, h1, _⟩
    have := (List.getElem?_eq_some_iff.1 h1).1
    omega
  obtain ⟨j, rfl⟩ : ∃ j : ℕ, i = (j : ℤ) := ⟨i.toNat, by omega⟩
  have hjl : j < ps.parts.length := by omega
  cases hj : (ps.parts[j]?).join with
  | some q =>
    have e : ps.addPart H f (j : ℤ) proof = (ps, .alreadyAdded) := by
      unfold PartSet.addPart; rw [if_neg hr, Int.toNat_natCast, hj]
    rw [e]
    refine ⟨r, by simp, ⟨fun h => by simp at h, ?_⟩, fun _ _ h => h, fun j h => by simp at h⟩
    rintro ⟨k, hk, h1, _⟩
    have : k = j := by omega
    subst this
    rw [h1] at hj
    simp at hj
  | none =>
    have hj0 := join_none hjl hj
    have hjn : j < ds.length := by rw [← hn, ← r.len]; exact hjl
    obtain ⟨s1, s2⟩ := proveS_sim hS f none ps.tree _ (bytesToNibs (partKey j)) proof r.tree hp
    obtain ⟨x, hx⟩ : ∃ x, x = proveS H f none ps.tree (bytesToNibs (partKey j)) proof := ⟨_, rfl⟩
    rw [← hx] at s1 s2
    have hroot : proveRoot H f ps.tree (partKey j) proof = (x.1, objBytes x.2) := by
      have hnn : ps.tree ≠ .nil := fun e => by have := (sim_nil r.tree).1 e; cases this
      unfold proveRoot
      cases ht : ps.tree with
      | nil => exact absurd ht hnn
      | _ => rw [hx, ht]
    have nocoll : ¬ PColl H proof (Trie.writes H true (treeOf ds)) := by
      rintro ⟨p, hp1, y, hy, h1, h2⟩
      exact h1 (hS _ (hp p hp1) _ (hN _ (List.mem_map_of_mem hy)) h2)
    have hkeep : ∀ tr : PNode, Sim H S tr (.hash (H (ser H (treeOf ds)))) →
        RecvOk H S ds n { ps with tree := tr } := fun tr ht => ⟨r.len, ht, r.right, r.added, r.mask⟩
    cases hv : x.2 with
    | error er =>
      have hne : er ≠ .panic := by
        rintro rfl
        rw [hv] at s2
        have hc := treeOf_canon hH h
        have hb := bounded_of_fits _ hc (treeOf_holds hH h).2.1
        exact nocoll (prove_hash_nopanic hH hc hb true (Or.inr rfl)
          (fun f o h => prove_nopanic hH _ true _ _ hc hb f o h) f none s2.symm)
      have e : ps.addPart H f (j : ℤ) proof = ({ ps with tree := x.1 }, .badProof) := by
        unfold PartSet.addPart
        rw [if_neg hr, Int.toNat_natCast, hj]
        simp only [hroot, hv, objBytes]
      rw [e]
      refine ⟨hkeep _ s1, by simp, ⟨fun h => by simp at h, ?_⟩, fun _ _ h => h, fun j h => by simp at h⟩
      rintro ⟨k, hk, _, v, hv'⟩
      have : k = j := by omega
      subst this
      rw [← s2, hv] at hv'
      cases hv'
    | ok o =>
      rw [hv] at s2
      have hval : o = ds[j]? := (prove_pieces_sound hH h (by omega) s2.symm).resolve_right nocoll
      obtain ⟨v, hdv⟩ : ∃ v, ds[j]? = some v := ⟨_, List.getElem?_eq_getElem hjn⟩
      rw [hdv] at hval
      subst hval
      have e : ps.addPart H f (j : ℤ) proof = ({ ps with
            tree := x.1
            parts := ps.parts.set j (some ⟨j, proof, v⟩)
            added := ps.added + 1
            ba := (ps.ba.set (j : ℤ)).getD ps.ba }, .added) := by
        unfold PartSet.addPart
        rw [if_neg hr, Int.toNat_natCast, hj]
        simp only [hroot, hv, objBytes]
      rw [e]
      have hget : ∀ k : ℕ, (ps.parts.set j (some ⟨j, proof, v⟩))[k]? =
          if k = j then some (some ⟨j, proof, v⟩) else ps.parts[k]? := by
        intro k
        rw [List.getElem?_set]
        by_cases hk : k = j
        · subst hk; simp [hjl]
        · rw [if_neg (fun e => hk e.symm), if_neg hk]
      refine ⟨⟨by simpa using r.len, s1, ?_, ?_, ?_⟩, by simp, ⟨fun _ => ⟨j, rfl, hj0, v, s2.symm⟩, fun _ => rfl⟩, ?_, ?_⟩
      · intro k p hk
        simp only [hget] at hk
        by_cases hkj : k = j
        · subst hkj; rw [if_pos rfl] at hk; cases hk; exact ⟨hdv, rfl⟩
        · rw [if_neg hkj] at hk; exact r.right k p hk
      · simp only; rw [count_set hj0, r.added]
      · obtain ⟨ba', hb1⟩ := Option.isSome_iff_exists.1 ((BitArray.C43_no_panic r.mask).1 j).1
        have := BitArray.Made.set j r.mask hb1
        simp only [hb1, Option.getD_some]
        have hset : (fun k => ∃ p, (ps.parts.set j (some ⟨j, proof, v⟩))[k]? = some (some p)) =
            (fun k => (∃ p, ps.parts[k]? = some (some p)) ∨ (k = j ∧ j < n)) := by
          funext k
          apply propext
          rw [hget]
          by_cases hkj : k = j
          · subst hkj
            rw [if_pos rfl]
            exact ⟨fun _ => Or.inr ⟨rfl, by omega⟩, fun _ => ⟨_, rfl⟩⟩
          · rw [if_neg hkj]; simp [hkj]
        rw [hset]
        exact this
      · intro k p hk
        simp only [hget]
        by_cases hkj : k = j
        · subst hkj; rw [hj0] at hk; cases hk
        · rw [if_neg hkj]; exact hk
      · intro k _ hk
        have : k = j := by omega
        subst this
        exact ⟨_, by simp only [hget, if_true]; rfl⟩


theorem receive_ok {H : Bytes → Bytes} (hH : Hash32 H) {ds : List Bytes} (h : Pieces ds) {S : Bytes → Prop}
    (hS : ∀ x, S x → ∀ y, S y → H x = H y → x = y) (hN : ∀ x ∈ partNodes H ds, S x) (f : ℕ) {n : ℕ}
    (hn : n = ds.length) (as : List (ℤ × List Bytes)) : ∀ ps : PartSet, RecvOk H S ds n ps →
    (∀ a ∈ as, ∀ x ∈ a.2, S x) →
    RecvOk H S ds n (receive H f ps as).1 ∧ AddRes.panic ∉ (receive H f ps as).2 ∧
      (∀ (j : ℕ) (p : Part), ps.parts[j]? = some (some p) →
        (receive H f ps as).1.parts[j]? = some (some p)) ∧
      (∀ (j : ℕ) (proof : List Bytes), j < n → ((j : ℤ), proof) ∈ as →
        (∃ v, prove H f none (.hash (H (ser H (treeOf ds)))) (bytesToNibs (partKey j)) proof = .ok (some v)) →
        ∃ p, (receive H f ps as).1.parts[j]? = some (some p)) := by
  induction as with
  | nil => intro ps r _; exact ⟨r, by simp [receive], fun _ _ h => h, fun _ _ _ h => by cases h⟩
  | cons a as ih =>
    intro ps r ha
    obtain ⟨a1, a2, a3, a4, a5⟩ := addPart_ok hH h hS hN f hn r a.1 a.2 (ha a (by simp))
    obtain ⟨b1, b2, b3, b4⟩ := ih _ a1 (fun x hx => ha x (by simp [hx]))
    refine ⟨b1, ?_, fun j p hj => b3 j p (a4 j p hj), ?_⟩
    · simp only [receive, List.mem_cons, not_or]
      exact ⟨fun e => a2 e.symm, b2⟩
    · intro j proof hj hmem hv
      rcases List.mem_cons.1 hmem with e | hmem
      · have hjl : j < ps.parts.length := by rw [r.len]; exact hj
        by_cases hnone : ps.parts[j]? = some none
        · have hadd := a3.2 ⟨j, by rw [← e], hnone, by rw [← e]; exact hv⟩
          obtain ⟨p, hp⟩ := a5 j hadd (by rw [← e])
          exact ⟨p, b3 j p hp⟩
        · obtain ⟨p, hp⟩ : ∃ p, ps.parts[j]? = some (some p) := by
            rw [List.getElem?_eq_getElem hjl] at hnone ⊢
            cases hx : ps.parts[j] with
            | none => rw [hx] at hnone; exact absurd rfl hnone
            | some p => exact ⟨p, rfl⟩
          exact ⟨p, b3 j p (a4 j p hp)⟩
      · exact b4 j proof hj hmem hv

theorem filter_all {l : List (Option Part)} (h : (l.filter Option.isSome).length = l.length) :
    ∀ (i : ℕ), i < l.length → ∃ p, l[i]? = some (some p) := by
  intro i hi
  have : l.filter Option.isSome = l := by
    apply List.Sublist.eq_of_length List.filter_sublist h
  have hm : l[i] ∈ l.filter Option.isSome := by rw [this]; exact List.getElem_mem hi
  have := (List.mem_filter.1 hm).2
  obtain ⟨p, hp⟩ := Option.isSome_iff_exists.1 this
  exact ⟨p, by rw [List.getElem?_eq_getElem hi, hp]⟩

theorem recv_start {H : Bytes → Bytes} (hH : Hash32 H) {S : Bytes → Prop} {ds : List Bytes} (h : Pieces ds)
    {id : PartSetID} (hc : id.count.toNat = ds.length) (hh : id.hash = H (ser H (treeOf ds))) :
    RecvOk H S ds ds.length (newPartSetFromID id) := by
  have hl : id.hash.length = 32 := by rw [hh]; exact hH _
  obtain ⟨ba, hb⟩ : ∃ ba, BitArray.new ((id.count.toNat : ℕ) : ℤ) = some ba := by
    obtain ⟨b, e, _⟩ := BitArray.new_good id.count.toNat
    exact ⟨b, e⟩
  refine ⟨by simp [newPartSetFromID, hc], ?_, ?_, ?_, ?_⟩
  · simp only [newPartSetFromID]
    rw [if_neg (by omega), hh]
    exact .hash _
  · intro i p hi
    simp only [newPartSetFromID, List.getElem?_replicate] at hi
    split_ifs at hi
    cases hi
  · simp only [newPartSetFromID]
    rw [List.filter_eq_nil_iff.2 (by intro a ha; rw [(List.mem_replicate.1 ha).2]; simp)]
    rfl
  · have e : (fun i : ℕ => ∃ p, (newPartSetFromID id).parts[i]? = some (some p)) = fun _ => False := by
      funext i
      apply propext
      simp only [newPartSetFromID, List.getElem?_replicate, iff_false]
      rintro ⟨p, hp⟩
      split_ifs at hp
      cases hp
    rw [e]
    simp only [newPartSetFromID, hb, Option.getD_some]
    rw [← hc]
    exact BitArray.Made.new hb

/-- A part set with a trie. -/
theorem partsOf_pieces {H : Bytes → Bytes} (hH : Hash32 H) {size : ℕ} (hs : 2 ≤ size) (hs' : size < 2 ^ 62)
    {data : Bytes} {ps : PartSet} (h : PartsOf H size data ps) (hlast : data.length % size ≠ 0)
    (hfew : ps.parts.length < 2 ^ 16) :
    ∃ ds, Pieces ds ∧ ds.flatten = data ∧ ps.datas = ds.map some ∧ ps.parts.length = ds.length ∧
      ps.hash = some (H (ser H (treeOf ds))) ∧ ps.id.count.toNat = ds.length ∧
      ps.id.hash = H (ser H (treeOf ds)) ∧
      (∀ (i : ℕ) (p : Part), ps.parts[i]? = some (some p) →
        GetProof H (fun _ => none) (treeOf ds) (partKey i) = some p.proof) := by
  obtain ⟨b, hb, hc, hsz, sp⟩ := partsOf_buf hs h
  have hpl : ps.parts.length = b.pieces.length := by
    have := congrArg List.length sp.datas
    simpa [PartSet.datas] using this
  have hsome : b.part.isSome = true := (part_iff hb).2 (by rw [hc, hsz]; exact hlast)
  have hne : b.content ≠ [] := by rw [hc]; rintro rfl; simp at hlast
  have hok := pieces_ok hb (by omega) hne (by omega)
  have hhash := sp.hash
  rw [if_pos hsome, root_hash hH hok] at hhash
  refine ⟨b.pieces, hok, by rw [pieces_flatten, hc], sp.datas, hpl, hhash, ?_, ?_, ?_⟩
  · simp only [PartSet.id, BitVec.toNat_ofNat]; rw [hpl]; exact Nat.mod_eq_of_lt hok.few
  · simp only [PartSet.id, hhash, Option.getD_some]
  · intro i p hi
    have := sp.proofs i p hi
    rwa [if_pos hsome] at this

/-- The pieces of a part set. -/
theorem datas_get {ps : PartSet} {ds : List Bytes} (h : ps.datas = ds.map some) (i : ℕ) (d : Bytes) :
    ds[i]? = some d ↔ ∃ q, ps.parts[i]? = some (some q) ∧ q.data = d := by
  have := congrArg (fun l : List (Option Bytes) => l[i]?) h
  simp only [PartSet.datas, List.getElem?_map] at this
  constructor
  · intro hd
    rw [hd] at this
    cases hp : ps.parts[i]? with
    | none => rw [hp] at this; cases this
    | some o =>
      rw [hp] at this
      cases o with
      | none => simp at this
      | some q => simp at this; exact ⟨q, rfl, this⟩
  · rintro ⟨q, hq, rfl⟩
    rw [hq] at this
    cases hd : ds[i]? with
    | none => rw [hd] at this; simp at this
    | some x => rw [hd] at this; simp at this; rw [this]

/-- **C42 (transfer).** Somebody knows only the id of the part set of a block (of which the last part is
not full), and is offered parts by anybody, in any order and any number of times. Then, unless two
different strings among what he was offered and the nodes of the block's trie have the same hash:
* he never panics,
* every part he accepts is the part of the block with that number,
* every genuine part that was offered has been accepted,
* his mask says which parts he has,
* and he has all parts when he thinks so. -/
theorem C42_transfer (H : Bytes → Bytes) (hH : Hash32 H) (size : ℕ) (hs : 2 ≤ size) (hs' : size < 2 ^ 62)
    (data : Bytes) (ps : PartSet) (h : PartsOf H size data ps) (hlast : data.length % size ≠ 0)
    (hfew : ps.parts.length < 2 ^ 16) (f : ℕ) (hf : 43 ≤ f) (as : List (ℤ × List Bytes))
    (hcol : ∀ ds, ps.datas = ds.map some → NoCollision H (as.flatMap Prod.snd ++ partNodes H ds)) :
    AddRes.panic ∉ (receive H f (newPartSetFromID ps.id) as).2 ∧
    (∀ (i : ℕ) (p : Part), (receive H f (newPartSetFromID ps.id) as).1.parts[i]? = some (some p) →
      p.idx = i ∧ ∃ q, ps.parts[i]? = some (some q) ∧ p.data = q.data) ∧
    (∀ (i : ℕ) (q : Part), ps.parts[i]? = some (some q) → ((i : ℤ), q.proof) ∈ as →
      ∃ p, (receive H f (newPartSetFromID ps.id) as).1.parts[i]? = some (some p)) ∧
    (∀ i : ℕ, ∃ v, (receive H f (newPartSetFromID ps.id) as).1.ba.get i = some v ∧
      (v = true ↔ ∃ p, (receive H f (newPartSetFromID ps.id) as).1.parts[i]? = some (some p))) ∧
    ((receive H f (newPartSetFromID ps.id) as).1.isComplete = true ↔
      (receive H f (newPartSetFromID ps.id) as).1.datas = ps.datas) := by
  obtain ⟨ds, hok, hfl, hdat, hpl, hhash, hcnt, hidh, hproof⟩ := partsOf_pieces hH hs hs' h hlast hfew
  have hcol := hcol ds hdat
  obtain ⟨g1, g2, g3, g4⟩ := receive_ok hH hok (S := fun x => x ∈ as.flatMap Prod.snd ++ partNodes H ds)
    (fun x hx y hy => hcol x hx y hy) (fun x hx => List.mem_append_right _ hx) f rfl as _
    (recv_start hH hok hcnt hidh)
    (fun a ha x hx => List.mem_append_left _ (List.mem_flatMap.2 ⟨a, ha, hx⟩))
  generalize receive H f (newPartSetFromID ps.id) as = r at *
  refine ⟨g2, ?_, ?_, ?_, ?_⟩
  · intro i p hp
    obtain ⟨h1, h2⟩ := g1.right i p hp
    obtain ⟨q, h3, h4⟩ := (datas_get hdat i _).1 h1
    exact ⟨h2, q, h3, h4.symm⟩
  · intro i q hq hm
    have hd := (datas_get hdat i q.data).2 ⟨q, hq, rfl⟩
    have hil : i < ds.length := (List.getElem?_eq_some_iff.1 hd).1
    refine g4 i q.proof hil hm ⟨q.data, ?_⟩
    obtain ⟨p, hp1, hp2⟩ := piece_proof hH hok hd
    rw [hproof i q hq] at hp1
    cases hp1
    unfold Prove at hp2
    rw [root_hash hH hok, Option.getD_some, newMPT_32 (hH _)] at hp2
    simp only at hp2
    have hkl := partKey_length i
    have hfuel : fuelFor (bytesToNibs (partKey i)) ≤ f := by
      unfold fuelFor; rw [nibs_length]; omega
    cases hx : prove H (fuelFor (bytesToNibs (partKey i))) none (.hash (H (ser H (treeOf ds))))
        (bytesToNibs (partKey i)) q.proof with
    | error e => rw [hx] at hp2; cases hp2
    | ok o =>
      rw [hx] at hp2
      cases o with
      | none => cases hp2
      | some w =>
        simp only [Except.ok.injEq] at hp2
        subst hp2
        exact prove_mono' hfuel hx
  · intro i
    obtain ⟨v, h1, h2⟩ := (BitArray.C43_contents g1.mask).2 i
    refine ⟨v, h1, h2.trans ⟨fun h => h.1, fun h => ⟨h, ?_⟩⟩⟩
    obtain ⟨p, hp⟩ := h
    have := (List.getElem?_eq_some_iff.1 hp).1
    rw [← g1.len]; exact this
  · have hlen := g1.len
    constructor
    · intro hc
      unfold PartSet.isComplete at hc
      rw [g1.added] at hc
      have hall := filter_all (by simpa using hc)
      rw [hdat]
      apply datas_ext
      intro j
      by_cases hj : j < r.1.parts.length
      · obtain ⟨p, hp⟩ := hall j hj
        rw [hp, (g1.right j p hp).1]
        rfl
      · rw [List.getElem?_eq_none (by omega), List.getElem?_eq_none (by omega)]
        rfl
    · intro e
      unfold PartSet.isComplete
      rw [g1.added, beq_iff_eq]
      congr 1
      apply List.filter_eq_self.2
      intro o ho
      obtain ⟨i, hi⟩ := List.getElem?_of_mem ho
      rw [hdat] at e
      have hil := (List.getElem?_eq_some_iff.1 hi).1
      obtain ⟨q, hq, _⟩ := (datas_get e i (ds[i]'(by omega))).1 (List.getElem?_eq_getElem (by omega))
      rw [hi] at hq
      cases hq
      rfl


/-! ## Reading -/

/-- Reads into buffers of the given sizes: what each one returns. -/
def readMany : PartsReader → List ℕ → Option (List Bytes)
  | _, [] => some []
  | r, n :: ns =>
    match r.read n with
    | none => none
    | some x => (readMany x.1 ns).map (fun l => x.2 :: l)

/-- What reads of the given sizes return from a stream with the given bytes left. -/
def streamReads : Bytes → List ℕ → List Bytes
  | _, [] => []
  | s, n :: ns => s.take n :: streamReads (s.drop n) ns

/-- A reader at a place from which the bytes `s` are left. -/
structure At (ds : List Bytes) (r : PartsReader) (s : Bytes) : Prop where
  parts : r.parts.map (fun p => p.map Part.data) = ds.map some
  left : s = (ds.drop r.idx).flatten.drop r.offset
  off : r.offset = 0 ∨ ∃ d, ds[r.idx]? = some d ∧ r.offset < d.length

theorem readLoop_zero (fuel : ℕ) (r : PartsReader) (acc : Bytes) :
    PartsReader.readLoop fuel r 0 acc = some (r, acc) := by
  cases fuel <;> simp [PartsReader.readLoop]

theorem readLoop_at (ds : List Bytes) : ∀ (fuel : ℕ) (r : PartsReader) (room : ℕ) (acc s : Bytes),
    At ds r s → ds.length + 1 ≤ fuel + r.idx →
    ∃ r', PartsReader.readLoop fuel r room acc = some (r', acc ++ s.take room) ∧ At ds r' (s.drop room) := by
  intro fuel
  induction fuel with
  | zero =>
    intro r room acc s h hf
    have hs : s = [] := by
      rw [h.left, show ds.drop r.idx = [] from List.drop_eq_nil_of_le (by omega)]; simp
    subst hs
    exact ⟨r, by simp [PartsReader.readLoop], by simpa using h⟩
  | succ fuel ih =>
    intro r room acc s h hf
    have hlen : r.parts.length = ds.length := by simpa using congrArg List.length h.parts
    unfold PartsReader.readLoop
    by_cases hstop : room = 0 ∨ r.idx ≥ r.parts.length
    · rw [if_pos hstop]
      rcases hstop with rfl | hge
      · exact ⟨r, by simp, by simpa using h⟩
      · have hs : s = [] := by
          rw [h.left, show ds.drop r.idx = [] from List.drop_eq_nil_of_le (by omega)]; simp
        subst hs
        exact ⟨r, by simp, by simpa using h⟩
    rw [if_neg hstop]
    push Not at hstop
    have hi : r.idx < ds.length := by omega
    have hg := congrArg (fun l : List (Option Bytes) => l[r.idx]?) h.parts
    simp only [List.getElem?_map, List.getElem?_eq_getElem hi] at hg
    obtain ⟨p, hp, hpd⟩ : ∃ p, r.parts[r.idx]? = some (some p) ∧ p.data = ds[r.idx] := by
      cases hx : r.parts[r.idx]? with
      | none => rw [hx] at hg; cases hg
      | some o =>
        rw [hx] at hg
        cases o with
        | none => simp at hg
        | some p => exact ⟨p, rfl, by simpa using hg⟩
    rw [hp]
    rw [show (some (some p)).join = some p from rfl]
    simp only
    have hdrop : ds.drop r.idx = ds[r.idx] :: ds.drop (r.idx + 1) := List.drop_eq_getElem_cons hi
    have hoff : r.offset ≤ p.data.length := by
      rcases h.off with h0 | ⟨d, hd, hlt⟩
      · omega
      · rw [List.getElem?_eq_getElem hi] at hd; cases hd; rw [hpd]; omega
    have hs : s = p.data.drop r.offset ++ (ds.drop (r.idx + 1)).flatten := by
      rw [h.left, hdrop, List.flatten_cons, ← hpd, List.drop_append_of_le_length hoff]
    obtain ⟨got, hgot⟩ : ∃ got, got = (p.data.drop r.offset).take room := ⟨_, rfl⟩
    rw [← hgot]
    have hgl : got.length = min room (p.data.length - r.offset) := by
      rw [hgot, List.length_take, List.length_drop]
    have hgl2 : got.length ≤ room := by omega
    have hgl3 : r.offset + got.length < p.data.length → got.length = room := by omega
    by_cases hend : r.offset + got.length ≥ p.data.length
    · rw [if_pos hend]
      have hgall : got = p.data.drop r.offset := by
        rw [hgot]; apply List.take_of_length_le; rw [List.length_drop]; omega
      obtain ⟨r', e1, e2⟩ := ih ⟨r.parts, r.idx + 1, 0⟩ (room - got.length) (acc ++ got)
        ((ds.drop (r.idx + 1)).flatten) ⟨h.parts, by simp, Or.inl rfl⟩ (by simp only; omega)
      refine ⟨r', ?_, ?_⟩
      · rw [e1, hs, ← hgall, List.take_append, List.take_of_length_le (l := got) (i := room) (by omega), List.append_assoc]
      · rw [hs, ← hgall, List.drop_append, List.drop_eq_nil_of_le (by omega)]
        exact e2
    · rw [if_neg hend]
      have hroom : got.length = room := hgl3 (by omega)
      rw [hroom, Nat.sub_self, readLoop_zero, hs,
        List.take_append_of_le_length (by rw [List.length_drop]; omega), ← hgot, ← hs]
      refine ⟨_, rfl, h.parts, ?_, Or.inr ⟨ds[r.idx], List.getElem?_eq_getElem hi, ?_⟩⟩
      · rw [h.left, List.drop_drop]
      · rw [← hpd]; simp only; omega

/-- **C42 (reading).** Reading a complete part set, with buffers of any sizes, gives the block's bytes in
order, every buffer being filled as long as there are bytes left. -/
theorem C42_read (H : Bytes → Bytes) (size : ℕ) (hs : 2 ≤ size) (data : Bytes) (ps ps' : PartSet)
    (h : PartsOf H size data ps) (hd : ps'.datas = ps.datas) (rooms : List ℕ) :
    readMany ps'.newReader rooms = some (streamReads data rooms) := by
  obtain ⟨b, hb, hc, hsz, sp⟩ := partsOf_buf hs h
  have key : ∀ (rooms : List ℕ) (r : PartsReader) (s : Bytes), At b.pieces r s →
      readMany r rooms = some (streamReads s rooms) := by
    intro rooms
    induction rooms with
    | nil => intro r s _; rfl
    | cons n ns ih =>
      intro r s ha
      have hlen : r.parts.length = b.pieces.length := by simpa using congrArg List.length ha.parts
      obtain ⟨r', e1, e2⟩ := readLoop_at b.pieces (r.parts.length + 1) r n [] s ha (by omega)
      unfold readMany PartsReader.read
      rw [e1]
      simp only [ih r' _ e2, Option.map_some, streamReads, List.nil_append]
  apply key
  refine ⟨?_, ?_, Or.inl rfl⟩
  · rw [← sp.datas, ← hd]; rfl
  · simp only [PartSet.newReader, List.drop_zero, pieces_flatten, hc]

/-! ## The id -/

/-- **C42 (binding).** Two blocks with the same part set id are equal, unless two different strings among
the nodes of their tries have the same hash. -/
theorem C42_id_binds (H : Bytes → Bytes) (hH : Hash32 H) (size size' : ℕ) (hs : 2 ≤ size) (hs' : size < 2 ^ 62)
    (ht : 2 ≤ size') (ht' : size' < 2 ^ 62) (data data' : Bytes) (ps ps' : PartSet)
    (h : PartsOf H size data ps) (h' : PartsOf H size' data' ps')
    (hlast : data.length % size ≠ 0) (hlast' : data'.length % size' ≠ 0)
    (hfew : ps.parts.length < 2 ^ 16) (hfew' : ps'.parts.length < 2 ^ 16)
    (hcol : ∀ ds ds', ps.datas = ds.map some → ps'.datas = ds'.map some →
      NoCollision H (partNodes H ds ++ partNodes H ds'))
    (hid : PartSetID.equal (some ps.id) (some ps'.id) = true) : data = data' := by
  obtain ⟨ds, hok, hfl, hdat, hpl, hhash, hcnt, hidh, _⟩ := partsOf_pieces hH hs hs' h hlast hfew
  obtain ⟨ds', hok', hfl', hdat', hpl', hhash', hcnt', hidh', _⟩ := partsOf_pieces hH ht ht' h' hlast' hfew'
  have hcol := hcol ds ds' hdat hdat'
  simp only [PartSetID.equal, Bool.and_eq_true, beq_iff_eq] at hid
  have e1 := treeOf_run H ds
  have e2 := treeOf_run H ds'
  have hroot : rootHash H (run H St.init (partOps 0 ds)).1.root = rootHash H (run H St.init (partOps 0 ds')).1.root := by
    rw [e1.1, e2.1, root_hash hH hok, root_hash hH hok', ← hidh, ← hidh', hid.2]
  have hlen : ds.length = ds'.length := by rw [← hcnt, ← hcnt', hid.1]
  have hfw := hok.few
  rcases C40_root_binds hH _ _ (hok.valid 0) (hok'.valid 0) (Pieces.inMemory 0) (Pieces.inMemory 0) hroot with e | e
  · have : ds = ds' := by
      apply List.ext_getElem?
      intro j
      by_cases hj : j < 2 ^ 16
      · rw [← treeOf_map hok j hj, ← treeOf_map hok' j hj, e]
      · rw [List.getElem?_eq_none (by omega), List.getElem?_eq_none (by omega)]
    rw [← hfl, ← hfl', this]
  · exfalso
    rw [e1.1, e2.1] at e
    obtain ⟨x, hx, y, hy, h1, h2⟩ := e
    exact h1 (hcol _ (List.mem_append_left _ (List.mem_map_of_mem hx)) _
      (List.mem_append_right _ (List.mem_map_of_mem hy)) h2)

/-- **C42, finding.** When the block's length is a multiple of the part size there is no trie: the id
carries no hash, so that it says nothing about the block but its number of parts, the parts have no
proofs, and whoever knows the id accepts no part at all, whatever he is offered. -/
theorem C42_full_last_part (H : Bytes → Bytes) (size : ℕ) (hs : 2 ≤ size) (data : Bytes) (ps : PartSet)
    (h : PartsOf H size data ps) (hlast : data.length % size = 0) :
    ps.id.hash = [] ∧ (∀ p, some p ∈ ps.parts → p.proof = []) ∧
    ∀ f as, AddRes.added ∉ (receive H f (newPartSetFromID ps.id) as).2 := by
  obtain ⟨b, hb, hc, hsz, sp⟩ := partsOf_buf hs h
  have hnone : ¬ b.part.isSome = true := fun e => (part_iff hb).1 e (by rw [hc, hsz]; exact hlast)
  have hhash := sp.hash
  rw [if_neg hnone] at hhash
  have hid : ps.id.hash = [] := by simp only [PartSet.id, hhash, Option.getD_none]
  refine ⟨hid, ?_, ?_⟩
  · intro p hp
    obtain ⟨i, hi⟩ := List.getElem?_of_mem hp
    have := sp.proofs i p hi
    rwa [if_neg hnone] at this
  · intro f as
    have key : ∀ (as : List (ℤ × List Bytes)) (q : PartSet), q.tree = .nil → AddRes.added ∉ (receive H f q as).2 := by
      intro as
      induction as with
      | nil => intro q _; simp [receive]
      | cons a as ih =>
        intro q hq
        have : (q.addPart H f a.1 a.2).1.tree = .nil ∧ (q.addPart H f a.1 a.2).2 ≠ .added := by
          unfold PartSet.addPart
          split
          · exact ⟨hq, by simp⟩
          · split
            · exact ⟨hq, by simp⟩
            · simp only [hq, proveRoot]
              exact ⟨trivial, by simp⟩
        simp only [receive, List.mem_cons, not_or]
        exact ⟨fun e => this.2 e.symm, ih _ this.1⟩
    exact key as _ (by simp [newPartSetFromID, hid])

/-- **C42, finding.** An id made by a dishonest proposer can make `AddPart` panic: its hash is that of
the three bytes `c2 80 80`, which pass for a node with an empty key, and these bytes are offered as the
proof of part 0. -/
theorem C42_crafted_part_panics (H : Bytes → Bytes) (hH : Hash32 H) (f : ℕ) (hf : 1 ≤ f) :
    ((newPartSetFromID ⟨1, H [0xc2, 0x80, 0x80]⟩).addPart H f 0 [[0xc2, 0x80, 0x80]]).2 = .panic := by
  obtain ⟨f, rfl⟩ : ∃ g, f = g + 1 := ⟨f - 1, by omega⟩
  have hd : deserialize [0xc2, 0x80, 0x80] = .error .panic := rfl
  have hl : (H [0xc2, 0x80, 0x80]).length = 32 := hH _
  unfold PartSet.addPart
  simp only [newPartSetFromID, if_neg (show ¬ (H [0xc2, 0x80, 0x80]).length = 0 by omega)]
  simp [proveRoot, proveS, hd, objBytes]

/-- **C42 (own mask).** The maker of a part set says that he has all parts, unless their number is a
multiple of 64: then (finding) he says that he has none of the last 64. -/
theorem C42_own_mask (H : Bytes → Bytes) (size : ℕ) (hs : 2 ≤ size) (data : Bytes) (ps : PartSet)
    (h : PartsOf H size data ps) (i : ℕ) (hi : i < ps.parts.length) :
    ps.ba.get i = some (!(decide (ps.parts.length % 64 = 0 ∧ ps.parts.length ≤ i + 64))) := by
  obtain ⟨b, hb, hc, hsz, sp⟩ := partsOf_buf hs h
  have hpl : ps.parts.length = b.pieces.length := by
    have := congrArg List.length sp.datas
    simpa [PartSet.datas] using this
  rw [sp.mask, ← hpl]
  obtain ⟨ba, e, _⟩ := BitArray.new_good ps.parts.length
  have hm : BitArray.Made ps.parts.length (BitArray.flipped ps.parts.length (fun _ => False)) (fullMask ps.parts.length) := by
    unfold fullMask
    rw [e, Option.getD_some]
    exact (BitArray.Made.new e).flip
  obtain ⟨v, h1, h2⟩ := (BitArray.C43_contents hm).2 i
  rw [h1]
  congr 1
  by_cases hx : ps.parts.length % 64 = 0 ∧ ps.parts.length ≤ i + 64
  · rw [decide_eq_true hx]
    cases v
    · rfl
    · have := (h2.1 rfl).1.2.2 hx.1; omega
  · rw [decide_eq_false hx]
    exact h2.2 ⟨⟨hi, id, fun h0 => by omega⟩, hi⟩

/-! ## Messages -/

/-- **C42 (part message).** A part sent as bytes is received with the same number and proof. -/
theorem C42_part_bytes (p : Part) (hi : p.idx < 2 ^ 16) (hl : p.bytes.length < 2 ^ 63) :
    newPart p.bytes = some (p.idx, p.proof) := by
  have hw : Rlp.WfTy (.struct [.uint 16, .slice .bytes]) := by
    simp [Rlp.WfTy, Rlp.WfTys]
  have ht : Rlp.HasTy (.struct [.uint 16, .slice .bytes]) (.struct [.uint (p.idx % 2 ^ 16),
      if p.proof = [] then .sliceNil else .slice (p.proof.map .bytes)]) := by
    rw [Rlp.HasTy, Rlp.HasTys, Rlp.HasTys, Rlp.HasTys]
    refine ⟨by rw [Rlp.HasTy]; exact Nat.mod_lt _ (by omega), ?_, trivial⟩
    split_ifs
    · simp [Rlp.HasTy]
    · rw [Rlp.HasTy]
      intro v hv
      obtain ⟨b, _, rfl⟩ := List.mem_map.1 hv
      simp [Rlp.HasTy]
  have := Rlp.C39_roundtrip _ _ [] hw ht (by simpa [Part.bytes] using hl)
  unfold newPart Part.bytes
  rw [List.append_nil] at this
  rw [this]
  simp only [Nat.mod_eq_of_lt hi]
  congr 2
  split_ifs with h
  · simp [itemsOf, h]
  · simp only [itemsOf, List.map_map]
    conv_rhs => rw [← List.map_id p.proof]
    rfl

/-- **C42 (application data).** The number of network-type-section votes kept in the same word as the
part count is got back if it is below 2^48, and the id always. -/
theorem C42_app_data (i : PartSetID) (a : BitVec 64) :
    PartSetIDAndAppData.id (PartSetID.withAppData a (some i)) = some i ∧
    (PartSetIDAndAppData.appData (PartSetID.withAppData a (some i)) = a ↔ a.toNat < 2 ^ 48) := by
  constructor
  · simp only [PartSetID.withAppData, PartSetIDAndAppData.id]
    congr 1
    cases i with
    | mk c h =>
      simp only [PartSetID.mk.injEq, and_true]
      apply BitVec.eq_of_getLsbD_eq
      intro k hk
      simp [hk]
      interval_cases k <;> simp
  · simp only [PartSetID.withAppData, PartSetIDAndAppData.appData]
    have hc := i.count.isLt
    have ha := a.isLt
    have h1 : ((a <<< 16 ||| BitVec.zeroExtend 64 i.count) >>> 16).toNat = a.toNat % 2 ^ 48 := by
      simp only [BitVec.toNat_ushiftRight, BitVec.toNat_or, BitVec.toNat_shiftLeft, BitVec.truncate_eq_setWidth,
        BitVec.toNat_setWidth, Nat.shiftRight_or_distrib]
      rw [Nat.shiftRight_eq_div_pow, Nat.shiftRight_eq_div_pow, Nat.shiftLeft_eq,
        Nat.div_eq_of_lt (a := i.count.toNat % 2 ^ 64) (by omega), Nat.or_zero]
      omega
    rw [← BitVec.toNat_inj, h1]
    constructor
    · intro h; omega
    · intro h; exact Nat.mod_eq_of_lt h


/-! ## A concrete case -/

/-- A stand-in for the hash function, with 32-byte results. -/
def demoHash (x : Bytes) : Bytes := (x ++ List.replicate 32 0).take 32

theorem demoHash_32 : Hash32 demoHash := by intro x; simp [demoHash]

/-- Five bytes written in two portions, cut in parts of two. -/
def demoBuf : PartSetBuffer := ((newPartSetBuffer 2).writes [[1], [2, 3, 4, 5]]).getD ⟨[], none, 0, 2⟩

def demoParts : PartSet := (demoBuf.partSet demoHash).getD ⟨0, [], .nil, none, ⟨0, []⟩⟩

theorem demo_partsOf : PartsOf demoHash 2 [1, 2, 3, 4, 5] demoParts := by
  refine ⟨[[1], [2, 3, 4, 5]], demoBuf, rfl, ?_, ?_⟩
  · obtain ⟨b, hb, _⟩ := writes_ok [[1], [2, 3, 4, 5]] _ (newBuf_ok (le_refl 2))
    unfold demoBuf; rw [hb]; rfl
  · have h : (demoBuf.partSet demoHash).isSome = true := by decide +kernel
    obtain ⟨ps, hps⟩ := Option.isSome_iff_exists.1 h
    unfold demoParts; rw [hps]; rfl

/-- A forged part, then the genuine ones in the wrong order, one of them twice. -/
def demoOffers : List (ℤ × List Bytes) :=
  let g := fun i : ℕ => ((demoParts.parts[i]?).join.map Part.proof).getD []
  [(1, [[0xc2, 0x80, 0x80]]), (2, g 2), (0, g 0), (2, g 2), (1, g 1), (7, g 1)]

example : demoParts.parts.length = 3 ∧ demoParts.id.hash.length = 32 := by decide +kernel

example : (receive demoHash 43 (newPartSetFromID demoParts.id) demoOffers).2 =
    [.badProof, .added, .added, .alreadyAdded, .added, .invalidIndex] := by decide +kernel

example : (receive demoHash 43 (newPartSetFromID demoParts.id) demoOffers).1.datas =
    [some [1, 2], some [3, 4], some [5]] := by decide +kernel

/-- The hypotheses of `C42_transfer` and `C42_id_binds` hold here. -/
theorem demo_noCollision : ∀ ds, demoParts.datas = ds.map some →
    NoCollision demoHash (demoOffers.flatMap Prod.snd ++ partNodes demoHash ds) := by
  intro ds hds
  have e : demoParts.datas = [[1, 2], [3, 4], [5]].map some := by decide +kernel
  rw [e] at hds
  have : ds = [[1, 2], [3, 4], [5]] := (List.map_injective_iff.2 (Option.some_injective _) hds).symm
  subst this
  unfold NoCollision
  decide +kernel

example : (receive demoHash 43 (newPartSetFromID demoParts.id) demoOffers).1.datas = demoParts.datas :=
  (C42_transfer demoHash demoHash_32 2 (le_refl _) (by decide) _ _ demo_partsOf (by decide)
    (by decide +kernel) 43 (le_refl _) demoOffers demo_noCollision).2.2.2.2.1 (by decide +kernel)

end Verif.Consensus
