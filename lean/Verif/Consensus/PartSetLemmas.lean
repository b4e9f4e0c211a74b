import Verif.Consensus.PartSet
import Verif.Consensus.BitArrayProps
import Verif.Trie.Props
import Verif.Rlp.Props

/-!
# Lemmas about part sets
-/

namespace Verif.Consensus
open Verif Verif.Trie

/-! ### Cutting -/

/-- A buffer between calls. -/
structure BufOk (b : PartSetBuffer) : Prop where
  size : 2 ≤ b.size
  full : ∀ d ∈ b.parts, d.length = b.size
  part : match b.part with
    | none => b.offset = 0
    | some d => d.length = b.size ∧ 0 < b.offset ∧ b.offset < b.size

/-- What has been written. -/
def PartSetBuffer.content (b : PartSetBuffer) : Bytes :=
  b.parts.flatten ++ (match b.part with | none => [] | some d => d.take b.offset)

theorem fresh_some (b : PartSetBuffer) (h : 2 ≤ b.size) : ∃ d, b.fresh = some d ∧ d.length = b.size := by
  unfold PartSetBuffer.fresh
  rw [if_neg (by omega)]
  exact ⟨_, rfl, by simp; omega⟩

theorem writeLoop_ok : ∀ (fuel : ℕ) (b : PartSetBuffer) (p : Bytes), BufOk b → p.length ≤ fuel →
    ∃ b', PartSetBuffer.writeLoop fuel b p = some b' ∧ BufOk b' ∧ b'.content = b.content ++ p ∧
      b'.size = b.size := by
  intro fuel
  induction fuel with
  | zero =>
    intro b p h hl
    have : p = [] := List.eq_nil_of_length_eq_zero (by omega)
    subst this
    exact ⟨b, rfl, h, by simp, rfl⟩
  | succ fuel ih =>
    intro b p h hl
    unfold PartSetBuffer.writeLoop
    by_cases hp : p.length = 0
    · have : p = [] := List.eq_nil_of_length_eq_zero hp
      subst this
      exact ⟨b, by simp, h, by simp, rfl⟩
    rw [if_neg hp]
    obtain ⟨d, hd, hdl, hoff, hcont⟩ : ∃ d, b.current = some d ∧
        d.length = b.size ∧ b.offset < b.size ∧ b.content = b.parts.flatten ++ d.take b.offset := by
      have hpart := h.part
      cases hb : b.part with
      | none =>
        obtain ⟨d, h1, h2⟩ := fresh_some b h.size
        rw [hb] at hpart
        simp only at hpart
        exact ⟨d, by unfold PartSetBuffer.current; rw [hb]; exact h1, h2, by rw [hpart]; have := h.size; omega, by
          unfold PartSetBuffer.content; rw [hb, hpart]; simp⟩
      | some d =>
        rw [hb] at hpart
        exact ⟨d, by unfold PartSetBuffer.current; rw [hb], hpart.1, hpart.2.2, by unfold PartSetBuffer.content; rw [hb]⟩
    rw [hd]
    simp only
    obtain ⟨n, hn⟩ : ∃ n, n = min (d.length - b.offset) p.length := ⟨_, rfl⟩
    rw [← hn]
    have hn1 : 1 ≤ n := by omega
    have hn2 : n ≤ p.length := by omega
    have hn3 : b.offset + n ≤ b.size := by omega
    obtain ⟨d', hd'⟩ : ∃ d', d' = d.take b.offset ++ p.take n ++ d.drop (b.offset + n) := ⟨_, rfl⟩
    rw [← hd']
    have hlen : d'.length = b.size := by
      rw [hd']; simp only [List.length_append, List.length_take, List.length_drop]; omega
    have htake : d'.take (b.offset + n) = d.take b.offset ++ p.take n := by
      rw [hd', List.take_left']
      simp only [List.length_append, List.length_take]; omega
    by_cases hfull : b.offset + n = b.size
    · rw [if_pos hfull]
      obtain ⟨b', e1, e2, e3, e4⟩ := ih ⟨b.parts ++ [d'], none, 0, b.size⟩ (p.drop n)
        ⟨h.size, by
          intro x hx
          rcases List.mem_append.1 hx with hx | hx
          · exact h.full x hx
          · rw [List.mem_singleton.1 hx]; exact hlen, rfl⟩
        (by simp only [List.length_drop]; omega)
      refine ⟨b', e1, e2, ?_, e4⟩
      rw [e3, hcont]
      unfold PartSetBuffer.content
      have : d'.take b.size = d' := List.take_of_length_le (by omega)
      rw [hfull, this] at htake
      simp only [List.flatten_append, List.flatten_cons, List.flatten_nil, List.append_nil, htake,
        List.append_assoc, List.take_append_drop]
    · rw [if_neg hfull]
      obtain ⟨b', e1, e2, e3, e4⟩ := ih ⟨b.parts, some d', b.offset + n, b.size⟩ (p.drop n)
        ⟨h.size, h.full, ⟨hlen, by show 0 < b.offset + n; omega, by show b.offset + n < b.size; omega⟩⟩
        (by simp only [List.length_drop]; omega)
      refine ⟨b', e1, e2, ?_, e4⟩
      rw [e3, hcont]
      unfold PartSetBuffer.content
      simp only [htake, List.append_assoc, List.take_append_drop]

theorem writes_ok (ws : List Bytes) : ∀ b : PartSetBuffer, BufOk b →
    ∃ b', b.writes ws = some b' ∧ BufOk b' ∧ b'.content = b.content ++ ws.flatten ∧ b'.size = b.size := by
  induction ws with
  | nil => intro b h; exact ⟨b, rfl, h, by simp, rfl⟩
  | cons w ws ih =>
    intro b h
    obtain ⟨b1, h1, h2, h3, h4⟩ := writeLoop_ok w.length b w h (le_refl _)
    obtain ⟨b2, g1, g2, g3, g4⟩ := ih b1 h2
    refine ⟨b2, ?_, g2, ?_, by rw [g4, h4]⟩
    · unfold PartSetBuffer.writes
      unfold PartSetBuffer.write
      rw [h1]
      exact g1
    · rw [g3, h3]; simp

theorem newBuf_ok {sz : ℕ} (h : 2 ≤ sz) : BufOk (newPartSetBuffer sz) :=
  ⟨h, (by intro d hd; exact absurd hd (by simp [newPartSetBuffer])), rfl⟩

/-- The specification of the cut: all pieces but the last have `size` bytes, the last has between one
and `size`. -/
def Cut (size : ℕ) (ds : List Bytes) : Prop :=
  ∀ (i : ℕ) (d : Bytes), ds[i]? = some d →
    0 < d.length ∧ d.length ≤ size ∧ (i + 1 < ds.length → d.length = size)

/-- The pieces of a buffer. -/
def PartSetBuffer.pieces (b : PartSetBuffer) : List Bytes :=
  b.parts ++ (match b.part with | none => [] | some d => [d.take b.offset])

theorem pieces_flatten (b : PartSetBuffer) : b.pieces.flatten = b.content := by
  unfold PartSetBuffer.pieces PartSetBuffer.content
  cases b.part <;> simp

theorem pieces_cut {b : PartSetBuffer} (h : BufOk b) : Cut b.size b.pieces := by
  intro i d hd
  have hs := h.size
  unfold PartSetBuffer.pieces at hd ⊢
  have hpart := h.part
  rcases Nat.lt_or_ge i b.parts.length with hi | hi
  · rw [List.getElem?_append_left hi] at hd
    have := h.full d (List.mem_of_getElem? hd)
    omega
  · rw [List.getElem?_append_right hi] at hd
    cases hb : b.part with
    | none => rw [hb] at hd; simp at hd
    | some x =>
      rw [hb] at hd hpart
      simp only at hpart hd
      cases hj : i - b.parts.length with
      | zero =>
        rw [hj] at hd
        simp only [List.getElem?_cons_zero, Option.some.injEq] at hd
        subst hd
        refine ⟨by rw [List.length_take]; omega, by rw [List.length_take]; omega, fun h2 => ?_⟩
        simp only [List.length_append, List.length_singleton] at h2
        omega
      | succ j => rw [hj] at hd; simp at hd

/-! ### The keys of the parts -/

theorem partKey_inj {i j : ℕ} (hi : i < 2 ^ 16) (hj : j < 2 ^ 16) (h : partKey i = partKey j) : i = j := by
  unfold partKey at h
  rw [Nat.mod_eq_of_lt hi, Nat.mod_eq_of_lt hj] at h
  have hl : ∀ n : ℕ, (Rlp.marshalToBytes (.uint n) ++ []).length < 2 ^ 63 := by
    intro n
    have h1 := Rlp.goUint64_length (BitVec.ofNat 64 n)
    simp only [Rlp.marshalToBytes, Rlp.encode, List.append_nil]
    unfold Rlp.writeBytes
    split_ifs <;> simp <;> omega
  have hw : Rlp.WfTy (.uint 16) := by unfold Rlp.WfTy; omega
  have h1 := Rlp.C39_roundtrip (.uint 16) (.uint i) [] hw (by unfold Rlp.HasTy; exact hi) (hl i)
  have h2 := Rlp.C39_roundtrip (.uint 16) (.uint j) [] hw (by unfold Rlp.HasTy; exact hj) (hl j)
  rw [h, h2] at h1
  injection h1 with h1
  injection h1 with h1
  injection h1 with h1
  injection h1 with h1
  exact h1.symm


/-! ### The trie of the parts -/

/-- Setting the parts one after the other. -/
def partOps : ℕ → List Bytes → List Op
  | _, [] => []
  | i, d :: ds => .set (partKey i) d :: partOps (i + 1) ds

theorem partOps_run (H : Bytes → Bytes) (ds : List Bytes) : ∀ (i : ℕ) (s : St), s.db = (fun _ => none) →
    (run H s (partOps i ds)).1.root = buildTree i ds s.root ∧
      (run H s (partOps i ds)).1.db = (fun _ => none) := by
  induction ds with
  | nil => intro i s h; exact ⟨rfl, h⟩
  | cons d ds ih =>
    intro i s h
    have := ih (i + 1) (step H s (.set (partKey i) d)).1 h
    refine ⟨?_, this.2⟩
    rw [show partOps i (d :: ds) = .set (partKey i) d :: partOps (i + 1) ds from rfl]
    simp only [run, buildTree]
    rw [this.1]
    simp only [step, h]

theorem partOps_ref (ds : List Bytes) : ∀ (i : ℕ) (r : Ref), i + ds.length ≤ 2 ^ 16 →
    ∀ j, j < 2 ^ 16 → (refRun r (partOps i ds)).1.m (partKey j) =
      if i ≤ j ∧ j < i + ds.length then ds[j - i]? else r.m (partKey j) := by
  induction ds with
  | nil => intro i r _ j _; rw [if_neg (by simp only [List.length_nil]; omega)]; rfl
  | cons d ds ih =>
    intro i r hl j hj
    simp only [List.length_cons] at hl
    rw [show partOps i (d :: ds) = .set (partKey i) d :: partOps (i + 1) ds from rfl]
    simp only [refRun]
    rw [ih (i + 1) _ (by omega) j hj]
    simp only [refStep, List.length_cons]
    by_cases h1 : i + 1 ≤ j ∧ j < i + 1 + ds.length
    · rw [if_pos h1, if_pos (by omega)]
      rw [show j - i = (j - (i + 1)) + 1 by omega, List.getElem?_cons_succ]
    · rw [if_neg h1]
      by_cases h2 : j = i
      · subst h2
        rw [if_pos rfl, if_pos (by omega)]
        simp
      · rw [if_neg (fun h => h2 (partKey_inj hj (by omega) h)), if_neg (by omega)]

theorem partOps_mem (ds : List Bytes) : ∀ (i : ℕ) (o : Op), o ∈ partOps i ds →
    ∃ (j : ℕ) (d : Bytes), d ∈ ds ∧ o = .set (partKey j) d := by
  induction ds with
  | nil => intro i o h; cases h
  | cons d ds ih =>
    intro i o h
    rcases List.mem_cons.1 h with h | h
    · exact ⟨i, d, by simp, h⟩
    · obtain ⟨j, x, hx, e⟩ := ih (i + 1) o h
      exact ⟨j, x, by simp [hx], e⟩

theorem partKey_length (i : ℕ) : (partKey i).length ≤ 10 := by
  unfold partKey
  have h1 := Rlp.goUint64_length (BitVec.ofNat 64 (i % 2 ^ 16))
  simp only [Rlp.marshalToBytes, Rlp.encode]
  generalize IntCodec.goUint64ToBytes (BitVec.ofNat 64 (i % 2 ^ 16)) = x at *
  unfold Rlp.writeBytes
  split_ifs <;> simp <;> omega

/-- What a list of pieces must be like. -/
structure Pieces (ds : List Bytes) : Prop where
  few : ds.length < 2 ^ 16
  ne : ds ≠ []
  big : ∀ d ∈ ds, d ≠ [] ∧ d.length < 2 ^ 62

theorem Pieces.valid {ds : List Bytes} (h : Pieces ds) (i : ℕ) : ∀ o ∈ partOps i ds, o.Valid := by
  intro o ho
  obtain ⟨j, d, hd, rfl⟩ := partOps_mem ds i o ho
  have := partKey_length j
  exact ⟨by omega, (h.big d hd).1, (h.big d hd).2⟩

theorem Pieces.inMemory {ds : List Bytes} (i : ℕ) : ∀ o ∈ partOps i ds, o.InMemory := by
  intro o ho
  obtain ⟨j, d, hd, rfl⟩ := partOps_mem ds i o ho
  trivial

theorem nibs_length (b : Bytes) : (bytesToNibs b).length = 2 * b.length := by
  induction b with
  | nil => rfl
  | cons x b ih => simp only [bytesToNibs, List.length_cons, ih]; omega

/-- The trie of the pieces. -/
abbrev treeOf (ds : List Bytes) : Node := buildTree 0 ds .nil

theorem treeOf_run (H : Bytes → Bytes) (ds : List Bytes) :
    (run H St.init (partOps 0 ds)).1.root = treeOf ds ∧
      (run H St.init (partOps 0 ds)).1.db = (fun _ => none) :=
  partOps_run H ds 0 St.init rfl

theorem treeOf_holds {H : Bytes → Bytes} (hH : Hash32 H) {ds : List Bytes} (h : Pieces ds) :
    Holds (treeOf ds) (refRun Ref.init (partOps 0 ds)).1.m := by
  rw [← (treeOf_run H ds).1]
  exact inMemory_holds hH _ (h.valid 0) (Pieces.inMemory 0)

theorem treeOf_map {ds : List Bytes} (h : Pieces ds) (j : ℕ) (hj : j < 2 ^ 16) :
    (refRun Ref.init (partOps 0 ds)).1.m (partKey j) = ds[j]? := by
  have := h.few
  rw [partOps_ref ds 0 _ (by omega) j hj]
  by_cases hl : j < ds.length
  · rw [if_pos (by omega)]; simp
  · rw [if_neg (by omega), List.getElem?_eq_none (by omega)]; rfl

theorem treeOf_canon {H : Bytes → Bytes} (hH : Hash32 H) {ds : List Bytes} (h : Pieces ds) : Canon (treeOf ds) := by
  rcases (treeOf_holds hH h).1 with e | hc
  · exfalso
    have h1 := (treeOf_holds hH h).2.2.1
    have h2 := treeOf_map h 0 (by omega)
    rw [e] at h1
    obtain ⟨d, ds', rfl⟩ := List.exists_cons_of_ne_nil h.ne
    rw [← h1] at h2
    cases h2
  · exact hc

/-! ### Checking proofs -/

theorem prove_mono {H : Bytes → Bytes} : ∀ (f : ℕ) (o : Option Bytes) (n : Node) (keys : List Nib)
    (ps : List Bytes) (v : Option Bytes), prove H f o n keys ps = .ok v →
    prove H (f + 1) o n keys ps = .ok v := by
  intro f
  induction f with
  | zero => intro o n keys ps v h; simp [prove] at h
  | succ f ih =>
    intro o n keys ps v h
    cases n with
    | nil => simp [prove] at h
    | leaf k w => simpa only [prove] using h
    | ext k n =>
      rw [prove] at h ⊢
      cases hs : strip o ps with
      | none => rw [hs] at h; cases h
      | some qs =>
        rw [hs] at h
        simp only at h ⊢
        by_cases hc : (compareKeys k keys).1 < k.length
        · rw [if_pos hc] at h; cases h
        · rw [if_neg hc] at h ⊢
          exact ih _ _ _ _ _ h
    | branch c w =>
      rw [prove] at h ⊢
      cases hs : strip o ps with
      | none => rw [hs] at h; cases h
      | some qs =>
        rw [hs] at h
        simp only at h ⊢
        cases keys with
        | nil => exact h
        | cons i ks =>
          simp only at h ⊢
          cases hc : c i with
          | nil => rw [hc] at h; cases h
          | _ => rw [hc] at h; exact ih _ _ _ _ _ h
    | hash x =>
      cases ps with
      | nil => simp only [prove] at h; cases h
      | cons b r =>
        simp only [prove] at h ⊢
        by_cases hb : H b = x
        · rw [if_pos hb] at h ⊢
          cases hd : deserialize b with
          | error e => rw [hd] at h; cases h
          | ok n => rw [hd] at h; exact ih _ _ _ _ _ h
        · rw [if_neg hb] at h; cases h

theorem prove_mono' {H : Bytes → Bytes} {f g : ℕ} (hfg : f ≤ g) {o : Option Bytes} {n : Node} {keys : List Nib}
    {ps : List Bytes} {v : Option Bytes} (h : prove H f o n keys ps = .ok v) : prove H g o n keys ps = .ok v := by
  obtain ⟨k, rfl⟩ := Nat.exists_eq_add_of_le hfg
  induction k with
  | zero => exact h
  | succ k ih => exact prove_mono _ _ _ _ _ _ (ih (by omega))

/-- A trie partly loaded from the strings in `S`, and the same trie with hashes only. -/
inductive Sim (H : Bytes → Bytes) (S : Bytes → Prop) : PNode → Node → Prop
  | nil : Sim H S .nil .nil
  | leaf (k v) : Sim H S (.leaf k v) (.leaf k v)
  | ext (k) {p n} : Sim H S p n → Sim H S (.ext k p) (.ext k n)
  | branch {c d} (v) : (∀ i, Sim H S (c i) (d i)) → Sim H S (.branch c v) (.branch d v)
  | hash (h) : Sim H S (.hash h) (.hash h)
  | loaded {b p n} : S b → deserialize b = .ok n → Sim H S p n → Sim H S (.loaded b p) (.hash (H b))

theorem sim_ofNode (H : Bytes → Bytes) (S : Bytes → Prop) (n : Node) : Sim H S (.ofNode n) n := by
  induction n with
  | nil => exact .nil
  | leaf k v => exact .leaf k v
  | ext k n ih => exact .ext k ih
  | branch c v ih => exact .branch v ih
  | hash h => exact .hash h

theorem sim_mono {H : Bytes → Bytes} {S T : Bytes → Prop} (hst : ∀ x, S x → T x) {p : PNode} {n : Node}
    (h : Sim H S p n) : Sim H T p n := by
  induction h with
  | nil => exact .nil
  | leaf k v => exact .leaf k v
  | ext k _ ih => exact .ext k ih
  | branch v _ ih => exact .branch v ih
  | hash h => exact .hash h
  | loaded h1 h2 _ ih => exact .loaded (hst _ h1) h2 ih

theorem sim_nil {H : Bytes → Bytes} {S : Bytes → Prop} {p : PNode} {n : Node} (h : Sim H S p n) :
    p = .nil ↔ n = .nil := by
  cases h <;> simp

theorem proveS_sim {H : Bytes → Bytes} {S : Bytes → Prop} (hinj : ∀ x, S x → ∀ y, S y → H x = H y → x = y) :
    ∀ (f : ℕ) (o : Option Bytes) (p : PNode) (n : Node) (keys : List Nib) (ps : List Bytes),
    Sim H S p n → (∀ x ∈ ps, S x) →
    Sim H S (proveS H f o p keys ps).1 n ∧ (proveS H f o p keys ps).2 = prove H f o n keys ps := by
  intro f
  induction f with
  | zero => intro o p n keys ps h _; exact ⟨by simpa [proveS] using h, by simp [proveS, prove]⟩
  | succ f ih =>
    intro o p n keys ps h hps
    cases h with
    | nil => exact ⟨by simp [proveS]; exact .nil, by simp [proveS, prove]⟩
    | leaf k v => exact ⟨by simp only [proveS]; exact .leaf k v, by cases o <;> simp only [proveS, prove]⟩
    | ext k h =>
      rename_i p n
      rw [proveS, prove]
      cases hs : strip o ps with
      | none => exact ⟨.ext k h, rfl⟩
      | some qs =>
        simp only
        by_cases hc : (compareKeys k keys).1 < k.length
        · rw [if_pos hc, if_pos hc]; exact ⟨.ext k h, rfl⟩
        · rw [if_neg hc, if_neg hc]
          obtain ⟨h1, h2⟩ := ih none p n (keys.drop (compareKeys k keys).1) qs h
            (fun x hx => hps x (strip_subset hs hx))
          exact ⟨.ext k h1, h2⟩
    | branch v h =>
      rename_i c d
      rw [proveS, prove]
      cases hs : strip o ps with
      | none => exact ⟨.branch v h, rfl⟩
      | some qs =>
        simp only
        cases keys with
        | nil => exact ⟨.branch v h, rfl⟩
        | cons i ks =>
          simp only
          obtain ⟨h1, h2⟩ := ih none (c i) (d i) ks qs (h i) (fun x hx => hps x (strip_subset hs hx))
          by_cases hn : c i = .nil
          · have hn' := (sim_nil (h i)).1 hn
            rw [hn, hn']
            exact ⟨.branch v h, rfl⟩
          · have hn' : d i ≠ .nil := fun e => hn ((sim_nil (h i)).2 e)
            have hsim : Sim H S (.branch (fun j => if j = i then (proveS H f none (c i) ks qs).1 else c j) v)
                (.branch d v) := by
              refine .branch v fun j => ?_
              by_cases hj : j = i
              · subst hj; simp only [if_true]; exact h1
              · simp only [if_neg hj]; exact h j
            generalize c i = ci at *
            generalize d i = di at *
            cases ci with
            | nil => exact absurd rfl hn
            | _ =>
              refine ⟨hsim, ?_⟩
              cases di with
              | nil => exact absurd rfl hn'
              | _ => exact h2
    | hash x =>
      cases ps with
      | nil => simp only [proveS, prove]; exact ⟨.hash x, trivial⟩
      | cons b r =>
        simp only [proveS, prove]
        by_cases hb : H b = x
        · rw [if_pos hb, if_pos hb]
          cases hd : deserialize b with
          | error e => exact ⟨.hash x, rfl⟩
          | ok n =>
            obtain ⟨h1, h2⟩ := ih (some b) (.ofNode n) n keys (b :: r) (sim_ofNode H S n) hps
            subst hb
            exact ⟨.loaded (hps b (by simp)) hd h1, h2⟩
        · rw [if_neg hb, if_neg hb]; exact ⟨.hash x, rfl⟩
    | loaded hb hd h =>
      rename_i b p n
      cases ps with
      | nil => simp only [proveS, prove]; exact ⟨.loaded hb hd h, trivial⟩
      | cons q r =>
        simp only [proveS, prove]
        by_cases hq : q = b
        · subst hq
          rw [if_pos rfl, if_pos rfl, hd]
          obtain ⟨h1, h2⟩ := ih (some q) p n keys (q :: r) h hps
          exact ⟨.loaded hb hd h1, h2⟩
        · rw [if_neg hq, if_neg (fun e => hq (hinj _ (hps q (by simp)) _ hb e))]
          exact ⟨.loaded hb hd h, rfl⟩

end Verif.Consensus
