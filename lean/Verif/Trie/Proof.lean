import Verif.Trie.Inj

/-!
# Proofs of membership
-/

namespace Verif.Trie
open Verif

variable {H : Bytes → Bytes} {db : DB}

/-- What a node contributes to a proof. -/
def own (H : Bytes → Bytes) (root : Bool) (t : Node) : List Bytes :=
  if hashed H root t then [ser H t] else []

/-- The nodes with a hash on the way to a key. -/
def path (H : Bytes → Bytes) : Bool → Node → List Nib → Option (List Bytes)
  | _, .nil, _ => none
  | _, .hash _, _ => none
  | root, .leaf k v, keys => if keys = k then some (own H root (.leaf k v)) else none
  | root, .ext k n, keys =>
    if k <+: keys then
      (path H false n (keys.drop k.length)).map (fun p => own H root (.ext k n) ++ p)
    else none
  | root, .branch c v, keys =>
    match keys with
    | [] => some (own H root (.branch c v))
    | i :: r => (path H false (c i) r).map (fun p => own H root (.branch c v) ++ p)

theorem path_of_find (t : Node) : ∀ root keys v, find t keys = some v → ∃ p, path H root t keys = some p := by
  induction t with
  | nil => intro _ _ _ h; cases h
  | hash _ => intro _ _ _ h; cases h
  | leaf k w =>
    intro root keys v h
    simp only [find] at h
    by_cases hk : keys = k
    · exact ⟨_, by simp only [path]; rw [if_pos hk]⟩
    · rw [if_neg hk] at h; cases h
  | ext k n ih =>
    intro root keys v h
    simp only [find] at h
    by_cases hk : k <+: keys
    · rw [if_pos hk] at h
      obtain ⟨p, hp⟩ := ih false _ v h
      exact ⟨_, by simp only [path]; rw [if_pos hk, hp]; rfl⟩
    · rw [if_neg hk] at h; cases h
  | branch c w ih =>
    intro root keys v h
    cases keys with
    | nil => exact ⟨_, rfl⟩
    | cons i r =>
      obtain ⟨p, hp⟩ := ih i false r v h
      exact ⟨_, by simp only [path]; rw [hp]; rfl⟩

theorem append_own (root : Bool) (ps : List Bytes) (n : Node) :
    (if hashed H root n then ps ++ [ser H n] else ps) = ps ++ own H root n := by
  unfold own
  cases hashed H root n <;> simp

theorem own_den {t n : Node} (h : Den H db t n) (hn : ¬ IsHash n) (root : Bool) :
    own H root n = own H root t := by
  unfold own hashed
  rw [(den_ser _ _ h).2 hn]

/-- `GetProof` collects the path. -/
def ProofOk (H : Bytes → Bytes) (db : DB) (t : Node) (root : Bool) (keys : List Nib) (ps : List Bytes)
    (r : Node × Except Err (Option (List Bytes))) : Prop :=
  r.2 = .ok ((path H root t keys).map (fun p => ps ++ p)) ∧ Den H db t r.1 ∧ ¬ IsHash r.1

theorem proof_any (hH : Hash32 H) {t : Node} (hc : Canon0 t) (hf : Fits (find t)) (root : Bool)
    (top : ∀ n keys ps f, Den H db t n → ¬ IsHash n → 2 * keys.length + 1 ≤ f →
      ProofOk H db t root keys ps (getProof H db f root n keys ps))
    (n : Node) (keys : List Nib) (ps : List Bytes) (f : Nat)
    (hn : Root H db t n) (hl : 2 * keys.length + 2 ≤ f) :
    ProofOk H db t root keys ps (getProof H db f root n keys ps) := by
  by_cases h : IsHash n
  · have hk : t ≠ .nil ∧ Known H db t n := by
      rcases hn with hn | hn
      · have := den_hash hn h
        refine ⟨?_, this.2⟩
        rintro rfl
        rw [den_nil.1 hn] at h
        exact h
      · exact hn
    have hc' := hc.resolve_left hk.1
    obtain ⟨h1, h2, h3, h4⟩ := realize_known hH hc' (bounded_of_fits t hc' hf) hk.2
    obtain ⟨f, rfl⟩ : ∃ f', f = f' + 1 := ⟨f - 1, by omega⟩
    subst h1
    simp only [getProof, h2]
    exact top _ keys ps f h3 h4 (by omega)
  · exact top n keys ps f (hn.resolve_right (fun hk => h (known_isHash hk.2))) h (by omega)

theorem proof_top (hH : Hash32 H) (t : Node) : ∀ root, Canon0 t → Fits (find t) →
    ∀ n keys ps f, Den H db t n → ¬ IsHash n → 2 * keys.length + 1 ≤ f →
      ProofOk H db t root keys ps (getProof H db f root n keys ps) := by
  induction t with
  | nil =>
    intro root _ _ n keys ps f hd _ hl
    obtain ⟨f, rfl⟩ : ∃ f', f = f' + 1 := ⟨f - 1, by omega⟩
    rw [den_nil.1 hd]
    exact ⟨rfl, rfl, by simp [getProof, IsHash]⟩
  | hash _ => rintro root (h | h) <;> cases h
  | leaf k v =>
    intro root _ _ n keys ps f hd hn hl
    obtain ⟨f, rfl⟩ : ∃ f', f = f' + 1 := ⟨f - 1, by omega⟩
    obtain rfl := den_leaf hd hn
    simp only [getProof, append_own]
    by_cases h : keys = k
    · rw [if_pos ((compareKeys_match _ _).2 h.symm)]
      exact ⟨by simp only [path]; rw [if_pos h]; rfl, hd, hn⟩
    · rw [if_neg (fun h' => h ((compareKeys_match _ _).1 h').symm)]
      exact ⟨by simp only [path]; rw [if_neg h]; rfl, hd, hn⟩
  | ext k t ih =>
    intro root hc hf n keys ps f hd hn hl
    have hc := hc.resolve_left (by simp)
    obtain ⟨f, rfl⟩ : ∃ f', f = f' + 1 := ⟨f - 1, by omega⟩
    have ho := own_den hd hn root
    obtain ⟨m, rfl, hm⟩ := den_ext hd hn
    simp only [getProof, append_own, ho]
    rw [compareKeys_comm]
    by_cases h : k <+: keys
    · rw [if_neg (by rw [compareKeys_lt]; exact fun h' => h' h), compareKeys_prefix _ _ h]
      have hk := List.length_pos_iff.2 hc.1
      have hle := h.length_le
      obtain ⟨h1, h2, h3⟩ := proof_any hH (Or.inr hc.2.2) (fits_next hf) false
        (ih false (Or.inr hc.2.2) (fits_next hf)) m (keys.drop k.length) (ps ++ own H root (.ext k t)) f
        (Or.inl hm) (by simp only [List.length_drop]; omega)
      refine ⟨?_, Or.inl ⟨_, rfl, h2⟩, by simp [IsHash]⟩
      simp only
      rw [h1]
      simp only [path]
      rw [if_pos h]
      simp [Option.map_map, Function.comp_def]
    · rw [if_pos ((compareKeys_lt _ _).2 h)]
      exact ⟨by simp only [path]; rw [if_neg h]; rfl, hd, hn⟩
  | branch c v ih =>
    intro root hc hf n keys ps f hd hn hl
    have hc := hc.resolve_left (by simp)
    obtain ⟨f, rfl⟩ : ∃ f', f = f' + 1 := ⟨f - 1, by omega⟩
    have ho := own_den hd hn root
    obtain ⟨d, rfl, hm⟩ := den_branch hd hn
    cases keys with
    | nil =>
      simp only [getProof, append_own, ho]
      exact ⟨rfl, hd, hn⟩
    | cons i r =>
      simp only [List.length_cons] at hl
      simp only [getProof, append_own, ho]
      by_cases h0 : c i = .nil
      · have h0' := (den_ne_nil (hm i)).2 h0
        rw [h0']
        refine ⟨?_, hd, hn⟩
        simp only [path, h0]
        rfl
      · have h0' : d i ≠ .nil := fun h => h0 ((den_ne_nil (hm i)).1 h)
        obtain ⟨h1, h2, h3⟩ := proof_any hH (hc.1 i) (fits_child hf i) false
          (ih i false (hc.1 i) (fits_child hf i)) (d i) r (ps ++ own H root (.branch c v)) f
          (Or.inl (hm i)) (by omega)
        have key : ProofOk H db (.branch c v) root (i :: r) ps
            (.branch (put d i (getProof H db f false (d i) r (ps ++ own H root (.branch c v))).1) v,
              (getProof H db f false (d i) r (ps ++ own H root (.branch c v))).2) := by
          refine ⟨?_, Or.inl ⟨_, rfl, fun j => ?_⟩, by simp [IsHash]⟩
          · simp only
            rw [h1]
            simp only [path]
            simp [Option.map_map, Function.comp_def]
          · unfold put
            by_cases hj : j = i
            · rw [if_pos hj, hj]; exact h2
            · rw [if_neg hj]; exact hm j
        cases hx : d i with
        | nil => exact absurd hx h0'
        | _ => rw [hx] at key; exact key

theorem proof_spec (hH : Hash32 H) {t n : Node} (hc : Canon0 t) (hf : Fits (find t))
    (hn : Root H db t n) (keys : List Nib) (ps : List Bytes) (f : Nat) (hl : 2 * keys.length + 2 ≤ f) :
    ProofOk H db t true keys ps (getProof H db f true n keys ps) :=
  proof_any hH hc hf true (proof_top hH t true hc hf) n keys ps f hn hl

/-! ## Checking a proof -/

/-- The node a proof is checked against: its own serialization is known if it has a hash. -/
def ownOpt (H : Bytes → Bytes) (root : Bool) (t : Node) : Option Bytes :=
  if hashed H root t then some (ser H t) else none

theorem deserialize_canon (hH : Hash32 H) {t : Node} (hc : Canon t) (hb : Bounded t) :
    deserialize (ser H t) = .ok (shallow H t) :=
  deser_ser H hH t hb (canon_not_nil hc) (canon_not_hash hc) _ (by omega)

theorem strip_own (root : Bool) (t : Node) (p : List Bytes) :
    strip (ownOpt H root t) (own H root t ++ p) = some p := by
  unfold ownOpt own strip
  cases hashed H root t <;> simp

/-- Checking from the link of a node, given checking from the node. -/
theorem prove_link (hH : Hash32 H) {t : Node} (hc : Canon t) (hb : Bounded t) {keys : List Nib} {p : List Bytes}
    {v : Bytes} (hp : path H false t keys = some p)
    (top : ∀ f, 2 * keys.length + 1 ≤ f → prove H f (ownOpt H false t) (shallow H t) keys p = .ok (some v))
    (f : Nat) (hl : 2 * keys.length + 2 ≤ f) :
    prove H f none (stub H t (ser H t) (shallow H t)) keys p = .ok (some v) := by
  rw [stub_of hc]
  by_cases h : (ser H t).length > 32
  · rw [if_pos h]
    have hh : hashed H false t = true := by simp [hashed, h]
    have ho : own H false t = [ser H t] := by simp [own, hh]
    have hoo : ownOpt H false t = some (ser H t) := by simp [ownOpt, hh]
    obtain ⟨q, rfl⟩ : ∃ q, p = ser H t :: q := by
      cases t with
      | nil => exact hc.elim
      | hash _ => exact hc.elim
      | leaf k w =>
        simp only [path] at hp
        split_ifs at hp
        rw [ho] at hp; injection hp with hp; exact ⟨[], hp.symm⟩
      | ext k n =>
        simp only [path] at hp
        split_ifs at hp
        rw [ho] at hp
        obtain ⟨q, _, hq⟩ := Option.map_eq_some_iff.1 hp
        exact ⟨q, hq.symm⟩
      | branch c w =>
        cases keys with
        | nil => simp only [path] at hp; rw [ho] at hp; injection hp with hp; exact ⟨[], hp.symm⟩
        | cons i r =>
          simp only [path] at hp
          rw [ho] at hp
          obtain ⟨q, _, hq⟩ := Option.map_eq_some_iff.1 hp
          exact ⟨q, hq.symm⟩
    obtain ⟨f, rfl⟩ : ∃ f', f = f' + 1 := ⟨f - 1, by omega⟩
    simp only [prove]
    simp only [if_true]
    rw [deserialize_canon hH hc hb]
    have := top f (by omega)
    rw [hoo] at this
    exact this
  · rw [if_neg h]
    have hoo : ownOpt H false t = none := by simp [ownOpt, hashed, h]
    have := top f (by omega)
    rw [hoo] at this
    exact this

theorem prove_complete (hH : Hash32 H) (t : Node) : ∀ root keys p v, Canon t → Bounded t →
    path H root t keys = some p → find t keys = some v → ∀ f, 2 * keys.length + 1 ≤ f →
    prove H f (ownOpt H root t) (shallow H t) keys p = .ok (some v) := by
  induction t with
  | nil => intro _ _ _ _ h; exact h.elim
  | hash _ => intro _ _ _ _ h; exact h.elim
  | leaf k w =>
    intro root keys p v _ _ hp hv f hf
    obtain ⟨f, rfl⟩ : ∃ f', f = f' + 1 := ⟨f - 1, by omega⟩
    simp only [find] at hv
    simp only [path] at hp
    by_cases hk : keys = k
    · rw [if_pos hk] at hp hv
      cases hp; cases hv
      have hm : (compareKeys k keys).2 = true := (compareKeys_match _ _).2 hk.symm
      simp only [shallow, prove, ownOpt, own]
      cases hashed H root (.leaf k w)
      · simp [hm]
      · simp [hm]
    · rw [if_neg hk] at hv; cases hv
  | ext k n ih =>
    intro root keys p v hc hb hp hv f hf
    obtain ⟨f, rfl⟩ : ∃ f', f = f' + 1 := ⟨f - 1, by omega⟩
    simp only [find] at hv
    simp only [path] at hp
    by_cases hk : k <+: keys
    · rw [if_pos hk] at hp hv
      obtain ⟨q, hq, rfl⟩ := Option.map_eq_some_iff.1 hp
      have hl := List.length_pos_iff.2 hc.1
      have hle := hk.length_le
      have := prove_link hH hc.2.2 hb.2 hq (ih false _ q v hc.2.2 hb.2 hq hv) f
        (by simp only [List.length_drop]; omega)
      simp only [shallow, prove, strip_own]
      rw [compareKeys_comm, if_neg (by rw [compareKeys_lt]; exact fun h' => h' hk),
        compareKeys_prefix _ _ hk]
      exact this
    · rw [if_neg hk] at hv; cases hv
  | branch c w ih =>
    intro root keys p v hc hb hp hv f hf
    obtain ⟨f, rfl⟩ : ∃ f', f = f' + 1 := ⟨f - 1, by omega⟩
    cases keys with
    | nil =>
      simp only [find] at hv
      simp only [path] at hp
      cases hp
      have := strip_own (H := H) root (.branch c w) []
      rw [List.append_nil] at this
      simp only [shallow, prove, this]
      rw [hv]
    | cons i r =>
      simp only [List.length_cons] at hf
      simp only [find] at hv
      simp only [path] at hp
      obtain ⟨q, hq, rfl⟩ := Option.map_eq_some_iff.1 hp
      have hci : Canon (c i) := by
        rcases hc.1 i with h | h
        · rw [h] at hv; cases hv
        · exact h
      have := prove_link hH hci (hb.1 i) hq (ih i false _ q v hci (hb.1 i) hq hv) f (by omega)
      simp only [shallow, prove, strip_own]
      cases hx : stub H (c i) (ser H (c i)) (shallow H (c i)) with
      | nil =>
        exfalso
        rw [stub_of hci] at hx
        split_ifs at hx
        exact shallow_nil hci hx
      | _ => rw [hx] at this; exact this

/-- Two different strings with the same hash: one in the proof, the other a node. -/
def PColl (H : Bytes → Bytes) (ps : List Bytes) (l : List (Bytes × Bytes)) : Prop :=
  ∃ p ∈ ps, ∃ y ∈ l, p ≠ y.2 ∧ H p = H y.2

theorem PColl.mono {ps qs : List Bytes} {l m : List (Bytes × Bytes)} (h : PColl H ps l) (h1 : ps ⊆ qs)
    (h2 : l ⊆ m) : PColl H qs m := by
  obtain ⟨x, hx, y, hy, h⟩ := h
  exact ⟨x, h1 hx, y, h2 hy, h⟩

theorem strip_subset {o : Option Bytes} {ps qs : List Bytes}
    (h : strip o ps = some qs) : qs ⊆ ps := by
  unfold strip at h
  cases o with
  | none => cases h; exact List.Subset.refl _
  | some s =>
    cases ps with
    | nil => cases h
    | cons q r =>
      simp only at h
      split_ifs at h
      cases h
      exact List.subset_cons_self _ _

theorem prove_hash_sound (hH : Hash32 H) {t : Node} (hc : Canon t) (hb : Bounded t) {keys : List Nib}
    {ps : List Bytes} {r : Option Bytes} (root : Bool) (hr : (ser H t).length > 32 ∨ root = true)
    (top : ∀ f o, prove H f o (shallow H t) keys ps = .ok r →
      r = find t keys ∨ PColl H ps (writes H root t)) (f : Nat) (o : Option Bytes)
    (h : prove H f o (.hash (H (ser H t))) keys ps = .ok r) :
    r = find t keys ∨ PColl H ps (writes H root t) := by
  cases f with
  | zero => simp [prove] at h
  | succ f =>
    cases ps with
    | nil => simp [prove] at h
    | cons b ps =>
      simp only [prove] at h
      by_cases hb' : H b = H (ser H t)
      · rw [if_pos hb'] at h
        by_cases he : b = ser H t
        · rw [he, deserialize_canon hH hc hb] at h
          rw [he] at top ⊢
          exact top f _ h
        · exact Or.inr ⟨b, by simp, _, writes_self hc root hr, he, hb'⟩
      · rw [if_neg hb'] at h; cases h

theorem prove_sound (hH : Hash32 H) (t : Node) : ∀ root keys ps r, Canon t → Bounded t →
    ∀ f o, prove H f o (shallow H t) keys ps = .ok r →
      r = find t keys ∨ PColl H ps (writes H root t) := by
  have link : ∀ t : Node, (∀ root keys ps r, Canon t → Bounded t →
      ∀ f o, prove H f o (shallow H t) keys ps = .ok r →
        r = find t keys ∨ PColl H ps (writes H root t)) → Canon t → Bounded t →
      ∀ keys ps r f, prove H f none (stub H t (ser H t) (shallow H t)) keys ps = .ok r →
        r = find t keys ∨ PColl H ps (writes H false t) := by
    intro t ih hc hb keys ps r f h
    rw [stub_of hc] at h
    by_cases hl : (ser H t).length > 32
    · rw [if_pos hl] at h
      exact prove_hash_sound hH hc hb false (Or.inl hl) (ih false keys ps r hc hb) f none h
    · rw [if_neg hl] at h
      exact ih false keys ps r hc hb f none h
  induction t with
  | nil => intro _ _ _ _ h; exact h.elim
  | hash _ => intro _ _ _ _ h; exact h.elim
  | leaf k w =>
    intro root keys ps r _ _ f o h
    left
    cases f with
    | zero => simp [prove] at h
    | succ f =>
      have hm : (compareKeys k keys).2 = true → r = some w → r = find (.leaf k w) keys := by
        intro hm hr
        have := (compareKeys_match _ _).1 hm
        subst this
        simp [find, hr]
      cases o with
      | none =>
        simp only [shallow, prove] at h
        split_ifs at h with h1
        cases h
        exact hm h1 rfl
      | some s =>
        simp only [shallow, prove] at h
        split_ifs at h with h1 h2
        cases h
        exact hm h2 rfl
  | ext k n ih =>
    intro root keys ps r hc hb f o h
    cases f with
    | zero => simp [prove] at h
    | succ f =>
      simp only [shallow, prove] at h
      split at h
      · cases h
      · rename_i qs hq
        have hs := strip_subset hq
        rw [compareKeys_comm] at h
        by_cases hk : k <+: keys
        · rw [if_neg (by rw [compareKeys_lt]; exact fun h' => h' hk), compareKeys_prefix _ _ hk] at h
          rcases link n ih hc.2.2 hb.2 _ _ _ f h with h | h
          · left; simp only [find]; rw [if_pos hk]; exact h
          · exact Or.inr (h.mono hs (writes_ext root k n))
        · rw [if_pos ((compareKeys_lt _ _).2 hk)] at h
          cases h
  | branch c w ih =>
    intro root keys ps r hc hb f o h
    cases f with
    | zero => simp [prove] at h
    | succ f =>
      simp only [shallow, prove] at h
      split at h
      · cases h
      · rename_i qs hq
        have hs := strip_subset hq
        cases keys with
        | nil => left; simp only at h; injection h with h; simp only [find, h]
        | cons i ks =>
          simp only at h
          rcases hc.1 i with h0 | hci
          · rw [h0] at h
            simp only [stub] at h
            cases h
          · have hx' : stub H (c i) (ser H (c i)) (shallow H (c i)) ≠ .nil := by
              intro hx
              rw [stub_of hci] at hx
              split_ifs at hx
              exact shallow_nil hci hx
            have h' : prove H f none (stub H (c i) (ser H (c i)) (shallow H (c i))) ks qs = .ok r := by
              cases hx : stub H (c i) (ser H (c i)) (shallow H (c i)) with
              | nil => exact absurd hx hx'
              | _ => rw [hx] at h; exact h
            rcases link (c i) (ih i) hci (hb.1 i) _ _ _ f h' with h | h
            · exact Or.inl h
            · exact Or.inr (h.mono hs (writes_branch root c w i))

end Verif.Trie
