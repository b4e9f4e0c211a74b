import Verif.BtpMerkle.Model

/-!
# Merkle trees of BTP (C72): proofs
-/

namespace Verif.BtpMerkle

open Verif

/-- One level up. -/
def pairUp (h : Bytes → Bytes) : List Bytes → List Bytes
  | a :: b :: r => h (a ++ b) :: pairUp h r
  | [a] => [a]
  | [] => []

theorem pairUp_length (h : Bytes → Bytes) : ∀ ls : List Bytes, (pairUp h ls).length = (ls.length + 1) / 2
  | a :: b :: r => by simp only [pairUp, List.length_cons, pairUp_length h r]; omega
  | [a] => by simp [pairUp]
  | [] => by simp [pairUp]

/-- All have 32 bytes. -/
def Full (ls : List Bytes) : Prop := ∀ a ∈ ls, a.length = 32

theorem Full.pairUp {h : Bytes → Bytes} (hh : ∀ b, (h b).length = 32) : ∀ {ls : List Bytes}, Full ls → Full (pairUp h ls)
  | a :: b :: r, hf => by
    intro x hx
    rcases List.mem_cons.1 hx with rfl | hx
    · exact hh _
    · exact Full.pairUp hh (fun y hy => hf y (by simp [hy])) x hx
  | [a], hf => hf
  | [], hf => hf

theorem flatten_length : ∀ {ls : List Bytes}, Full ls → ls.flatten.length = 32 * ls.length
  | [], _ => rfl
  | a :: r, hf => by
    rw [List.flatten_cons, List.length_append, hf a (by simp), flatten_length (fun y hy => hf y (by simp [hy])), List.length_cons]
    omega

theorem write_eq (A M : Bytes) (x : Bytes) (j : ℕ) (hj : A.length = j) : write (A ++ M) j x = A ++ x ++ M.drop x.length := by
  unfold write
  rw [List.take_left' hj, List.drop_append, ← hj, List.drop_of_length_le (by omega)]
  simp

theorem slice_eq (A B C : Bytes) (i n : ℕ) (hi : A.length = i) (hn : B.length = n) : slice (A ++ (B ++ C)) i n = B := by
  unfold slice
  rw [List.drop_left' hi, List.take_left' hn]

theorem rootPass_spec {h : Bytes → Bytes} (hh : ∀ b, (h b).length = 32) (n : ℕ) : ∀ (ls : List Bytes), ls.length = n → Full ls → ∀ (A M : Bytes) (i j len : ℕ), A.length = j →
    i = j + M.length → len = i + 32 * ls.length →
    (rootPass h len (A ++ M ++ ls.flatten) i j).1.take (rootPass h len (A ++ M ++ ls.flatten) i j).2 = A ++ (pairUp h ls).flatten := by
  induction n using Nat.strong_induction_on with
  | _ n ih =>
    intro ls hn hf A M i j len hA hi hlen
    match ls with
    | [] =>
      rw [rootPass, if_neg (by simp at hlen; omega)]
      simp [pairUp, ← hA]
    | [a] =>
      have ha := hf a (by simp)
      have e1 : i < len := by simp at hlen; omega
      have e2 : ¬ i + 64 ≤ len := by simp at hlen; omega
      rw [rootPass, if_pos e1, if_neg e2, rootPass, if_neg (by simp at hlen; omega)]
      dsimp only
      have hs : slice (A ++ M ++ [a].flatten) i 32 = a := by
        have := slice_eq (A ++ M) a [] i 32 (by rw [List.length_append]; omega) ha
        simpa using this
      rw [hs, List.append_assoc, write_eq A _ a j hA, List.take_left' (by rw [List.length_append]; omega)]
      simp [pairUp]
    | a :: b :: r =>
      have ha := hf a (by simp)
      have hb := hf b (by simp)
      simp only [List.length_cons] at hlen hn
      rw [rootPass, if_pos (by omega), if_pos (by omega)]
      have hs : slice (A ++ M ++ (a :: b :: r).flatten) i 64 = a ++ b := by
        have := slice_eq (A ++ M) (a ++ b) r.flatten i 64 (by rw [List.length_append]; omega) (by rw [List.length_append]; omega)
        simpa [List.append_assoc] using this
      rw [hs, List.append_assoc, write_eq A _ (h (a ++ b)) j hA, hh]
      have hd : List.drop 32 (M ++ (a :: b :: r).flatten) = List.drop 32 (M ++ (a ++ b)) ++ r.flatten := by
        rw [List.flatten_cons, List.flatten_cons, ← List.append_assoc a, ← List.append_assoc M, List.drop_append_of_le_length (by simp; omega)]
      rw [hd, ← List.append_assoc]
      have := ih r.length (by omega) r rfl (fun y hy => hf y (by simp [hy])) (A ++ h (a ++ b)) (List.drop 32 (M ++ (a ++ b))) (i + 64) (j + 32) len
        (by rw [List.length_append, hh]; omega) (by simp only [List.length_drop, List.length_append]; omega) (by omega)
      rw [this]
      simp [pairUp]

theorem rootLoop_spec {h : Bytes → Bytes} (hh : ∀ b, (h b).length = 32) {ls : List Bytes} (hf : Full ls) (h2 : 2 ≤ ls.length) :
    rootLoop h ls.flatten ls.flatten.length = rootLoop h (pairUp h ls).flatten (pairUp h ls).flatten.length := by
  have hl := flatten_length hf
  rw [rootLoop, if_pos (by omega)]
  have k := rootPass_spec hh _ ls rfl hf [] [] 0 0 ls.flatten.length rfl rfl (by omega)
  simp only [List.nil_append] at k
  rw [k, rootPass_snd]
  congr 1
  rw [flatten_length (hf.pairUp hh), pairUp_length, hl]
  omega

/-! ## Levels and trees -/

theorem pairUp_split (h : Bytes → Bytes) : ∀ (L R ls : List Bytes), pairUp h ls = L ++ R → R ≠ [] → ∃ l1 l2, ls = l1 ++ l2 ∧ l1.length = 2 * L.length ∧ pairUp h l1 = L ∧ pairUp h l2 = R
  | [], R, ls, he, _ => ⟨[], ls, rfl, rfl, rfl, he⟩
  | x :: L, R, ls, he, hR => by
    match ls with
    | [] => cases he
    | [a] =>
      exfalso
      rw [pairUp, List.cons_append, List.cons.injEq] at he
      exact hR (List.append_eq_nil_iff.1 he.2.symm).2
    | a :: b :: r =>
      rw [pairUp, List.cons_append, List.cons.injEq] at he
      obtain ⟨l1, l2, e1, e2, e3, e4⟩ := pairUp_split h L R r he.2 hR
      refine ⟨a :: b :: l1, l2, by rw [e1]; rfl, by simp only [List.length_cons, e2]; omega, by rw [pairUp, e3, he.1], e4⟩

theorem tree_up {h : Bytes → Bytes} {us : List Bytes} {r : Bytes} {s : List Bytes} (ht : Tree h us r s) : ∀ {ls : List Bytes}, pairUp h ls = us → ∃ t, Tree h ls r t := by
  induction ht with
  | leaf a =>
    intro ls he
    match ls with
    | [] => cases he
    | [b] => rw [pairUp, List.cons.injEq] at he; obtain rfl := he.1; exact ⟨_, Tree.leaf b⟩
    | b :: c :: r =>
      rw [pairUp, List.cons.injEq] at he
      have hr : r = [] := by
        have := congrArg List.length he.2
        rw [pairUp_length] at this
        exact List.length_eq_zero_iff.1 (by simp at this; omega)
      subst hr
      rw [← he.1]
      exact ⟨_, Tree.node 0 [b] [c] b c [] [] rfl (by simp) (by simp) (Tree.leaf b) (Tree.leaf c)⟩
  | node e l r x y s t hl hr0 hr h1 h2 ih1 ih2 =>
    intro ls he
    obtain ⟨l1, l2, e1, e2, e3, e4⟩ := pairUp_split h l r ls he (by rintro rfl; simp at hr0)
    obtain ⟨s', k1⟩ := ih1 e3
    obtain ⟨t', k2⟩ := ih2 e4
    have hle := congrArg List.length e4
    rw [pairUp_length] at hle
    rw [e1]
    exact ⟨_, Tree.node (e + 1) l1 l2 x y s' t' (by rw [e2, hl, pow_succ]; omega) (by omega) (by rw [pow_succ]; omega) k1 k2⟩

theorem rootLoop_tree {h : Bytes → Bytes} (hh : ∀ b, (h b).length = 32) (n : ℕ) : ∀ {ls : List Bytes}, ls.length = n → 0 < n → Full ls →
    ∃ s, Tree h ls (rootLoop h ls.flatten ls.flatten.length) s := by
  induction n using Nat.strong_induction_on with
  | _ n ih =>
    intro ls hn h0 hf
    by_cases h2 : 2 ≤ ls.length
    · rw [rootLoop_spec hh hf h2]
      have hp := pairUp_length h ls
      obtain ⟨s, k⟩ := ih _ (by omega) rfl (by omega) (hf.pairUp hh)
      exact tree_up k rfl
    · obtain ⟨a, rfl⟩ := List.length_eq_one_iff.1 (by omega : ls.length = 1)
      have ha := hf a (by simp)
      rw [rootLoop, if_neg (by simp [ha])]
      have : List.take 32 [a].flatten = a := by rw [List.flatten_cons, List.flatten_nil, List.append_nil, List.take_of_length_le (by omega)]
      rw [this]
      exact ⟨_, Tree.leaf a⟩

/-- **C72.** `MerkleRoot` gives the root of the Merkle tree, although it overwrites its buffer. -/
theorem C72_root {h : Bytes → Bytes} (hh : ∀ b, (h b).length = 32) (ls : List Bytes) (hf : ∀ a ∈ ls, a.length = 32) :
    match merkleRoot h ls with
    | none => ls = []
    | some r => ∃ s, Tree h ls r s := by
  match ls with
  | [] => rfl
  | [a] => exact ⟨_, Tree.leaf a⟩
  | a :: b :: r => exact rootLoop_tree hh _ rfl (by simp) hf

/-! ## Proofs -/

/-- The node of one level. -/
def nodeOf (ls : List Bytes) (k : ℕ) : Node :=
  if k % 2 = 1 then ⟨.left, ls[k - 1]?⟩ else ⟨.right, ls[k + 1]?⟩

theorem proofPass_done (h : Bytes → Bytes) (len : ℕ) (buf : Bytes) (i j idx : ℕ) (proof : List Node) (hi : idx < i) :
    (proofPass h len buf i j idx proof).2.2 = (idx, proof) := by
  induction buf, i, j using rootPass.induct (h := h) (len := len) with
  | case1 buf i j h1 h2 ih => rw [proofPass, if_pos h1, if_pos h2, if_neg (by omega), if_neg (by omega), ih (by omega)]
  | case2 buf i j h1 h2 ih => rw [proofPass, if_pos h1, if_neg h2, if_neg (by omega), ih (by omega)]
  | case3 buf i j h1 => rw [proofPass, if_neg h1]

theorem nodeOf_add (a b : Bytes) (r : List Bytes) (k : ℕ) : nodeOf (a :: b :: r) (k + 2) = nodeOf r k := by
  unfold nodeOf
  rw [show (k + 2) % 2 = k % 2 by omega]
  by_cases hk : k % 2 = 1
  · rw [if_pos hk, if_pos hk]
    obtain ⟨m, rfl⟩ : ∃ m, k = m + 1 := ⟨k - 1, by omega⟩
    simp
  · rw [if_neg hk, if_neg hk]; simp

theorem proofPass_spec {h : Bytes → Bytes} (hh : ∀ b, (h b).length = 32) (n : ℕ) : ∀ (ls : List Bytes), ls.length = n → Full ls → ∀ (A M : Bytes) (i j len k : ℕ) (proof : List Node), A.length = j →
    i = j + M.length → len = i + 32 * ls.length → k < ls.length →
    (proofPass h len (A ++ M ++ ls.flatten) i j (i + 32 * k) proof).2.2 = (j + 32 * (k / 2), proof ++ [nodeOf ls k]) := by
  induction n using Nat.strong_induction_on with
  | _ n ih =>
    intro ls hn hf A M i j len k proof hA hi hlen hk
    match ls with
    | [] => simp at hk
    | [a] =>
      have hk0 : k = 0 := by simp at hk; omega
      subst hk0
      have e1 : i < len := by simp at hlen; omega
      have e2 : ¬ i + 64 ≤ len := by simp at hlen; omega
      rw [proofPass, if_pos e1, if_neg e2, if_pos (by omega), proofPass_done _ _ _ _ _ _ _ (by omega)]
      simp [nodeOf]
    | a :: b :: r =>
      have ha := hf a (by simp)
      have hb := hf b (by simp)
      simp only [List.length_cons] at hlen hn hk
      rw [proofPass, if_pos (by omega), if_pos (by omega)]
      by_cases h0 : k = 0
      · subst h0
        rw [if_pos (by omega), proofPass_done _ _ _ _ _ _ _ (by omega)]
        have hs : slice (A ++ M ++ (a :: b :: r).flatten) (i + 32) 32 = b := by
          have := slice_eq (A ++ M ++ a) b r.flatten (i + 32) 32 (by simp only [List.length_append]; omega) hb
          simpa [List.append_assoc] using this
        rw [hs]
        simp [nodeOf]
      · rw [if_neg (by omega)]
        by_cases h1 : k = 1
        · subst h1
          rw [if_pos (by omega), proofPass_done _ _ _ _ _ _ _ (by omega)]
          have hs : slice (A ++ M ++ (a :: b :: r).flatten) i 32 = a := by
            have := slice_eq (A ++ M) a (b ++ r.flatten) i 32 (by simp only [List.length_append]; omega) ha
            simpa [List.append_assoc] using this
          rw [hs]
          simp [nodeOf]
        · rw [if_neg (by omega)]
          have hs : slice (A ++ M ++ (a :: b :: r).flatten) i 64 = a ++ b := by
            have := slice_eq (A ++ M) (a ++ b) r.flatten i 64 (by rw [List.length_append]; omega) (by rw [List.length_append]; omega)
            simpa [List.append_assoc] using this
          rw [hs, List.append_assoc, write_eq A _ (h (a ++ b)) j hA, hh]
          have hd : List.drop 32 (M ++ (a :: b :: r).flatten) = List.drop 32 (M ++ (a ++ b)) ++ r.flatten := by
            rw [List.flatten_cons, List.flatten_cons, ← List.append_assoc a, ← List.append_assoc M, List.drop_append_of_le_length (by simp; omega)]
          rw [hd, ← List.append_assoc]
          obtain ⟨m, rfl⟩ : ∃ m, k = m + 2 := ⟨k - 2, by omega⟩
          have := ih r.length (by omega) r rfl (fun y hy => hf y (by simp [hy])) (A ++ h (a ++ b)) (List.drop 32 (M ++ (a ++ b))) (i + 64) (j + 32) len m proof
            (by rw [List.length_append, hh]; omega) (by simp only [List.length_drop, List.length_append]; omega) (by omega) (by omega)
          rw [show i + 32 * (m + 2) = i + 64 + 32 * m by omega, this, nodeOf_add]
          congr 1
          omega

theorem proofLoop_spec {h : Bytes → Bytes} (hh : ∀ b, (h b).length = 32) {ls : List Bytes} (hf : Full ls) (h2 : 2 ≤ ls.length) (k : ℕ) (hk : k < ls.length) (proof : List Node) :
    proofLoop h ls.flatten ls.flatten.length (32 * k) proof = proofLoop h (pairUp h ls).flatten (pairUp h ls).flatten.length (32 * (k / 2)) (proof ++ [nodeOf ls k]) := by
  have hl := flatten_length hf
  rw [proofLoop, if_pos (by omega)]
  have k1 := rootPass_spec hh _ ls rfl hf [] [] 0 0 ls.flatten.length rfl rfl (by omega)
  have k2 := proofPass_spec hh _ ls rfl hf [] [] 0 0 ls.flatten.length k proof rfl rfl (by omega) hk
  simp only [List.nil_append, Nat.zero_add] at k1 k2
  rw [(proofPass_buf ..).1, (proofPass_buf ..).2, k1, k2, rootPass_snd]
  dsimp only
  congr 1
  rw [flatten_length (hf.pairUp hh), pairUp_length, hl]
  omega

theorem pairUp_get (h : Bytes → Bytes) : ∀ (ls : List Bytes) (k : ℕ) (x : Bytes), ls[k]? = some x → (pairUp h ls)[k / 2]? = some (climb h x [nodeOf ls k])
  | [], k, x, hx => by simp at hx
  | [a], 0, x, hx => by simp [pairUp, nodeOf, climb] at hx ⊢; exact hx
  | [a], k + 1, x, hx => by simp at hx
  | a :: b :: r, 0, x, hx => by simp at hx; simp [pairUp, nodeOf, climb, hx]
  | a :: b :: r, 1, x, hx => by simp at hx; simp [pairUp, nodeOf, climb, hx]
  | a :: b :: r, k + 2, x, hx => by
    rw [nodeOf_add, show (k + 2) / 2 = k / 2 + 1 by omega, pairUp, List.getElem?_cons_succ]
    exact pairUp_get h r k x (by simpa using hx)

theorem climb_append (h : Bytes → Bytes) : ∀ (p q : List Node) (x : Bytes), climb h x (p ++ q) = climb h (climb h x p) q
  | [], q, x => rfl
  | ⟨d, none⟩ :: p, q, x => by rw [List.cons_append, climb, climb]; exact climb_append h p q x
  | ⟨.left, some v⟩ :: p, q, x => by rw [List.cons_append, climb, climb]; exact climb_append h p q _
  | ⟨.right, some v⟩ :: p, q, x => by rw [List.cons_append, climb, climb]; exact climb_append h p q _

theorem dirs_append (p q : List Node) : dirs (p ++ q) = dirs p ++ dirs q := by simp [dirs]

theorem dirs_nodeOf (ls : List Bytes) (k : ℕ) (hk : k < ls.length) : dirs [nodeOf ls k] = if k % 2 = 1 then [.left] else if k + 1 < ls.length then [.right] else [] := by
  unfold nodeOf dirs
  by_cases h1 : k % 2 = 1
  · rw [if_pos h1, if_pos h1, List.getElem?_eq_getElem (by omega)]; rfl
  · rw [if_neg h1, if_neg h1]
    by_cases h2 : k + 1 < ls.length
    · rw [if_pos h2, List.getElem?_eq_getElem h2]; rfl
    · rw [if_neg h2, List.getElem?_eq_none (by omega)]; rfl

theorem proofLoop_climb {h : Bytes → Bytes} (hh : ∀ b, (h b).length = 32) (n : ℕ) : ∀ {ls : List Bytes}, ls.length = n → Full ls → ∀ (k : ℕ) (x : Bytes), ls[k]? = some x → ∀ proof : List Node,
    ∃ p, proofLoop h ls.flatten ls.flatten.length (32 * k) proof = proof ++ p ∧ dirs p = path ls.length k ∧ climb h x p = rootLoop h ls.flatten ls.flatten.length := by
  induction n using Nat.strong_induction_on with
  | _ n ih =>
    intro ls hn hf k x hx proof
    obtain ⟨hk, hx'⟩ := List.getElem?_eq_some_iff.1 hx
    by_cases h2 : 2 ≤ ls.length
    · have hp := pairUp_length h ls
      obtain ⟨p, e1, e2, e3⟩ := ih _ (by omega) rfl (hf.pairUp hh) (k / 2) _ (pairUp_get h ls k x hx) (proof ++ [nodeOf ls k])
      refine ⟨nodeOf ls k :: p, ?_, ?_, ?_⟩
      · rw [proofLoop_spec hh hf h2 k hk, e1]; simp
      · rw [← List.singleton_append, dirs_append, dirs_nodeOf ls k hk, e2, hp]
        conv_rhs => rw [path, if_neg (by omega)]
      · rw [← List.singleton_append, climb_append, e3, rootLoop_spec hh hf h2]
    · obtain ⟨a, rfl⟩ := List.length_eq_one_iff.1 (by omega : ls.length = 1)
      have ha := hf a (by simp)
      have hk0 : k = 0 := by simp at hk; omega
      subst hk0
      refine ⟨[], ?_, ?_, ?_⟩
      · rw [proofLoop, if_neg (by simp [ha])]; simp
      · rw [path, if_pos (by simp)]; rfl
      · rw [rootLoop, if_neg (by simp [ha])]
        simp at hx
        rw [List.flatten_cons, List.flatten_nil, List.append_nil, List.take_of_length_le (by omega), climb, hx]

/-- **C72.** The proof of any leaf leads to the root, along the path that the number of leaves tells. -/
theorem C72_proof {h : Bytes → Bytes} (hh : ∀ b, (h b).length = 32) (ls : List Bytes) (hf : ∀ a ∈ ls, a.length = 32) (i : ℕ) (x : Bytes) (hx : ls[i]? = some x) :
    some (climb h x (merkleProof h ls i)) = merkleRoot h ls ∧ dirs (merkleProof h ls i) = path ls.length i := by
  match ls with
  | [] => simp at hx
  | [a] =>
    have hk : i = 0 := by
      obtain ⟨hk, _⟩ := List.getElem?_eq_some_iff.1 hx
      simp at hk; omega
    subst hk
    simp at hx
    refine ⟨by simp [merkleProof, merkleRoot, climb, hx], ?_⟩
    rw [path, if_pos (by simp)]; rfl
  | a :: b :: r =>
    obtain ⟨p, e1, e2, e3⟩ := proofLoop_climb hh _ rfl hf i x hx []
    rw [List.nil_append] at e1
    have : merkleProof h (a :: b :: r) i = p := by simp only [merkleProof]; rw [Nat.mul_comm, e1]
    rw [this]
    exact ⟨by rw [e3]; rfl, e2⟩

/-! ## Soundness -/

theorem tree_pos {h : Bytes → Bytes} {ls : List Bytes} {r : Bytes} {s : List Bytes} (ht : Tree h ls r s) : 0 < ls.length := by
  cases ht with
  | leaf a => simp
  | node e l r x y s t hl hr0 hr h1 h2 => rw [List.length_append]; omega

theorem tree_full {h : Bytes → Bytes} (hh : ∀ b, (h b).length = 32) {ls : List Bytes} {r : Bytes} {s : List Bytes} (ht : Tree h ls r s) (hf : Full ls) : r.length = 32 := by
  cases ht with
  | leaf _ => exact hf r (by simp)
  | node e l r x y s t hl hr0 hr h1 h2 => exact hh _

theorem path_one (i : ℕ) : path 1 i = [] := by rw [path, if_pos (by omega)]

theorem path_two_zero : path 2 0 = [.right] := by
  rw [path, if_neg (by omega), if_neg (by omega), if_pos (by omega), show (2 + 1) / 2 = 1 from rfl, path_one]; rfl

theorem path_two_one : path 2 1 = [.left] := by
  rw [path, if_neg (by omega), if_pos (by omega), show (2 + 1) / 2 = 1 from rfl, path_one]; rfl

theorem path_left (e : ℕ) : ∀ (m i : ℕ), 0 < m → m ≤ 2 ^ e → i < 2 ^ e → path (2 ^ e + m) i = path (2 ^ e) i ++ [.right] := by
  induction e with
  | zero =>
    intro m i h0 hm hi
    have hm1 : m = 1 := by simp at hm; omega
    have hi0 : i = 0 := by simp at hi; omega
    subst hm1 hi0
    rw [show 2 ^ 0 + 1 = 2 from rfl, show 2 ^ 0 = 1 from rfl, path_two_zero, path_one]; rfl
  | succ e ih =>
    intro m i h0 hm hi
    rw [pow_succ] at hm hi ⊢
    have hp : 0 < 2 ^ e := Nat.pos_of_ne_zero (by simp)
    rw [path, if_neg (by omega)]
    conv_rhs => rw [path, if_neg (by omega)]
    rw [show (2 ^ e * 2 + m + 1) / 2 = 2 ^ e + (m + 1) / 2 by omega, show (2 ^ e * 2 + 1) / 2 = 2 ^ e by omega, ih _ _ (by omega) (by omega) (by omega), ← List.append_assoc]
    congr 2
    by_cases h1 : i % 2 = 1
    · rw [if_pos h1, if_pos h1]
    · rw [if_neg h1, if_neg h1, if_pos (by omega), if_pos (by omega)]

theorem path_right (e : ℕ) : ∀ (m j : ℕ), 0 < m → m ≤ 2 ^ e → j < m → path (2 ^ e + m) (2 ^ e + j) = path m j ++ [.left] := by
  induction e with
  | zero =>
    intro m j h0 hm hj
    have hm1 : m = 1 := by simp at hm; omega
    have hi0 : j = 0 := by omega
    subst hm1 hi0
    rw [show 2 ^ 0 + 1 = 2 from rfl, show 2 ^ 0 + 0 = 1 from rfl, path_two_one, path_one]; rfl
  | succ e ih =>
    intro m j h0 hm hj
    rw [pow_succ] at hm ⊢
    have hp : 0 < 2 ^ e := Nat.pos_of_ne_zero (by simp)
    rw [path, if_neg (by omega), show (2 ^ e * 2 + m + 1) / 2 = 2 ^ e + (m + 1) / 2 by omega, show (2 ^ e * 2 + j) / 2 = 2 ^ e + j / 2 by omega, ih _ _ (by omega) (by omega) (by omega),
      show (2 ^ e * 2 + j) % 2 = j % 2 by omega, ← List.append_assoc]
    congr 1
    by_cases hm1 : m = 1
    · subst hm1
      have hi0 : j = 0 := by omega
      subst hi0
      rw [if_neg (by simp), if_neg (by omega)]
      rw [show (1 + 1) / 2 = 1 from rfl, path_one]; rfl
    · conv_rhs => rw [path, if_neg (by omega)]
      congr 1
      by_cases h1 : j % 2 = 1
      · rw [if_pos h1, if_pos h1]
      · rw [if_neg h1, if_neg h1]
        by_cases h3 : j + 1 < m
        · rw [if_pos (by omega), if_pos h3]
        · rw [if_neg (by omega), if_neg h3]

theorem dirs_nil_climb (h : Bytes → Bytes) : ∀ (p : List Node), dirs p = [] → ∀ x, climb h x p = x ∧ climbed h x p = []
  | [], _, x => ⟨rfl, rfl⟩
  | ⟨d, none⟩ :: p, hp, x => by
    rw [climb, climbed]
    exact dirs_nil_climb h p hp x
  | ⟨d, some v⟩ :: p, hp, x => by cases hp

theorem dirs_snoc : ∀ (p : List Node) (ds : List Dir) (d : Dir), dirs p = ds ++ [d] → ∃ p1 v p2, p = p1 ++ ⟨d, some v⟩ :: p2 ∧ dirs p1 = ds ∧ dirs p2 = []
  | [], ds, d, hp => by simp [dirs] at hp
  | ⟨d', none⟩ :: p, ds, d, hp => by
    obtain ⟨p1, v, p2, e1, e2, e3⟩ := dirs_snoc p ds d hp
    exact ⟨⟨d', none⟩ :: p1, v, p2, by rw [e1]; rfl, e2, e3⟩
  | ⟨d', some v'⟩ :: p, [], d, hp => by
    have hp' : d' :: dirs p = [d] := hp
    rw [List.cons.injEq] at hp'
    exact ⟨[], v', p, by rw [hp'.1]; rfl, rfl, hp'.2⟩
  | ⟨d', some v'⟩ :: p, d0 :: ds, d, hp => by
    have hp' : d' :: dirs p = d0 :: (ds ++ [d]) := hp
    rw [List.cons.injEq] at hp'
    obtain ⟨p1, v, p2, e1, e2, e3⟩ := dirs_snoc p ds d hp'.2
    refine ⟨⟨d', some v'⟩ :: p1, v, p2, by rw [e1]; rfl, ?_, e3⟩
    change d' :: dirs p1 = _
    rw [e2, hp'.1]

theorem climbed_append (h : Bytes → Bytes) : ∀ (p q : List Node) (x : Bytes), climbed h x (p ++ q) = climbed h x p ++ climbed h (climb h x p) q
  | [], q, x => rfl
  | ⟨d, none⟩ :: p, q, x => by rw [List.cons_append, climb, climbed, climbed]; exact climbed_append h p q x
  | ⟨.left, some v⟩ :: p, q, x => by rw [List.cons_append, climb, climbed, climbed, climbed_append h p q _]; rfl
  | ⟨.right, some v⟩ :: p, q, x => by rw [List.cons_append, climb, climbed, climbed, climbed_append h p q _]; rfl

theorem climb_length {h : Bytes → Bytes} (hh : ∀ b, (h b).length = 32) : ∀ (p : List Node) (x : Bytes), x.length = 32 → (climb h x p).length = 32
  | [], x, hx => hx
  | ⟨d, none⟩ :: p, x, hx => by rw [climb]; exact climb_length hh p x hx
  | ⟨.left, some v⟩ :: p, x, hx => by rw [climb]; exact climb_length hh p _ (hh _)
  | ⟨.right, some v⟩ :: p, x, hx => by rw [climb]; exact climb_length hh p _ (hh _)

/-- **C72.** A proof along the path of leaf `i` that leads to the root shows that the leaf is `i` of the list, or else it shows two different strings with the same hash. -/
theorem C72_sound {h : Bytes → Bytes} (hh : ∀ b, (h b).length = 32) {ls : List Bytes} {r : Bytes} {s : List Bytes} (ht : Tree h ls r s) (hf : ∀ a ∈ ls, a.length = 32) (i : ℕ) (hi : i < ls.length)
    (x : Bytes) (hx : x.length = 32) (p : List Node) (hp : ∀ n ∈ p, ∀ v, n.value = some v → v.length = 32) (hd : dirs p = path ls.length i) (hc : climb h x p = r) :
    ls[i]? = some x ∨ ∃ a ∈ s, ∃ b ∈ climbed h x p, a ≠ b ∧ h a = h b := by
  induction ht generalizing i x p with
  | leaf a =>
    have hi0 : i = 0 := by simp at hi; omega
    subst hi0
    rw [path, if_pos (by simp)] at hd
    rw [(dirs_nil_climb h p hd x).1] at hc
    left; rw [hc]; rfl
  | node e l r' x' y' s t hl hr0 hr h1 h2 ih1 ih2 =>
    have hf1 : Full l := fun a ha => hf a (by simp [ha])
    have hf2 : Full r' := fun a ha => hf a (by simp [ha])
    have lx := tree_full hh h1 hf1
    have ly := tree_full hh h2 hf2
    rw [List.length_append] at hi hd
    by_cases hlt : i < l.length
    · rw [hl, path_left e _ _ hr0 hr (by omega)] at hd
      obtain ⟨p1, v, p2, e1, e2, e3⟩ := dirs_snoc p _ _ hd
      subst e1
      have hc' : h (climb h x p1 ++ v) = h (x' ++ y') := by
        rw [climb_append, climb, (dirs_nil_climb h p2 e3 _).1] at hc
        exact hc
      by_cases heq : x' ++ y' = climb h x p1 ++ v
      · have k := (List.append_inj heq (by rw [lx, climb_length hh p1 x hx])).1
        rcases ih1 hf1 i hlt x hx p1 (fun n hn => hp n (by simp [hn])) (by rw [e2, hl]) k.symm with hg | ⟨a, ha, b, hb, hab⟩
        · left; rw [List.getElem?_append_left hlt]; exact hg
        · right
          exact ⟨a, by simp [ha], b, by rw [climbed_append]; simp [hb], hab⟩
      · right
        exact ⟨_, by simp, climb h x p1 ++ v, by rw [climbed_append, climbed]; simp, heq, hc'.symm⟩
    · obtain ⟨j, rfl⟩ : ∃ j, i = l.length + j := ⟨i - l.length, by omega⟩
      rw [hl, path_right e _ _ hr0 hr (by omega)] at hd
      obtain ⟨p1, v, p2, e1, e2, e3⟩ := dirs_snoc p _ _ hd
      subst e1
      have hc' : h (v ++ climb h x p1) = h (x' ++ y') := by
        rw [climb_append, climb, (dirs_nil_climb h p2 e3 _).1] at hc
        exact hc
      by_cases heq : x' ++ y' = v ++ climb h x p1
      · have k := (List.append_inj heq (by rw [lx, hp ⟨.left, some v⟩ (by simp) v rfl])).2
        rcases ih2 hf2 j (by omega) x hx p1 (fun n hn => hp n (by simp [hn])) e2 k.symm with hg | ⟨a, ha, b, hb, hab⟩
        · left; rw [List.getElem?_append_right (by omega)]; simpa using hg
        · right
          exact ⟨a, by simp [ha], b, by rw [climbed_append]; simp [hb], hab⟩
      · right
        exact ⟨_, by simp, v ++ climb h x p1, by rw [climbed_append, climbed]; simp, heq, hc'.symm⟩

/-- **C72.** Root and number of leaves determine the leaves, or else two different strings with the same hash are hashed. -/
theorem C72_binding {h : Bytes → Bytes} (hh : ∀ b, (h b).length = 32) {ls ls' : List Bytes} {r : Bytes} {s s' : List Bytes} (ht : Tree h ls r s) (ht' : Tree h ls' r s')
    (hf : ∀ a ∈ ls, a.length = 32) (hf' : ∀ a ∈ ls', a.length = 32) (hn : ls.length = ls'.length) : ls = ls' ∨ ∃ a ∈ s, ∃ b ∈ s', a ≠ b ∧ h a = h b := by
  induction ht generalizing ls' s' with
  | leaf a =>
    cases ht' with
    | leaf b => left; rfl
    | node e l r x y s t hl hr0 hr h1 h2 =>
      rw [List.length_append] at hn
      have := tree_pos h1
      simp at hn; omega
  | node e l r x y s t hl hr0 hr h1 h2 ih1 ih2 =>
    generalize hz : h (x ++ y) = z at ht'
    cases ht' with
    | leaf b =>
      rw [List.length_append] at hn
      have := tree_pos h1
      simp at hn; omega
    | node e' l' r' x' y' s' t' hl' hr0' hr' h1' h2' =>
      have hf1 : Full l := fun a ha => hf a (by simp [ha])
      have hf1' : Full l' := fun a ha => hf' a (by simp [ha])
      by_cases heq : x ++ y = x' ++ y'
      · obtain ⟨ex, ey⟩ := List.append_inj heq (by rw [tree_full hh h1 hf1, tree_full hh h1' hf1'])
        rw [List.length_append, List.length_append] at hn
        have hee : e = e' := by
          by_contra hne
          rcases Nat.lt_or_gt_of_ne hne with hlt | hlt
          · have := Nat.pow_le_pow_right (show 0 < 2 by omega) hlt
            rw [pow_succ] at this; omega
          · have := Nat.pow_le_pow_right (show 0 < 2 by omega) hlt
            rw [pow_succ] at this; omega
        subst hee ex ey
        rcases ih1 h1' hf1 hf1' (by omega) with hg | ⟨a, ha, b, hb, hab⟩
        · rcases ih2 h2' (fun a ha => hf a (by simp [ha])) (fun a ha => hf' a (by simp [ha])) (by omega) with hg2 | ⟨a, ha, b, hb, hab⟩
          · left; rw [hg, hg2]
          · right; exact ⟨a, by simp [ha], b, by simp [hb], hab⟩
        · right; exact ⟨a, by simp [ha], b, by simp [hb], hab⟩
      · right; exact ⟨_, by simp, x' ++ y', by simp, heq, hz⟩

/-- **C72 (finding).** Without the number of leaves a root binds nothing: a message of 64 bytes that is put together from the hashes of two messages that were sent seems to have been sent itself. -/
theorem C72_count (h : Bytes → Bytes) (m1 m2 m3 m4 : Bytes) (s : List Bytes) (r : Bytes) (ht : Tree h [h m1, h m2, h m3, h m4] r s) :
    climb h (h (h m1 ++ h m2)) [⟨.right, some (h (h m3 ++ h m4))⟩] = r := by
  generalize hL : [h m1, h m2, h m3, h m4] = L at ht
  cases ht with
  | leaf a => cases hL
  | node e l r x y s t hl hr0 hr h1 h2 =>
    have hlen := congrArg List.length hL
    rw [List.length_append] at hlen
    simp only [List.length_cons, List.length_nil] at hlen
    have he : e = 1 := by
      match e with
      | 0 => simp at hl hr; omega
      | 1 => rfl
      | e + 2 =>
        rw [pow_succ, pow_succ] at hl
        have : 0 < 2 ^ e := Nat.pos_of_ne_zero (by simp)
        omega
    subst he
    have hl2 : l.length = 2 := by simpa using hl
    have hr2 : r.length = 2 := by omega
    have two : ∀ {ls : List Bytes} {z : Bytes} {u : List Bytes} (a b : Bytes), ls = [a, b] → Tree h ls z u → z = h (a ++ b) := by
      intro ls z u a b e ht
      cases ht with
      | leaf c => cases e
      | node e' l' r' x' y' s' t' hl' hr0' hr' h1' h2' =>
        have hlen' := congrArg List.length e
        rw [List.length_append] at hlen'
        simp only [List.length_cons, List.length_nil] at hlen'
        obtain ⟨c, rfl⟩ := List.length_eq_one_iff.1 (by have := tree_pos h1'; omega : l'.length = 1)
        obtain ⟨d, rfl⟩ := List.length_eq_one_iff.1 (by have := tree_pos h1'; simp at hlen'; omega : r'.length = 1)
        simp at e
        have one : ∀ {c z : Bytes} {u : List Bytes}, Tree h [c] z u → z = c := by
          intro c z u ht
          generalize hC : [c] = C at ht
          cases ht with
          | leaf c' => cases hC; rfl
          | node e l r x y s t hl hr0 hr h1 h2 =>
            have := congrArg List.length hC
            have p1 := tree_pos h1
            rw [List.length_append] at this
            simp at this; omega
        rw [one h1', one h2', e.1, e.2]
    obtain ⟨a, b, rfl⟩ : ∃ a b, l = [a, b] := by
      match l, hl2 with
      | [a, b], _ => exact ⟨a, b, rfl⟩
    obtain ⟨c, d, rfl⟩ : ∃ a b, r = [a, b] := by
      match r, hr2 with
      | [a, b], _ => exact ⟨a, b, rfl⟩
    simp at hL
    rw [two a b rfl h1, two c d rfl h2, climb, climb, hL.1, hL.2.1, hL.2.2.1, hL.2.2.2]

/-! ## Signatures -/

theorem verifyLoop_spec {Sig : Type} (rec : Sig → Option Bytes) (vs : List (Option Bytes)) (sigs : List (Option Sig)) : ∀ (i : ℕ) (seen : List ℕ) (valid n : ℕ), (∀ k ∈ seen, k < i) →
    verifyLoop rec vs sigs i seen valid = some n →
    ∃ S : List ℕ, S.Nodup ∧ n = valid + S.length ∧ ∀ k ∈ S, i ≤ k ∧ ∃ s a, sigs[k - i]? = some (some s) ∧ rec s = some a ∧ ∃ v, vs[k]? = some v ∧ v.getD [] = a := by
  induction sigs with
  | nil =>
    intro i seen valid n hs hv
    rw [verifyLoop, Option.some.injEq] at hv
    exact ⟨[], List.nodup_nil, by simp [hv], fun k hk => by cases hk⟩
  | cons o r ih =>
    intro i seen valid n hs hv
    cases o with
    | none =>
      rw [verifyLoop] at hv
      obtain ⟨S, h1, h2, h3⟩ := ih (i + 1) seen valid n (fun k hk => by have := hs k hk; omega) hv
      refine ⟨S, h1, h2, fun k hk => ?_⟩
      obtain ⟨k1, s, a, k2, k3⟩ := h3 k hk
      refine ⟨by omega, s, a, ?_, k3⟩
      rw [show k - i = (k - (i + 1)) + 1 by omega, List.getElem?_cons_succ]; exact k2
    | some s =>
      rw [verifyLoop] at hv
      by_cases hp : verifyPart rec vs i s = true
      · rw [if_pos hp, if_neg (fun h => by have := hs i h; omega)] at hv
        obtain ⟨S, h1, h2, h3⟩ := ih (i + 1) (i :: seen) (valid + 1) n (fun k hk => by
          rcases List.mem_cons.1 hk with rfl | hk
          · omega
          · have := hs k hk; omega) hv
        refine ⟨i :: S, List.nodup_cons.2 ⟨fun hm => by have := (h3 i hm).1; omega, h1⟩, by rw [List.length_cons]; omega, fun k hk => ?_⟩
        rcases List.mem_cons.1 hk with rfl | hk
        · refine ⟨le_refl _, ?_⟩
          unfold verifyPart at hp
          cases hvv : vs[k]? with
          | none => rw [hvv] at hp; cases hp
          | some v =>
            rw [hvv] at hp; dsimp only at hp
            cases hr : rec s with
            | none => rw [hr] at hp; cases hp
            | some a =>
              rw [hr] at hp
              exact ⟨s, a, by simp, hr, v, rfl, of_decide_eq_true hp⟩
        · obtain ⟨k1, s', a, k2, k3⟩ := h3 k hk
          refine ⟨by omega, s', a, ?_, k3⟩
          rw [show k - i = (k - (i + 1)) + 1 by omega, List.getElem?_cons_succ]; exact k2
      · rw [if_neg hp] at hv; cases hv

/-- **C72.** Signatures that are accepted are those of more than two thirds of the validators. -/
theorem C72_signed {Sig : Type} (rec : Sig → Option Bytes) (hrec : ∀ s a, rec s = some a → a ≠ []) (validators : List (Option Bytes)) (sigs : List (Option Sig)) (hv : verify rec validators sigs = true) :
    ∃ S : List ℕ, S.Nodup ∧ 3 * S.length > 2 * validators.length ∧ ∀ k ∈ S, ∃ s a, sigs[k]? = some (some s) ∧ rec s = some a ∧ validators[k]? = some (some a) := by
  unfold verify at hv
  cases hl : verifyLoop rec validators sigs 0 [] 0 with
  | none => rw [hl] at hv; cases hv
  | some n =>
    rw [hl] at hv
    obtain ⟨S, h1, h2, h3⟩ := verifyLoop_spec rec validators sigs 0 [] 0 n (fun k hk => by cases hk) hl
    simp at hv
    refine ⟨S, h1, by omega, fun k hk => ?_⟩
    obtain ⟨_, s, a, k1, k2, v, k3, k4⟩ := h3 k hk
    refine ⟨s, a, k1, k2, ?_⟩
    cases v with
    | none => exact absurd k4.symm (hrec s a k2)
    | some v => rw [k3]; simp at k4; rw [k4]

theorem verifyLoop_complete {Sig : Type} (rec : Sig → Option Bytes) (vs : List (Option Bytes)) (sigs : List (Option Sig)) : ∀ (i : ℕ) (seen : List ℕ) (valid : ℕ), (∀ k ∈ seen, k < i) →
    (∀ k s, sigs[k]? = some (some s) → ∃ a, rec s = some a ∧ vs[i + k]? = some (some a)) →
    verifyLoop rec vs sigs i seen valid = some (valid + (sigs.filter Option.isSome).length) := by
  induction sigs with
  | nil => intro i seen valid hs hv; rfl
  | cons o r ih =>
    intro i seen valid hs hv
    cases o with
    | none =>
      rw [verifyLoop, ih (i + 1) seen valid (fun k hk => by have := hs k hk; omega) (fun k s hk => by
        have := hv (k + 1) s (by simpa using hk)
        rw [show i + 1 + k = i + (k + 1) by omega]; exact this)]
      rfl
    | some s =>
      obtain ⟨a, e1, e2⟩ := hv 0 s (by simp)
      rw [verifyLoop]
      have hp : verifyPart rec vs i s = true := by
        unfold verifyPart
        rw [Nat.add_zero] at e2
        rw [e2]; dsimp only
        rw [e1]; dsimp only
        simp
      rw [if_pos hp, if_neg (fun h => by have := hs i h; omega), ih (i + 1) (i :: seen) (valid + 1) (fun k hk => by
          rcases List.mem_cons.1 hk with rfl | hk
          · omega
          · have := hs k hk; omega) (fun k s hk => by
        have := hv (k + 1) s (by simpa using hk)
        rw [show i + 1 + k = i + (k + 1) by omega]; exact this)]
      simp; omega

/-- **C72.** Signatures of more than two thirds of the validators, each at its place, are accepted. -/
theorem C72_accepted {Sig : Type} (rec : Sig → Option Bytes) (validators : List (Option Bytes)) (sigs : List (Option Sig))
    (hs : ∀ (k : ℕ) s, sigs[k]? = some (some s) → ∃ a, rec s = some a ∧ validators[k]? = some (some a)) (hn : 3 * (sigs.filter Option.isSome).length > 2 * validators.length) :
    verify rec validators sigs = true := by
  unfold verify
  rw [verifyLoop_complete rec validators sigs 0 [] 0 (fun k hk => by cases hk) (fun k s hk => by simpa using hs k s hk)]
  simp; omega

/-! ## Concrete cases -/

/-- A hash function. -/
def toyHash (b : Bytes) : Bytes := beBytes 32 (beNat b % 1000003 + b.length)

/-- Some leaves. -/
def toyLeaves (n : ℕ) : List Bytes := (List.range n).map fun i => beBytes 32 (7 * i + 1)

example : ∀ b, (toyHash b).length = 32 := fun b => by simp [toyHash]
example : ∀ a ∈ toyLeaves 5, a.length = 32 := by decide +kernel
example : merkleRoot toyHash (toyLeaves 5) = some (toyHash (toyHash (toyHash ((toyLeaves 5)[0]! ++ (toyLeaves 5)[1]!) ++ toyHash ((toyLeaves 5)[2]! ++ (toyLeaves 5)[3]!)) ++ (toyLeaves 5)[4]!)) := by
  decide +kernel
example : merkleProof toyHash (toyLeaves 5) 4 = [⟨.right, none⟩, ⟨.right, none⟩, ⟨.left, some (toyHash (toyHash ((toyLeaves 5)[0]! ++ (toyLeaves 5)[1]!) ++ toyHash ((toyLeaves 5)[2]! ++ (toyLeaves 5)[3]!)))⟩] := by
  decide +kernel
example : verify (fun s : ℕ => some [UInt8.ofNat s]) [some [1], none, some [3], some [4]] [some 1, none, some 3, some 4] = true := by decide
example : verify (fun s : ℕ => some [UInt8.ofNat s]) [some [1], some [2], some [3]] [some 1, none, some 3] = false := by decide

end Verif.BtpMerkle
