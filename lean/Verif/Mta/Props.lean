import Verif.Mta.Model
import Mathlib.Data.List.Basic
import Mathlib.Data.Nat.Log

/-!
# C44: the Merkle tree accumulator
-/

namespace Verif.Mta
open Verif

/-! ### Specification -/

/-- The hash under which an item is added. -/
def Item.leaf (H : Bytes → Bytes) : Item → Bytes
  | .hash h => h
  | .data d => H d

/-- The root hash of a perfect binary tree of the given height over these leaves. -/
def merkle (H : Bytes → Bytes) : ℕ → List Bytes → Bytes
  | 0, xs => xs.headD []
  | h + 1, xs => H (merkle H h (xs.take (2 ^ h)) ++ merkle H h (xs.drop (2 ^ h)))

/-- The strings hashed in the branches of such a tree. -/
def branches (H : Bytes → Bytes) : ℕ → List Bytes → List Bytes
  | 0, _ => []
  | h + 1, xs => (merkle H h (xs.take (2 ^ h)) ++ merkle H h (xs.drop (2 ^ h))) ::
      (branches H h (xs.take (2 ^ h)) ++ branches H h (xs.drop (2 ^ h)))

/-! ### Copying -/

theorem serialize_eq {l r : Bytes} (hl : l.length = 32) (hr : r.length = 32) : serialize l r = l ++ r := by
  simp [serialize, copyTo, hashSize, hl, hr, List.take_of_length_le]

/-! ### Nodes -/

/-- A node standing for a perfect tree over these leaves. A hash that is not a leaf is in the bucket, and so is a flushed branch. -/
inductive Full (H : Bytes → Bytes) (db : Db) : Node → ℕ → List Bytes → Prop
  | hash {h} : h.length = 32 → Full H db (.hash h) 0 [h]
  | data {f d} : Full H db (.data f d) 0 [H d]
  | branch {f l r h xs ys} : Full H db l h xs → Full H db r h ys →
      (f = true → db.kv (H (l.hashOf H ++ r.hashOf H)) = some (l.hashOf H ++ r.hashOf H)) →
      (f = true → Full H db (.hash (l.hashOf H)) h xs) → (f = true → Full H db (.hash (r.hashOf H)) h ys) →
      Full H db (.branch f l r) (h + 1) (xs ++ ys)
  | stored {a b h xs ys} : db.kv (H (a ++ b)) = some (a ++ b) → a.length = 32 → b.length = 32 → Full H db (.hash a) h xs →
      Full H db (.hash b) h ys → Full H db (.hash (H (a ++ b))) (h + 1) (xs ++ ys)

variable {H : Bytes → Bytes} {db : Db}

theorem Full.length {n h xs} (f : Full H db n h xs) : xs.length = 2 ^ h := by
  induction f with
  | hash => rfl
  | data => rfl
  | branch _ _ _ _ _ i j => rw [List.length_append, i, j, pow_succ]; ring
  | stored _ _ _ _ _ i j => rw [List.length_append, i, j, pow_succ]; ring

theorem Full.hash32 (h32 : ∀ s, (H s).length = 32) {n h xs} (f : Full H db n h xs) : (n.hashOf H).length = 32 := by
  cases f <;> simp_all [Node.hashOf]

theorem Full.hashOf (h32 : ∀ s, (H s).length = 32) {n h xs} (f : Full H db n h xs) : n.hashOf H = merkle H h xs := by
  induction f with
  | hash => rfl
  | data => rfl
  | branch fl fr _ _ _ i j =>
    rw [Node.hashOf, serialize_eq (fl.hash32 h32) (fr.hash32 h32), merkle, i, j, List.take_left' fl.length, List.drop_left' fl.length]
  | stored _ _ _ fl fr i j =>
    rw [Node.hashOf, merkle, List.take_left' fl.length, List.drop_left' fl.length, ← i, ← j]; rfl

theorem Full.leaf32 (h32 : ∀ s, (H s).length = 32) {n h xs} (f : Full H db n h xs) : ∀ x ∈ xs, x.length = 32 := by
  induction f with
  | hash h => simpa using h
  | data => simpa using h32 _
  | branch _ _ _ _ _ i j => intro x hx; rcases List.mem_append.1 hx with hx | hx; exacts [i x hx, j x hx]
  | stored _ _ _ _ _ i j => intro x hx; rcases List.mem_append.1 hx with hx | hx; exacts [i x hx, j x hx]

/-- More in the bucket does no harm. -/
theorem Full.mono {db' : Db} (hdb : ∀ k v, db.kv k = some v → db'.kv k = some v) {n h xs} (f : Full H db n h xs) : Full H db' n h xs := by
  induction f with
  | hash h => exact .hash h
  | data => exact .data
  | branch _ _ a _ _ i j k l => exact .branch i j (fun h => hdb _ _ (a h)) k l
  | stored a b c _ _ i j => exact .stored (hdb _ _ a) b c i j

/-! ### Roots -/

/-- The roots from height `h` on stand for these leaves: the higher the root, the earlier its leaves. -/
inductive Rep (H : Bytes → Bytes) (db : Db) : List (Option Node) → ℕ → List Bytes → Prop
  | nil {h} : Rep H db [] h []
  | gap {rs h xs} : Rep H db rs (h + 1) xs → xs ≠ [] → Rep H db (none :: rs) h xs
  | root {n rs h xs ys} : Rep H db rs (h + 1) xs → Full H db n h ys → Rep H db (some n :: rs) h (xs ++ ys)

theorem Rep.mono {db' : Db} (hdb : ∀ k v, db.kv k = some v → db'.kv k = some v) {rs h xs} (f : Rep H db rs h xs) : Rep H db' rs h xs := by
  induction f with
  | nil => exact .nil
  | gap _ a i => exact .gap i a
  | root _ a i => exact .root i (a.mono hdb)

/-- What a witness says: hash these together, from below. -/
def fold (H : Bytes → Bytes) : List Witness → Bytes → Bytes
  | [], h => h
  | ⟨.left, v⟩ :: ws, h => fold H ws (H (v ++ h))
  | ⟨.right, v⟩ :: ws, h => fold H ws (H (h ++ v))

theorem fold_append (ws vs : List Witness) (h : Bytes) : fold H (ws ++ vs) h = fold H vs (fold H ws h) := by
  induction ws generalizing h with
  | nil => rfl
  | cons w ws ih => obtain ⟨d, v⟩ := w; cases d <;> simp [fold, ih]

theorem verify_fold (h32 : ∀ s, (H s).length = 32) : ∀ (ws : List Witness) (buf h : Bytes), buf.length = 64 → h.length = 32 →
    (∀ w ∈ ws, w.hash.length = 32) → (ws.foldl (verifyStep H) (buf, h)).2 = fold H ws h
  | [], _, _, _, _, _ => rfl
  | ⟨.left, v⟩ :: ws, buf, h, hb, hh, hw => by
    have hv : v.length = 32 := hw ⟨.left, v⟩ (by simp)
    rw [List.foldl_cons, fold]
    have e : copyTo (copyTo buf 0 v) hashSize h = v ++ h := by simp [copyTo, hashSize, hv, hh, hb, List.take_of_length_le]
    simp only [verifyStep, e]
    exact verify_fold h32 ws _ _ (by simp [hv, hh]) (h32 _) (fun w h => hw w (List.mem_cons_of_mem _ h))
  | ⟨.right, v⟩ :: ws, buf, h, hb, hh, hw => by
    have hv : v.length = 32 := hw ⟨.right, v⟩ (by simp)
    rw [List.foldl_cons, fold]
    have e : copyTo (copyTo buf 0 h) hashSize v = h ++ v := by simp [copyTo, hashSize, hv, hh, hb, List.take_of_length_le]
    simp only [verifyStep, e]
    exact verify_fold h32 ws _ _ (by simp [hv, hh]) (h32 _) (fun w h => hw w (List.mem_cons_of_mem _ h))

theorem Rep.dvd {rs h xs} (f : Rep H db rs h xs) : ∃ c, xs.length = 2 ^ h * c := by
  induction f with
  | nil => exact ⟨0, rfl⟩
  | gap _ _ i => obtain ⟨c, e⟩ := i; exact ⟨2 * c, by rw [e, pow_succ]; ring⟩
  | root _ a i => obtain ⟨c, e⟩ := i; exact ⟨2 * c + 1, by rw [List.length_append, e, a.length, pow_succ]; ring⟩

/-- The roots are the binary digits of the number of leaves. -/
theorem Rep.bits {rs h xs} (f : Rep H db rs h xs) {c : ℕ} (hc : xs.length = 2 ^ h * c) :
    (∀ i : ℕ, (∃ n, rs[i]? = some (some n)) ↔ c.testBit i = true) ∧ (∀ i, i < rs.length ↔ 2 ^ i ≤ c) := by
  induction f generalizing c with
  | @nil h =>
    have : c = 0 := by
      have : 0 < 2 ^ h := by positivity
      rcases Nat.mul_eq_zero.1 hc.symm with h | h <;> omega
    subst this
    simp
  | @gap rs h xs g hne i =>
    obtain ⟨c', e⟩ := g.dvd
    have hp : 0 < 2 ^ h := by positivity
    have hcc : c = 2 * c' := by
      apply Nat.eq_of_mul_eq_mul_left hp
      rw [← hc, e, pow_succ]; ring
    subst hcc
    obtain ⟨i1, i2⟩ := i e
    have hc0 : 0 < c' := by
      rcases Nat.eq_zero_or_pos c' with h | h
      · subst h; simp at e; exact absurd e hne
      · exact h
    refine ⟨fun j => ?_, fun j => ?_⟩
    · cases j with
      | zero => simp
      | succ j => rw [Nat.testBit_succ, show 2 * c' / 2 = c' by omega, ← i1]; simp
    · cases j with
      | zero => simp; omega
      | succ j => rw [pow_succ, List.length_cons, Nat.succ_lt_succ_iff, i2]; omega
  | @root n rs h xs ys g a i =>
    obtain ⟨c', e⟩ := g.dvd
    have hp : 0 < 2 ^ h := by positivity
    have hcc : c = 2 * c' + 1 := by
      apply Nat.eq_of_mul_eq_mul_left hp
      rw [← hc, List.length_append, e, a.length, pow_succ]; ring
    subst hcc
    obtain ⟨i1, i2⟩ := i e
    refine ⟨fun j => ?_, fun j => ?_⟩
    · cases j with
      | zero => simp
      | succ j => rw [Nat.testBit_succ, show (2 * c' + 1) / 2 = c' by omega, ← i1]; simp
    · cases j with
      | zero => simp
      | succ j =>
        have := Nat.pos_of_ne_zero (pow_ne_zero j (two_ne_zero (α := ℕ)))
        rw [pow_succ, List.length_cons, Nat.succ_lt_succ_iff, i2]; omega

theorem htw_left : ∀ {v : List Witness} {c q : ℕ}, (∀ x ∈ v, x.dir = Dir.left) → c + 1 = 2 ^ v.length * (2 * q + 1) →
    hashesToWitness (witnessesToHashes v) c = v
  | [], _, _, _, _ => rfl
  | ⟨d, x⟩ :: v, c, q, hd, hc => by
    have h0 := hd ⟨d, x⟩ (by simp)
    simp only at h0; subst h0
    rw [List.length_cons, pow_succ] at hc
    have h1 : c + 1 = 2 * (2 ^ v.length * (2 * q + 1)) := by rw [hc]; ring
    have := htw_left (v := v) (c := c / 2) (q := q) (fun x hx => hd x (List.mem_cons_of_mem _ hx)) (by omega)
    simp only [witnessesToHashes, List.map_cons, hashesToWitness] at this ⊢
    rw [this, if_neg (by omega)]

/-- Adding a node: the roots afterwards, and the witness says how the new leaf is hashed up to the root at its height. -/
theorem addNode_rep (h32 : ∀ s, (H s).length = 32) : ∀ {rs h xs} {n : Node} {ys} {w : List Witness}, Rep H db rs h xs → Full H db n h ys →
    Rep H db (addNode H rs n w).1 h (xs ++ ys) ∧
    ∃ v m, (addNode H rs n w).2 = w ++ v ∧ (addNode H rs n w).1[v.length]? = some (some m) ∧
      m.hashOf H = fold H v (n.hashOf H) ∧ (∀ x ∈ v, x.hash.length = 32 ∧ x.dir = .left) ∧
      ∀ c, xs.length = 2 ^ h * c → ∃ q, c + 1 = 2 ^ v.length * (2 * q + 1)
  | [], h, _, n, ys, w, .nil, hn => by
    refine ⟨by simpa [addNode] using Rep.root .nil hn, [], n, by simp [addNode], by simp [addNode], rfl, by simp, ?_⟩
    intro c hc
    have : c = 0 := by
      have : 0 < 2 ^ h := by positivity
      rcases Nat.mul_eq_zero.1 hc.symm with h | h <;> omega
    exact ⟨0, by simp [this]⟩
  | none :: rs, h, xs, n, ys, w, .gap hr _, hn => by
    refine ⟨.root hr hn, [], n, by simp [addNode], by simp [addNode], rfl, by simp, ?_⟩
    intro c hc
    obtain ⟨c', e⟩ := hr.dvd
    have hcc : c = 2 * c' := by
      apply Nat.eq_of_mul_eq_mul_left (show 0 < 2 ^ h by positivity)
      rw [← hc, e, pow_succ]; ring
    exact ⟨c', by simp [hcc]⟩
  | some root :: rs, h, _, n, ys, w, .root (xs := xs) (ys := zs) hr hroot, hn => by
    obtain ⟨r1, v, m, e1, e3, e4, e5, e6⟩ := addNode_rep h32 (w := w ++ [⟨.left, root.hashOf H⟩]) hr
      (Full.branch (f := false) hroot hn (by simp) (by simp) (by simp))
    have hne : zs ++ ys ≠ [] := by
      intro hc; have := hn.length; have : 0 < 2 ^ h := by positivity
      simp_all
    refine ⟨?_, ⟨.left, root.hashOf H⟩ :: v, m, ?_, ?_, ?_, ?_, ?_⟩
    · rw [List.append_assoc]
      exact .gap r1 (by simp [hne])
    · simp [addNode, e1]
    · simpa [addNode] using e3
    · rw [e4, fold, Node.hashOf, serialize_eq (hroot.hash32 h32) (hn.hash32 h32)]
    · intro x hx
      rcases List.mem_cons.1 hx with rfl | hx
      exacts [⟨hroot.hash32 h32, rfl⟩, e5 x hx]
    · intro c hc
      obtain ⟨c', e⟩ := hr.dvd
      have hcc : c = 2 * c' + 1 := by
        apply Nat.eq_of_mul_eq_mul_left (show 0 < 2 ^ h by positivity)
        rw [← hc, List.length_append, e, hroot.length, pow_succ]; ring
      obtain ⟨q, hq⟩ := e6 c' e
      exact ⟨q, by rw [hcc, List.length_cons, pow_succ]; linarith⟩

/-! ### Witnesses -/

/-- `WitnessFor` keeps what the node stands for. -/
theorem Node.witnessFor_full : ∀ {h : ℕ} {n : Node} {xs} {idx : ℤ} {w : List Witness}, Full H db n h xs →
    Full H db (n.witnessFor H db h idx w).1 h xs ∧ (n.witnessFor H db h idx w).1.hashOf H = n.hashOf H := by
  intro h
  induction h with
  | zero => intro n xs idx w f; cases f <;> exact ⟨by simp only [Node.witnessFor]; constructor; try assumption, rfl⟩
  | succ h ih =>
    have key : ∀ {f : Bool} {l r : Node} {xs ys : List Bytes} {idx : ℤ} {w : List Witness}, Full H db l h xs → Full H db r h ys →
        (f = true → db.kv (H (l.hashOf H ++ r.hashOf H)) = some (l.hashOf H ++ r.hashOf H)) →
        (f = true → Full H db (.hash (l.hashOf H)) h xs) → (f = true → Full H db (.hash (r.hashOf H)) h ys) →
        Full H db ((Node.branch f l r).witnessFor H db (h + 1) idx w).1 (h + 1) (xs ++ ys) ∧
        ((Node.branch f l r).witnessFor H db (h + 1) idx w).1.hashOf H = (Node.branch f l r).hashOf H := by
      intro f l r xs ys idx w fl fr a b c
      simp only [Node.witnessFor]
      split
      · obtain ⟨i1, i2⟩ := ih (idx := idx) (w := w) fl
        exact ⟨.branch i1 fr (by rw [i2]; exact a) (by rw [i2]; exact b) c, by simp only [Node.hashOf, i2]⟩
      · obtain ⟨i1, i2⟩ := ih (idx := idx - 2 ^ h) (w := w) fr
        exact ⟨.branch fl i1 (by rw [i2]; exact a) b (by rw [i2]; exact c), by simp only [Node.hashOf, i2]⟩
    intro n xs idx w f
    cases f with
    | branch fl fr a b c => exact key fl fr a b c
    | @stored a b _ xs ys hs ha hb fl fr =>
      have hr : resolve db (H (a ++ b)) = some (.branch true (.hash a) (.hash b)) := by
        simp [resolve, hs, hashSize, ha, hb, List.take_left', List.drop_left']
      have e : (Node.hash (H (a ++ b))).witnessFor H db (h + 1) idx w = (Node.branch true (.hash a) (.hash b)).witnessFor H db (h + 1) idx w := by
        simp only [Node.witnessFor, hr]
      rw [e]
      have := key (f := true) (idx := idx) (w := w) fl fr (fun _ => hs) (fun _ => fl) (fun _ => fr)
      refine ⟨this.1, this.2.trans ?_⟩
      simp [Node.hashOf, serialize_eq ha hb]

theorem htw_append {vs : List Bytes} {x : Bytes} : ∀ {i : ℕ}, hashesToWitness (vs ++ [x]) i =
    hashesToWitness vs i ++ [⟨if i / 2 ^ vs.length % 2 = 0 then .right else .left, x⟩] := by
  induction vs with
  | nil => intro i; simp [hashesToWitness]
  | cons v vs ih => intro i; simp [hashesToWitness, ih, Nat.div_div_eq_div_mul, pow_succ, Nat.mul_comm]

theorem htw_mod : ∀ {vs : List Bytes} {i : ℕ}, hashesToWitness vs (i % 2 ^ vs.length) = hashesToWitness vs i
  | [], _ => rfl
  | v :: vs, i => by
    have h1 : i % 2 ^ (v :: vs).length % 2 = i % 2 := by
      rw [List.length_cons]; exact Nat.mod_mod_of_dvd _ (dvd_pow_self 2 (by omega))
    have h2 : i % 2 ^ (v :: vs).length / 2 = i / 2 % 2 ^ vs.length := by
      rw [List.length_cons, pow_succ, Nat.mul_comm]
      exact Nat.mod_mul_right_div_self i 2 _
    rw [hashesToWitness, hashesToWitness, h1, h2, htw_mod]

/-- The witness from a node. -/
theorem Node.witnessFor_ok (h32 : ∀ s, (H s).length = 32) : ∀ {h : ℕ} {n : Node} {xs} {idx : ℕ} {w : List Witness}, Full H db n h xs →
    idx < 2 ^ h → ∃ v, (n.witnessFor H db h idx w).2 = some (w ++ v) ∧ v.length = h ∧ (∀ x ∈ v, x.hash.length = 32) ∧
      fold H v (xs[idx]?.getD []) = n.hashOf H ∧ v = hashesToWitness (witnessesToHashes v) idx := by
  intro h
  induction h with
  | zero =>
    intro n xs idx w f hi
    have : idx = 0 := by simpa using hi
    subst this
    cases f <;> exact ⟨[], by simp [Node.witnessFor], rfl, by simp, by simp [fold, Node.hashOf], rfl⟩
  | succ h ih =>
    have key : ∀ {f : Bool} {l r : Node} {xs ys : List Bytes} {idx : ℕ} {w : List Witness}, Full H db l h xs → Full H db r h ys →
        idx < 2 ^ (h + 1) → ∃ v, ((Node.branch f l r).witnessFor H db (h + 1) idx w).2 = some (w ++ v) ∧ v.length = h + 1 ∧
        (∀ x ∈ v, x.hash.length = 32) ∧ fold H v ((xs ++ ys)[idx]?.getD []) = (Node.branch f l r).hashOf H ∧
        v = hashesToWitness (witnessesToHashes v) idx := by
      intro f l r xs ys idx w fl fr hi
      rw [Node.hashOf, serialize_eq (fl.hash32 h32) (fr.hash32 h32)]
      simp only [Node.witnessFor]
      by_cases hlt : (idx : ℤ) < 2 ^ h
      · have hlt' : idx < 2 ^ h := by exact_mod_cast hlt
        rw [if_pos hlt]
        obtain ⟨v, e1, e2, e3, e4, e5⟩ := ih (w := w) fl hlt'
        refine ⟨v ++ [⟨.right, r.hashOf H⟩], by simp [e1], by simp [e2], ?_, ?_, ?_⟩
        · intro x hx
          rcases List.mem_append.1 hx with hx | hx
          · exact e3 x hx
          · rw [List.mem_singleton.1 hx]; exact fr.hash32 h32
        · rw [fold_append, List.getElem?_append_left (by rw [fl.length]; exact hlt'), e4]; rfl
        · rw [witnessesToHashes, List.map_append, List.map_cons, List.map_nil, htw_append, ← witnessesToHashes, ← e5]
          simp [witnessesToHashes, e2, Nat.div_eq_of_lt hlt']
      · have hge : 2 ^ h ≤ idx := by exact_mod_cast not_lt.1 hlt
        rw [if_neg hlt]
        rw [pow_succ] at hi
        have hsub : ((idx : ℤ) - 2 ^ h) = ((idx - 2 ^ h : ℕ) : ℤ) := by rw [Nat.cast_sub hge]; simp
        rw [hsub]
        obtain ⟨v, e1, e2, e3, e4, e5⟩ := ih (w := w) (idx := idx - 2 ^ h) fr (by omega)
        refine ⟨v ++ [⟨.left, l.hashOf H⟩], by simp [e1], by simp [e2], ?_, ?_, ?_⟩
        · intro x hx
          rcases List.mem_append.1 hx with hx | hx
          · exact e3 x hx
          · rw [List.mem_singleton.1 hx]; exact fl.hash32 h32
        · rw [fold_append, List.getElem?_append_right (by rw [fl.length]; exact hge), fl.length, e4]; rfl
        · rw [witnessesToHashes, List.map_append, List.map_cons, List.map_nil, htw_append, ← witnessesToHashes]
          have hl : (witnessesToHashes v).length = h := by simp [witnessesToHashes, e2]
          have hm : idx % 2 ^ h = (idx - 2 ^ h) % 2 ^ h := by
            rw [Nat.mod_eq_sub_mod hge]
          have e6 : hashesToWitness (witnessesToHashes v) idx = v := by
            conv_rhs => rw [e5]
            rw [← htw_mod (i := idx), hl, hm]
            conv_rhs => rw [← htw_mod, hl]
          rw [e6, hl]
          have : idx / 2 ^ h = 1 := by
            have := Nat.pos_of_ne_zero (pow_ne_zero h (two_ne_zero (α := ℕ)))
            rw [Nat.div_eq_iff this]; omega
          rw [this]; simp
    intro n xs idx w f hi
    cases f with
    | branch fl fr _ _ _ => exact key fl fr hi
    | @stored a b _ xs ys hs ha hb fl fr =>
      have hr : resolve db (H (a ++ b)) = some (.branch true (.hash a) (.hash b)) := by
        simp [resolve, hs, hashSize, ha, hb, List.take_left', List.drop_left']
      have e : (Node.hash (H (a ++ b))).witnessFor H db (h + 1) idx w = (Node.branch true (.hash a) (.hash b)).witnessFor H db (h + 1) idx w := by
        simp only [Node.witnessFor, hr]
      rw [e]
      obtain ⟨v, e1, e2, e3, e4, e5⟩ := key (f := true) (w := w) fl fr hi
      exact ⟨v, e1, e2, e3, e4.trans (by simp [Node.hashOf, serialize_eq ha hb]), e5⟩

/-! ### From the top -/

/-- The roots from the highest down: the height of a root is the number of roots below it. -/
inductive TRep (H : Bytes → Bytes) (db : Db) : List (Option Node) → List Bytes → Prop
  | nil : TRep H db [] []
  | gap {rs xs} : TRep H db rs xs → TRep H db (none :: rs) xs
  | root {n rs xs ys} : TRep H db rs xs → Full H db n rs.length ys → TRep H db (some n :: rs) (ys ++ xs)

theorem Rep.top {rs h xs} (f : Rep H db rs h xs) : ∀ {l zs}, TRep H db l zs → l.length = h → TRep H db (rs.reverse ++ l) (xs ++ zs) := by
  induction f with
  | nil => intro l zs hl _; simpa using hl
  | gap _ _ i => intro l zs hl e; simpa using i (.gap hl) (by simp [e])
  | root _ a i => intro l zs hl e; simpa using i (.root hl (by rw [e]; exact a)) (by simp [e])

theorem TRep.lt {rs xs} (f : TRep H db rs xs) : xs.length < 2 ^ rs.length := by
  induction f with
  | nil => simp
  | gap _ i => rw [List.length_cons, pow_succ]; omega
  | root _ a i => rw [List.length_cons, List.length_append, a.length, pow_succ]; omega

theorem TRep.bit {rs xs} (f : TRep H db rs xs) {j : ℕ} (h : xs.length.testBit j = false) (hj : j < rs.length) :
    rs[rs.length - 1 - j]? = some none := by
  induction f with
  | nil => simp at hj
  | @gap rs xs g i =>
    simp only [List.length_cons] at hj ⊢
    by_cases e : j = rs.length
    · simp [e]
    · have hj' : j < rs.length := by omega
      rw [show rs.length + 1 - 1 - j = (rs.length - 1 - j) + 1 by omega, List.getElem?_cons_succ]
      exact i h hj'
  | @root n rs xs ys g a i =>
    simp only [List.length_cons] at hj ⊢
    rw [List.length_append, a.length] at h
    by_cases e : j = rs.length
    · subst e
      rw [Nat.testBit_two_pow_add_eq, Nat.testBit_lt_two_pow g.lt] at h
      simp at h
    · have hj' : j < rs.length := by omega
      rw [Nat.testBit_two_pow_add_gt hj'] at h
      rw [show rs.length + 1 - 1 - j = (rs.length - 1 - j) + 1 by omega, List.getElem?_cons_succ]
      exact i h hj'

/-- Every missing root is at or below the tree of this index. -/
def Before (n k idx : ℕ) : Prop := ∀ j < k, n.testBit j = false → idx < 2 ^ j * (n / 2 ^ j)

theorem div_low {L j x : ℕ} (hj : j ≤ L) : 2 ^ j * ((2 ^ L + x) / 2 ^ j) = 2 ^ L + 2 ^ j * (x / 2 ^ j) := by
  obtain ⟨d, rfl⟩ := Nat.exists_eq_add_of_le hj
  rw [pow_add, Nat.mul_add_div (by positivity), Nat.mul_add]

theorem before_root {L x idx : ℕ} (hx : x < 2 ^ L) : Before (2 ^ L + x) (L + 1) (2 ^ L + idx) ↔ Before x L idx := by
  constructor
  · intro h j hj hb
    have := h j (by omega) (by rw [Nat.testBit_two_pow_add_gt hj]; exact hb)
    rw [div_low hj.le] at this; omega
  · intro h j hj hb
    by_cases e : j = L
    · subst e
      rw [Nat.testBit_two_pow_add_eq, Nat.testBit_lt_two_pow hx] at hb
      simp at hb
    · have hj' : j < L := by omega
      rw [Nat.testBit_two_pow_add_gt hj'] at hb
      have := h j hj' hb
      rw [div_low hj'.le]; omega

theorem find_ok : ∀ {rs : List (Option Node)} {xs : List Bytes} {idx : ℕ}, TRep H db rs xs → idx < xs.length →
    Before xs.length rs.length idx →
    ∃ i n ys c idx', rs[rs.length - 1 - i]? = some (some n) ∧ i < rs.length ∧ Full H db n i ys ∧
      findWitness H db rs idx = .ok (i, n.witnessFor H db i (idx' : ℕ) []) ∧ idx' < 2 ^ i ∧ idx = 2 ^ i * c + idx' ∧
      ys[idx']? = xs[idx]?
  | [], _, _, .nil, hi, _ => by simp at hi
  | none :: rs, xs, idx, .gap g, hi, hb => by
    exfalso
    have := hb rs.length (by simp) (Nat.testBit_lt_two_pow g.lt)
    rw [Nat.div_eq_of_lt g.lt] at this
    simp at this
  | some n :: rs, _, idx, .root (xs := xs) (ys := ys) g a, hi, hb => by
    by_cases hlt : idx < 2 ^ rs.length
    · refine ⟨rs.length, n, ys, 0, idx, by simp, by simp, a, ?_, hlt, by simp, ?_⟩
      · rw [findWitness, if_pos (by exact_mod_cast hlt)]
      · rw [List.getElem?_append_left (by rw [a.length]; exact hlt)]
    · have hge := not_lt.1 hlt
      obtain ⟨k, rfl⟩ := Nat.exists_eq_add_of_le hge
      rw [List.length_append, a.length] at hi hb
      obtain ⟨i, m, zs, c, idx', e1, e2, e3, e4, e5, e6, e7⟩ := find_ok g (idx := k) (by omega) ((before_root g.lt).1 hb)
      have e2' : 2 ^ rs.length = 2 ^ i * 2 ^ (rs.length - i) := by rw [← pow_add]; congr 1; omega
      refine ⟨i, m, zs, 2 ^ (rs.length - i) + c, idx', ?_, by simp; omega, e3, ?_, e5, ?_, ?_⟩
      · rw [List.length_cons, show rs.length + 1 - 1 - i = (rs.length - 1 - i) + 1 by omega, List.getElem?_cons_succ, e1]
      · rw [findWitness, if_neg (by push_cast; omega), ← e4]
        congr 1; push_cast; ring
      · rw [Nat.mul_add, ← e2', e6]; ring
      · rw [List.getElem?_append_right (by rw [a.length]; omega), a.length, Nat.add_sub_cancel_left, e7]

theorem find_panic : ∀ {rs : List (Option Node)} {xs : List Bytes} {idx : ℕ}, TRep H db rs xs → idx < xs.length →
    ¬ Before xs.length rs.length idx → findWitness H db rs idx = .panic
  | [], _, _, .nil, hi, _ => by simp at hi
  | none :: rs, xs, idx, .gap g, hi, hb => by
    have := g.lt
    rw [findWitness, if_pos (by exact_mod_cast (by omega : idx < 2 ^ rs.length))]
  | some n :: rs, _, idx, .root (xs := xs) (ys := ys) g a, hi, hb => by
    rw [List.length_append, a.length] at hi hb
    by_cases hlt : idx < 2 ^ rs.length
    · exfalso
      apply hb
      intro j hj hbit
      by_cases e : j = rs.length
      · subst e
        rw [Nat.testBit_two_pow_add_eq, Nat.testBit_lt_two_pow g.lt] at hbit
        simp at hbit
      · have hj' : j < rs.length := by simp at hj; omega
        rw [div_low hj'.le]; omega
    · obtain ⟨k, rfl⟩ := Nat.exists_eq_add_of_le (not_lt.1 hlt)
      rw [findWitness, if_neg (by push_cast; omega), ← find_panic g (idx := k) (by omega) (fun h => hb ((before_root g.lt).2 h))]
      congr 1; push_cast; ring

/-- `WitnessFor` at any index, even negative, only replaces a root by one that stands for the same. -/
theorem find_root : ∀ {rs : List (Option Node)} {idx : ℤ} {i : ℕ} {n' : Node} {w},
    findWitness H db rs idx = .ok (i, n', w) → i < rs.length ∧ ∃ n idx', rs[rs.length - 1 - i]? = some (some n) ∧
      n' = (n.witnessFor H db i idx' []).1
  | [], _, _, _, _, h => by simp [findWitness] at h
  | r :: rs, idx, i, n', w, h => by
    unfold findWitness at h
    split at h
    · cases r with
      | none => simp at h
      | some n =>
        simp only [Res.ok.injEq, Prod.mk.injEq] at h
        obtain ⟨rfl, h2⟩ := h
        exact ⟨by simp, n, idx, by simp, by rw [h2]⟩
    · obtain ⟨h1, n, idx', h2, h3⟩ := find_root h
      refine ⟨by simp; omega, n, idx', ?_, h3⟩
      rw [List.length_cons, show rs.length + 1 - 1 - i = (rs.length - 1 - i) + 1 by omega, List.getElem?_cons_succ, h2]

theorem Rep.set {rs h xs} (f : Rep H db rs h xs) : ∀ {i : ℕ} {n n' : Node}, rs[i]? = some (some n) →
    (∀ ys, Full H db n (h + i) ys → Full H db n' (h + i) ys) → Rep H db (rs.set i (some n')) h xs := by
  induction f with
  | nil => intro i n n' h; simp at h
  | gap g a ih =>
    intro i n n' h hf
    cases i with
    | zero => simp at h
    | succ i => exact .gap (ih (by simpa using h) (fun ys hy => by rw [show _ + 1 + i = _ + (i + 1) by ring] at *; exact hf ys hy)) a
  | root g a ih =>
    intro i n n' h hf
    cases i with
    | zero =>
      simp at h; subst h
      exact .root g (hf _ a)
    | succ i => exact .root (ih (by simpa using h) (fun ys hy => by rw [show _ + 1 + i = _ + (i + 1) by ring] at *; exact hf ys hy)) a

theorem Rep.at {rs h xs} (f : Rep H db rs h xs) : ∀ {i : ℕ} {n : Node}, rs[i]? = some (some n) →
    ∃ pre ys post q, xs = pre ++ ys ++ post ∧ Full H db n (h + i) ys ∧ pre.length = 2 ^ (h + i + 1) * q ∧ post.length < 2 ^ (h + i) ∧
      (i = 0 → post = []) ∧ 2 ^ h ≤ 2 ^ (h + i) - post.length := by
  induction f with
  | nil => intro i n h; simp at h
  | @gap rs h xs g a ih =>
    intro i n hn
    cases i with
    | zero => simp at hn
    | succ i =>
      obtain ⟨pre, ys, post, q, e1, e2, e3, e4, e5, e6⟩ := ih (by simpa using hn)
      rw [show h + 1 + i = h + (i + 1) by ring] at *
      refine ⟨pre, ys, post, q, e1, e2, e3, e4, by simp, ?_⟩
      rw [pow_succ] at e6; have : 0 < 2 ^ h := by positivity
      omega
  | @root m rs h xs zs g a ih =>
    intro i n hn
    cases i with
    | zero =>
      simp at hn; subst hn
      obtain ⟨q, hq⟩ := g.dvd
      exact ⟨xs, zs, [], q, by simp, a, hq, by simp, fun _ => rfl, by simp⟩
    | succ i =>
      obtain ⟨pre, ys, post, q, e1, e2, e3, e4, e5, e6⟩ := ih (by simpa using hn)
      rw [show h + 1 + i = h + (i + 1) by ring] at *
      refine ⟨pre, ys, post ++ zs, q, by rw [e1]; simp, e2, e3, ?_, by simp, ?_⟩ <;>
      · rw [pow_succ] at e6; have : 0 < 2 ^ h := by positivity
        rw [List.length_append, a.length]; omega

/-! ### Flushing -/

/-- The strings a node is made of: those that `Flush` may write. -/
def Node.strings (H : Bytes → Bytes) : Node → List Bytes
  | .hash _ => []
  | .branch _ l r => (l.hashOf H ++ r.hashOf H) :: (l.strings H ++ r.strings H)
  | .data _ d => [d]

/-- The bucket has strings of `S` under their hashes. -/
def Db.Ok (H : Bytes → Bytes) (S : Set Bytes) (db : Db) : Prop := ∀ k v, db.kv k = some v → k = H v ∧ v ∈ S

theorem Db.Ok.set {S : Set Bytes} (hS : Set.InjOn H S) {db : Db} (h : db.Ok H S) {v : Bytes} (hv : v ∈ S) :
    (db.set (H v) v).Ok H S ∧ ∀ k u, db.kv k = some u → (db.set (H v) v).kv k = some u := by
  constructor
  · intro k u hu
    simp only [Db.set] at hu
    split at hu
    · next e => obtain rfl := Option.some.inj hu; exact ⟨e, hv⟩
    · exact h k u hu
  · intro k u hu
    simp only [Db.set]
    split
    · next e =>
      obtain ⟨h1, h2⟩ := h k u hu
      rw [hS hv h2 (by rw [← e, h1])]
    · exact hu

theorem Node.flush_full (h32 : ∀ s, (H s).length = 32) {S : Set Bytes} (hS : Set.InjOn H S) : ∀ {n : Node} {db : Db} {h : ℕ} {xs : List Bytes},
    Full H db n h xs → db.Ok H S → (∀ s ∈ n.strings H, s ∈ S) →
    (n.flush H db).2.Ok H S ∧ (∀ k u, db.kv k = some u → (n.flush H db).2.kv k = some u) ∧ (n.flush H db).2.st = db.st ∧
    (n.flush H db).1.hashOf H = n.hashOf H ∧ Full H (n.flush H db).2 (n.flush H db).1 h xs ∧
    Full H (n.flush H db).2 (.hash (n.hashOf H)) h xs := by
  intro n
  induction n with
  | hash v => intro db h xs f hok hs; exact ⟨hok, fun _ _ h => h, rfl, rfl, f, f⟩
  | data b d =>
    intro db h xs f hok hs
    cases f
    have hd : Full H (Node.flush H (.data b d) db).2 (.hash (H d)) 0 [H d] := .hash (h32 _)
    cases b with
    | true => exact ⟨hok, fun _ _ h => h, rfl, rfl, .data, hd⟩
    | false =>
      obtain ⟨h1, h2⟩ := hok.set hS (hs d (by simp [Node.strings]))
      exact ⟨h1, h2, rfl, rfl, .data, hd⟩
  | branch b l r il ir =>
    intro db h xs f hok hs
    cases f with
    | @branch _ _ _ h xs ys fl fr a c d =>
      have e32 := serialize_eq (fl.hash32 h32) (fr.hash32 h32)
      cases b with
      | true =>
        refine ⟨hok, fun _ _ h => h, rfl, rfl, .branch fl fr a c d, ?_⟩
        rw [Node.hashOf, e32]
        exact .stored (a rfl) (fl.hash32 h32) (fr.hash32 h32) (c rfl) (d rfl)
      | false =>
        obtain ⟨l1, l2, l3, l4, l5, l6⟩ := il fl hok (fun s h => hs s (by simp [Node.strings, h]))
        obtain ⟨r1, r2, r3, r4, r5, r6⟩ := ir (fr.mono l2) l1 (fun s h => hs s (by simp [Node.strings, h]))
        have hsS : l.hashOf H ++ r.hashOf H ∈ S := hs _ (by simp [Node.strings])
        obtain ⟨w1, w2⟩ := r1.set hS hsS
        have m : ∀ k u, (l.flush H db).2.kv k = some u →
            ((r.flush H (l.flush H db).2).2.set (H (l.hashOf H ++ r.hashOf H)) (l.hashOf H ++ r.hashOf H)).kv k = some u :=
          fun k u h => w2 k u (r2 k u h)
        have key : ((r.flush H (l.flush H db).2).2.set (H (l.hashOf H ++ r.hashOf H)) (l.hashOf H ++ r.hashOf H)).kv
            (H (l.hashOf H ++ r.hashOf H)) = some (l.hashOf H ++ r.hashOf H) := by simp [Db.set]
        have a1 := l6.mono m
        have a2 := r6.mono w2
        simp only [Node.flush, e32]
        refine ⟨w1, fun k u h => m k u (l2 k u h), by simp only [Db.set]; rw [r3, l3], by simp only [Node.hashOf, l4, r4], ?_, ?_⟩
        · exact .branch (l5.mono m) (r5.mono w2) (by rw [l4, r4]; exact fun _ => key) (by rw [l4]; exact fun _ => a1)
            (by rw [r4]; exact fun _ => a2)
        · rw [Node.hashOf, e32]
          exact .stored key (fl.hash32 h32) (fr.hash32 h32) a1 a2

theorem flushRoots_rep (h32 : ∀ s, (H s).length = 32) {S : Set Bytes} (hS : Set.InjOn H S) : ∀ {rs : List (Option Node)} {db db' : Db} {h : ℕ}
    {xs : List Bytes} {rs' : List (Option Node)},
    Rep H db rs h xs → db.Ok H S → (∀ n, some n ∈ rs → ∀ s ∈ n.strings H, s ∈ S) → flushRoots H rs db = some (rs', db') →
    db'.Ok H S ∧ (∀ k u, db.kv k = some u → db'.kv k = some u) ∧ Rep H db' rs' h xs ∧
    Rep H db' ((rs'.map (fun r => (r.map (Node.hashOf H)).getD [])).map (fun hv => if hv.length = hashSize then some (.hash hv) else none)) h xs
  | [], db, db', h, _, rs', .nil, hok, _, e => by
    simp only [flushRoots, Option.some.injEq, Prod.mk.injEq] at e
    obtain ⟨rfl, rfl⟩ := e
    exact ⟨hok, fun _ _ h => h, .nil, .nil⟩
  | none :: rs, db, db', h, xs, rs', _, _, _, e => by simp [flushRoots] at e
  | some n :: rs, db, db', h, _, rs', .root (xs := xs) (ys := ys) g a, hok, hs, e => by
    obtain ⟨n1, n2, n3, n4, n5, n6⟩ := Node.flush_full h32 hS a hok (hs n (by simp))
    rw [flushRoots] at e
    cases hr : flushRoots H rs (n.flush H db).2 with
    | none => rw [hr] at e; simp at e
    | some x =>
      obtain ⟨rs2, db2⟩ := x
      rw [hr] at e
      simp only [Option.some.injEq, Prod.mk.injEq] at e
      obtain ⟨rfl, rfl⟩ := e
      obtain ⟨r1, r2, r3, r4⟩ := flushRoots_rep h32 hS (g.mono n2) n1 (fun n h => hs n (List.mem_cons_of_mem _ h)) hr
      refine ⟨r1, fun k u h => r2 k u (n2 k u h), .root r3 (n5.mono r2), ?_⟩
      have := a.hash32 h32
      simp only [List.map_cons, Option.map_some, Option.getD_some, n4, hashSize, this, if_true]
      exact .root (by simpa [hashSize] using r4) (n6.mono r2)

theorem flushRoots_none : ∀ {rs : List (Option Node)} {db : Db}, flushRoots H rs db = none ↔ none ∈ rs
  | [], _ => by simp [flushRoots]
  | none :: rs, _ => by simp [flushRoots]
  | some n :: rs, db => by
    rw [flushRoots]
    have := flushRoots_none (rs := rs) (db := (n.flush H db).2)
    cases hr : flushRoots H rs (n.flush H db).2 with
    | none => simp only [true_iff]; exact List.mem_cons_of_mem _ (this.1 hr)
    | some x =>
      simp only [false_iff, reduceCtorEq, List.mem_cons, false_or]
      intro hm; rw [this.2 hm] at hr; simp at hr

/-! ### Histories -/

/-- An accumulator and its bucket after any history: items added, witnesses asked for, flushes, crashes and recoveries. The lists: the
hashes of all items now in it, and of those in it when it was last flushed. `S`: the strings written to the bucket. -/
inductive Reaches (H : Bytes → Bytes) (S : Set Bytes) : Acc → Db → List Bytes → List Bytes → Prop
  | start : Reaches H S Acc.empty ⟨fun _ => none, none⟩ [] []
  | add {a db xs saved} (x : Item) : Reaches H S a db xs saved → (∀ h, x = .hash h → h.length = 32) →
      Reaches H S (a.add H x).1 db (xs ++ [x.leaf H]) saved
  | witness {a db xs saved} (idx : ℤ) : Reaches H S a db xs saved → Reaches H S (a.witnessFor H db idx).1 db xs saved
  | flush {a db a' db' xs saved} : Reaches H S a db xs saved → a.flush H db = some (a', db') →
      (∀ n, some n ∈ a.roots → ∀ s ∈ n.strings H, s ∈ S) → Reaches H S a' db' xs xs
  /-- a flush that was cut off before it wrote the state: some nodes may have been written -/
  | crash {a db db' xs saved} : Reaches H S a db xs saved → db'.st = db.st →
      (∀ k, db'.kv k = db.kv k ∨ ∃ v ∈ S, k = H v ∧ db'.kv k = some v) → Reaches H S (recover db') db' saved saved

structure Inv (H : Bytes → Bytes) (S : Set Bytes) (a : Acc) (db : Db) (xs saved : List Bytes) : Prop where
  rep : Rep H db a.roots 0 xs
  length : a.length = xs.length
  ok : db.Ok H S
  rep' : Rep H db (recover db).roots 0 saved
  length' : (recover db).length = saved.length

theorem item_full {x : Item} (hx : ∀ h, x = .hash h → h.length = 32) : Full H db x.node 0 [x.leaf H] := by
  cases x with
  | hash h => exact .hash (hx h rfl)
  | data d => exact .data

theorem Reaches.inv (h32 : ∀ s, (H s).length = 32) {S : Set Bytes} (hS : Set.InjOn H S) {a : Acc} {db : Db} {xs saved : List Bytes}
    (h : Reaches H S a db xs saved) : Inv H S a db xs saved := by
  induction h with
  | start => exact ⟨.nil, rfl, by intro k v h; simp at h, .nil, rfl⟩
  | add x g hx i => exact ⟨(addNode_rep h32 i.rep (item_full hx)).1, by simp [Acc.add, i.length], i.ok, i.rep', i.length'⟩
  | @witness a db xs saved idx g i =>
    rw [Acc.witnessFor]
    split
    · exact i
    · have key : ∀ {j n w}, findWitness H db a.roots.reverse idx = .ok (j, n, w) → Rep H db (a.roots.set j (some n)) 0 xs := by
        intro j n w h
        obtain ⟨h1, m, idx', h2, rfl⟩ := find_root h
        refine i.rep.set (n := m) ?_ (fun ys hy => (Node.witnessFor_full (by simpa using hy)).1 |> fun h => by simpa using h)
        rw [List.length_reverse] at h1 h2
        rw [List.getElem?_reverse (by omega)] at h2
        rwa [show a.roots.length - 1 - (a.roots.length - 1 - j) = j by omega] at h2
      split
      · exact i
      · exact i
      · next j n h => exact ⟨key h, i.length, i.ok, i.rep', i.length'⟩
      · next j n w h => exact ⟨key h, i.length, i.ok, i.rep', i.length'⟩
  | @flush a db a' db' xs saved g he hs i =>
    rw [Acc.flush] at he
    cases hr : flushRoots H a.roots db with
    | none => rw [hr] at he; simp at he
    | some x =>
      obtain ⟨rs, db2⟩ := x
      rw [hr] at he
      simp only [Option.some.injEq, Prod.mk.injEq] at he
      obtain ⟨rfl, rfl⟩ := he
      obtain ⟨r1, r2, r3, r4⟩ := flushRoots_rep h32 hS i.rep i.ok hs hr
      have m : ∀ k u, db2.kv k = some u → ({ db2 with st := some (rs.map (fun r => (r.map (Node.hashOf H)).getD []), a.length) } : Db).kv k = some u :=
        fun _ _ h => h
      exact ⟨r3.mono m, i.length, r1, r4.mono m, i.length⟩
  | @crash a db db' xs saved g he hk i =>
    have m : ∀ k u, db.kv k = some u → db'.kv k = some u := by
      intro k u hu
      rcases hk k with h | ⟨v, hv, hkv, h⟩
      · rw [h, hu]
      · obtain ⟨h1, h2⟩ := i.ok k u hu
        rw [h, hS hv h2 (by rw [← hkv, h1])]
    have ok : db'.Ok H S := by
      intro k u hu
      rcases hk k with h | ⟨v, hv, hkv, h⟩
      · exact i.ok k u (h ▸ hu)
      · rw [h] at hu; obtain rfl := Option.some.inj hu; exact ⟨hkv, hv⟩
    have e : recover db' = recover db := by simp [recover, he]
    exact ⟨by rw [e]; exact i.rep'.mono m, by rw [e]; exact i.length', ok, by rw [e]; exact i.rep'.mono m, by rw [e]; exact i.length'⟩

theorem verify_of {a : Acc} (h32 : ∀ s, (H s).length = 32) {ws : List Witness} {h : Bytes} {m : Node} (hh : h.length = 32)
    (hw : ∀ w ∈ ws, w.hash.length = 32) (hm : a.roots[ws.length]? = some (some m)) (e : m.hashOf H = fold H ws h) :
    a.verify H ws h = true := by
  simp only [Acc.verify, hm]
  rw [verify_fold h32 ws _ _ (by simp [hashSize]) hh hw]
  simp [e]

/-! ### The theorems -/

/-- **C44 (the witness of a new item).** After any history, adding an item counts it, and gives a witness that verifies; its directions
follow from the item's index. -/
theorem C44_add (h32 : ∀ s, (H s).length = 32) {S : Set Bytes} (hS : Set.InjOn H S) {a : Acc} {db : Db} {xs saved : List Bytes}
    (hr : Reaches H S a db xs saved) {x : Item} (hx : ∀ h, x = .hash h → h.length = 32) :
    a.length = xs.length ∧ (a.add H x).1.length = xs.length + 1 ∧
    (a.add H x).1.verify H (a.add H x).2 (x.leaf H) = true ∧
    hashesToWitness (witnessesToHashes (a.add H x).2) xs.length = (a.add H x).2 := by
  have i := hr.inv h32 hS
  obtain ⟨_, v, m, e1, e2, e3, e4, e5⟩ := addNode_rep h32 (w := []) i.rep (item_full (H := H) (db := db) hx)
  have e1 : (a.add H x).2 = v := by simpa [Acc.add] using e1
  have hl : (x.leaf H).length = 32 := by cases x with | hash h => exact hx h rfl | data d => exact h32 d
  have hn : x.node.hashOf H = x.leaf H := by cases x <;> rfl
  refine ⟨i.length, by simp [Acc.add, i.length], ?_, ?_⟩
  · rw [e1]
    exact verify_of h32 hl (fun w hw => (e4 w hw).1) e2 (by rw [e3, hn])
  · obtain ⟨q, hq⟩ := e5 xs.length (by simp)
    rw [e1]
    exact htw_left (fun x hx => (e4 x hx).2) hq

/-- **C44 (the witness of any item).** After any history, `WitnessFor` of an index gives a witness of the item added at this index,
unless a root is missing above the tree with this item: for every digit 0 in the binary number of items, the index is less than the
number cut off there. The witness verifies before and after, and its directions follow from the index. -/
theorem C44_witness (h32 : ∀ s, (H s).length = 32) {S : Set Bytes} (hS : Set.InjOn H S) {a : Acc} {db : Db} {xs saved : List Bytes}
    (hr : Reaches H S a db xs saved) {idx : ℕ} (hi : idx < xs.length)
    (hb : ∀ j, 2 ^ j ≤ xs.length → xs.length.testBit j = false → idx < 2 ^ j * (xs.length / 2 ^ j)) :
    ∃ w, (a.witnessFor H db idx).2 = .ok w ∧ a.verify H w xs[idx] = true ∧ (a.witnessFor H db idx).1.verify H w xs[idx] = true ∧
      hashesToWitness (witnessesToHashes w) idx = w := by
  have i := hr.inv h32 hS
  have t : TRep H db a.roots.reverse xs := by simpa using i.rep.top .nil rfl
  have bits := i.rep.bits (c := xs.length) (by simp)
  have hb' : Before xs.length a.roots.reverse.length idx := by
    intro j hj hbit
    rw [List.length_reverse] at hj
    exact hb j ((bits.2 j).1 hj) hbit
  obtain ⟨k, n, ys, c, idx', e1, e2, e3, e4, e5, e6, e7⟩ := find_ok t hi hb'
  obtain ⟨v, w1, w2, w3, w4, w5⟩ := Node.witnessFor_ok h32 (w := []) e3 e5
  have hfull := Node.witnessFor_full (idx := idx') (w := []) e3
  rw [List.length_reverse] at e1 e2
  rw [List.getElem?_reverse (by omega), show a.roots.length - 1 - (a.roots.length - 1 - k) = k by omega] at e1
  have hx : ys[idx']?.getD [] = xs[idx] := by rw [e7, List.getElem?_eq_getElem hi]; rfl
  have hx32 : xs[idx].length = 32 := by
    have hlt : idx' < ys.length := by rw [e3.length]; exact e5
    have := e3.leaf32 h32 ys[idx'] (List.getElem_mem hlt)
    rw [List.getElem?_eq_getElem hlt] at hx
    simpa [← hx] using this
  rw [hx] at w4
  have hres : a.witnessFor H db idx = (⟨a.roots.set k (some (n.witnessFor H db k idx' []).1), a.length⟩, .ok v) := by
    have h1 : ¬ (idx : ℤ) ≥ a.length := by rw [i.length]; push_cast; omega
    rcases hp : n.witnessFor H db k idx' [] with ⟨p1, p2⟩
    rw [hp] at w1
    simp only [List.nil_append] at w1
    subst w1
    simp only [Acc.witnessFor, if_neg h1, e4, hp]
  refine ⟨v, by rw [hres], ?_, ?_, ?_⟩
  · exact verify_of h32 hx32 w3 (by rw [w2]; exact e1) w4.symm
  · rw [hres]
    refine verify_of h32 hx32 w3 (m := (n.witnessFor H db k idx' []).1) ?_ (by rw [hfull.2]; exact w4.symm)
    rw [w2]; simp [e2]
  · have hl : (witnessesToHashes v).length = k := by simp [witnessesToHashes, w2]
    conv_rhs => rw [w5]
    rw [← htw_mod, hl, e6, Nat.mul_add_mod, Nat.mod_eq_of_lt e5]

/-- **C44 (finding: the other indices panic).** -/
theorem C44_witness_panics (h32 : ∀ s, (H s).length = 32) {S : Set Bytes} (hS : Set.InjOn H S) {a : Acc} {db : Db} {xs saved : List Bytes}
    (hr : Reaches H S a db xs saved) {idx : ℕ} :
    (xs.length ≤ idx → (a.witnessFor H db idx).2 = .err) ∧
    (∀ j, 2 ^ j ≤ xs.length → xs.length.testBit j = false → 2 ^ j * (xs.length / 2 ^ j) ≤ idx → idx < xs.length →
      (a.witnessFor H db idx).2 = .panic) := by
  have i := hr.inv h32 hS
  constructor
  · intro h
    rw [Acc.witnessFor, if_pos (by rw [i.length]; exact_mod_cast h)]
  · intro j hj hbit hle hi
    have t : TRep H db a.roots.reverse xs := by simpa using i.rep.top .nil rfl
    have bits := i.rep.bits (c := xs.length) (by simp)
    have := find_panic t hi (fun hb => by
      have := hb j (by rw [List.length_reverse]; exact (bits.2 j).2 hj) hbit
      omega)
    rw [Acc.witnessFor, if_neg (by rw [i.length]; omega), this]

/-- **C44 (finding: Flush works only when no root is missing).** It panics unless all binary digits of the number of items are 1. -/
theorem C44_flush_panics (h32 : ∀ s, (H s).length = 32) {S : Set Bytes} (hS : Set.InjOn H S) {a : Acc} {db : Db} {xs saved : List Bytes}
    (hr : Reaches H S a db xs saved) : a.flush H db = none ↔ ∃ j, 2 ^ j ≤ xs.length ∧ xs.length.testBit j = false := by
  have i := hr.inv h32 hS
  have bits := i.rep.bits (c := xs.length) (by simp)
  have h1 : a.flush H db = none ↔ none ∈ a.roots := by
    rw [← flushRoots_none (H := H) (db := db), Acc.flush]
    cases flushRoots H a.roots db with
    | none => simp
    | some x => simp
  rw [h1, List.mem_iff_getElem?]
  constructor
  · rintro ⟨j, hj⟩
    refine ⟨j, (bits.2 j).1 (List.getElem?_eq_some_iff.1 hj).1, ?_⟩
    by_contra hc
    obtain ⟨n, hn⟩ := (bits.1 j).2 (by simpa using hc)
    rw [hj] at hn; simp at hn
  · rintro ⟨j, hj, hb⟩
    have hlt := (bits.2 j).2 hj
    refine ⟨j, ?_⟩
    rw [List.getElem?_eq_getElem hlt]
    cases hc : a.roots[j] with
    | none => rfl
    | some n =>
      have := (bits.1 j).1 ⟨n, by rw [List.getElem?_eq_getElem hlt, hc]⟩
      rw [hb] at this; simp at this

/-- The index a witness speaks of, counted from the start of its tree. -/
def index : List Witness → ℕ
  | [] => 0
  | w :: ws => (if w.dir = .left then 1 else 0) + 2 * index ws

/-- The strings `Verify` hashes. -/
def hashedBy (H : Bytes → Bytes) : List Witness → Bytes × Bytes → List Bytes
  | [], _ => []
  | w :: ws, s => (verifyStep H s w).1 :: hashedBy H ws (verifyStep H s w)

theorem index_htw : ∀ {hs : List Bytes} {i : ℕ}, index (hashesToWitness hs i) = i % 2 ^ hs.length
  | [], i => by simp [hashesToWitness, index, Nat.mod_one]
  | v :: hs, i => by
    rw [hashesToWitness, index, index_htw, List.length_cons, pow_succ, Nat.mul_comm (2 ^ hs.length) 2, Nat.mod_mul]
    split_ifs with h1 h2 h2 <;> simp_all

theorem index_append : ∀ {ws : List Witness} {w : Witness}, index (ws ++ [w]) = index ws + (if w.dir = .left then 2 ^ ws.length else 0)
  | [], w => by simp [index]
  | v :: ws, w => by
    rw [List.cons_append, index, index_append, index, List.length_cons, pow_succ]
    split <;> split <;> omega

theorem index_lt : ∀ {ws : List Witness}, index ws < 2 ^ ws.length
  | [] => by simp [index]
  | v :: ws => by
    have := index_lt (ws := ws)
    rw [index, List.length_cons, pow_succ]
    split <;> omega

theorem hashedBy_append {ws : List Witness} {w : Witness} : ∀ {s : Bytes × Bytes},
    hashedBy H (ws ++ [w]) s = hashedBy H ws s ++ [(verifyStep H (ws.foldl (verifyStep H) s) w).1] := by
  induction ws with
  | nil => intro s; rfl
  | cons v ws ih => intro s; simp [hashedBy, ih]

theorem copyTo_length {d src : Bytes} {o : ℕ} (h : o ≤ d.length) : (copyTo d o src).length = d.length := by
  simp [copyTo]; omega

theorem copyTo_low {d src : Bytes} (hd : d.length = 64) : (copyTo d 32 src).take 32 = d.take 32 := by
  rw [copyTo, List.append_assoc, List.take_left' (by simp [hd])]

theorem copyTo_high {d src : Bytes} (hd : d.length = 64) (hs : src.length = 32) : (copyTo d 32 src).drop 32 = src := by
  rw [copyTo, List.append_assoc, List.drop_left' (by simp [hd])]
  simp [hd, hs, List.take_of_length_le, List.drop_eq_nil_iff]

theorem copyTo_start {d src : Bytes} (hd : d.length = 64) (hs : src.length = 32) : (copyTo d 0 src).take 32 = src := by
  simp only [copyTo, List.take_zero, List.nil_append, hd, Nat.sub_zero]
  rw [List.take_of_length_le (l := src) (by omega), List.take_left' hs]

theorem verifyStep_length {s : Bytes × Bytes} {w : Witness} (h : s.1.length = 64) : (verifyStep H s w).1.length = 64 := by
  obtain ⟨d, v⟩ := w
  cases d <;> simp [verifyStep, copyTo_length, hashSize, h]

theorem fold_length {ws : List Witness} {s : Bytes × Bytes} (h32 : ∀ s, (H s).length = 32) (h : s.1.length = 64) (h' : s.2.length = 32) :
    (ws.foldl (verifyStep H) s).1.length = 64 ∧ (ws.foldl (verifyStep H) s).2.length = 32 := by
  induction ws generalizing s with
  | nil => exact ⟨h, h'⟩
  | cons w ws ih => exact ih (verifyStep_length h) (h32 _)

theorem merkle32 (h32 : ∀ s, (H s).length = 32) : ∀ {k : ℕ} {xs : List Bytes}, xs.length = 2 ^ k → (∀ x ∈ xs, x.length = 32) →
    (merkle H k xs).length = 32
  | 0, xs, hl, hx => by
    match xs, hl with
    | [x], _ => exact hx x (by simp)
  | k + 1, _, _, _ => h32 _

theorem sound_aux (h32 : ∀ s, (H s).length = 32) : ∀ {k : ℕ} {ws : List Witness} {ys : List Bytes} {s : Bytes × Bytes}, ws.length = k →
    ys.length = 2 ^ k → (∀ x ∈ ys, x.length = 32) → s.1.length = 64 → s.2.length = 32 →
    (ws.foldl (verifyStep H) s).2 = merkle H k ys →
    (∀ a ∈ hashedBy H ws s, ∀ b ∈ branches H k ys, H a = H b → a = b) → ys[index ws]? = some s.2 := by
  intro k
  induction k with
  | zero =>
    intro ws ys s hw hy h1 _ _ he _
    obtain rfl := List.length_eq_zero_iff.1 hw
    match ys, hy with
    | [y], _ => simpa [index, merkle] using he.symm
  | succ k ih =>
    intro ws ys s hw hy h1 h2 h3 he hc
    obtain ⟨vs, w, rfl⟩ : ∃ vs w, ws = vs ++ [w] := by
      rcases List.eq_nil_or_concat ws with rfl | ⟨vs, w, h⟩
      · simp at hw
      · exact ⟨vs, w, by simpa using h⟩
    have hvs : vs.length = k := by simpa using hw
    rw [List.foldl_append, List.foldl_cons, List.foldl_nil, merkle] at he
    rw [hashedBy_append, branches] at hc
    set t := vs.foldl (verifyStep H) s with ht
    obtain ⟨t1, t2⟩ : t.1.length = 64 ∧ t.2.length = 32 := fold_length h32 h2 h3
    have hbuf := hc (verifyStep H t w).1 (by simp) _ (List.mem_cons_self) (by simpa [verifyStep] using he)
    rw [pow_succ] at hy
    have la : (ys.take (2 ^ k)).length = 2 ^ k := by rw [List.length_take]; omega
    have lb : (ys.drop (2 ^ k)).length = 2 ^ k := by rw [List.length_drop]; omega
    have ma := merkle32 h32 la (fun x h => h1 x (List.mem_of_mem_take h))
    have mb := merkle32 h32 lb (fun x h => h1 x (List.mem_of_mem_drop h))
    obtain ⟨d, v⟩ := w
    cases d with
    | left =>
      have e : t.2 = merkle H k (ys.drop (2 ^ k)) := by
        have := congrArg (List.drop 32) hbuf
        rw [List.drop_left' ma] at this
        rw [← this]
        simp only [verifyStep, hashSize]
        rw [copyTo_high (by rw [copyTo_length (by omega)]; exact t1) t2]
      have := ih hvs lb (fun x h => h1 x (List.mem_of_mem_drop h)) h2 h3 e (fun a ha b hb => hc a (by simp [ha]) b (by simp [hb]))
      rw [index_append, hvs, if_pos rfl, Nat.add_comm, ← List.getElem?_drop]
      exact this
    | right =>
      have e : t.2 = merkle H k (ys.take (2 ^ k)) := by
        have := congrArg (List.take 32) hbuf
        rw [List.take_left' ma] at this
        rw [← this]
        simp only [verifyStep, hashSize]
        rw [copyTo_low (by rw [copyTo_length (by omega)]; exact t1), copyTo_start t1 t2]
      have := ih hvs la (fun x h => h1 x (List.mem_of_mem_take h)) h2 h3 e (fun a ha b hb => hc a (by simp [ha]) b (by simp [hb]))
      rw [index_append, if_neg (by simp), Nat.add_zero]
      have hlt : index vs < 2 ^ k := hvs ▸ index_lt
      rwa [List.getElem?_take_of_lt hlt] at this

/-- **C44 (only items have witnesses).** After any history: if `Verify` accepts any list of witnesses for a hash, made by anybody, then
there is a tree of that height, and the hash is the one of the item at the place the directions say, unless one of the strings
`Verify` hashed has the hash of another string hashed in that tree. The tree of height `k` starts at the number of items with its last
`k + 1` binary digits cut off. -/
theorem C44_sound (h32 : ∀ s, (H s).length = 32) {S : Set Bytes} (hS : Set.InjOn H S) {a : Acc} {db : Db} {xs saved : List Bytes}
    (hr : Reaches H S a db xs saved) {ws : List Witness} {h : Bytes} (hh : h.length = 32) (hv : a.verify H ws h = true)
    (hc : ∀ s ∈ hashedBy H ws (List.replicate 64 0, h),
      ∀ t ∈ branches H ws.length ((xs.drop (2 ^ (ws.length + 1) * (xs.length / 2 ^ (ws.length + 1)))).take (2 ^ ws.length)), H s = H t → s = t) :
    xs.length.testBit ws.length = true ∧ xs[2 ^ (ws.length + 1) * (xs.length / 2 ^ (ws.length + 1)) + index ws]? = some h := by
  have i := hr.inv h32 hS
  have bits := i.rep.bits (c := xs.length) (by simp)
  obtain ⟨n, hn, he⟩ : ∃ n, a.roots[ws.length]? = some (some n) ∧ n.hashOf H = (ws.foldl (verifyStep H) (List.replicate 64 0, h)).2 := by
    simp only [Acc.verify] at hv
    split at hv
    · next n hn => exact ⟨n, hn, of_decide_eq_true hv⟩
    · simp at hv
  obtain ⟨pre, ys, post, q, e1, e2, e3, e4, _, _⟩ := i.rep.at hn
  simp only [Nat.zero_add] at e2 e3 e4
  have hys := e2.length
  have hq : xs.length / 2 ^ (ws.length + 1) = q := by
    have : (ys ++ post).length < 2 ^ (ws.length + 1) := by rw [List.length_append, hys, pow_succ]; omega
    rw [e1, List.append_assoc, List.length_append, e3, Nat.mul_add_div (by positivity), Nat.div_eq_of_lt this, Nat.add_zero]
  rw [hq, ← e3] at hc ⊢
  have htree : (xs.drop pre.length).take (2 ^ ws.length) = ys := by
    rw [e1, List.append_assoc, List.drop_left, List.take_left' hys]
  rw [htree] at hc
  have := sound_aux h32 (s := (List.replicate 64 0, h)) rfl hys (e2.leaf32 h32) (by simp) hh (by rw [← he, e2.hashOf h32]) hc
  refine ⟨(bits.1 _).1 ⟨n, hn⟩, ?_⟩
  rw [e1, List.append_assoc, List.getElem?_append_right (by omega), Nat.add_sub_cancel_left,
    List.getElem?_append_left (by rw [hys]; exact index_lt)]
  exact this

/-- **C44 (a witness sent as hashes and an index).** -/
theorem C44_hashes (hs : List Bytes) (i : ℕ) : witnessesToHashes (hashesToWitness hs i) = hs ∧ index (hashesToWitness hs i) = i % 2 ^ hs.length := by
  refine ⟨?_, index_htw⟩
  induction hs generalizing i with
  | nil => rfl
  | cons v hs ih =>
    have := ih (i / 2)
    simp only [witnessesToHashes, hashesToWitness, List.map_cons] at this ⊢
    rw [this]

/-- **C44 (flush and recover).** After any history with a flush somewhere, recovering from the bucket gives an accumulator with exactly
the items of the last flush: the same length and the same root hashes, and everything above holds for it. -/
theorem C44_recover (h32 : ∀ s, (H s).length = 32) {S : Set Bytes} (hS : Set.InjOn H S) {a : Acc} {db : Db} {xs saved : List Bytes}
    (hr : Reaches H S a db xs saved) :
    Reaches H S (recover db) db saved saved ∧ (recover db).length = saved.length ∧
    ∀ k n, (recover db).roots[k]? = some (some n) → n.hashOf H =
      merkle H k ((saved.drop (2 ^ (k + 1) * (saved.length / 2 ^ (k + 1)))).take (2 ^ k)) := by
  have hc : Reaches H S (recover db) db saved saved := hr.crash rfl (fun _ => .inl rfl)
  have i := hc.inv h32 hS
  refine ⟨hc, i.length, ?_⟩
  intro k n hn
  obtain ⟨pre, ys, post, q, e1, e2, e3, e4, _, _⟩ := i.rep.at hn
  simp only [Nat.zero_add] at e2 e3 e4
  have hys := e2.length
  have hq : saved.length / 2 ^ (k + 1) = q := by
    have : (ys ++ post).length < 2 ^ (k + 1) := by rw [List.length_append, hys, pow_succ]; omega
    rw [e1, List.append_assoc, List.length_append, e3, Nat.mul_add_div (by positivity), Nat.div_eq_of_lt this, Nat.add_zero]
  rw [hq, ← e3, e1, List.append_assoc, List.drop_left, List.take_left' hys]
  exact e2.hashOf h32

/-! ### Concrete cases -/

/-- A hash function for examples: 32 bytes, the first few of the string. -/
def exH (s : Bytes) : Bytes := (s ++ List.replicate 32 7).take 32

def exItem (b : UInt8) : Item := .hash (List.replicate 32 b)

def exAcc (n : ℕ) : Acc := (List.range n).foldl (fun a i => (a.add exH (exItem (UInt8.ofNat i))).1) Acc.empty

/-- Seven items: every index has a witness, and `Flush` works. -/
example : (List.range 7).all (fun i => match ((exAcc 7).witnessFor exH ⟨fun _ => none, none⟩ i).2 with
    | .ok w => (exAcc 7).verify exH w (List.replicate 32 (UInt8.ofNat i))
    | _ => false) = true := by decide +kernel

example : ((exAcc 7).flush exH ⟨fun _ => none, none⟩).isSome = true := by decide +kernel

/-- Five items: the last one has none, and `Flush` panics. -/
example : ((exAcc 5).witnessFor exH ⟨fun _ => none, none⟩ 4).2 = .panic ∧ ((exAcc 5).flush exH ⟨fun _ => none, none⟩).isNone = true := by
  decide +kernel

/-- A negative index gives the witness of the first item. -/
example : ((exAcc 7).witnessFor exH ⟨fun _ => none, none⟩ (-3)).2 = ((exAcc 7).witnessFor exH ⟨fun _ => none, none⟩ 0).2 := by
  decide +kernel

end Verif.Mta
