import Verif.Base.Bytes
import Mathlib.Tactic.Ring

/-!
# Merkle trees and signatures of BTP (C72)

Models `btp/ntm/module.go` (`MerkleRoot`, `MerkleProof`, which overwrite one buffer level by level) and `btp/ntm/secp256k1proof.go` (`Verify`).  `h` is the hash function of the network type
(Keccak-256 or SHA3-256): any function to 32 bytes.
-/

namespace Verif.BtpMerkle

open Verif

/-! ## The buffer -/

/-- `copy(buf[j:], x)`, or `append(buf[:j], x...)` where the capacity suffices: the bytes from `j` on are overwritten. -/
def write (buf : Bytes) (j : ℕ) (x : Bytes) : Bytes := buf.take j ++ x ++ buf.drop (j + x.length)

/-- `buf[i:i+n]`. -/
def slice (buf : Bytes) (i n : ℕ) : Bytes := (buf.drop i).take n

/-- The inner loop of `merkleRoot` (`module.go:91-98`); `len` is `len(data)`. -/
def rootPass (h : Bytes → Bytes) (len : ℕ) (buf : Bytes) (i j : ℕ) : Bytes × ℕ :=
  if i < len then
    if i + 64 ≤ len then rootPass h len (write buf j (h (slice buf i 64))) (i + 64) (j + 32)
    else rootPass h len (write buf j (slice buf i 32)) (i + 64) (j + 32)
  else (buf, j)
termination_by len - i

theorem rootPass_snd (h : Bytes → Bytes) (len : ℕ) (buf : Bytes) (i j : ℕ) : (rootPass h len buf i j).2 = j + 32 * ((len - i + 63) / 64) := by
  induction buf, i, j using rootPass.induct (h := h) (len := len) with
  | case1 buf i j h1 h2 ih => rw [rootPass, if_pos h1, if_pos h2, ih]; omega
  | case2 buf i j h1 h2 ih => rw [rootPass, if_pos h1, if_neg h2, ih]; omega
  | case3 buf i j h1 => rw [rootPass, if_neg h1]; dsimp only; omega

/-- `merkleRoot` (`module.go:89-102`). -/
def rootLoop (h : Bytes → Bytes) (buf : Bytes) (len : ℕ) : Bytes :=
  if 32 < len then rootLoop h ((rootPass h len buf 0 0).1.take (rootPass h len buf 0 0).2) (rootPass h len buf 0 0).2
  else buf.take 32
termination_by len
decreasing_by rw [rootPass_snd]; omega

/-- `MerkleRoot` (`module.go:104-116`); `none` is `nil`. -/
def merkleRoot (h : Bytes → Bytes) (ls : List Bytes) : Option Bytes :=
  match ls with
  | [] => none
  | [a] => some a
  | _ => some (rootLoop h ls.flatten ls.flatten.length)

/-- `module.Dir` (`module/btp.go:188-193`). -/
inductive Dir
  | left
  | right
deriving DecidableEq

/-- `module.MerkleNode` (`module/btp.go:195-198`). -/
structure Node where
  dir : Dir
  value : Option Bytes
deriving DecidableEq

/-- The inner loop of `merkleProof` (`module.go:121-152`). -/
def proofPass (h : Bytes → Bytes) (len : ℕ) (buf : Bytes) (i j idx : ℕ) (proof : List Node) : Bytes × ℕ × ℕ × List Node :=
  if i < len then
    if i + 64 ≤ len then
      if idx = i then
        proofPass h len (write buf j (h (slice buf i 64))) (i + 64) (j + 32) j (proof ++ [⟨.right, some (slice buf (i + 32) 32)⟩])
      else if idx = i + 32 then
        proofPass h len (write buf j (h (slice buf i 64))) (i + 64) (j + 32) j (proof ++ [⟨.left, some (slice buf i 32)⟩])
      else proofPass h len (write buf j (h (slice buf i 64))) (i + 64) (j + 32) idx proof
    else if idx = i then proofPass h len (write buf j (slice buf i 32)) (i + 64) (j + 32) j (proof ++ [⟨.right, none⟩])
    else proofPass h len (write buf j (slice buf i 32)) (i + 64) (j + 32) idx proof
  else (buf, j, idx, proof)
termination_by len - i

theorem proofPass_buf (h : Bytes → Bytes) (len : ℕ) (buf : Bytes) (i j idx : ℕ) (proof : List Node) :
    (proofPass h len buf i j idx proof).1 = (rootPass h len buf i j).1 ∧ (proofPass h len buf i j idx proof).2.1 = (rootPass h len buf i j).2 := by
  induction buf, i, j using rootPass.induct (h := h) (len := len) generalizing idx proof with
  | case1 buf i j h1 h2 ih =>
    rw [rootPass, if_pos h1, if_pos h2, proofPass, if_pos h1, if_pos h2]
    by_cases h3 : idx = i
    · rw [if_pos h3]; exact ih _ _
    · rw [if_neg h3]
      by_cases h4 : idx = i + 32
      · rw [if_pos h4]; exact ih _ _
      · rw [if_neg h4]; exact ih _ _
  | case2 buf i j h1 h2 ih =>
    rw [rootPass, if_pos h1, if_neg h2, proofPass, if_pos h1, if_neg h2]
    by_cases h3 : idx = i
    · rw [if_pos h3]; exact ih _ _
    · rw [if_neg h3]; exact ih _ _
  | case3 buf i j h1 => rw [rootPass, if_neg h1, proofPass, if_neg h1]; exact ⟨rfl, rfl⟩

/-- `merkleProof` (`module.go:118-155`). -/
def proofLoop (h : Bytes → Bytes) (buf : Bytes) (len idx : ℕ) (proof : List Node) : List Node :=
  if 32 < len then
    proofLoop h ((proofPass h len buf 0 0 idx proof).1.take (proofPass h len buf 0 0 idx proof).2.1) (proofPass h len buf 0 0 idx proof).2.1
      (proofPass h len buf 0 0 idx proof).2.2.1 (proofPass h len buf 0 0 idx proof).2.2.2
  else proof
termination_by len
decreasing_by rw [(proofPass_buf h len buf 0 0 idx proof).2, rootPass_snd]; omega

/-- `MerkleProof` (`module.go:157-169`); a `nil` for no data is given as the empty list. -/
def merkleProof (h : Bytes → Bytes) (ls : List Bytes) (i : ℕ) : List Node :=
  match ls with
  | [] => []
  | [_] => []
  | _ => proofLoop h ls.flatten ls.flatten.length (i * 32) []

/-! ## Signatures -/

/-- `secp256k1ProofContext.VerifyPart` (`secp256k1proof.go:163-181`): `recover_` gives the address whose key made the signature of the decision, or nothing. -/
def verifyPart {Sig : Type} (recover_ : Sig → Option Bytes) (validators : List (Option Bytes)) (i : ℕ) (s : Sig) : Bool :=
  match validators[i]? with
  | none => false
  | some v =>
    match recover_ s with
    | none => false
    | some a => decide (v.getD [] = a)

/-- The loop of `Verify` (`secp256k1proof.go:194-214`): `none`: an error, or the number of valid parts.  `seen` is `set`. -/
def verifyLoop {Sig : Type} (recover_ : Sig → Option Bytes) (validators : List (Option Bytes)) : List (Option Sig) → ℕ → List ℕ → ℕ → Option ℕ
  | [], _, _, valid => some valid
  | none :: r, i, seen, valid => verifyLoop recover_ validators r (i + 1) seen valid
  | some s :: r, i, seen, valid =>
    if verifyPart recover_ validators i s then
      if i ∈ seen then none
      else verifyLoop recover_ validators r (i + 1) (i :: seen) (valid + 1)
    else none

/-- `secp256k1ProofContext.Verify` (`secp256k1proof.go:192-219`). -/
def verify {Sig : Type} (recover_ : Sig → Option Bytes) (validators : List (Option Bytes)) (sigs : List (Option Sig)) : Bool :=
  match verifyLoop recover_ validators sigs 0 [] 0 with
  | none => false
  | some valid => !decide (valid ≤ 2 * validators.length / 3)

/-! ## Specification -/

/-- The Merkle root of a list, and the strings that are hashed for it: the left subtree is full and not smaller than the right one. -/
inductive Tree (h : Bytes → Bytes) : List Bytes → Bytes → List Bytes → Prop
  | leaf (a : Bytes) : Tree h [a] a []
  | node (e : ℕ) (l r : List Bytes) (x y : Bytes) (s t : List Bytes) (hl : l.length = 2 ^ e) (hr0 : 0 < r.length) (hr : r.length ≤ 2 ^ e) (h1 : Tree h l x s) (h2 : Tree h r y t) :
      Tree h (l ++ r) (h (x ++ y)) ((x ++ y) :: (s ++ t))

/-- How a verifier goes from a leaf to the root. -/
def climb (h : Bytes → Bytes) : Bytes → List Node → Bytes
  | x, [] => x
  | x, ⟨_, none⟩ :: p => climb h x p
  | x, ⟨.right, some v⟩ :: p => climb h (h (x ++ v)) p
  | x, ⟨.left, some v⟩ :: p => climb h (h (v ++ x)) p

/-- The strings that are hashed on that way. -/
def climbed (h : Bytes → Bytes) : Bytes → List Node → List Bytes
  | _, [] => []
  | x, ⟨_, none⟩ :: p => climbed h x p
  | x, ⟨.right, some v⟩ :: p => (x ++ v) :: climbed h (h (x ++ v)) p
  | x, ⟨.left, some v⟩ :: p => (v ++ x) :: climbed h (h (v ++ x)) p

/-- The directions at which a verifier who knows the number `n` of leaves expects to combine, from leaf `i` upwards: an only child is passed on. -/
def path (n i : ℕ) : List Dir :=
  if n ≤ 1 then []
  else (if i % 2 = 1 then [.left] else if i + 1 < n then [.right] else []) ++ path ((n + 1) / 2) (i / 2)
termination_by n

/-- The directions at which a proof combines. -/
def dirs (p : List Node) : List Dir := (p.filter fun n => n.value.isSome).map Node.dir

end Verif.BtpMerkle
