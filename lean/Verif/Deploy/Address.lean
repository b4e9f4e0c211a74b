import Verif.Deploy.Index
import Verif.IntCodec.GoLemmas

/-!
# Deployment of contracts (C71): addresses, findings, a concrete case
-/

namespace Verif.Deploy

open Verif Verif.WorldState Verif.IntCodec

/-- The nonce in `genContractAddr` (`deployhandler.go:199-208`). -/
def noncePart (n : ℤ) : Bytes :=
  if n = 0 then []
  else
    let nb := goBigIntToBytes n
    if nb.length ≥ 32 then nb.take 32 else List.replicate (32 - nb.length) 0 ++ nb

/-- The salt (`deployhandler.go:209-218`). -/
def saltPart (n : ℤ) : Bytes :=
  if n = 0 then []
  else
    let nb := goBigIntToBytes n
    if nb.length ≥ 16 then nb.drop (nb.length - 16) else List.replicate (16 - nb.length) 0 ++ nb

/-- What is hashed in `genContractAddr` (`deployhandler.go:189-218`), of the sender's 20 bytes, the timestamp, the nonce and the salt; the address is the last 20 bytes of the SHA3-256 of it. -/
def preimage (sender : Bytes) (ts : ℕ) (nonce salt : Option ℤ) : Bytes :=
  sender ++ (List.replicate 24 0 ++ beBytes 8 ts) ++ noncePart (nonce.getD 0) ++ saltPart (salt.getD 0)

theorem goBytes_nonneg {n : ℤ} (h : 0 ≤ n) (k : ℕ) (hk : n < 2 ^ (8 * k + 7)) : (goBigIntToBytes n).length ≤ k + 1 ∧ beNat (goBigIntToBytes n) = n.toNat := by
  have hlt : ¬ n < 0 := by omega
  have hb := (bitLen_le_iff n (bitLen n)).1 (le_refl _)
  have hlen : pyByteLength n = (bitLen n + 8) / 8 := by simp [pyByteLength, hlt]
  have e2 : n.natAbs = n.toNat := by omega
  have hfit : n.toNat < 256 ^ pyByteLength n := by
    rw [hlen, pow256, ← e2]
    exact lt_of_lt_of_le hb (Nat.pow_le_pow_right (by omega) (by omega))
  have hbl : bitLen n ≤ 8 * k + 7 := (bitLen_le_iff n _).2 (by
    rw [e2]
    have : ((n.toNat : ℕ) : ℤ) < ((2 ^ (8 * k + 7) : ℕ) : ℤ) := by push_cast; omega
    exact_mod_cast this)
  rw [goBigIntToBytes_eq, enc_nonneg h hfit]
  refine ⟨?_, beNat_beBytes_of_lt hfit⟩
  rw [beBytes_length, hlen]
  omega

theorem beNat_zeros (m : ℕ) (b : Bytes) : beNat (List.replicate m 0 ++ b) = beNat b := by
  rw [beNat_append]
  have : ∀ m, beNat (List.replicate m (0 : UInt8)) = 0 := by
    intro m
    induction m with
    | zero => rfl
    | succ m ih => simp [List.replicate_succ, beNat, ih]
  rw [this]; omega

theorem nonce_spec {n : ℤ} (h : 0 ≤ n) (hn : n < 2 ^ 255) : (noncePart n).length = (if n = 0 then 0 else 32) ∧ beNat (noncePart n) = n.toNat := by
  unfold noncePart
  by_cases h0 : n = 0
  · rw [if_pos h0, if_pos h0, h0]; exact ⟨rfl, rfl⟩
  · rw [if_neg h0, if_neg h0]
    obtain ⟨h1, h2⟩ := goBytes_nonneg h 31 (by norm_num at hn ⊢; exact hn)
    dsimp only
    by_cases hl : (goBigIntToBytes n).length ≥ 32
    · rw [if_pos hl, List.take_of_length_le h1]
      exact ⟨by omega, h2⟩
    · rw [if_neg hl, beNat_zeros]
      refine ⟨?_, h2⟩
      simp; omega

theorem salt_spec {n : ℤ} (h : 0 ≤ n) (hn : n < 2 ^ 127) : (saltPart n).length = (if n = 0 then 0 else 16) ∧ beNat (saltPart n) = n.toNat := by
  unfold saltPart
  by_cases h0 : n = 0
  · rw [if_pos h0, if_pos h0, h0]; exact ⟨rfl, rfl⟩
  · rw [if_neg h0, if_neg h0]
    obtain ⟨h1, h2⟩ := goBytes_nonneg h 15 (by norm_num at hn ⊢; exact hn)
    dsimp only
    by_cases hl : (goBigIntToBytes n).length ≥ 16
    · have : (goBigIntToBytes n).length = 16 := by omega
      rw [if_pos hl, this, Nat.sub_self, List.drop_zero]
      exact ⟨this, h2⟩
    · rw [if_neg hl, beNat_zeros]
      refine ⟨?_, h2⟩
      simp; omega

/-- **C71.** What is hashed for a new address determines the sender, the timestamp, the nonce and the number of the deployment, for nonces from 0 to 2^255 - 1 (no nonce counts as 0): other deployments
get other addresses, unless hashes collide. -/
theorem C71_address (s s' : Bytes) (t t' : ℕ) (n n' k k' : Option ℤ) (hs : s.length = 20) (hs' : s'.length = 20) (ht : t < 2 ^ 64) (ht' : t' < 2 ^ 64)
    (hn : 0 ≤ n.getD 0 ∧ n.getD 0 < 2 ^ 255) (hn' : 0 ≤ n'.getD 0 ∧ n'.getD 0 < 2 ^ 255) (hk : 0 ≤ k.getD 0 ∧ k.getD 0 < 2 ^ 127) (hk' : 0 ≤ k'.getD 0 ∧ k'.getD 0 < 2 ^ 127)
    (h : preimage s t n k = preimage s' t' n' k') : s = s' ∧ t = t' ∧ n.getD 0 = n'.getD 0 ∧ k.getD 0 = k'.getD 0 := by
  unfold preimage at h
  obtain ⟨a1, a2⟩ := nonce_spec hn.1 hn.2
  obtain ⟨a1', a2'⟩ := nonce_spec hn'.1 hn'.2
  obtain ⟨b1, b2⟩ := salt_spec hk.1 hk.2
  obtain ⟨b1', b2'⟩ := salt_spec hk'.1 hk'.2
  generalize n.getD 0 = N at *
  generalize n'.getD 0 = N' at *
  generalize k.getD 0 = K at *
  generalize k'.getD 0 = K' at *
  have hlen := congrArg List.length h
  simp only [List.length_append, hs, hs', List.length_replicate, beBytes_length, a1, a1', b1, b1'] at hlen
  have hN : (N = 0 ↔ N' = 0) ∧ (K = 0 ↔ K' = 0) := by
    by_cases c1 : N = 0 <;> by_cases c2 : N' = 0 <;> by_cases c3 : K = 0 <;> by_cases c4 : K' = 0 <;> simp [c1, c2, c3, c4] at hlen ⊢
  have hlN : (noncePart N).length = (noncePart N').length := by rw [a1, a1']; simp only [hN.1]
  have hlK : (saltPart K).length = (saltPart K').length := by rw [b1, b1']; simp only [hN.2]
  obtain ⟨h1, h2⟩ := List.append_inj' h hlK
  obtain ⟨h3, h4⟩ := List.append_inj' h1 hlN
  obtain ⟨h5, h6⟩ := List.append_inj' h3 (by simp [beBytes_length])
  have h7 := List.append_cancel_left h6
  have h8 := congrArg beNat h7
  have e : (256 : ℕ) ^ 8 = 2 ^ 64 := by norm_num
  rw [beNat_beBytes_of_lt (by rw [e]; exact ht), beNat_beBytes_of_lt (by rw [e]; exact ht')] at h8
  have h9 := congrArg beNat h4
  have h10 := congrArg beNat h2
  rw [a2, a2'] at h9
  rw [b2, b2'] at h10
  exact ⟨h5, h8, by omega, by omega⟩

/-- **C71, finding.** The nonces -1 and 255 give the same address: two's complement bytes are filled up with zeros (the second deployment with the same sender and timestamp then fails). -/
theorem C71_address_sign (s : Bytes) (t : ℕ) (k : Option ℤ) : preimage s t (some (-1)) k = preimage s t (some 255) k := by
  unfold preimage
  rw [show noncePart ((some (-1 : ℤ)).getD 0) = noncePart ((some (255 : ℤ)).getD 0) by decide +kernel]

/-! ## A concrete case -/

/-- A deployment with everything allowed. -/
def demoDeploy (sender : Bytes) (target : Option Bytes) (tx : Bytes) (ee : Bytes) (audit : Bool) : Deploy :=
  ⟨sender, target, [200], false, false, true, tx, none, [7], ee, [], [], false, true, false, false, audit, false, true⟩

/-- A contract is installed by 1, with audit; it sets its code, 1 gives it to 2, who updates it to Java, while it calls back and fails to deploy; 1 deploys again in vain. -/
def demo : List Call :=
  [.deploy (demoDeploy [1] none [10] python true) ⟨some [], true, 2, true⟩ [],
   .accept [10] [11] ⟨some [], true, 2, true⟩ [.setCode [8], .accept [10] [12] ⟨some [], true, 2, true⟩ []],
   .setOwner [1] [200] [2],
   .deploy (demoDeploy [2] (some [200]) [13] java true) ⟨some [], true, 2, true⟩ [.frame false [.touch [200] (.setBalance 5)], .deploy (demoDeploy [2] (some [200]) [14] java true) ⟨some [], true, 2, true⟩ []],
   .deploy (demoDeploy [1] (some [200]) [15] java true) ⟨some [], true, 2, true⟩ []]

example : (execs none start demo).1.log =
    [.create [200] (some [1]), .deploy [200] [1] [10] python [] [] [7] false, .setCode [200] [8], .accept [200] [10] [11] false, .transfer [200] [1] [2],
     .deploy [200] [2] [13] java [] [] [7] true, .accept [200] [13] [13] true] := by decide +kernel

example : (((execs none start demo).1.acct [200]).cur.map content, ((execs none start demo).1.acct [200]).next) = (some ⟨[13], java, [], [], [7]⟩, none) := by decide +kernel

example : (idsAll demo).Nodup := by decide +kernel

example : [3] ∉ sendersAll demo := by decide +kernel

/-- **C71, finding.** An id that is used again for a contract that was rejected leaves what waits without an entry: it can neither be accepted nor rejected.  (Ids are hashes of transactions.) -/
theorem C71_reused :
    let w := (execs none start [.deploy (demoDeploy [1] none [10] python true) ⟨some [], true, 2, true⟩ [], .reject [10] [11],
      .deploy (demoDeploy [1] (some [200]) [10] python true) ⟨some [], true, 2, true⟩ []]).1
    (∃ n, (w.acct [200]).next = some n ∧ n.status = .pending ∧ n.deployTx = [10]) ∧ w.h2a [10] = none := by
  refine ⟨⟨⟨.pending, [], python, [10], [], [7], []⟩, ?_, rfl, rfl⟩, ?_⟩ <;> decide +kernel

end Verif.Deploy
