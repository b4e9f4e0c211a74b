import Verif.Address.Model
import Verif.IntCodec.Lemmas

/-! # C03, C04: addresses -/

namespace Verif.Address
open Verif.IntCodec

/-- **Specification.** The legal address texts: `hx` or `cx` and forty lower-case hex digits. -/
def Legal (s : List Char) : Prop :=
  ∃ p body, s = p ++ body ∧ (p = ['h', 'x'] ∨ p = ['c', 'x']) ∧ body.length = 40 ∧
    ∀ c ∈ body, c ∈ "0123456789abcdef".toList

theorem lowerHex_iff (c : Char) : isLowerHex c = true ↔ c ∈ "0123456789abcdef".toList := by
  constructor
  · intro h
    obtain ⟨n, hn, _, h2⟩ := hexDigit_inj_val c h
    subst h2
    clear h
    revert n
    decide
  · intro h
    revert c
    decide

theorem valid_iff (s : List Char) : isIconAddressValid s = true ↔ Legal s := by
  unfold isIconAddressValid Legal
  constructor
  · intro h
    split at h
    · rename_i hl
      simp only at h
      split at h
      · rename_i hp
        refine ⟨s.take 2, s.drop 2, (List.take_append_drop 2 s).symm, hp, by simp [hl], ?_⟩
        intro c hc
        unfold isLowercaseHexString at h
        simp only [Bool.and_eq_true, List.all_eq_true] at h
        exact (lowerHex_iff c).1 (h.2 c hc)
      · cases h
    · cases h
  · rintro ⟨p, body, rfl, hp, hl, hc⟩
    have hpl : p.length = 2 := by rcases hp with rfl | rfl <;> rfl
    have h42 : (p ++ body).length = 42 := by simp [hpl, hl]
    rw [if_pos h42]
    have ht : (p ++ body).take 2 = p := by rw [← hpl]; simp
    have hd : (p ++ body).drop 2 = body := by rw [← hpl]; simp
    simp only [ht, hd]
    rw [if_pos hp]
    unfold isLowercaseHexString
    simp only [Bool.and_eq_true, List.all_eq_true]
    refine ⟨?_, fun c h => (lowerHex_iff c).2 (hc c h)⟩
    cases body with
    | nil => simp at hl
    | cons => rfl

/-- complete description of a successful parse -/
theorem fromString_ok (s : List Char) (h : Legal s) :
    ∃ a, fromString s = .ok a ∧ a.body.length = 20 ∧ toStr a = s ∧
      (a.pfx = .eoa ↔ s.take 2 = ['h', 'x']) := by
  have hv := (valid_iff s).2 h
  obtain ⟨p, body, rfl, hp, hl, hc⟩ := h
  have hpl : p.length = 2 := by rcases hp with rfl | rfl <;> rfl
  have ht : (p ++ body).take 2 = p := by rw [← hpl]; simp
  have hd : (p ++ body).drop 2 = body := by rw [← hpl]; simp
  have hall : body.all isLowerHex = true := by
    rw [List.all_eq_true]; exact fun c h => (lowerHex_iff c).2 (hc c h)
  obtain ⟨bs, e1, e2, e3⟩ := hexDecode_lower body 20 (by omega) hall
  rcases hp with rfl | rfl
  · refine ⟨⟨.eoa, bs⟩, ?_, e3, ?_, ?_⟩
    · simp only [fromString, hv, ht, hd]; simp [prefixFromString, e1, mk, e3, bind, Except.bind]
    · simp [toStr, e2]
    · simp
  · refine ⟨⟨.contract, bs⟩, ?_, e3, ?_, ?_⟩
    · simp only [fromString, hv, ht, hd]; simp [prefixFromString, e1, mk, e3, bind, Except.bind]
    · simp [toStr, e2]
    · simp

/-- **C03.** `Address.from_string` succeeds exactly on the legal texts, otherwise it raises
`InvalidParamsException`; an accepted address prints as the text it was read from. -/
theorem C03_parse_exact (s : List Char) :
    (Legal s → ∃ a, fromString s = .ok a ∧ toStr a = s) ∧
    (¬ Legal s → fromString s = .error .invalidParams) := by
  constructor
  · intro h
    obtain ⟨a, h1, _, h2, _⟩ := fromString_ok s h
    exact ⟨a, h1, h2⟩
  · intro h
    have : isIconAddressValid s = false := by
      rw [Bool.eq_false_iff]; intro hc; exact h ((valid_iff s).1 hc)
    simp [fromString, this]

/-- **C03.** Printing any address (with its 20-byte body) and parsing gives the same address. -/
theorem C03_print_parse (a : Addr) (h : a.body.length = 20) : fromString (toStr a) = .ok a := by
  have hleg : Legal (toStr a) := by
    refine ⟨match a.pfx with | .eoa => ['h', 'x'] | .contract => ['c', 'x'], hexEncode a.body, rfl, ?_, ?_, ?_⟩
    · cases a.pfx <;> simp
    · simp [h]
    · intro c hc
      have := hexEncode_lower a.body
      rw [List.all_eq_true] at this
      exact (lowerHex_iff c).1 (this c hc)
  obtain ⟨b, h1, _, h2, h3⟩ := fromString_ok _ hleg
  rw [h1]
  congr 1
  rcases a with ⟨p, x⟩
  rcases b with ⟨q, y⟩
  cases p <;> cases q <;> simp [toStr] at h2 h3 ⊢ <;> exact hexEncode_inj h2

example : Legal ("hx".toList ++ List.replicate 39 '0' ++ ['f']) :=
  ⟨['h', 'x'], List.replicate 39 '0' ++ ['f'], by decide, Or.inl rfl, by decide, by decide⟩

example : ¬ Legal ("hx".toList ++ List.replicate 39 '0' ++ ['F']) := by
  rw [← valid_iff]; decide

/-- **C04.** The 21-byte form read back gives the same address. -/
theorem C04_bytes_roundtrip (a : Addr) (h : a.body.length = 20) :
    fromBytes (toBytes a) = .ok (some a) := by
  rcases a with ⟨p, b⟩
  simp only at h
  cases p <;> simp [fromBytes, toBytes, h, prefixOfInt, beNat, mk, bind, Except.bind, pure, Except.pure]

/-- **C04.** What `from_bytes` does with every byte string: a 20-byte string is an EOA body, a 21-byte
string starting with 0 or 1 is the address with that type, with another first byte an exception is
raised, and any other length yields `None`. -/
theorem C04_bytes_decode (bs : Bytes) :
    (bs.length = 20 → fromBytes bs = .ok (some ⟨.eoa, bs⟩)) ∧
    (∀ b, b.length = 20 → bs = 0 :: b → fromBytes bs = .ok (some ⟨.eoa, b⟩)) ∧
    (∀ b, b.length = 20 → bs = 1 :: b → fromBytes bs = .ok (some ⟨.contract, b⟩)) ∧
    (∀ t b, b.length = 20 → bs = t :: b → t ≠ 0 → t ≠ 1 → fromBytes bs = .error .valueError) ∧
    (bs.length ≠ 20 → bs.length ≠ 21 → fromBytes bs = .ok none) := by
  refine ⟨?_, ?_, ?_, ?_, ?_⟩
  · intro h; simp [fromBytes, h, mk, bind, Except.bind, pure, Except.pure]
  · rintro b h rfl; simp [fromBytes, h, prefixOfInt, beNat, mk, bind, Except.bind, pure, Except.pure]
  · rintro b h rfl; simp [fromBytes, h, prefixOfInt, beNat, mk, bind, Except.bind, pure, Except.pure]
  · rintro t b h rfl h0 h1
    have e0 : ¬ t.toNat = 0 := by intro hc; apply h0; rw [← UInt8.toNat_inj]; exact hc
    have e1 : ¬ t.toNat = 1 := by intro hc; apply h1; rw [← UInt8.toNat_inj]; exact hc
    simp [fromBytes, h, prefixOfInt, beNat, bind, Except.bind, e0, e1]
  · intro h1 h2; simp [fromBytes, h1, h2]

/-- **C04.** Different addresses have different binary forms and different texts; in particular a user
and a contract address with the same body are told apart. -/
theorem C04_bytes_injective (a b : Addr) :
    (toBytes a = toBytes b → a = b) ∧ (toStr a = toStr b → a = b) := by
  rcases a with ⟨p, x⟩
  rcases b with ⟨q, y⟩
  constructor
  · intro h
    cases p <;> cases q <;> simp [toBytes] at h ⊢ <;> exact h
  · intro h
    cases p <;> cases q <;> simp [toStr] at h ⊢ <;> exact hexEncode_inj h

/-- **C04.** `from_prefix_and_int` of a non-negative number that fits: the body read as a number is that
number; so different small numbers give different addresses. -/
theorem C04_from_int (p : Prefix) (n : Nat) (h : 2 * n < 256 ^ 20) :
    ∃ a, fromPrefixAndInt p n = .ok a ∧ a.pfx = p ∧ a.body.length = 20 ∧ beNat a.body = n := by
  have hlen : (enc (n : Int) (pyByteLength n)).length ≤ 20 := by
    rw [enc_length, pyByteLength_le_iff _ _ (by omega)]
    unfold Fits; norm_num; norm_num at h; omega
  have hval := decode_enc (fits_pyByteLength (n : Int))
  have hz : ∀ k, beNat (List.replicate k (0 : UInt8)) = 0 := by
    intro k; induction k with
    | zero => rfl
    | succ k ih => simp [List.replicate_succ, beNat, ih]
  refine ⟨⟨p, List.replicate (20 - (enc (n : Int) (pyByteLength n)).length) 0 ++ enc (n : Int) (pyByteLength n)⟩, ?_, rfl, ?_, ?_⟩
  · simp only [fromPrefixAndInt, pyIntToBytes_eq]
    rw [if_neg (by omega)]
    unfold mk
    rw [if_neg]
    simp; omega
  · simp; omega
  · rw [beNat_append, hz]
    rw [pyBytesToInt_eq] at hval
    have := beNat_lt (enc (n : Int) (pyByteLength n))
    have e : ((256 ^ (enc (n : Int) (pyByteLength n)).length : Nat) : Int) =
      (256 : Int) ^ (enc (n : Int) (pyByteLength n)).length := by norm_cast
    rw [← e] at hval
    simp only [Nat.zero_mul, Nat.zero_add]
    split at hval <;> omega

example : (2 : Nat) * 1 < 256 ^ 20 := by norm_num

theorem hexVal_noUpper (c : Char) (x : Nat) (hx : hexVal c = some x) (hn : ¬ ('A' ≤ c ∧ c ≤ 'Z')) :
    isLowerHex c = true := by
  unfold hexVal at hx
  unfold isLowerHex
  split at hx
  · rename_i h; simp [h]
  · split at hx
    · rename_i h; simp [h]
    · split at hx
      · rename_i h
        exfalso; apply hn
        exact ⟨h.1, Char.le_trans h.2 (show 'F' ≤ 'Z' by decide)⟩
      · cases hx

theorem hexDecode_noUpper : ∀ (cs : List Char), hexDecode cs ≠ none →
    cs.any (fun c => decide ('A' ≤ c ∧ c ≤ 'Z')) = false → ∀ c ∈ cs, isLowerHex c = true
  | [], _, _, c, hc => by cases hc
  | [_], h, _, _, _ => by simp [hexDecode] at h
  | a :: b :: r, h, hany, c, hc => by
    simp only [hexDecode] at h
    simp only [List.any_cons, Bool.or_eq_false_iff, decide_eq_false_iff_not] at hany
    cases hx : hexVal a with
    | none => rw [hx] at h; simp at h
    | some x =>
      cases hy : hexVal b with
      | none => rw [hx, hy] at h; simp at h
      | some y =>
        have hr : hexDecode r ≠ none := by
          intro hx; rw [hx] at h; simp at h
        simp only [List.mem_cons] at hc
        rcases hc with rfl | rfl | hc
        · exact hexVal_noUpper _ _ hx hany.1
        · exact hexVal_noUpper _ _ hy hany.2.1
        · exact hexDecode_noUpper r hr (by simpa using hany.2.2) c hc

/-! ### Agreement with Go (`common/address.go`) -/

/-- **C03/C04.** Go's strict text parser accepts exactly the same texts and yields the same address as
the Python executor; Go's text and binary forms of it are the Python ones; Go's `SetBytes` agrees with
`from_bytes` (an error where Python raises or returns `None`). -/
theorem C03_go_agrees :
    (∀ s, (∀ a, fromString s = .ok a → goSetStringStrict s = some (toGo a)) ∧
          (∀ e, fromString s = .error e → goSetStringStrict s = none)) ∧
    (∀ a : Addr, goString (toGo a) = toStr a ∧ goBytes (toGo a) = toBytes a) ∧
    (∀ bs a, goSetBytes bs = some (toGo a) ↔ fromBytes bs = .ok (some a)) := by
  refine ⟨?_, ?_, ?_⟩
  · intro s
    by_cases hleg : Legal s
    · obtain ⟨a0, ha, hl, hs, hp⟩ := fromString_ok s hleg
      constructor
      · intro a h
        rw [ha] at h; cases h
        obtain ⟨p, body, rfl, hp', hl', hc⟩ := hleg
        have hpl : p.length = 2 := by rcases hp' with rfl | rfl <;> rfl
        have ht : (p ++ body).take 2 = p := by rw [← hpl]; simp
        have hd : (p ++ body).drop 2 = body := by rw [← hpl]; simp
        have h42 : (p ++ body).length = 42 := by simp [hpl, hl']
        have hany : body.any (fun c => decide ('A' ≤ c ∧ c ≤ 'Z')) = false := by
          rw [List.any_eq_false]
          intro c h
          have := hc c h
          clear h
          revert this
          revert c
          decide
        have hbody : hexDecode body = some a0.body := by
          have : hexEncode a0.body = body := by
            unfold toStr at hs
            have := congrArg (List.drop 2) hs
            rw [hd] at this
            rw [← this]
            cases a0.pfx <;> rfl
          rw [← this, hexDecode_encode]
        rcases a0 with ⟨q, b⟩
        simp only at hl hbody
        rcases hp' with rfl | rfl
        · have : q = .eoa := hp.2 (by simp)
          subst this
          simp only [goSetStringStrict, h42, ht, hd, ne_eq, not_true_eq_false, if_false, hany, hbody]
          simp [goSetTypeAndID, toGo, hl, List.take_of_length_le (le_of_eq hl)]
        · have : q = .contract := by
            cases q
            · have := hp.1 rfl; simp at this
            · rfl
          subst this
          simp only [goSetStringStrict, h42, ht, hd, ne_eq, not_true_eq_false, if_false, hany, hbody]
          simp [goSetTypeAndID, toGo, hl, List.take_of_length_le (le_of_eq hl)]
      · intro e h; rw [ha] at h; cases h
    · constructor
      · intro a h
        rw [(C03_parse_exact s).2 hleg] at h; cases h
      · intro e _
        -- Go rejects too
        unfold goSetStringStrict
        split
        · rfl
        · rename_i hlen
          have hlen' : s.length = 42 := by simpa using hlen
          have key : (s.take 2 = ['h', 'x'] ∨ s.take 2 = ['c', 'x']) →
              (s.drop 2).any (fun c => decide ('A' ≤ c ∧ c ≤ 'Z')) = false →
              hexDecode (s.drop 2) = none := by
            intro hp hany
            by_contra hdec
            apply hleg
            refine ⟨s.take 2, s.drop 2, (List.take_append_drop 2 s).symm, hp, by simp [hlen'], ?_⟩
            intro c hc
            exact (lowerHex_iff c).1 (hexDecode_noUpper _ hdec hany c hc)
          simp only
          split
          · rename_i hp
            split
            · rfl
            · rename_i hany
              rw [key (Or.inr hp) (by simpa using hany)]
          · split
            · rename_i hp
              split
              · rfl
              · rename_i hany
                rw [key (Or.inl hp) (by simpa using hany)]
            · rfl
  · intro a
    rcases a with ⟨p, b⟩
    cases p <;> simp [goString, toGo, toStr, goBytes, toBytes]
  · intro bs a
    have d := C04_bytes_decode bs
    unfold goSetBytes
    split
    · rename_i h21
      match bs with
      | [] => simp at h21
      | t :: b =>
        simp only [List.length_cons] at h21
        have hb : b.length = 20 := by omega
        by_cases h0 : t = 0
        · subst h0
          rw [d.2.1 b hb rfl]
          rcases a with ⟨p, x⟩
          cases p <;> simp [toGo]
        · by_cases h1 : t = 1
          · subst h1
            rw [d.2.2.1 b hb rfl]
            rcases a with ⟨p, x⟩
            cases p <;> simp [toGo]
          · rw [d.2.2.2.1 t b hb rfl h0 h1]
            simp [h0, h1]
    · split
      · rename_i h20
        rw [d.1 h20]
        rcases a with ⟨p, x⟩
        cases p <;> simp [toGo]
      · rename_i h21 h20
        rw [d.2.2.2.2 h20 h21]
        simp

/-- **C03** (Go's lenient parser). Every legal text is accepted by `SetString` with the same result, but
the lenient parser is not injective: it truncates over-long bodies, so two different texts of contract
addresses can denote one account. -/
theorem C03_go_lenient :
    (∀ s a, fromString s = .ok a → goSetString s = some (toGo a)) ∧
    (∃ s t : List Char, s ≠ t ∧ (goSetString s).isSome ∧ goSetString s = goSetString t) := by
  refine ⟨?_, "cx".toList ++ List.replicate 40 '1', "cx".toList ++ List.replicate 42 '1', by decide,
    by decide, by decide⟩
  intro s a h
  have hleg : Legal s := by
    by_contra hc
    rw [(C03_parse_exact s).2 hc] at h; cases h
  obtain ⟨a0, ha, hl, hs, hp⟩ := fromString_ok s hleg
  rw [ha] at h
  have h := Except.ok.inj h
  subst h
  rcases a0 with ⟨q, b⟩
  simp only at hl
  subst hs
  have hlen : (hexEncode b).length = 40 := by simp [hl]
  cases q <;> simp [toStr, goSetString, hexDecode_encode, hl, toGo, goSetTypeAndID,
    List.take_of_length_le (le_of_eq hl)]

theorem beNat_zeros (n : Nat) (b : Bytes) : beNat (List.replicate n 0 ++ b) = beNat b := by
  induction n with
  | zero => simp
  | succ n ih => rw [List.replicate_succ, List.cons_append, beNat, ih]; simp

/-- **C03** (Go's lenient parser, short bodies). A text with a body of at most 20 bytes denotes the
20-byte account id with the same numeric value (`0x1f` and `hx1f` are account number 31), contract
exactly for `cx`. -/
theorem C03_go_lenient_value (p : List Char) (hp : p ∈ [['c', 'x'], ['h', 'x'], ['0', 'x']]) (b : Bytes)
    (hb : b.length ≤ 20) : ∃ a, goSetString (p ++ hexEncode b) = some a ∧ a.id.length = 20 ∧
      beNat a.id = beNat b ∧ (a.typ = 1 ↔ p = ['c', 'x']) := by
  have he : (hexEncode b).length = 2 * b.length := by simp
  have hodd : ¬ (hexEncode b).length % 2 = 1 := by omega
  have hid : ∀ ic, (goSetTypeAndID ic b).id.length = 20 ∧ beNat (goSetTypeAndID ic b).id = beNat b := by
    intro ic
    by_cases h : b.length < 20
    · simp only [goSetTypeAndID, if_pos h]
      exact ⟨by rw [List.length_append, List.length_replicate]; omega, beNat_zeros _ _⟩
    · have : b.length = 20 := by omega
      simp [goSetTypeAndID, this, List.take_of_length_le (le_of_eq this)]
  simp only [List.mem_cons, List.not_mem_nil, or_false] at hp
  have hred : ∀ q ic, (q = ['c', 'x'] ∧ ic = true) ∨ (q = ['h', 'x'] ∧ ic = false) ∨
      (q = ['0', 'x'] ∧ ic = false) → goSetString (q ++ hexEncode b) = some (goSetTypeAndID ic b) := by
    intro q ic h
    rcases h with ⟨rfl, rfl⟩ | ⟨rfl, rfl⟩ | ⟨rfl, rfl⟩ <;>
      simp [goSetString, hexDecode_encode]
  rcases hp with rfl | rfl | rfl
  · exact ⟨_, hred _ true (by simp), (hid _).1, (hid _).2, by simp [goSetTypeAndID]⟩
  · exact ⟨_, hred _ false (by simp), (hid _).1, (hid _).2, by simp [goSetTypeAndID]⟩
  · exact ⟨_, hred _ false (by simp), (hid _).1, (hid _).2, by simp [goSetTypeAndID]⟩

example : goSetString "hx1f".toList = some ⟨0, List.replicate 19 0 ++ [0x1f]⟩ := by decide

end Verif.Address
