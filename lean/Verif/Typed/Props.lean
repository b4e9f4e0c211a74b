import Verif.Typed.Model
import Verif.IntCodec.Props
import Verif.Address.Props
import Verif.Container.Lemmas

/-! # C12: typed objects survive the channel, in both directions and across languages -/
namespace Verif.Typed
open Verif.IntCodec Verif.Container

/-! ### Specification -/

mutual
/-- Values the channel is meant for: `None`, booleans, integers, texts, bytes, addresses, lists,
tuples, and dictionaries with texts as keys (which are distinct, as in every dictionary). -/
def Supported : PyObj → Prop
  | .none => True
  | .bool _ => True
  | .int _ => True
  | .str _ => True
  | .bytes _ => True
  | .addr a => a.body.length = 20
  | .list l => SupportedAll l
  | .tuple l => SupportedAll l
  | .dict l => SupportedItems l ∧ (l.map Prod.fst).Nodup
  | .other => False
def SupportedAll : List PyObj → Prop
  | [] => True
  | v :: l => Supported v ∧ SupportedAll l
def SupportedItems : List (DKey × PyObj) → Prop
  | [] => True
  | (k, v) :: l => (∃ s, k = .str s) ∧ Supported v ∧ SupportedItems l
end

mutual
/-- The same value with lists for tuples. -/
def listed : PyObj → PyObj
  | .list l => .list (listedAll l)
  | .tuple l => .list (listedAll l)
  | .dict l => .dict (listedItems l)
  | v => v
def listedAll : List PyObj → List PyObj
  | [] => []
  | v :: l => listed v :: listedAll l
def listedItems : List (DKey × PyObj) → List (DKey × PyObj)
  | [] => []
  | (k, v) :: l => (k, listed v) :: listedItems l
end

mutual
/-- The Go value a Python value corresponds to. -/
def asGo : PyObj → GoObj
  | .none => .nil
  | .bool b => .bool b
  | .int i => .int i
  | .str s => .str (utf8 s)
  | .bytes b => .bytes b
  | .addr a => .addr (Address.toGo a)
  | .list l => .list (asGoAll l)
  | .tuple l => .list (asGoAll l)
  | .dict l => .dict (asGoItems l)
  | .other => .other
def asGoAll : List PyObj → List GoObj
  | [] => []
  | v :: l => asGo v :: asGoAll l
def asGoItems : List (DKey × PyObj) → List (Bytes × GoObj)
  | [] => []
  | (k, v) :: l => ((match k with | .str s => utf8 s | .other _ => []), asGo v) :: asGoItems l
end

mutual
/-- Every object inside is of a class the channel knows, and every key is a text. -/
def Clean : PyObj → Prop
  | .list l => CleanAll l
  | .tuple l => CleanAll l
  | .dict l => CleanItems l
  | .other => False
  | _ => True
def CleanAll : List PyObj → Prop
  | [] => True
  | v :: l => Clean v ∧ CleanAll l
def CleanItems : List (DKey × PyObj) → Prop
  | [] => True
  | (k, v) :: l => (∃ s, k = .str s) ∧ Clean v ∧ CleanItems l
end

mutual
/-- Go values the channel is meant for; the keys of a map are distinct. -/
def GoSupported : GoObj → Prop
  | .addr a => (a.typ = 0 ∨ a.typ = 1) ∧ a.id.length = 20
  | .list l => GoSupportedAll l
  | .dict l => GoSupportedItems l ∧ (l.map Prod.fst).Nodup
  | .other => False
  | _ => True
def GoSupportedAll : List GoObj → Prop
  | [] => True
  | v :: l => GoSupported v ∧ GoSupportedAll l
def GoSupportedItems : List (Bytes × GoObj) → Prop
  | [] => True
  | (_, v) :: l => GoSupported v ∧ GoSupportedItems l
end

/-! ### Lemmas -/

theorem put_new {α β : Type} [DecidableEq α] (k : α) (v : β) : ∀ l : List (α × β),
    k ∉ l.map Prod.fst → put k v l = l ++ [(k, v)]
  | [], _ => rfl
  | (k', v') :: l, h => by
    have h1 : k' ≠ k := fun he => h (by simp [he])
    have h2 : k ∉ l.map Prod.fst := fun he => h (by simp at he ⊢; exact Or.inr he)
    rw [put, if_neg h1, put_new k v l h2]
    rfl


theorem encodeInt_ok (i : ℤ) : pyIntToBytes i = some (ib i) := by
  have h := intBytes_eq i
  unfold intBytes at h
  revert h
  cases h0 : pyIntToBytes i with
  | none => intro h; cases h
  | some b => intro h; cases h; rfl

theorem fst_listed : ∀ l : List (DKey × PyObj), (listedItems l).map Prod.fst = l.map Prod.fst
  | [] => rfl
  | (k, v) :: l => by simp only [listedItems, List.map_cons, fst_listed l]

mutual
theorem round : ∀ v : PyObj, Supported v → ∃ w, encodeAny v = .ok w ∧ decodeAny w = .ok (listed v)
  | .none, _ => ⟨_, rfl, rfl⟩
  | .bool b, _ => ⟨_, rfl, by cases b <;> rfl⟩
  | .int i, _ => ⟨.bytes tagInt (ib i), by simp only [encodeAny, encodeInt_ok], by
      have : decodeAny (.bytes tagInt (ib i)) = .ok (.int (pyBytesToInt (ib i))) := rfl
      rw [this, ib_decode]; rfl⟩
  | .str s, _ => ⟨_, rfl, by
      simp only [decodeAny, decodeBytes, tagNil, tagDict, tagList, tagBytes, tagString]
      simp [utf8_decode, listed]⟩
  | .bytes b, _ => ⟨_, rfl, rfl⟩
  | .addr a, h => ⟨_, rfl, by
      have h' : a.body.length = 20 := h
      simp only [decodeAny, decodeBytes, tagNil, tagDict, tagList, tagBytes, tagString, tagInt,
        tagBool, tagAddress, Address.C04_bytes_roundtrip a h']
      simp [listed]⟩
  | .list l, h => by
      obtain ⟨w, h1, h2⟩ := roundAll l h
      exact ⟨.list tagList w, by simp only [encodeAny, h1, Except.map],
        by simp [decodeAny, h2, Except.map, tagList, tagNil, listed]⟩
  | .tuple l, h => by
      obtain ⟨w, h1, h2⟩ := roundAll l h
      exact ⟨.list tagList w, by simp only [encodeAny, h1, Except.map],
        by simp [decodeAny, h2, Except.map, tagList, tagNil, listed]⟩
  | .dict l, h => by
      obtain ⟨w, h1, h2⟩ := roundItems l h.1
      exact ⟨.dict tagDict w, by simp only [encodeAny, h1, Except.map],
        by simp [decodeAny, h2 [] (by simpa using h.2), Except.map, tagDict, tagNil, listed]⟩
  | .other, h => h.elim
theorem roundAll : ∀ l : List PyObj, SupportedAll l →
    ∃ w, encodeAll l = .ok w ∧ decodeAll w = .ok (listedAll l)
  | [], _ => ⟨_, rfl, rfl⟩
  | v :: l, h => by
      obtain ⟨w, h1, h2⟩ := round v h.1
      obtain ⟨ws, h3, h4⟩ := roundAll l h.2
      exact ⟨w :: ws, by simp only [encodeAll, h1, h3, Except.map],
        by simp only [decodeAll, h2, h4, Except.map, listedAll]⟩
theorem roundItems : ∀ l : List (DKey × PyObj), SupportedItems l →
    ∃ w, encodeItems l = .ok w ∧ ∀ acc : List (DKey × PyObj),
      (acc.map Prod.fst ++ l.map Prod.fst).Nodup → decodeItems acc w = .ok (acc ++ listedItems l)
  | [], _ => ⟨[], rfl, fun acc _ => by simp [decodeItems, listedItems]⟩
  | (k, v) :: l, h => by
      obtain ⟨⟨s, rfl⟩, hv, hl⟩ := h
      obtain ⟨w, h1, h2⟩ := round v hv
      obtain ⟨ws, h3, h4⟩ := roundItems l hl
      refine ⟨(utf8 s, w) :: ws, by simp only [encodeItems, h1, h3, Except.map], fun acc hn => ?_⟩
      have hk : DKey.str s ∉ acc.map Prod.fst := by
        intro hm
        rw [List.nodup_append] at hn
        exact hn.2.2 _ hm (.str s) (by simp) rfl
      simp only [decodeItems, utf8_decode, h2]
      rw [put_new _ _ _ hk, h4 _ (by simpa [List.append_assoc] using hn)]
      simp [listedItems]
end

mutual
theorem across : ∀ v : PyObj, Supported v → ∃ w, encodeAny v = .ok w ∧ goDecodeAny w = some (asGo v)
  | .none, _ => ⟨_, rfl, rfl⟩
  | .bool b, _ => ⟨_, rfl, by cases b <;> rfl⟩
  | .int i, _ => ⟨.bytes tagInt (ib i), by simp only [encodeAny, encodeInt_ok], by
      have : goDecodeAny (.bytes tagInt (ib i)) = some (.int (goBigIntSetBytes (ib i))) := rfl
      rw [this, C38_go_python_agree.2, ib_decode]; rfl⟩
  | .str s, _ => ⟨_, rfl, rfl⟩
  | .bytes b, _ => ⟨_, rfl, rfl⟩
  | .addr a, h => ⟨_, rfl, by
      have h' : a.body.length = 20 := h
      obtain ⟨p, body⟩ := a
      simp only at h'
      cases p <;> simp [goDecodeAny, tagNil, tagBytes, tagString,
        tagBool, tagAddress, Address.toBytes, Address.goSetBytes, h', asGo, Address.toGo]⟩
  | .list l, h => by
      obtain ⟨w, h1, h2⟩ := acrossAll l h
      exact ⟨.list tagList w, by simp only [encodeAny, h1, Except.map],
        by simp [goDecodeAny, h2, tagList, tagNil, asGo]⟩
  | .tuple l, h => by
      obtain ⟨w, h1, h2⟩ := acrossAll l h
      exact ⟨.list tagList w, by simp only [encodeAny, h1, Except.map],
        by simp [goDecodeAny, h2, tagList, tagNil, asGo]⟩
  | .dict l, h => by
      obtain ⟨w, h1, h2⟩ := acrossItems l h.1
      exact ⟨.dict tagDict w, by simp only [encodeAny, h1, Except.map],
        by simp [goDecodeAny, h2 [] [] rfl (by simpa using h.2), tagDict, tagNil, asGo]⟩
  | .other, h => h.elim
theorem acrossAll : ∀ l : List PyObj, SupportedAll l →
    ∃ w, encodeAll l = .ok w ∧ goDecodeAll w = some (asGoAll l)
  | [], _ => ⟨_, rfl, rfl⟩
  | v :: l, h => by
      obtain ⟨w, h1, h2⟩ := across v h.1
      obtain ⟨ws, h3, h4⟩ := acrossAll l h.2
      exact ⟨w :: ws, by simp only [encodeAll, h1, h3, Except.map],
        by simp only [goDecodeAll, h2, h4, Option.map_some, asGoAll]⟩
theorem acrossItems : ∀ l : List (DKey × PyObj), SupportedItems l →
    ∃ w, encodeItems l = .ok w ∧ ∀ (ks : List String) (acc : List (Bytes × GoObj)),
      acc.map Prod.fst = ks.map utf8 →
      (ks.map DKey.str ++ l.map Prod.fst).Nodup → goDecodeItems acc w = some (acc ++ asGoItems l)
  | [], _ => ⟨[], rfl, fun _ acc _ _ => by simp [goDecodeItems, asGoItems]⟩
  | (k, v) :: l, h => by
      obtain ⟨⟨s, rfl⟩, hv, hl⟩ := h
      obtain ⟨w, h1, h2⟩ := across v hv
      obtain ⟨ws, h3, h4⟩ := acrossItems l hl
      refine ⟨(utf8 s, w) :: ws, by simp only [encodeItems, h1, h3, Except.map],
        fun ks acc ha hn => ?_⟩
      have hk : utf8 s ∉ acc.map Prod.fst := by
        intro hm
        rw [ha, List.mem_map] at hm
        obtain ⟨t, ht, he⟩ := hm
        rw [List.nodup_append] at hn
        exact hn.2.2 _ (List.mem_map_of_mem ht) (.str s) (by simp) (by rw [utf8_inj he])
      simp only [goDecodeItems, h2]
      rw [put_new _ _ _ hk, h4 (ks ++ [s]) _ (by simp [ha]) (by simpa [List.append_assoc] using hn)]
      simp [asGoItems]
end

mutual
theorem agree : ∀ v : PyObj, Supported v → ∃ w, encodeAny v = .ok w ∧ goEncodeAny (asGo v) = some w
  | .none, _ => ⟨_, rfl, rfl⟩
  | .bool b, _ => ⟨_, rfl, by cases b <;> rfl⟩
  | .int i, _ => ⟨.bytes tagInt (ib i), by simp only [encodeAny, encodeInt_ok], by
      have h := C38_go_python_agree.1 i
      rw [encodeInt_ok] at h
      simp only [asGo, goEncodeAny]
      rw [Option.some.inj h]⟩
  | .str s, _ => ⟨_, rfl, rfl⟩
  | .bytes b, _ => ⟨_, rfl, rfl⟩
  | .addr a, _ => ⟨_, rfl, by obtain ⟨p, b⟩ := a; cases p <;> rfl⟩
  | .list l, h => by
      obtain ⟨w, h1, h2⟩ := agreeAll l h
      exact ⟨.list tagList w, by simp only [encodeAny, h1, Except.map],
        by simp [goEncodeAny, h2, asGo]⟩
  | .tuple l, h => by
      obtain ⟨w, h1, h2⟩ := agreeAll l h
      exact ⟨.list tagList w, by simp only [encodeAny, h1, Except.map],
        by simp [goEncodeAny, h2, asGo]⟩
  | .dict l, h => by
      obtain ⟨w, h1, h2⟩ := agreeItems l h.1
      exact ⟨.dict tagDict w, by simp only [encodeAny, h1, Except.map],
        by simp [goEncodeAny, h2, asGo]⟩
  | .other, h => h.elim
theorem agreeAll : ∀ l : List PyObj, SupportedAll l →
    ∃ w, encodeAll l = .ok w ∧ goEncodeAll (asGoAll l) = some w
  | [], _ => ⟨_, rfl, rfl⟩
  | v :: l, h => by
      obtain ⟨w, h1, h2⟩ := agree v h.1
      obtain ⟨ws, h3, h4⟩ := agreeAll l h.2
      exact ⟨w :: ws, by simp only [encodeAll, h1, h3, Except.map],
        by simp only [goEncodeAll, h2, h4, Option.map_some, asGoAll]⟩
theorem agreeItems : ∀ l : List (DKey × PyObj), SupportedItems l →
    ∃ w, encodeItems l = .ok w ∧ goEncodeItems (asGoItems l) = some w
  | [], _ => ⟨[], rfl, rfl⟩
  | (k, v) :: l, h => by
      obtain ⟨⟨s, rfl⟩, hv, hl⟩ := h
      obtain ⟨w, h1, h2⟩ := agree v hv
      obtain ⟨ws, h3, h4⟩ := agreeItems l hl
      exact ⟨(utf8 s, w) :: ws, by simp only [encodeItems, h1, h3, Except.map],
        by simp only [goEncodeItems, asGoItems, h2, h4, Option.map_some]⟩
end

mutual
theorem clean : ∀ v : PyObj, (∃ w, encodeAny v = .ok w) ↔ Clean v
  | .none => ⟨fun _ => trivial, fun _ => ⟨_, rfl⟩⟩
  | .bool _ => ⟨fun _ => trivial, fun _ => ⟨_, rfl⟩⟩
  | .int i => ⟨fun _ => trivial, fun _ => ⟨.bytes tagInt (ib i), by simp only [encodeAny, encodeInt_ok]⟩⟩
  | .str _ => ⟨fun _ => trivial, fun _ => ⟨_, rfl⟩⟩
  | .bytes _ => ⟨fun _ => trivial, fun _ => ⟨_, rfl⟩⟩
  | .addr _ => ⟨fun _ => trivial, fun _ => ⟨_, rfl⟩⟩
  | .list l => by
      rw [Clean, ← cleanAll l, encodeAny]
      cases encodeAll l <;> simp [Except.map]
  | .tuple l => by
      rw [Clean, ← cleanAll l, encodeAny]
      cases encodeAll l <;> simp [Except.map]
  | .dict l => by
      rw [Clean, ← cleanItems l, encodeAny]
      cases encodeItems l <;> simp [Except.map]
  | .other => ⟨fun h => (by obtain ⟨_, h⟩ := h; cases h), fun h => False.elim h⟩
theorem cleanAll : ∀ l : List PyObj, (∃ w, encodeAll l = .ok w) ↔ CleanAll l
  | [] => ⟨fun _ => trivial, fun _ => ⟨_, rfl⟩⟩
  | v :: l => by
      rw [CleanAll, ← clean v, ← cleanAll l, encodeAll]
      cases encodeAny v <;> cases encodeAll l <;> simp [Except.map]
theorem cleanItems : ∀ l : List (DKey × PyObj), (∃ w, encodeItems l = .ok w) ↔ CleanItems l
  | [] => ⟨fun _ => trivial, fun _ => ⟨_, rfl⟩⟩
  | (k, v) :: l => by
      rw [CleanItems, ← clean v, ← cleanItems l]
      cases k with
      | other n => simp [encodeItems]
      | str s =>
        rw [encodeItems]
        cases encodeAny v <;> cases encodeItems l <;> simp [Except.map]
end

mutual
theorem goRound : ∀ v : GoObj, GoSupported v → ∃ w, goEncodeAny v = some w ∧ goDecodeAny w = some v
  | .nil, _ => ⟨_, rfl, rfl⟩
  | .bool b, _ => ⟨_, rfl, by cases b <;> rfl⟩
  | .int i, _ => ⟨_, rfl, by
      have : goDecodeAny (.bytes tagInt (goBigIntToBytes i)) =
        some (.int (goBigIntSetBytes (goBigIntToBytes i))) := rfl
      rw [this, C38_go_roundtrip]⟩
  | .str s, _ => ⟨_, rfl, rfl⟩
  | .bytes b, _ => ⟨_, rfl, rfl⟩
  | .addr a, h => ⟨_, rfl, by
      obtain ⟨t, i⟩ := a
      have h1 : t = 0 ∨ t = 1 := h.1
      have h2 : i.length = 20 := h.2
      simp [goDecodeAny, tagNil, tagBytes, tagString,
        tagBool, tagAddress, Address.goBytes, Address.goSetBytes, h1, h2]⟩
  | .list l, h => by
      obtain ⟨w, h1, h2⟩ := goRoundAll l h
      exact ⟨.list tagList w, by simp [goEncodeAny, h1],
        by simp [goDecodeAny, h2, tagList, tagNil]⟩
  | .dict l, h => by
      obtain ⟨w, h1, h2⟩ := goRoundItems l h.1
      exact ⟨.dict tagDict w, by simp [goEncodeAny, h1],
        by simp [goDecodeAny, h2 [] (by simpa using h.2), tagDict, tagNil]⟩
  | .other, h => h.elim
theorem goRoundAll : ∀ l : List GoObj, GoSupportedAll l →
    ∃ w, goEncodeAll l = some w ∧ goDecodeAll w = some l
  | [], _ => ⟨_, rfl, rfl⟩
  | v :: l, h => by
      obtain ⟨w, h1, h2⟩ := goRound v h.1
      obtain ⟨ws, h3, h4⟩ := goRoundAll l h.2
      exact ⟨w :: ws, by simp [goEncodeAll, h1, h3], by simp [goDecodeAll, h2, h4]⟩
theorem goRoundItems : ∀ l : List (Bytes × GoObj), GoSupportedItems l →
    ∃ w, goEncodeItems l = some w ∧ ∀ acc : List (Bytes × GoObj),
      (acc.map Prod.fst ++ l.map Prod.fst).Nodup → goDecodeItems acc w = some (acc ++ l)
  | [], _ => ⟨[], rfl, fun acc _ => by simp [goDecodeItems]⟩
  | (k, v) :: l, h => by
      obtain ⟨w, h1, h2⟩ := goRound v h.1
      obtain ⟨ws, h3, h4⟩ := goRoundItems l h.2
      refine ⟨(k, w) :: ws, by simp [goEncodeItems, h1, h3], fun acc hn => ?_⟩
      have hk : k ∉ acc.map Prod.fst := by
        intro hm
        rw [List.nodup_append] at hn
        exact hn.2.2 _ hm k (by simp) rfl
      simp only [goDecodeItems, h2]
      rw [put_new _ _ _ hk, h4 _ (by simpa [List.append_assoc] using hn)]
      simp
end

/-! ### Theorems -/

/-- C12: every supported value is encoded, and decoding gives it back; the only trace the channel
leaves is that tuples come back as lists. -/
theorem C12_python_roundtrip (v : PyObj) (h : Supported v) :
    ∃ w, encodeAny v = .ok w ∧ decodeAny w = .ok (listed v) := round v h

/-- C12: what the service reads is the corresponding Go value. -/
theorem C12_python_to_go (v : PyObj) (h : Supported v) :
    ∃ w, encodeAny v = .ok w ∧ goDecodeAny w = some (asGo v) := across v h

/-- C12: what the service writes for the corresponding Go value reads back as the Python value. -/
theorem C12_go_to_python (v : PyObj) (h : Supported v) :
    ∃ w, goEncodeAny (asGo v) = some w ∧ decodeAny w = .ok (listed v) := by
  obtain ⟨w, h1, h2⟩ := agree v h
  obtain ⟨w', h3, h4⟩ := round v h
  rw [h1] at h3
  exact ⟨w, h2, by rw [Except.ok.inj h3]; exact h4⟩

/-- C12: the two languages put the same object on the wire. -/
theorem C12_same_wire (v : PyObj) (h : Supported v) :
    ∃ w, encodeAny v = .ok w ∧ goEncodeAny (asGo v) = some w := agree v h

/-- C12: Go values of any nesting come back as they were. -/
theorem C12_go_roundtrip (v : GoObj) (h : GoSupported v) :
    ∃ w, goEncodeAny v = some w ∧ goDecodeAny w = some v := goRound v h

/-- C12: encoding fails exactly when some object inside is of an unknown class, or some key is not
a text: nothing is ever dropped silently. -/
theorem C12_encode_exact (v : PyObj) : (∃ w, encodeAny v = .ok w) ↔ Clean v := clean v

/-- C12: different values (up to tuples) never share an encoding. -/
theorem C12_injective (v v' : PyObj) (h : Supported v) (h' : Supported v')
    (he : encodeAny v = encodeAny v') : listed v = listed v' := by
  obtain ⟨w, h1, h2⟩ := round v h
  obtain ⟨w', h3, h4⟩ := round v' h'
  rw [h1, h3] at he
  rw [Except.ok.inj he, h4] at h2
  exact (Except.ok.inj h2).symm

/-! A nested value meets the hypotheses. -/
example : Supported (.dict [(.str "a", .tuple [.int (-129), .none, .bool true]),
    (.str "é", .dict [(.str "", .addr ⟨.contract, List.replicate 20 7⟩)])]) := by
  simp [Supported, SupportedItems, SupportedAll]
example : GoSupported (.dict [([97], .list [.int (-129), .nil]), ([], .addr ⟨1, List.replicate 20 7⟩)]) := by
  simp [GoSupported, GoSupportedItems, GoSupportedAll]
example : encodeAny (.list [.dict [(.other 1, .none)]]) = .error .invalidKeyType := rfl
end Verif.Typed
