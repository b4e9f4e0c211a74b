import Verif.Votes.Model

/-! # A list of votes gives back the votes -/

namespace Verif.Votes

theorem eqv_iff {dig : Decision → Nat} (hd : Function.Injective dig) (a b : Base) : a.eqv dig b = true ↔ a = b := by
  obtain ⟨t, h, r, d⟩ := a
  obtain ⟨t', h', r', d'⟩ := b
  unfold Base.eqv
  simp only [Bool.and_eq_true, decide_eq_true_eq, Base.mk.injEq, hd.eq_iff]
  tauto

theorem toI16_small {i : Nat} (h : i < 32768) : toI16 i = i := by
  unfold toI16
  rw [Nat.mod_eq_of_lt (by omega)]
  omega

/-- A list holds these votes. -/
structure Holds (vl : VList) (ms : List Vote) : Prop where
  nodup : vl.protos.Nodup
  used : ∀ b ∈ vl.protos, ∃ m ∈ ms, m.base = b
  len : vl.items.length = ms.length
  item : ∀ (i : Nat) (m : Vote), ms[i]? = some m → ∃ (it : Item) (j : Nat), vl.items[i]? = some it ∧ it.pi = toI16 j ∧
    vl.protos[j]? = some m.base ∧ it.ts = m.ts ∧ it.sig = m.sig ∧ it.parts = m.parts

theorem Holds.empty : Holds .empty [] := ⟨List.nodup_nil, by simp [VList.empty], rfl, by simp⟩

theorem Holds.add {dig : Decision → Nat} (hd : Function.Injective dig) {vl : VList} {ms : List Vote} (H : Holds vl ms) (m : Vote) :
    Holds (vl.add dig m) (ms ++ [m]) := by
  have hitem : ∀ (ps : List Base) (j : Nat), ps[j]? = some m.base → (∀ (i : Nat) (b : Base), vl.protos[i]? = some b → ps[i]? = some b) →
      ∀ (i : Nat) (x : Vote), (ms ++ [m])[i]? = some x →
        ∃ (it : Item) (j' : Nat), (vl.items ++ [⟨toI16 j, m.ts, m.sig, m.parts⟩])[i]? = some it ∧ it.pi = toI16 j' ∧
          ps[j']? = some x.base ∧ it.ts = x.ts ∧ it.sig = x.sig ∧ it.parts = x.parts := by
    intro ps j hj hps i x hx
    by_cases hi : i < ms.length
    · rw [List.getElem?_append_left hi] at hx
      obtain ⟨it, j', h1, h2, h3, h4⟩ := H.item i x hx
      exact ⟨it, j', by rw [List.getElem?_append_left (by rw [H.len]; exact hi)]; exact h1, h2, hps _ _ h3, h4⟩
    · rw [List.getElem?_append_right (by omega)] at hx
      have hi0 : i - ms.length = 0 := by
        by_contra h
        obtain ⟨n, hn⟩ := Nat.exists_eq_succ_of_ne_zero h
        rw [hn] at hx
        simp at hx
      rw [hi0, List.getElem?_cons_zero, Option.some.injEq] at hx
      subst hx
      refine ⟨⟨toI16 j, m.ts, m.sig, m.parts⟩, j, ?_, rfl, hj, rfl, rfl, rfl⟩
      rw [List.getElem?_append_right (by rw [H.len]; omega), H.len, hi0, List.getElem?_cons_zero]
  unfold VList.add
  cases hf : vl.protos.findIdx? (fun p => p.eqv dig m.base) with
  | some j =>
    obtain ⟨hlt, hp, -⟩ := List.findIdx?_eq_some_iff_getElem.1 hf
    have hb := (eqv_iff hd _ _).1 hp
    refine ⟨H.nodup, ?_, by simp [H.len], ?_⟩
    · intro b hb
      obtain ⟨x, hx, e⟩ := H.used b hb
      exact ⟨x, by simp [hx], e⟩
    · exact hitem vl.protos j (by rw [List.getElem?_eq_getElem hlt, hb]) (fun _ _ h => h)
  | none =>
    rw [List.findIdx?_eq_none_iff] at hf
    have hn : m.base ∉ vl.protos := by
      intro hm
      have := hf _ hm
      rw [(eqv_iff hd _ _).2 rfl] at this
      cases this
    dsimp only
    refine ⟨?_, ?_, by simp [H.len], ?_⟩
    · rw [List.nodup_append]
      refine ⟨H.nodup, by simp, ?_⟩
      intro a ha b hb
      rw [List.mem_singleton] at hb
      rintro rfl
      exact hn (hb ▸ ha)
    · intro b hb
      rcases List.mem_append.1 hb with hb | hb
      · obtain ⟨x, hx, e⟩ := H.used b hb
        exact ⟨x, by simp [hx], e⟩
      · rw [List.mem_singleton] at hb
        exact ⟨m, by simp, hb.symm⟩
    · refine hitem (vl.protos ++ [m.base]) _ (by simp) ?_
      intro i b h
      rw [List.getElem?_append_left (List.getElem?_eq_some_iff.1 h).1]
      exact h

/-- The votes put into a list, one by one. -/
def adds (dig : Decision → Nat) (ms : List Vote) : VList := ms.foldl (fun vl m => vl.add dig m) .empty

theorem adds_holds {dig : Decision → Nat} (hd : Function.Injective dig) (ms : List Vote) : Holds (adds dig ms) ms := by
  have : ∀ (ms done : List Vote) (vl : VList), Holds vl done → Holds (ms.foldl (fun vl m => vl.add dig m) vl) (done ++ ms) := by
    intro ms
    induction ms with
    | nil => intro done vl H; simpa using H
    | cons m ms ih =>
      intro done vl H
      have := ih (done ++ [m]) _ (H.add hd m)
      simpa using this
  exact this ms [] _ .empty

theorem Holds.small {vl : VList} {ms : List Vote} (H : Holds vl ms) {bs : List Base} (hb : ∀ m ∈ ms, m.base ∈ bs) :
    vl.protos.length ≤ bs.length := by
  have hsub : vl.protos ⊆ bs := by
    intro b h
    obtain ⟨m, hm, e⟩ := H.used b h
    rw [← e]; exact hb m hm
  exact (H.nodup.subperm hsub).length_le

theorem Holds.get {vl : VList} {ms : List Vote} (H : Holds vl ms) (hs : vl.protos.length ≤ 32768) (i : Nat) : vl.get i = ms[i]? := by
  unfold VList.get
  cases hm : ms[i]? with
  | none =>
    have : vl.items[i]? = none := by
      rw [List.getElem?_eq_none_iff] at hm ⊢
      rw [H.len]; exact hm
    simp only [this]
  | some m =>
    obtain ⟨it, j, h1, h2, h3, h4, h5, h6⟩ := H.item i m hm
    have hj := (List.getElem?_eq_some_iff.1 h3).1
    rw [toI16_small (by omega)] at h2
    simp only [h1, h2]
    rw [if_neg (by omega)]
    simp only [Int.toNat_natCast, h3, h4, h5, h6]

theorem verifyAll_eq {ctx : Vote → Bool} {vl : VList} (is : List Nat) (ms : List Vote) (h : is.map vl.get = ms.map some) :
    vl.verifyAll ctx is = some (ms.all ctx) := by
  induction is generalizing ms with
  | nil =>
    cases ms with
    | nil => rfl
    | cons m ms => simp at h
  | cons i is ih =>
    cases ms with
    | nil => simp at h
    | cons m ms =>
      rw [List.map_cons, List.map_cons, List.cons.injEq] at h
      unfold VList.verifyAll
      simp only [h.1]
      rw [ih ms h.2, List.all_cons]
      cases ctx m <;> rfl

theorem range_map {α : Type} (f : Nat → Option α) (ms : List α) (h : ∀ i, f i = ms[i]?) : (List.range ms.length).map f = ms.map some := by
  apply List.ext_getElem?
  intro i
  rw [List.getElem?_map, List.getElem?_map]
  by_cases hi : i < ms.length
  · rw [List.getElem?_range hi, List.getElem?_eq_getElem hi]
    simp [h, List.getElem?_eq_getElem hi]
  · rw [List.getElem?_eq_none (by simpa using hi), List.getElem?_eq_none (by omega)]
    rfl

/-- Votes put into a list come back, in order, and it verifies exactly if all of them do; no base is stored twice. -/
theorem votes_back {dig : Decision → Nat} (hd : Function.Injective dig) (ms : List Vote) (bs : List Base) (hb : ∀ m ∈ ms, m.base ∈ bs)
    (hl : bs.length ≤ 32768) : (adds dig ms).items.length = ms.length ∧ (∀ i, (adds dig ms).get i = ms[i]?) ∧
      (∀ ctx, (adds dig ms).verify ctx = some (ms.all ctx)) ∧ (adds dig ms).protos.Nodup ∧
      ∀ b, b ∈ (adds dig ms).protos ↔ ∃ m ∈ ms, m.base = b := by
  have H := adds_holds hd ms
  have hs := Nat.le_trans (H.small hb) hl
  have hg := H.get hs
  refine ⟨H.len, hg, ?_, H.nodup, fun b => ⟨H.used b, ?_⟩⟩
  · intro ctx
    unfold VList.verify
    rw [if_pos, H.len]
    · exact verifyAll_eq _ _ (range_map _ _ hg)
    · rw [List.all_eq_true]
      intro it hit
      obtain ⟨i, hi⟩ := List.getElem?_of_mem hit
      have hlt : i < ms.length := by rw [← H.len]; exact (List.getElem?_eq_some_iff.1 hi).1
      obtain ⟨it', j, h1, h2, h3, -⟩ := H.item i _ (List.getElem?_eq_getElem hlt)
      rw [hi, Option.some.injEq] at h1
      have hj := (List.getElem?_eq_some_iff.1 h3).1
      rw [← h1, toI16_small (by omega)] at h2
      rw [h2]
      simpa using hj
  · rintro ⟨m, hm, rfl⟩
    obtain ⟨i, hi⟩ := List.getElem?_of_mem hm
    obtain ⟨_, j, _, _, h3, -⟩ := H.item i m hi
    exact List.mem_of_getElem? h3

theorem verifyAll_some {ctx : Vote → Bool} {vl : VList} (is : List Nat) (h : ∀ i ∈ is, vl.get i ≠ none) :
    ∃ b, vl.verifyAll ctx is = some b ∧ (b = true → ∀ i ∈ is, ∃ v, vl.get i = some v ∧ ctx v = true) := by
  induction is with
  | nil => exact ⟨true, rfl, by simp⟩
  | cons i is ih =>
    obtain ⟨v, hv⟩ := Option.ne_none_iff_exists'.1 (h i (by simp))
    obtain ⟨b, hb, hb2⟩ := ih fun j hj => h j (List.mem_cons_of_mem _ hj)
    unfold VList.verifyAll
    simp only [hv]
    cases hc : ctx v with
    | false => exact ⟨false, by simp, by simp⟩
    | true =>
      rw [if_pos rfl]
      refine ⟨b, hb, ?_⟩
      intro e j hj
      rcases List.mem_cons.1 hj with rfl | hj
      · exact ⟨v, hv, hc⟩
      · exact hb2 e j hj

/-- Any list, wherever it comes from: verifying it does not panic, and then each of its votes can be got and verifies. -/
theorem verify_safe (ctx : Vote → Bool) (vl : VList) : ∃ b, vl.verify ctx = some b ∧
    (b = true → ∀ i < vl.items.length, ∃ v, vl.get i = some v ∧ ctx v = true) := by
  unfold VList.verify
  split_ifs with h
  · rw [List.all_eq_true] at h
    obtain ⟨b, h1, h2⟩ := verifyAll_some (ctx := ctx) (vl := vl) (List.range vl.items.length) (by
      intro i hi
      rw [List.mem_range] at hi
      have hit := h _ (List.getElem_mem hi)
      simp only [Bool.and_eq_true, decide_eq_true_eq] at hit
      unfold VList.get
      simp only [List.getElem?_eq_getElem hi, List.getElem?_eq_getElem hit.2]
      rw [if_neg (by omega)]
      simp)
    exact ⟨b, h1, fun e i hi => h2 e i (List.mem_range.2 hi)⟩
  · exact ⟨false, rfl, by simp⟩

end Verif.Votes
