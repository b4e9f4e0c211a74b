import Verif.FastSync.Core

/-!
# Asking peers
-/

namespace Verif.FastSync

theorem na_le (l : List Peer) : na l ≤ l.length := List.length_filter_le _ _

/-- If a peer is idle, one gets the work. -/
theorem assign_some (fid h : Nat) (snd : Nat → Send) : ∀ (l : List Peer), na l < l.length →
    ∃ (i : Nat) (p : Peer) (q : Peer) (f : Fetcher), assign fid h snd l = some (l.set i q) ∧ l[i]? = some p ∧ p.f = none ∧
      q.id = p.id ∧ q.f = some f ∧ f.height = h ∧ (f.timer ≠ none ∨ f.step = .fin) ∧
      f = newFetcher h f.rid (snd p.id) := by
  intro l
  induction l with
  | nil => intro hl; simp at hl
  | cons x t ih =>
    intro hl
    rw [na_cons, List.length_cons] at hl
    cases hx : x.f with
    | none =>
      refine ⟨0, x, { x with
          f := some (newFetcher h (fid * 65536 + x.requestID) (snd x.id))
          requestID := (x.requestID + 1) % 65536 }, newFetcher h (fid * 65536 + x.requestID) (snd x.id),
          ?_, rfl, hx, ?_, rfl, ?_, ?_, ?_⟩
      · unfold assign; rw [hx]; rfl
      · rfl
      · cases snd x.id <;> rfl
      · cases snd x.id <;> simp [newFetcher]
      · cases snd x.id <;> rfl
    | some y =>
      have : one x = 1 := by simp [one, hx]
      obtain ⟨i, p, q, f, h1, h2, h3⟩ := ih (by omega)
      refine ⟨i + 1, p, q, f, ?_, by simpa using h2, h3⟩
      unfold assign
      rw [hx]
      dsimp only
      rw [h1]
      rfl

/-- What asking peers does not change. -/
structure Same (r r' : Req) : Prop where
  serial : r'.serial = r.serial
  stop : r'.stop = r.stop
  offset : r'.offset = r.offset
  pending : r'.pending = r.pending
  ids : r'.peers.map (fun p => p.id) = r.peers.map fun p => p.id
  busy : ∀ (i : Nat) (p : Peer) (f : Fetcher), r.peers[i]? = some p → p.f = some f → r'.peers[i]? = some p

theorem Same.refl (r : Req) : Same r r := ⟨rfl, rfl, rfl, rfl, rfl, fun _ _ _ h _ => h⟩

theorem Same.trans {a b c : Req} (h : Same a b) (h' : Same b c) : Same a c :=
  ⟨h'.1.trans h.1, h'.2.trans h.2, h'.3.trans h.3, h'.4.trans h.4, h'.5.trans h.5,
    fun i p f h1 h2 => h'.6 i p f (h.6 i p f h1 h2) h2⟩

theorem Same.len {a b : Req} (h : Same a b) : b.peers.length = a.peers.length := by
  have := congrArg List.length h.ids
  simpa using this

theorem Same.first {a b : Req} (h : Same a b) : first b = first a := by
  unfold Verif.FastSync.first; rw [h.pending]

/-- A peer gets the lowest height. -/
theorem Core.ask {r : Req} {L : List Nat} (C : Core r L) {l i : Nat} {p q : Peer} {f : Fetcher}
    (hl : getLowest r = some l) (hw : l < r.offset + maxPending) (hp : r.peers[i]? = some p) (hpf : p.f = none)
    (hq : q.id = p.id) (hqf : q.f = some f) (hf : f.height = l) (ht : f.timer ≠ none ∨ f.step = .fin) :
    ∃ r', r' = (let r := popLowest { r with peers := r.peers.set i q }; { r with nActive := r.nActive + 1 }) ∧
      Core r' L ∧ Same r r' ∧ r'.nActive = r.nActive + 1 := by
  have hr := removeAt_perm r.peers i p hp
  have hs := set_perm r.peers i p q hp
  have hi : i < r.peers.length := by
    by_contra hc
    rw [List.getElem?_eq_none (by omega)] at hp
    simp at hp
  have hids : (r.peers.set i q).map (fun p => p.id) = r.peers.map fun p => p.id := by
    rw [List.map_set, hq]
    have : p.id = (r.peers.map fun p => p.id)[i]'(by simpa using hi) := by
      rw [List.getElem?_eq_getElem hi] at hp
      simp only [Option.some.injEq] at hp
      simp [hp]
    rw [this, List.set_getElem_self]
  have hbusy : ∀ (j : Nat) (p' : Peer) (f : Fetcher), r.peers[j]? = some p' → p'.f = some f →
      (r.peers.set i q)[j]? = some p' := by
    intro j p' f' h1 h2
    have : i ≠ j := by
      rintro rfl
      rw [hp] at h1
      simp only [Option.some.injEq] at h1
      rw [h1, h2] at hpf
      simp at hpf
    rw [List.getElem?_set_ne this]
    exact h1
  have hna : na (r.peers.set i q) = r.nActive + 1 := by
    have h1 := na_perm hr
    have h2 := na_perm hs
    rw [na_cons] at h1 h2
    have h3 : one p = 0 := by simp [one, hpf]
    have h4 : one q = 1 := by simp [one, hqf]
    have := C.active
    omega
  have hfh : ∀ x, (fh (r.peers.set i q)).count x = (fh r.peers).count x + if l = x then 1 else 0 := by
    intro x
    have h1 := fh_perm hr x
    have h2 := fh_perm hs x
    rw [fh_cons] at h1 h2
    rw [hpf] at h1
    rw [hqf] at h2
    simp only [Option.map_some, Option.map_none, Option.toList_some, Option.toList_none, List.nil_append,
      List.singleton_append, List.count_cons, hf] at h1 h2
    rw [h2, h1]
    simp
  have hwin : ∀ h ∈ fh (r.peers.set i q), h < r.offset + maxPending := by
    intro h hh
    have h1 := (hs.filterMap _).mem_iff.1 hh
    have h1' : h ∈ fh (q :: removeAt r.peers i) := h1
    rw [fh_cons, hqf] at h1'
    simp only [Option.map_some, Option.toList_some, List.singleton_append, List.mem_cons] at h1'
    rcases h1' with rfl | h2
    · omega
    · refine C.win h ((hr.filterMap _).mem_iff.2 ?_)
      have : h ∈ fh (p :: removeAt r.peers i) := by rw [fh_cons]; exact List.mem_append_right _ h2
      exact this
  have htim : ∀ p ∈ r.peers.set i q, ∀ f, p.f = some f → f.timer ≠ none ∨ f.step = .fin := by
    intro p' hp' f' hf'
    rcases List.mem_cons.1 (hs.mem_iff.1 hp') with h | h
    · rw [h, hqf] at hf'
      simp only [Option.some.injEq] at hf'
      rw [← hf']; exact ht
    · exact C.tim p' (hr.mem_iff.2 (List.mem_cons_of_mem _ h)) f' hf'
  refine ⟨_, rfl, ?_⟩
  unfold getLowest at hl
  unfold popLowest
  dsimp only
  cases ha : least r.additional with
  | some m =>
    rw [ha] at hl
    simp only [Option.some.injEq] at hl
    dsimp only
    obtain ⟨hm, _⟩ := least_mem ha
    refine ⟨{ C with
      ids := by dsimp only; rw [hids]; exact C.ids
      active := hna.symm
      win := hwin
      tim := htim
      part := fun x => ?_ }, ⟨rfl, rfl, rfl, rfl, hids, hbusy⟩, rfl⟩
    dsimp only
    have h1 := C.part x
    rw [hfh x]
    by_cases hx : l = x
    · subst hx
      rw [if_pos rfl]
      rw [hl, List.count_erase_self]
      have : 0 < r.additional.count l := List.count_pos_iff.2 (by rw [← hl]; exact hm)
      omega
    · rw [if_neg hx]
      have : (r.additional.erase m).count x = r.additional.count x := List.count_erase_of_ne (by rw [hl]; exact fun h => hx h.symm)
      omega
  | none =>
    have hnil := least_none ha
    rw [ha] at hl
    dsimp only at hl ⊢
    by_cases hb : r.begin ≤ r.stop
    · rw [if_pos hb] at hl ⊢
      simp only [Option.some.injEq] at hl
      dsimp only
      refine ⟨{ C with
        ids := by dsimp only; rw [hids]; exact C.ids
        active := hna.symm
        win := hwin
        tim := htim
        ob := by have := C.ob; dsimp only; omega
        bnd := by dsimp only; omega
        part := fun x => ?_ }, ⟨rfl, rfl, rfl, rfl, hids, hbusy⟩, rfl⟩
      dsimp only
      have h1 := C.part x
      rw [hfh x]
      have ho := C.ob
      by_cases hx : l = x
      · rw [if_pos hx]
        rw [if_neg (by omega)] at h1
        rw [if_pos (by omega)]
        omega
      · rw [if_neg hx]
        by_cases hc : r.offset ≤ x ∧ x < r.begin
        · rw [if_pos hc] at h1
          rw [if_pos (by omega)]
          omega
        · rw [if_neg hc] at h1
          rw [if_neg (by omega)]
          omega
    · rw [if_neg hb] at hl
      simp at hl

theorem rescheduleN_core (snd : Nat → Send) : ∀ (n : Nat) (r : Req) (L : List Nat), Core r L → maxActive ≤ n + r.nActive →
    Core (rescheduleN snd n r) L ∧ Sat (rescheduleN snd n r) ∧ Same r (rescheduleN snd n r) := by
  intro n
  induction n with
  | zero =>
    intro r L C h
    exact ⟨C, Or.inl (by simpa [rescheduleN] using h), Same.refl r⟩
  | succ n ih =>
    intro r L C h
    unfold rescheduleN
    by_cases h1 : r.nActive ≥ maxActive
    · rw [if_pos h1]; exact ⟨C, Or.inl h1, Same.refl r⟩
    rw [if_neg h1]
    by_cases h2 : r.peers.length = r.nActive
    · rw [if_pos h2]; exact ⟨C, Or.inr (Or.inl h2), Same.refl r⟩
    rw [if_neg h2]
    cases hl : getLowest r with
    | none => exact ⟨C, Or.inr (Or.inr (by rw [hl]; simp)), Same.refl r⟩
    | some l =>
      dsimp only
      rw [C.plen]
      by_cases h3 : r.offset + maxPending ≤ l
      · rw [if_pos h3]
        exact ⟨C, Or.inr (Or.inr (by rw [hl]; simpa using h3)), Same.refl r⟩
      rw [if_neg h3]
      have hlt : na r.peers < r.peers.length := by
        have := na_le r.peers
        have := C.active
        omega
      obtain ⟨i, p, q, f, e, h4, h5, h6, h7, h8, h9, _⟩ := assign_some r.fetchID l snd r.peers hlt
      rw [e]
      dsimp only
      obtain ⟨r', er, C', S', hn⟩ := C.ask hl (by omega) h4 h5 h6 h7 h8 h9
      dsimp only at er
      rw [← er]
      obtain ⟨C2, hs, S2⟩ := ih r' L C' (by omega)
      exact ⟨C2, hs, S'.trans S2⟩

theorem reschedule_core (snd : Nat → Send) {r : Req} {L : List Nat} (C : Core r L) :
    Core (reschedule snd r) L ∧ Sat (reschedule snd r) ∧ Same r (reschedule snd r) :=
  rescheduleN_core snd maxActive r L C (by omega)

end Verif.FastSync
