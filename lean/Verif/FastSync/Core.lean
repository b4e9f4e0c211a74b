import Verif.FastSync.Spec
import Mathlib.Data.List.Count
import Mathlib.Data.List.Nodup
import Mathlib.Data.List.Perm.Basic
import Mathlib.Tactic.SplitIfs

/-!
# Where the heights are
-/

namespace Verif.FastSync

/-- Heights of fetchers. -/
def fh (l : List Peer) : List Nat := l.filterMap fun p => p.f.map fun f => f.height

/-- Heights of results. -/
def ph (l : List (Option Res)) : List Nat := l.filterMap fun x => x.map fun r => r.blk.height

/-- The number of peers with a fetcher. -/
def na (l : List Peer) : Nat := (l.filter fun p => p.f.isSome).length

/-- A peer's share. -/
def one (p : Peer) : Nat := if p.f.isSome then 1 else 0

theorem fh_cons (p : Peer) (l : List Peer) : fh (p :: l) = (p.f.map fun f => f.height).toList ++ fh l := by
  unfold fh
  rw [List.filterMap_cons]
  cases p.f <;> rfl

theorem na_cons (p : Peer) (l : List Peer) : na (p :: l) = one p + na l := by
  unfold na one
  rw [List.filter_cons]
  split_ifs <;> simp <;> omega

theorem ph_cons (x : Option Res) (l : List (Option Res)) :
    ph (x :: l) = (x.map fun r => r.blk.height).toList ++ ph l := by
  unfold ph
  rw [List.filterMap_cons]
  cases x <;> rfl

theorem fh_perm {l l' : List Peer} (h : l.Perm l') (x : Nat) : (fh l).count x = (fh l').count x :=
  (h.filterMap _).count_eq x

theorem na_perm {l l' : List Peer} (h : l.Perm l') : na l = na l' := (h.filter _).length_eq

/-- The state of a request between two steps of the code: `L` are the heights that are nowhere. -/
structure Core (r : Req) (L : List Nat) : Prop where
  crash : r.crash = false
  ids : (r.peers.map fun p => p.id).Nodup
  active : r.nActive = na r.peers
  plen : r.pending.length = maxPending
  pres : ∀ (i : Nat) (x : Res), r.pending[i]? = some (some x) → x.blk.height = r.offset + i ∧ x.req = r.serial
  part : ∀ h : Nat, r.additional.count h + (fh r.peers).count h + (ph r.pending).count h + L.count h =
    if r.offset ≤ h ∧ h < r.begin then 1 else 0
  win : ∀ h ∈ fh r.peers, h < r.offset + maxPending
  tim : ∀ p ∈ r.peers, ∀ f, p.f = some f → f.timer ≠ none ∨ f.step = .fin
  ob : r.offset ≤ r.begin
  bnd : r.begin ≤ r.stop + 1 ∨ r.begin = r.offset

/-- Nothing more can be asked for. -/
def Sat (r : Req) : Prop :=
  r.nActive ≥ maxActive ∨ r.peers.length = r.nActive ∨ ∀ l, getLowest r = some l → r.offset + maxPending ≤ l

/-! ### Lists of peers -/

theorem removeAt_perm (l : List Peer) (i : Nat) (p : Peer) (h : l[i]? = some p) : l.Perm (p :: removeAt l i) := by
  have hi : i < l.length := by
    by_contra hc
    rw [List.getElem?_eq_none (by omega)] at h
    simp at h
  obtain ⟨l', z, rfl⟩ : ∃ l' z, l = l' ++ [z] := by
    rcases List.eq_nil_or_concat l with h' | ⟨l', z, h'⟩
    · subst h'; simp at hi
    · exact ⟨l', z, by simpa using h'⟩
  unfold removeAt
  rw [List.getLast?_append, List.getLast?_singleton]
  show (l' ++ [z]).Perm (p :: ((l' ++ [z]).set i z).dropLast)
  rw [List.length_append, List.length_singleton] at hi
  by_cases hc : i < l'.length
  · rw [List.set_append_left _ _ hc, List.dropLast_concat]
    rw [List.getElem?_append_left hc, List.getElem?_eq_getElem hc] at h
    simp only [Option.some.injEq] at h
    have h1 := List.getElem_cons_eraseIdx_perm hc
    rw [h] at h1
    have h2 := List.set_perm_cons_eraseIdx hc z
    refine (List.perm_append_comm (l₁ := l') (l₂ := [z])).trans ?_
    refine (h1.symm.cons z).trans ?_
    refine (List.Perm.swap p z _).trans ?_
    exact h2.symm.cons p
  · have hie : i = l'.length := by omega
    subst hie
    have hp : z = p := by simpa using h
    subst hp
    have : (l' ++ [z]).set l'.length z = l' ++ [z] := by
      rw [List.set_append_right _ _ (Nat.le_refl _)]; simp
    rw [this, List.dropLast_concat]
    exact List.perm_append_comm

theorem set_perm (l : List Peer) (i : Nat) (p q : Peer) (h : l[i]? = some p) : (l.set i q).Perm (q :: removeAt l i) := by
  have hi : i < l.length := by
    by_contra hc
    rw [List.getElem?_eq_none (by omega)] at h
    simp at h
  have h1 := removeAt_perm l i p h
  rw [List.getElem?_eq_getElem hi] at h
  simp only [Option.some.injEq] at h
  have h2 := List.getElem_cons_eraseIdx_perm hi
  rw [h] at h2
  have h3 : (l.eraseIdx i).Perm (removeAt l i) := (h2.trans h1).cons_inv
  exact (List.set_perm_cons_eraseIdx hi q).trans (h3.cons q)

theorem findPeer_some {id : Nat} {l : List Peer} {i : Nat} {p : Peer} (h : findPeer id l = some (i, p)) :
    l[i]? = some p ∧ p.id = id := by
  induction l generalizing i with
  | nil => simp [findPeer] at h
  | cons x t ih =>
    unfold findPeer at h
    by_cases hx : x.id = id
    · rw [if_pos hx] at h
      simp only [Option.some.injEq, Prod.mk.injEq] at h
      rw [← h.1, ← h.2]; exact ⟨rfl, hx⟩
    · rw [if_neg hx] at h
      cases hf : findPeer id t with
      | none => rw [hf] at h; simp at h
      | some y =>
        rw [hf] at h
        simp only [Option.map_some, Option.some.injEq, Prod.mk.injEq] at h
        have := ih (i := y.1) (by rw [hf, ← h.2])
        rw [← h.1]
        exact ⟨by simpa using this.1, this.2⟩

theorem findPeer_none {id : Nat} {l : List Peer} (h : findPeer id l = none) : ∀ p ∈ l, p.id ≠ id := by
  induction l with
  | nil => simp
  | cons x t ih =>
    unfold findPeer at h
    by_cases hx : x.id = id
    · rw [if_pos hx] at h; simp at h
    · rw [if_neg hx] at h
      intro p hp
      rcases List.mem_cons.1 hp with rfl | hp
      · exact hx
      · exact ih (by simpa using h) p hp

/-! ### Heights -/

theorem least_none {l : List Nat} (h : least l = none) : l = [] := by
  cases l with
  | nil => rfl
  | cons x t =>
    unfold least at h
    cases hl : least t <;> rw [hl] at h <;> simp at h

theorem least_mem {l : List Nat} {m : Nat} (h : least l = some m) : m ∈ l ∧ ∀ x ∈ l, m ≤ x := by
  induction l generalizing m with
  | nil => simp [least] at h
  | cons y t ih =>
    unfold least at h
    cases hl : least t with
    | none =>
      have := least_none hl
      subst this
      rw [hl] at h
      simp only [Option.some.injEq] at h
      subst h
      simp
    | some k =>
      rw [hl] at h
      simp only [Option.some.injEq] at h
      obtain ⟨h1, h2⟩ := ih hl
      split_ifs at h with hc
      · subst h
        refine ⟨by simp, fun x hx => ?_⟩
        rcases List.mem_cons.1 hx with rfl | hx
        · exact Nat.le_refl _
        · exact Nat.le_trans hc (h2 x hx)
      · subst h
        refine ⟨List.mem_cons_of_mem _ h1, fun x hx => ?_⟩
        rcases List.mem_cons.1 hx with rfl | hx
        · omega
        · exact h2 x hx

theorem Core.mono {r : Req} {L L' : List Nat} (C : Core r L) (h : ∀ x : Nat, L.count x = L'.count x) : Core r L' :=
  { C with part := fun x => by rw [← h x]; exact C.part x }

/-- A height comes back. -/
theorem Core.add {r : Req} {L : List Nat} {h : Nat} (C : Core r (h :: L)) :
    Core (addHeight r h) L ∧ addHeight r h = { r with additional := r.additional ++ [h] } := by
  have hp := C.part h
  rw [List.count_cons_self] at hp
  have hlt : h < r.begin := by
    by_contra hc
    rw [if_neg (fun h' => hc h'.2)] at hp
    omega
  have e : addHeight r h = { r with additional := r.additional ++ [h] } := by
    unfold addHeight; rw [if_neg (by omega)]
  refine ⟨?_, e⟩
  rw [e]
  exact { C with
    part := fun x => by
      have := C.part x
      dsimp only
      rw [List.count_append]
      rw [List.count_cons] at this
      have e2 : List.count x [h] = if (h == x) = true then 1 else 0 := by
        rw [List.count_cons, List.count_nil]; omega
      rw [e2]
      omega }

theorem Core.addAll {L : List Nat} (l : List Nat) : ∀ {r : Req}, Core r (l ++ L) →
    Core (l.foldl addHeight r) L ∧ l.foldl addHeight r = { r with additional := r.additional ++ l } := by
  induction l with
  | nil => intro r C; exact ⟨C, by simp⟩
  | cons h t ih =>
    intro r C
    obtain ⟨C1, e1⟩ := C.add (h := h) (L := t ++ L)
    obtain ⟨C2, e2⟩ := ih C1
    refine ⟨C2, ?_⟩
    show t.foldl addHeight (addHeight r h) = _
    rw [e2, e1]
    simp

/-! ### Dropping results -/

theorem dropFrom_len (id : Nat) (l : List (Option Res)) : (dropFrom id l).1.length = l.length := by
  induction l with
  | nil => rfl
  | cons x t ih =>
    unfold dropFrom
    cases x with
    | none => simp [ih]
    | some r =>
      dsimp only
      split_ifs <;> simp [ih]

theorem dropFrom_get (id : Nat) (l : List (Option Res)) : ∀ (i : Nat) (x : Res),
    (dropFrom id l).1[i]? = some (some x) → l[i]? = some (some x) := by
  induction l with
  | nil => intro i x h; simp [dropFrom] at h
  | cons y t ih =>
    intro i x h
    unfold dropFrom at h
    cases i with
    | zero =>
      cases y with
      | none => simp at h
      | some r =>
        dsimp only at h
        split_ifs at h
        · simp at h
        · simpa using h
    | succ i =>
      have : (dropFrom id t).1[i]? = some (some x) := by
        cases y with
        | none => simpa using h
        | some r =>
          dsimp only at h
          split_ifs at h <;> simpa using h
      simpa using ih i x this

theorem dropFrom_count (id : Nat) (l : List (Option Res)) (h : Nat) :
    (ph (dropFrom id l).1).count h + (dropFrom id l).2.count h = (ph l).count h := by
  induction l with
  | nil => simp [dropFrom, ph]
  | cons y t ih =>
    unfold dropFrom
    cases y with
    | none =>
      dsimp only
      rw [ph_cons, ph_cons]
      simpa using ih
    | some r =>
      dsimp only
      split_ifs
      · rw [ph_cons, ph_cons]
        simp only [Option.map_none, Option.toList_none, List.nil_append, Option.map_some, Option.toList_some,
          List.singleton_append, List.count_cons]
        omega
      · rw [ph_cons, ph_cons]
        simp only [List.count_append]
        omega

theorem Core.drop {r : Req} {L : List Nat} (C : Core r L) (id : Nat) :
    Core (dropResults r id) L ∧ first (dropResults r id) = first r ∧ (dropResults r id).peers = r.peers ∧
    (dropResults r id).serial = r.serial ∧ (dropResults r id).offset = r.offset ∧ (dropResults r id).begin = r.begin ∧
    (dropResults r id).stop = r.stop := by
  cases hp : r.pending with
  | nil =>
    have := C.plen
    rw [hp] at this
    simp [maxPending] at this
  | cons x xs =>
    have e : dropResults r id = (dropFrom id xs).2.foldl addHeight { r with pending := x :: (dropFrom id xs).1 } := by
      unfold dropResults; rw [hp]
    have C' : Core { r with pending := x :: (dropFrom id xs).1 } ((dropFrom id xs).2 ++ L) := { C with
      plen := by
        have := C.plen
        rw [hp] at this
        simpa [dropFrom_len] using this
      pres := fun i y h => by
        dsimp only at h
        cases i with
        | zero => exact C.pres 0 y (by rw [hp]; simpa using h)
        | succ i =>
          exact C.pres (i + 1) y (by rw [hp]; simpa using dropFrom_get id xs i y (by simpa using h))
      part := fun h => by
        have h1 := C.part h
        have h2 := dropFrom_count id xs h
        rw [hp, ph_cons] at h1
        dsimp only
        rw [ph_cons]
        simp only [List.count_append] at h1 ⊢
        omega }
    obtain ⟨C2, e2⟩ := Core.addAll _ C'
    rw [e]
    refine ⟨C2, ?_⟩
    rw [e2]
    refine ⟨?_, rfl, rfl, rfl, rfl, rfl⟩
    unfold first
    rw [hp]
    cases x <;> rfl

/-! ### A peer goes, or changes -/

theorem Core.remove {r : Req} {L : List Nat} (C : Core r L) {i : Nat} {p : Peer} (h : r.peers[i]? = some p) :
    Core { r with peers := removeAt r.peers i, nActive := r.nActive - one p }
      ((p.f.map fun f => f.height).toList ++ L) := by
  have hp := removeAt_perm r.peers i p h
  exact { C with
    ids := by
      have := (hp.map fun p => p.id).nodup_iff.1 C.ids
      rw [List.map_cons, List.nodup_cons] at this
      exact this.2
    active := by
      show r.nActive - one p = na (removeAt r.peers i)
      have := na_perm hp
      rw [na_cons] at this
      have := C.active
      omega
    part := fun x => by
      have h1 := C.part x
      have h2 := fh_perm hp x
      rw [fh_cons] at h2
      dsimp only
      simp only [List.count_append] at h1 h2 ⊢
      omega
    win := fun x hx => C.win x (by
      have : x ∈ fh (p :: removeAt r.peers i) := by rw [fh_cons]; exact List.mem_append_right _ hx
      exact (hp.filterMap _).mem_iff.2 this)
    tim := fun q hq => C.tim q (hp.mem_iff.2 (List.mem_cons_of_mem _ hq)) }

/-- The fetcher of a peer changes, its height does not. -/
theorem Core.put {r : Req} {L : List Nat} (C : Core r L) {i : Nat} {p : Peer} (h : r.peers[i]? = some p) {f f' : Fetcher}
    (hf : p.f = some f) (hh : f'.height = f.height) (ht : f'.timer ≠ none ∨ f'.step = .fin) :
    Core { r with peers := r.peers.set i { p with f := some f' } } L := by
  have hp := removeAt_perm r.peers i p h
  have hs := set_perm r.peers i p { p with f := some f' } h
  exact { C with
    ids := by
      have h1 := (hp.map fun p => p.id).nodup_iff.1 C.ids
      exact (hs.map fun p => p.id).nodup_iff.2 h1
    active := by
      show r.nActive = na (r.peers.set i _)
      have h1 := na_perm hp
      have h2 := na_perm hs
      rw [na_cons] at h1 h2
      have : one p = one { p with f := some f' } := by simp [one, hf]
      have := C.active
      omega
    part := fun x => by
      have h1 := C.part x
      have h2 := fh_perm hp x
      have h3 := fh_perm hs x
      rw [fh_cons] at h2 h3
      dsimp only
      rw [hf] at h2
      simp only [Option.map_some, hh] at h2 h3
      omega
    win := fun x hx => C.win x (by
      have h1 := (hs.filterMap _).mem_iff.1 hx
      have h2 : x ∈ fh (p :: removeAt r.peers i) := by
        have h1' : x ∈ fh ({ p with f := some f' } :: removeAt r.peers i) := h1
        rw [fh_cons] at h1' ⊢
        rw [hf]
        simpa [hh] using h1'
      exact (hp.filterMap _).mem_iff.2 h2)
    tim := fun q hq g hg => by
      rcases List.mem_cons.1 (hs.mem_iff.1 hq) with h' | h'
      · subst h'
        simp only [Option.some.injEq] at hg
        rw [← hg]; exact ht
      · exact C.tim q (hp.mem_iff.2 (List.mem_cons_of_mem _ h')) g hg }

end Verif.FastSync
