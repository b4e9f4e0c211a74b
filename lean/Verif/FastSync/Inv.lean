import Verif.FastSync.Sched

/-!
# The invariant
-/

namespace Verif.FastSync

/-- The request a callback is about. -/
def about : Out → Nat
  | .onBlock r => r.req
  | .onEnd n _ => n

/-- What holds for the current request. -/
structure Cur (r : Req) (g : G) (next : Nat) : Prop where
  core : Core r g.lost
  sat : Sat r
  ser : r.serial < next
  giv : (g.given.filter fun x => x.req == r.serial).Perm (first r).toList
  don : (g.done.map fun x => x.blk.height) = List.range' g.start (r.offset - g.start)
  sta : g.start ≤ r.offset

/-- What holds always. -/
structure Inv (c : Client) (g : G) : Prop where
  crash : c.crash = false
  giv : ∀ x ∈ g.given, x.req < c.next
  log : ∀ o ∈ g.log, about o < c.next
  pw : g.log.Pairwise fun a b => ∀ n ok, a = .onEnd n ok → about b ≠ n
  ended : ∀ n ok, Out.onEnd n ok ∈ g.log → ∀ r, c.fr = some r → r.serial ≠ n
  cur : ∀ r, c.fr = some r → Cur r g c.next

theorem results_mem {o : List Out} {x : Res} (h : x ∈ results o) : Out.onBlock x ∈ o := by
  induction o with
  | nil => simp [results] at h
  | cons a t ih =>
    cases a with
    | onBlock r =>
      simp only [results, List.mem_cons] at h
      rcases h with rfl | h
      · simp
      · exact List.mem_cons_of_mem _ (ih h)
    | onEnd n ok => exact List.mem_cons_of_mem _ (ih h)

theorem Inv.log_append {c : Client} {g : G} (I : Inv c g) {r : Req} (hr : c.fr = some r) {o : List Out}
    (ho : ∀ a ∈ o, about a = r.serial) (hl : o.length ≤ 1) :
    (∀ a ∈ g.log ++ o, about a < c.next) ∧ (g.log ++ o).Pairwise fun a b => ∀ n ok, a = .onEnd n ok → about b ≠ n := by
  refine ⟨fun a ha => ?_, ?_⟩
  · rcases List.mem_append.1 ha with h | h
    · exact I.log a h
    · rw [ho a h]; exact (I.cur r hr).ser
  · rw [List.pairwise_append]
    refine ⟨I.pw, ?_, fun a ha b hb n ok e => ?_⟩
    · match o, hl with
      | [], _ => exact List.Pairwise.nil
      | [a], _ => exact List.pairwise_singleton _ _
      | a :: b :: t, hl => simp at hl
    · subst e
      rw [ho b hb]
      exact I.ended n ok ha r hr

/-- The request goes on. -/
theorem Inv.go {c : Client} {g g' : G} (I : Inv c g) {r r' : Req} (hr : c.fr = some r) {o : List Out}
    (K : Cur r' g' c.next) (hs : r'.serial = r.serial)
    (ho : ∀ a ∈ o, ∃ x, a = Out.onBlock x ∧ x.req = r.serial) (hl : o.length ≤ 1) (hlog : g'.log = g.log ++ o)
    (hg : ∀ x ∈ g'.given, x ∈ g.given ∨ x.req = r.serial) : Inv (keep c r' o).1 g' := by
  have ho' : ∀ a ∈ o, about a = r.serial := by
    intro a ha
    obtain ⟨x, rfl, h⟩ := ho a ha
    exact h
  obtain ⟨h1, h2⟩ := I.log_append hr ho' hl
  refine ⟨?_, ?_, ?_, ?_, ?_, ?_⟩
  · show (c.crash || r'.crash) = false
    rw [I.crash, K.core.crash]; rfl
  · intro x hx
    show x.req < c.next
    rcases hg x hx with h | h
    · exact I.giv x h
    · rw [h]; exact (I.cur r hr).ser
  · rw [hlog]; exact h1
  · rw [hlog]; exact h2
  · intro n ok hn r2 hr2
    have e : r' = r2 := by
      have : some r' = some r2 := hr2
      simpa using this
    subst e
    rw [hlog] at hn
    rcases List.mem_append.1 hn with h | h
    · rw [hs]; exact I.ended n ok h r hr
    · obtain ⟨x, h', _⟩ := ho _ h
      simp at h'
  · intro r2 hr2
    have e : r' = r2 := by
      have : some r' = some r2 := hr2
      simpa using this
    subst e
    exact K

/-- The request is over. -/
theorem Inv.stop {c : Client} {g g' : G} (I : Inv c g) {r r' : Req} (hr : c.fr = some r) {ok : Bool}
    (hc : r'.crash = false) (hs : r'.serial = r.serial) (hlog : g'.log = g.log ++ [.onEnd r'.serial ok])
    (hg : ∀ x ∈ g'.given, x ∈ g.given) : Inv (cancelReq c r' [.onEnd r'.serial ok]).1 g' := by
  obtain ⟨h1, h2⟩ := I.log_append hr (o := [.onEnd r'.serial ok]) (by
    intro a ha
    rw [List.mem_singleton] at ha
    subst ha
    exact hs) (by simp)
  refine ⟨?_, fun x hx => I.giv x (hg x hx), ?_, ?_, ?_, ?_⟩
  · show (c.crash || r'.crash) = false
    rw [I.crash, hc]; rfl
  · rw [hlog]; exact h1
  · rw [hlog]; exact h2
  · intro n ok _ r2 hr2
    simp [cancelReq] at hr2
  · intro r2 hr2
    simp [cancelReq] at hr2

/-- Nothing happens. -/
theorem Inv.same {c : Client} {g g' : G} (I : Inv c g) (h1 : g'.log = g.log) (h2 : g'.lost = g.lost) (h3 : g'.done = g.done)
    (h4 : g'.start = g.start) (hg : ∀ x ∈ g'.given, x ∈ g.given)
    (hp : ∀ r, c.fr = some r → (g'.given.filter fun x => x.req == r.serial).Perm (g.given.filter fun x => x.req == r.serial)) :
    Inv c g' := by
  refine ⟨I.crash, fun x hx => I.giv x (hg x hx), by rw [h1]; exact I.log, by rw [h1]; exact I.pw, by rw [h1]; exact I.ended,
    fun r hr => ?_⟩
  have K := I.cur r hr
  exact ⟨by rw [h2]; exact K.core, K.sat, K.ser, (hp r hr).trans K.giv, by rw [h3, h4]; exact K.don, by rw [h4]; exact K.sta⟩

/-! ### A block comes -/

theorem ph_set : ∀ (l : List (Option Res)) (k : Nat) (x : Res) (h : Nat), l[k]? = some none →
    (ph (l.set k (some x))).count h = (ph l).count h + if x.blk.height = h then 1 else 0 := by
  intro l
  induction l with
  | nil => intro k x h hk; simp at hk
  | cons y t ih =>
    intro k x h hk
    cases k with
    | zero =>
      have : y = none := by simpa using hk
      subst this
      rw [List.set_cons_zero, ph_cons, ph_cons]
      simp only [Option.map_some, Option.map_none, Option.toList_some, Option.toList_none, List.nil_append,
        List.singleton_append, List.count_cons]
      simp
    | succ k =>
      rw [List.set_cons_succ, ph_cons, ph_cons]
      have := ih k x h (by simpa using hk)
      simp only [List.count_append]
      omega

theorem ph_mem {l : List (Option Res)} {i : Nat} {x : Res} (h : l[i]? = some (some x)) : x.blk.height ∈ ph l := by
  unfold ph
  rw [List.mem_filterMap]
  exact ⟨some x, List.mem_of_getElem? h, rfl⟩

theorem mem_ph {l : List (Option Res)} {h : Nat} (hm : h ∈ ph l) : ∃ (i : Nat) (x : Res), l[i]? = some (some x) ∧ x.blk.height = h := by
  unfold ph at hm
  rw [List.mem_filterMap] at hm
  obtain ⟨a, h1, h2⟩ := hm
  cases a with
  | none => simp at h2
  | some x =>
    obtain ⟨i, hi⟩ := List.mem_iff_getElem?.1 h1
    exact ⟨i, x, hi, by simpa using h2⟩

/-- Where the height of a fetcher is. -/
theorem Core.slot {r : Req} {L : List Nat} (C : Core r L) {h : Nat} (hh : h ∈ fh r.peers) :
    r.offset ≤ h ∧ h < r.begin ∧ h < r.offset + maxPending ∧ r.pending[h - r.offset]? = some none := by
  have h1 := C.part h
  have h2 : 0 < (fh r.peers).count h := List.count_pos_iff.2 hh
  have h3 : r.offset ≤ h ∧ h < r.begin := by
    by_contra hc
    rw [if_neg hc] at h1
    omega
  have h4 := C.win h hh
  refine ⟨h3.1, h3.2, h4, ?_⟩
  rw [if_pos h3] at h1
  have h5 : h - r.offset < r.pending.length := by rw [C.plen]; omega
  cases hp : r.pending[h - r.offset]? with
  | none =>
    rw [List.getElem?_eq_getElem h5] at hp
    simp at hp
  | some y =>
    cases y with
    | none => rfl
    | some x =>
      have h6 := (C.pres _ x hp).1
      have h7 := List.count_pos_iff.2 (ph_mem hp)
      rw [h6] at h7
      have : r.offset + (h - r.offset) = h := by omega
      rw [this] at h7
      omega

theorem fh_of_get {l : List Peer} {i : Nat} {p : Peer} {f : Fetcher} (h : l[i]? = some p) (hf : p.f = some f) :
    f.height ∈ fh l := by
  unfold fh
  rw [List.mem_filterMap]
  exact ⟨p, List.mem_of_getElem? h, by rw [hf]; rfl⟩

theorem Core.block {r : Req} {L : List Nat} (C : Core r L) {i : Nat} {p : Peer} {f : Fetcher} (h : r.peers[i]? = some p)
    (hf : p.f = some f) {x : Res} (hx : x.blk.height = f.height) (hq : x.req = r.serial) :
    Core { r with pending := r.pending.set (f.height - r.offset) (some x), nActive := r.nActive - 1,
                  peers := r.peers.set i { p with f := none } } L := by
  obtain ⟨h1, h2, h3, h4⟩ := C.slot (fh_of_get h hf)
  have hp := removeAt_perm r.peers i p h
  have hs := set_perm r.peers i p { p with f := none } h
  have hsub : ∀ y ∈ fh (r.peers.set i { p with f := none }), y ∈ fh r.peers := by
    intro y hy
    have e1 : y ∈ fh ({ p with f := none } :: removeAt r.peers i) := (hs.filterMap _).mem_iff.1 hy
    have e2 : y ∈ fh (p :: removeAt r.peers i) := by
      rw [fh_cons] at e1 ⊢
      exact List.mem_append_right _ (by simpa using e1)
    exact (hp.filterMap _).mem_iff.2 e2
  exact { C with
    ids := by
      have e1 := (hp.map fun p => p.id).nodup_iff.1 C.ids
      exact (hs.map fun p => p.id).nodup_iff.2 e1
    active := by
      show r.nActive - 1 = na (r.peers.set i _)
      have e1 := na_perm hp
      have e2 := na_perm hs
      rw [na_cons] at e1 e2
      have e3 : one p = 1 := by simp [one, hf]
      have e4 : one { p with f := none } = 0 := by simp [one]
      have := C.active
      omega
    plen := by
      dsimp only
      rw [List.length_set]; exact C.plen
    pres := fun j y hy => by
      dsimp only at hy ⊢
      by_cases hj : f.height - r.offset = j
      · subst hj
        rw [List.getElem?_set_self (by rw [C.plen]; omega)] at hy
        simp only [Option.some.injEq] at hy
        subst hy
        exact ⟨by omega, hq⟩
      · rw [List.getElem?_set_ne hj] at hy
        exact C.pres j y hy
    part := fun y => by
      have e1 := C.part y
      have e2 := fh_perm hp y
      have e3 := fh_perm hs y
      rw [fh_cons] at e2 e3
      rw [hf] at e2
      simp only [Option.map_some, Option.map_none, Option.toList_some, Option.toList_none, List.nil_append,
        List.singleton_append, List.count_cons] at e2 e3
      dsimp only
      rw [ph_set _ _ _ _ h4, hx]
      by_cases hy : f.height = y
      · rw [if_pos hy]
        rw [if_pos (by simpa using hy)] at e2
        omega
      · rw [if_neg hy]
        rw [if_neg (by simpa using hy)] at e2
        omega
    win := fun y hy => C.win y (hsub y hy)
    tim := fun q hq g hg => by
      rcases List.mem_cons.1 (hs.mem_iff.1 hq) with h' | h'
      · subst h'
        simp at hg
      · exact C.tim q (hp.mem_iff.2 (List.mem_cons_of_mem _ h')) g hg }

/-! ### A block is consumed -/

theorem first_some {r : Req} {x : Res} (h : first r = some x) : ∃ xs, r.pending = some x :: xs := by
  unfold first at h
  match hp : r.pending with
  | [] => rw [hp] at h; simp at h
  | none :: xs => rw [hp] at h; simp at h
  | some y :: xs =>
    rw [hp] at h
    simp only [Option.some.injEq] at h
    exact ⟨xs, by rw [h]⟩

theorem ph_append_none (l : List (Option Res)) : ph (l ++ [none]) = ph l := by
  unfold ph
  rw [List.filterMap_append]
  simp

theorem Core.shift {r : Req} {L : List Nat} (C : Core r L) {x : Res} {xs : List (Option Res)} (h : r.pending = some x :: xs) :
    Core { r with offset := r.offset + 1, pending := xs ++ [none] } L ∧ x.blk.height = r.offset ∧ r.offset ≤ r.stop := by
  have hx := (C.pres 0 x (by rw [h]; rfl)).1
  have h0 := C.part r.offset
  have hc : 0 < (ph r.pending).count r.offset := by
    have := List.count_pos_iff.2 (ph_mem (l := r.pending) (i := 0) (x := x) (by rw [h]; rfl))
    rw [hx] at this
    exact this
  have hlt : r.offset < r.begin := by
    by_contra hn
    rw [if_neg (by omega)] at h0
    omega
  have hb := C.bnd
  refine ⟨{ C with
    plen := by
      have := C.plen
      rw [h] at this
      simpa using this
    pres := fun i y hy => by
      dsimp only at hy ⊢
      have : r.pending[i + 1]? = some (some y) := by
        rw [h, List.getElem?_cons_succ]
        by_cases hi : i < xs.length
        · rw [List.getElem?_append_left hi] at hy
          exact hy
        · rw [List.getElem?_append_right (by omega)] at hy
          cases hk : i - xs.length with
          | zero => rw [hk] at hy; simp at hy
          | succ k => rw [hk] at hy; simp at hy
      have := C.pres (i + 1) y this
      exact ⟨by omega, this.2⟩
    part := fun y => by
      have e1 := C.part y
      dsimp only
      rw [ph_append_none]
      rw [h, ph_cons] at e1
      simp only [Option.map_some, Option.toList_some, List.singleton_append, List.count_cons, hx] at e1
      by_cases hy : r.offset + 0 = y
      · rw [if_pos (by simpa using hy)] at e1
        rw [if_neg (by omega)]
        split_ifs at e1 <;> omega
      · rw [if_neg (by simpa using hy)] at e1
        by_cases hr : r.offset ≤ y ∧ y < r.begin
        · rw [if_pos hr] at e1
          rw [if_pos (by omega)]
          omega
        · rw [if_neg hr] at e1
          rw [if_neg (by omega)]
          omega
    win := fun y hy => by
      have := C.win y hy
      dsimp only
      omega
    ob := by dsimp only; omega
    bnd := by dsimp only; omega }, by omega, by omega⟩

/-- The first result goes back. -/
theorem Core.back {r : Req} {L : List Nat} (C : Core r L) {x : Res} {xs : List (Option Res)} (h : r.pending = some x :: xs) :
    Core { r with pending := none :: xs } (x.blk.height :: L) :=
  { C with
    plen := by
      have := C.plen
      rw [h] at this
      simpa using this
    pres := fun i y hy => by
      dsimp only at hy ⊢
      cases i with
      | zero => simp at hy
      | succ i => exact C.pres (i + 1) y (by rw [h]; simpa using hy)
    part := fun y => by
      have e1 := C.part y
      dsimp only
      rw [ph_cons]
      rw [h, ph_cons] at e1
      simp only [Option.map_some, Option.map_none, Option.toList_some, Option.toList_none, List.nil_append,
        List.singleton_append, List.count_cons] at e1 ⊢
      omega }

end Verif.FastSync
