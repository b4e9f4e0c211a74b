import Verif.FastSync.Steps

/-!
# Theorems
-/

namespace Verif.FastSync

theorem erase_filter_ne {l : List Res} {x : Res} (hx : x ∈ l) {n : Nat} (h : x.req ≠ n) :
    ((l.erase x).filter fun y => y.req == n).Perm (l.filter fun y => y.req == n) := by
  have h1 := (List.perm_cons_erase hx).filter fun y => y.req == n
  rw [List.filter_cons_of_neg (by simpa using h)] at h1
  exact h1.symm

/-- An answered result of the current request is the first one. -/
theorem Cur.head {r : Req} {g : G} {n : Nat} (K : Cur r g n) {x : Res} (hx : x ∈ g.given) (hq : x.req = r.serial) :
    first r = some x ∧ (g.given.erase x).filter (fun y => y.req == r.serial) = [] := by
  have h1 : x ∈ g.given.filter fun y => y.req == r.serial := List.mem_filter.2 ⟨hx, by simpa using hq⟩
  have h2 := K.giv.mem_iff.1 h1
  have h3 : first r = some x := by simpa using h2
  refine ⟨h3, ?_⟩
  have h4 := (List.perm_cons_erase hx).filter fun y => y.req == r.serial
  rw [List.filter_cons_of_pos (by simpa using hq)] at h4
  have h5 := h4.symm.trans K.giv
  rw [h3] at h5
  have h6 := h5.length_eq
  simp only [List.length_cons, Option.toList_some, List.length_singleton, List.length_nil] at h6
  exact List.length_eq_zero_iff.1 (by omega)

theorem Inv.stale {c : Client} {g : G} (I : Inv c g) {x : Res} (hx : x ∈ g.given) (h : ∀ r, c.fr = some r → r.serial ≠ x.req)
    {g' : G} (h1 : g'.log = g.log) (h2 : g'.lost = g.lost) (h3 : g'.done = g.done)
    (h4 : g'.start = g.start) (h5 : g'.given = g.given.erase x) : Inv c g' := by
  refine I.same h1 h2 h3 h4 ?_ ?_
  · rw [h5]; intro y hy; exact List.mem_of_mem_erase hy
  · intro r hr
    rw [h5]
    exact erase_filter_ne hx (fun e => h r hr e.symm)

theorem current_false {c : Client} {x : Res} (h : ∀ r, c.fr = some r → r.serial ≠ x.req) : current c x = false := by
  unfold current
  cases hr : c.fr with
  | none => rfl
  | some r =>
    dsimp only
    have := h r hr
    simpa using this

theorem Inv.consume {c : Client} {g : G} (I : Inv c g) {x : Res} (hx : x ∈ g.given) (snd : Nat → Send) :
    Inv (consume c x snd).1 (g.next c (.consume x) (consume c x snd).2) := by
  unfold Verif.FastSync.consume
  cases hr : c.fr with
  | none =>
    have hcf : current c x = false := by unfold current; rw [hr]
    refine I.stale hx (by rw [hr]; simp) ?_ rfl ?_ rfl ?_
    · simp [G.next]
    · simp [G.next, hcf]
    · simp [G.next, results]
  | some r =>
    dsimp only
    have K := I.cur r hr
    by_cases hs : r.serial ≠ x.req
    · rw [if_pos hs]
      have hne : ∀ r', c.fr = some r' → r'.serial ≠ x.req := by
        intro r' hr'
        rw [hr] at hr'
        simp only [Option.some.injEq] at hr'
        rw [← hr']; exact hs
      have hcf := current_false hne
      refine I.stale hx hne ?_ rfl ?_ rfl ?_
      · simp [G.next]
      · simp [G.next, hcf]
      · simp [G.next, results]
    rw [if_neg hs]
    have hs' : x.req = r.serial := (not_not.1 hs).symm
    obtain ⟨hf, he⟩ := K.head hx hs'
    obtain ⟨xs, hp⟩ := first_some hf
    rw [hp]
    dsimp only
    have hct : current c x = true := by unfold current; rw [hr]; simpa using hs'.symm
    obtain ⟨C1, hh, hle⟩ := K.core.shift hp
    obtain ⟨C2, S2, M2⟩ := reschedule_core snd C1
    have s2 := M2.serial
    have o2 := M2.offset
    dsimp only at s2 o2
    generalize reschedule snd _ = r2 at *
    have hst := K.sta
    have hdon : ((g.done ++ [x]).map fun y => y.blk.height) = List.range' g.start (r2.offset - g.start) := by
      rw [List.map_append, K.don, o2]
      have : r.offset + 1 - g.start = (r.offset - g.start) + 1 := by omega
      rw [this, List.range'_1_concat]
      simp only [List.map_cons, List.map_nil, hh]
      congr 2
      omega
    by_cases hend : r2.offset > r2.stop ∨ (r2.peers.length = 0 ∧ first r2 = none)
    · rw [if_pos hend]
      refine I.stop hr C2.crash s2 rfl ?_
      intro y hy
      have : y ∈ g.given.erase x := by simpa [G.next, cancelReq, results] using hy
      exact List.mem_of_mem_erase this
    · rw [if_neg hend]
      have hcur : ∀ (o : List Out), (results o) = (first r2).toList →
          Cur r2 (g.next c (.consume x) o) c.next := by
        intro o ho
        refine ⟨C2, S2, by rw [s2]; exact K.ser, ?_, ?_, ?_⟩
        · show (List.filter _ (g.given.erase x ++ results o)).Perm _
          rw [s2, List.filter_append, he, ho, List.nil_append]
          rw [List.filter_eq_self.2]
          intro y hy
          have hfy : first r2 = some y := by simpa using hy
          obtain ⟨ys, hys⟩ := first_some hfy
          have := (C2.pres 0 y (by rw [hys]; rfl)).2
          simp [this, s2]
        · show (List.map _ (if current c x = true then g.done ++ [x] else g.done)) = _
          rw [if_pos hct]
          exact hdon
        · show g.start ≤ r2.offset
          omega
      cases hf2 : first r2 with
      | none =>
        dsimp only
        refine I.go hr (hcur [] (by rw [hf2]; rfl)) s2 (by simp) (by simp) rfl ?_
        intro y hy
        have : y ∈ g.given.erase x := by simpa [G.next, keep, results] using hy
        exact Or.inl (List.mem_of_mem_erase this)
      | some y =>
        dsimp only
        obtain ⟨ys, hys⟩ := first_some hf2
        have hy := (C2.pres 0 y (by rw [hys]; rfl)).2
        refine I.go hr (hcur [.onBlock y] (by rw [hf2]; rfl)) s2 ?_ (by simp) rfl ?_
        · intro a ha
          rw [List.mem_singleton] at ha
          exact ⟨y, ha, hy.trans s2⟩
        · intro z hz
          have : z ∈ g.given.erase x ∨ z = y := by simpa [G.next, keep, results] using hz
          rcases this with h | h
          · exact Or.inl (List.mem_of_mem_erase h)
          · right; rw [h, hy, s2]

/-- What a peer with this ID is fetching. -/
theorem fetching_some {c : Client} {r : Req} (hr : c.fr = some r) (hn : (r.peers.map fun p => p.id).Nodup) {i id : Nat} {p : Peer}
    (h : findPeer id r.peers = some (i, p)) : fetching c id = (p.f.map fun f => f.height).toList := by
  obtain ⟨hp, hid⟩ := findPeer_some h
  have hperm := removeAt_perm _ _ _ hp
  have hnd := (hperm.map fun p => p.id).nodup_iff.1 hn
  rw [List.map_cons, List.nodup_cons] at hnd
  have h1 := hperm.filter fun q => q.id == id
  rw [List.filter_cons_of_pos (by simpa using hid)] at h1
  have h2 : (removeAt r.peers i).filter (fun q => q.id == id) = [] := by
    rw [List.filter_eq_nil_iff]
    intro q hq hqi
    refine hnd.1 (List.mem_map.2 ⟨q, hq, ?_⟩)
    rw [hid]; simpa using hqi
  rw [h2] at h1
  have h3 := List.perm_singleton.1 h1
  unfold fetching
  rw [hr]
  dsimp only
  rw [h3, List.filterMap_cons]
  cases p.f <;> rfl

theorem fetching_none {c : Client} {r : Req} (hr : c.fr = some r) {id : Nat} (h : findPeer id r.peers = none) :
    fetching c id = [] := by
  unfold fetching
  rw [hr]
  dsimp only
  rw [List.filter_eq_nil_iff.2]
  · rfl
  · intro q hq
    have := findPeer_none h q hq
    simpa using this

/-- The rejected peer goes. -/
def rejPeer (r : Req) (id : Nat) (snd : Nat → Send) : Req :=
  match findPeer id r.peers with
  | none => r
  | some (i, p) =>
    match p.f with
    | none => { r with peers := removeAt r.peers i }
    | some _ => reschedule snd { r with peers := removeAt r.peers i, nActive := r.nActive - 1 }

theorem rejPeer_core {c : Client} {r : Req} {L : List Nat} (hr : c.fr = some r) (C : Core r L) (id : Nat) (snd : Nat → Send) :
    Core (rejPeer r id snd) (L ++ fetching c id) ∧ (rejPeer r id snd).serial = r.serial ∧
    (rejPeer r id snd).offset = r.offset ∧ (rejPeer r id snd).pending = r.pending ∧
    (rejPeer r id snd).stop = r.stop := by
  unfold rejPeer
  cases hq : findPeer id r.peers with
  | none =>
    rw [fetching_none hr hq, List.append_nil]
    exact ⟨C, rfl, rfl, rfl, rfl⟩
  | some q =>
    obtain ⟨i, p⟩ := q
    dsimp only
    rw [fetching_some hr C.ids hq]
    obtain ⟨hp, _⟩ := findPeer_some hq
    have C1 := C.remove hp
    have C2 := C1.mono (L' := L ++ (p.f.map fun f => f.height).toList) (by
      intro x
      rw [List.count_append, List.count_append]
      omega)
    cases hf : p.f with
    | none =>
      have e1 : one p = 0 := by simp [one, hf]
      rw [hf, e1] at C2
      exact ⟨C2, rfl, rfl, rfl, rfl⟩
    | some f =>
      have e1 : one p = 1 := by simp [one, hf]
      rw [hf, e1] at C2
      obtain ⟨C3, _, M3⟩ := reschedule_core snd C2
      exact ⟨C3, M3.serial, M3.offset, M3.pending, M3.stop⟩

theorem reject_eq {c : Client} {r : Req} (hr : c.fr = some r) {x : Res} (hs : x.req = r.serial) (snd : Nat → Send) :
    reject c x snd =
      match (rejPeer r x.id snd).pending with
      | [] => keep c { rejPeer r x.id snd with crash := true } []
      | _ :: xs =>
        if (dropResults (addHeight { rejPeer r x.id snd with pending := none :: xs } x.blk.height) x.id).peers.length ≠ 0 then
          keep c (reschedule snd (dropResults (addHeight { rejPeer r x.id snd with pending := none :: xs } x.blk.height) x.id)) []
        else cancelReq c (dropResults (addHeight { rejPeer r x.id snd with pending := none :: xs } x.blk.height) x.id)
          [.onEnd (dropResults (addHeight { rejPeer r x.id snd with pending := none :: xs } x.blk.height) x.id).serial false] := by
  unfold reject rejPeer
  rw [hr]
  dsimp only
  rw [if_neg (by rw [hs]; simp)]
  rfl

theorem Inv.reject {c : Client} {g : G} (I : Inv c g) {x : Res} (hx : x ∈ g.given) (snd : Nat → Send) :
    Inv (reject c x snd).1 (g.next c (.reject x) (reject c x snd).2) := by
  by_cases hcur : ∃ r, c.fr = some r ∧ x.req = r.serial
  · obtain ⟨r, hr, hs⟩ := hcur
    have K := I.cur r hr
    obtain ⟨hf, he⟩ := K.head hx hs
    obtain ⟨xs, hp⟩ := first_some hf
    obtain ⟨C1, s1, o1, p1, _⟩ := rejPeer_core hr K.core x.id snd
    rw [reject_eq hr hs]
    generalize rejPeer r x.id snd = r1 at *
    rw [hp] at p1
    rw [p1]
    dsimp only
    have hct : current c x = true := by unfold current; rw [hr]; simpa using hs.symm
    have C2 := C1.back p1
    obtain ⟨C3, e3⟩ := C2.add
    have s3 : (addHeight { r1 with pending := none :: xs } x.blk.height).serial = r.serial := by rw [e3]; exact s1
    have o3 : (addHeight { r1 with pending := none :: xs } x.blk.height).offset = r.offset := by rw [e3]; exact o1
    have f3 : first (addHeight { r1 with pending := none :: xs } x.blk.height) = none := by rw [e3]; rfl
    generalize addHeight { r1 with pending := none :: xs } x.blk.height = r3 at *
    obtain ⟨C4, f4, _, s4, o4, _⟩ := C3.drop x.id
    generalize dropResults r3 x.id = r4 at *
    have hlost : ∀ o, (g.next c (.reject x) o).lost = g.lost ++ fetching c x.id := by
      intro o
      show (if current c x = true then g.lost ++ fetching c x.id else g.lost) = _
      rw [if_pos hct]
    by_cases hl : r4.peers.length ≠ 0
    · rw [if_pos hl]
      obtain ⟨C5, S5, M5⟩ := reschedule_core snd C4
      have s5 : (reschedule snd r4).serial = r.serial := M5.serial.trans (s4.trans s3)
      have o5 : (reschedule snd r4).offset = r.offset := M5.offset.trans (o4.trans o3)
      have f5 : first (reschedule snd r4) = none := M5.first.trans (f4.trans f3)
      refine I.go hr ⟨?_, S5, by rw [s5]; exact K.ser, ?_, by rw [o5]; exact K.don, by rw [o5]; exact K.sta⟩ s5
        (by simp) (by simp) rfl ?_
      · show Core _ (g.next c (.reject x) []).lost
        rw [hlost]; exact C5
      · show (List.filter _ (g.given.erase x ++ results [])).Perm _
        rw [s5, f5, List.filter_append, he]
        exact List.Perm.refl _
      · intro y hy
        have : y ∈ g.given.erase x := by simpa [G.next, keep, results] using hy
        exact Or.inl (List.mem_of_mem_erase this)
    · rw [if_neg hl]
      refine I.stop hr C4.crash (s4.trans s3) rfl ?_
      intro y hy
      have : y ∈ g.given.erase x := by simpa [G.next, cancelReq, results] using hy
      exact List.mem_of_mem_erase this
  · have hne : ∀ r, c.fr = some r → r.serial ≠ x.req := fun r hr e => hcur ⟨r, hr, e.symm⟩
    have hcf := current_false hne
    have e : Verif.FastSync.reject c x snd = (c, []) := by
      unfold Verif.FastSync.reject
      cases hr : c.fr with
      | none => rfl
      | some r =>
        dsimp only
        rw [if_pos (hne r hr)]
    rw [e]
    refine I.stale hx hne ?_ ?_ rfl rfl ?_
    · simp [G.next]
    · simp [G.next, hcf]
    · simp [G.next, results]

theorem Inv.cancel {c : Client} {g : G} (I : Inv c g) (n : Nat) : Inv (cancel c n) (netG g []) := by
  rw [netG_nil]
  unfold Verif.FastSync.cancel
  cases hr : c.fr with
  | none => exact I
  | some r =>
    dsimp only
    by_cases h : r.serial = n
    · rw [if_pos h]
      exact ⟨I.crash, I.giv, I.log, I.pw, by simp, by simp⟩
    · rw [if_neg h]; exact I

theorem Inv.init : Inv Client.new ⟨[], [], [], 0, []⟩ :=
  ⟨rfl, by simp, by simp, List.Pairwise.nil, by simp, by simp [Client.new]⟩

theorem Inv.step {parse : List Nat → Option Blk} {c : Client} {g : G} (I : Inv c g) (e : Ev) (snd : Nat → Send)
    (ha : Allowed g e) : Inv (step parse c e snd).1 (g.next c e (step parse c e snd).2) := by
  cases e with
  | fetch b s ids => exact I.fetch b s ids ha snd
  | recv id m => exact I.recv parse id m snd
  | timer id => exact I.timer id snd
  | join id => exact I.join id snd
  | leave id => exact I.leave id snd
  | consume x => exact I.consume ha snd
  | reject x => exact I.reject ha snd
  | cancel n => exact I.cancel n

theorem Run.inv {parse : List Nat → Option Blk} {c : Client} {g : G} (h : Run parse c g) : Inv c g := by
  induction h with
  | init => exact Inv.init
  | step e snd _ ha ih => exact ih.step e snd ha

/-! ### Theorems -/

/-- Nothing panics. -/
theorem no_crash {parse : List Nat → Option Blk} {c : Client} {g : G} (h : Run parse c g) : c.crash = false := h.inv.crash

/-- Blocks are consumed in order, from the first height on, each once; at most one result is handed over and not answered,
and it is the next one, in the range. -/
theorem in_order {parse : List Nat → Option Blk} {c : Client} {g : G} (h : Run parse c g) {r : Req} (hr : c.fr = some r) :
    (∃ n, (g.done.map fun x => x.blk.height) = List.range' g.start n) ∧
    (∀ x ∈ g.given, x.req = r.serial → x.blk.height = g.start + g.done.length ∧ x.blk.height ≤ r.stop) ∧
    (g.given.filter fun x => x.req == r.serial).length ≤ 1 := by
  have K := h.inv.cur r hr
  have hst := K.sta
  have hlen : g.done.length = r.offset - g.start := by
    have := congrArg List.length K.don
    simpa using this
  refine ⟨⟨_, K.don⟩, ?_, ?_⟩
  · intro x hx hq
    obtain ⟨hf, _⟩ := K.head hx hq
    obtain ⟨xs, hp⟩ := first_some hf
    obtain ⟨_, h1, h2⟩ := K.core.shift hp
    omega
  · rw [K.giv.length_eq]
    cases first r <;> simp

/-- Every other event of the request comes before its end. -/
theorem end_last {parse : List Nat → Option Blk} {c : Client} {g : G} (h : Run parse c g) (l l' : List Out) (n : Nat) (ok : Bool)
    (e : g.log = l ++ .onEnd n ok :: l') :
    (∀ x, Out.onBlock x ∈ l' → x.req ≠ n) ∧ (∀ ok', Out.onEnd n ok' ∉ l') ∧ ∀ r, c.fr = some r → r.serial ≠ n := by
  have hp := h.inv.pw
  rw [e, List.pairwise_append] at hp
  have h2 := List.pairwise_cons.1 hp.2.1
  refine ⟨fun x hx => h2.1 _ hx n ok rfl, fun ok' hx => h2.1 _ hx n ok rfl rfl, ?_⟩
  exact h.inv.ended n ok (by rw [e]; simp)

/-- While a result is awaited and there are peers, some peer is being asked: with a timer running, or after a send that failed
for good. -/
theorem no_stall {parse : List Nat → Option Blk} {c : Client} {g : G} (h : Run parse c g) {r : Req} (hr : c.fr = some r)
    (hl : g.lost = []) (hp : r.peers ≠ []) (hg : ∀ x ∈ g.given, x.req ≠ r.serial) (hs : r.offset ≤ r.stop) :
    ∃ p ∈ r.peers, ∃ f, p.f = some f ∧ r.offset ≤ f.height ∧ (f.timer ≠ none ∨ f.step = .fin) := by
  have K := h.inv.cur r hr
  have C := K.core
  rw [hl] at C
  have hfn : first r = none := by
    cases hf : first r with
    | none => rfl
    | some x =>
      exfalso
      have h1 := K.giv.mem_iff (a := x)
      rw [hf] at h1
      have h2 := h1.2 (by simp)
      obtain ⟨h3, h4⟩ := List.mem_filter.1 h2
      exact hg x h3 (by simpa using h4)
  by_contra hno
  have hfh : fh r.peers = [] := by
    unfold fh
    rw [List.filterMap_eq_nil_iff]
    intro p hpm
    cases hf : p.f with
    | none => rfl
    | some f =>
      exfalso
      obtain ⟨i, hi⟩ := List.mem_iff_getElem?.1 hpm
      exact hno ⟨p, hpm, f, hf, (C.slot (fh_of_get hi hf)).1, C.tim p hpm f hf⟩
  have hna : r.nActive = 0 := by
    rw [C.active]
    unfold na
    rw [List.filter_eq_nil_iff.2]
    · rfl
    · intro p hpm hsome
      have : p.f.map (fun f => f.height) = none := by
        have := List.filterMap_eq_nil_iff.1 hfh p hpm
        exact this
      cases hf : p.f with
      | none => rw [hf] at hsome; simp at hsome
      | some f => rw [hf] at this; simp at this
  have hlen : r.peers.length ≠ 0 := by
    intro e
    exact hp (List.length_eq_zero_iff.1 e)
  have hph : (ph r.pending).count r.offset = 0 := by
    rw [List.count_eq_zero]
    intro hm
    obtain ⟨i, x, h1, h2⟩ := mem_ph hm
    have h3 := (C.pres i x h1).1
    have : i = 0 := by omega
    subst this
    unfold first at hfn
    match hq : r.pending with
    | [] => rw [hq] at h1; simp at h1
    | none :: xs => rw [hq] at h1; simp at h1
    | some y :: xs => rw [hq] at hfn; simp at hfn
  rcases K.sat with h1 | h1 | h1
  · rw [hna] at h1; simp [maxActive] at h1
  · omega
  · have hpart := C.part r.offset
    rw [hfh, hph] at hpart
    simp only [List.count_nil] at hpart
    have hob := C.ob
    unfold getLowest at h1
    by_cases hb : r.offset < r.begin
    · rw [if_pos ⟨Nat.le_refl _, hb⟩] at hpart
      have hm : r.offset ∈ r.additional := List.count_pos_iff.1 (by omega)
      cases hle : least r.additional with
      | none =>
        rw [least_none hle] at hm
        simp at hm
      | some m =>
        rw [hle] at h1
        have h2 := (least_mem hle).2 _ hm
        have h3 := h1 m rfl
        simp only [maxPending] at h3
        omega
    · have hadd : r.additional = [] := by
        cases ha : r.additional with
        | nil => rfl
        | cons a t =>
          exfalso
          have h2 := C.part a
          rw [if_neg (by omega), ha] at h2
          simp at h2
      rw [hadd] at h1
      simp only [least] at h1
      have h3 := h1 r.begin (by rw [if_pos (by omega)])
      simp only [maxPending] at h3
      omega

/-- A height that a rejected peer was fetching is in no queue any more. -/
theorem lost_nowhere {parse : List Nat → Option Blk} {c : Client} {g : G} (h : Run parse c g) {r : Req} (hr : c.fr = some r)
    {k : Nat} (hk : k ∈ g.lost) :
    r.offset ≤ k ∧ k < r.begin ∧ k ∉ r.additional ∧ k ∉ active r ∧
    (∀ x, some x ∈ r.pending → x.blk.height ≠ k) ∧ (∀ x ∈ g.done, x.blk.height ≠ k) ∧
    (∀ x ∈ g.given, x.req = r.serial → x.blk.height ≠ k) := by
  have K := h.inv.cur r hr
  have C := K.core
  have hc : 0 < g.lost.count k := List.count_pos_iff.2 hk
  have hp := C.part k
  have hin : r.offset ≤ k ∧ k < r.begin := by
    by_contra hn
    rw [if_neg hn] at hp
    omega
  rw [if_pos hin] at hp
  have hpe : ∀ x, some x ∈ r.pending → x.blk.height ≠ k := by
    intro x hx e
    obtain ⟨i, hi⟩ := List.mem_iff_getElem?.1 hx
    have := List.count_pos_iff.2 (ph_mem hi)
    rw [e] at this
    omega
  refine ⟨hin.1, hin.2, List.count_eq_zero.1 (by omega), (List.count_eq_zero (l := fh r.peers)).1 (by omega), hpe, ?_, ?_⟩
  · intro x hx e
    have : k ∈ List.range' g.start (r.offset - g.start) := by
      rw [← K.don, ← e]; exact List.mem_map.2 ⟨x, hx, rfl⟩
    rw [List.mem_range'_1] at this
    have := K.sta
    omega
  · intro x hx hq
    obtain ⟨hf, _⟩ := K.head hx hq
    obtain ⟨xs, hpp⟩ := first_some hf
    exact hpe x (by rw [hpp]; simp)

end Verif.FastSync
