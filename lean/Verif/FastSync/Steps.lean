import Verif.FastSync.Inv

/-!
# Each event keeps the invariant
-/

namespace Verif.FastSync

/-- The history after an event of the network. -/
def netG (g : G) (o : List Out) : G := { g with log := g.log ++ o, given := g.given ++ results o }

theorem netG_nil (g : G) : netG g [] = g := by
  unfold netG
  simp [results]

theorem Inv.net_same {c : Client} {g : G} (I : Inv c g) : Inv c (netG g []) := by rw [netG_nil]; exact I

/-- Nothing is handed over, the first result stays. -/
theorem Cur.mk_of {r r' : Req} {g : G} {n : Nat} (K : Cur r g n) (C : Core r' g.lost) (S : Sat r') (h1 : r'.serial = r.serial)
    (h2 : r'.offset = r.offset) (h3 : first r' = first r) : Cur r' g n :=
  ⟨C, S, by rw [h1]; exact K.ser, by rw [h1, h3]; exact K.giv, by rw [h2]; exact K.don, by rw [h2]; exact K.sta⟩

theorem Inv.net_go {c : Client} {g : G} (I : Inv c g) {r r' : Req} (hr : c.fr = some r) (C : Core r' g.lost) (S : Sat r')
    (h1 : r'.serial = r.serial) (h2 : r'.offset = r.offset) (h3 : first r' = first r) :
    Inv (keep c r' []).1 (netG g []) := by
  rw [netG_nil]
  exact I.go hr ((I.cur r hr).mk_of C S h1 h2 h3) h1 (by simp) (by simp) (by simp) (fun x hx => Or.inl hx)

theorem Inv.error {c : Client} {g : G} (I : Inv c g) {r : Req} (hr : c.fr = some r) {i : Nat} {p : Peer} {f f' : Fetcher}
    (hp : r.peers[i]? = some p) (hf : p.f = some f) (hh : f'.height = f.height) (id : Nat) (nb : Bool) (snd : Nat → Send) :
    Inv (onError c r i id f' nb snd).1 (netG g (onError c r i id f' nb snd).2) := by
  have C := (I.cur r hr).core
  have C1 := C.remove hp
  have e1 : one p = 1 := by simp [one, hf]
  rw [hf, e1] at C1
  simp only [Option.map_some, Option.toList_some, List.singleton_append] at C1
  rw [← hh] at C1
  obtain ⟨C2, e2⟩ := C1.add
  unfold onError
  dsimp only
  generalize hr2 : addHeight { r with nActive := r.nActive - 1, peers := removeAt r.peers i } f'.height = r2 at *
  have s2 : r2.serial = r.serial := by rw [e2]
  have o2 : r2.offset = r.offset := by rw [e2]
  have f2 : first r2 = first r := by rw [e2]; rfl
  have h3 : ∃ r3, (if nb = true then r2 else dropResults r2 id) = r3 ∧ Core r3 g.lost ∧ r3.serial = r.serial ∧
      r3.offset = r.offset ∧ first r3 = first r := by
    cases nb with
    | true => exact ⟨r2, rfl, C2, s2, o2, f2⟩
    | false =>
      obtain ⟨C3, a, b, d, e, _⟩ := C2.drop id
      exact ⟨_, rfl, C3, d.trans s2, e.trans o2, a.trans f2⟩
  obtain ⟨r3, e3, C3, s3, o3, f3⟩ := h3
  rw [e3]
  by_cases hl : r3.peers.length ≠ 0
  · rw [if_pos hl]
    obtain ⟨C4, S4, M4⟩ := reschedule_core snd C3
    exact I.net_go hr C4 S4 (M4.serial.trans s3) (M4.offset.trans o3) (M4.first.trans f3)
  · rw [if_neg hl]
    by_cases hn : first r3 = none
    · rw [if_pos hn]
      refine I.stop hr C3.crash s3 rfl ?_
      intro x hx
      simpa [netG, cancelReq, results] using hx
    · rw [if_neg hn]
      refine I.net_go hr C3 (Or.inr (Or.inl ?_)) s3 o3 f3
      have := na_le r3.peers
      have := C3.active
      omega

theorem Inv.block {c : Client} {g : G} (I : Inv c g) {r : Req} (hr : c.fr = some r) {i : Nat} {p : Peer} {f f' : Fetcher}
    (hp : r.peers[i]? = some p) (hf : p.f = some f) (hh : f'.height = f.height) (id : Nat) {b : Blk} (hb : b.height = f'.height)
    (snd : Nat → Send) :
    Inv (onBlock c r i id p f' b snd).1 (netG g (onBlock c r i id p f' b snd).2) := by
  have K := I.cur r hr
  have C := K.core
  obtain ⟨h1, h2, h3, h4⟩ := C.slot (fh_of_get hp hf)
  rw [← hh] at h1 h2 h3 h4
  unfold onBlock
  dsimp only
  rw [if_neg (by rw [C.plen]; omega)]
  have C1 := C.block hp hf (x := ⟨id, b, f'.votes, r.serial⟩) (by dsimp only; omega) rfl
  rw [← hh] at C1
  obtain ⟨C2, S2, M2⟩ := reschedule_core snd C1
  have f2 := M2.first
  have s2 := M2.serial
  have o2 := M2.offset
  dsimp only at f2 s2 o2
  by_cases hk : f'.height - r.offset = 0
  · rw [if_pos hk]
    have hfn : first r = none := by
      rw [hk] at h4
      unfold first
      match hq : r.pending with
      | [] => rfl
      | none :: xs => rfl
      | some y :: xs => rw [hq] at h4; simp at h4
    have hfs : ∀ r' : Req, r'.pending = r.pending.set 0 (some ⟨id, b, f'.votes, r.serial⟩) →
        first r' = some ⟨id, b, f'.votes, r.serial⟩ := by
      intro r' e
      unfold first
      rw [e]
      have := C.plen
      match hq : r.pending with
      | [] => rw [hq] at this; simp [maxPending] at this
      | y :: xs => rfl
    refine I.go hr ?_ s2 ?_ (by simp [keep]) rfl ?_
    · refine ⟨C2, S2, by rw [s2]; exact K.ser, ?_, by rw [o2]; exact K.don, by rw [o2]; exact K.sta⟩
      rw [f2, hfs _ (by dsimp only; rw [hk]), s2]
      have := K.giv
      rw [hfn] at this
      show (List.filter _ (g.given ++ [_])).Perm _
      rw [List.filter_append]
      have e0 : List.filter (fun x => x.req == r.serial) g.given = [] := by simpa using this.eq_nil
      rw [e0]
      simp
    · intro a ha
      have : a = Out.onBlock ⟨id, b, f'.votes, r.serial⟩ := by simpa [keep] using ha
      exact ⟨_, this, rfl⟩
    · intro x hx
      have : x ∈ g.given ∨ x = ⟨id, b, f'.votes, r.serial⟩ := by simpa [netG, keep, results] using hx
      rcases this with h | h
      · exact Or.inl h
      · right; rw [h]
  · rw [if_neg hk]
    have hfs : ∀ r' : Req, r'.pending = r.pending.set (f'.height - r.offset) (some ⟨id, b, f'.votes, r.serial⟩) →
        first r' = first r := by
      intro r' e
      unfold first
      rw [e]
      obtain ⟨k, ek⟩ : ∃ k, f'.height - r.offset = k + 1 := ⟨f'.height - r.offset - 1, by omega⟩
      rw [ek]
      match hq : r.pending with
      | [] => rfl
      | none :: xs => rfl
      | some y :: xs => rfl
    exact I.net_go hr C2 S2 s2 o2 (f2.trans (hfs _ rfl))

theorem Inv.put {c : Client} {g : G} (I : Inv c g) {r : Req} (hr : c.fr = some r) {i : Nat} {p : Peer} {f f' : Fetcher}
    (hp : r.peers[i]? = some p) (hf : p.f = some f) (hh : f'.height = f.height) (ht : f'.timer ≠ none ∨ f'.step = .fin) :
    Inv (keep c { r with peers := r.peers.set i { p with f := some f' } } []).1 (netG g []) := by
  have K := I.cur r hr
  refine I.net_go hr (K.core.put hp hf hh ht) ?_ rfl rfl rfl
  rcases K.sat with h | h | h
  · exact Or.inl h
  · right; left
    dsimp only
    rw [List.length_set]; exact h
  · exact Or.inr (Or.inr h)

theorem Inv.recv {c : Client} {g : G} (I : Inv c g) (parse : List Nat → Option Blk) (id : Nat) (m : Msg) (snd : Nat → Send) :
    Inv (onReceive parse c id m snd).1 (netG g (onReceive parse c id m snd).2) := by
  unfold onReceive
  cases hr : c.fr with
  | none => exact I.net_same
  | some r =>
    dsimp only
    cases hq : findPeer id r.peers with
    | none => exact I.net_same
    | some q =>
      obtain ⟨i, p⟩ := q
      dsimp only
      obtain ⟨hp, _⟩ := findPeer_some hq
      cases hf : p.f with
      | none => exact I.net_same
      | some f =>
        dsimp only
        have T := (I.cur r hr).core.tim p (List.mem_of_getElem? hp) f hf
        cases hs : f.step with
        | send => exact I.net_same
        | fin => exact I.net_same
        | resp =>
          rw [hs] at T
          cases m with
          | data rid b => exact I.net_same
          | info rid len votes =>
            dsimp only
            by_cases h1 : rid ≠ f.rid
            · rw [if_pos h1]; exact I.net_same
            rw [if_neg h1]
            by_cases h2 : len < 0
            · rw [if_pos h2]; exact I.error hr hp hf rfl id true snd
            rw [if_neg h2]
            refine I.put hr hp hf rfl (Or.inl ?_)
            rcases T with h | h
            · exact h
            · simp at h
        | data =>
          rw [hs] at T
          have ht : f.timer ≠ none := by
            rcases T with h | h
            · exact h
            · simp at h
          cases m with
          | info rid len votes => exact I.net_same
          | data rid bytes =>
            dsimp only
            by_cases h1 : rid ≠ f.rid
            · rw [if_pos h1]; exact I.net_same
            rw [if_neg h1]
            by_cases h2 : f.left - bytes.length = 0
            · rw [if_pos h2]
              cases hb : parse (f.data ++ bytes) with
              | none => exact I.error hr hp hf rfl id false snd
              | some b =>
                dsimp only
                by_cases h3 : b.height ≠ f.height
                · rw [if_pos h3]; exact I.error hr hp hf rfl id false snd
                · rw [if_neg h3]
                  exact I.block hr hp hf rfl id (by simpa using h3) snd
            rw [if_neg h2]
            by_cases h4 : f.left - bytes.length < 0
            · rw [if_pos h4]; exact I.error hr hp hf rfl id false snd
            rw [if_neg h4]
            exact I.put hr hp hf rfl (Or.inl ht)

theorem Inv.timer {c : Client} {g : G} (I : Inv c g) (id : Nat) (snd : Nat → Send) :
    Inv (onTimer c id snd).1 (netG g (onTimer c id snd).2) := by
  unfold onTimer
  cases hr : c.fr with
  | none => exact I.net_same
  | some r =>
    dsimp only
    cases hq : findPeer id r.peers with
    | none => exact I.net_same
    | some q =>
      obtain ⟨i, p⟩ := q
      dsimp only
      obtain ⟨hp, _⟩ := findPeer_some hq
      cases hf : p.f with
      | none => exact I.net_same
      | some f =>
        dsimp only
        cases ht : f.timer with
        | none => exact I.net_same
        | some t =>
          cases t with
          | timeout => exact I.error hr hp hf rfl id false snd
          | resend =>
            dsimp only
            cases snd id with
            | ok => exact I.put hr hp hf rfl (Or.inl (by simp))
            | temp => exact I.net_same
            | perm => exact I.error hr hp hf rfl id false snd

theorem Core.join {r : Req} {L : List Nat} (C : Core r L) {id : Nat} (h : ∀ p ∈ r.peers, p.id ≠ id) :
    Core { r with peers := r.peers ++ [⟨id, 0, none⟩] } L := by
  have hfh : fh (r.peers ++ [⟨id, 0, none⟩]) = fh r.peers := by
    unfold fh; rw [List.filterMap_append]; simp
  exact { C with
    ids := by
      dsimp only
      rw [List.map_append, List.map_singleton, List.nodup_append]
      refine ⟨C.ids, by simp, ?_⟩
      intro a ha b hb
      rw [List.mem_singleton] at hb
      obtain ⟨p, hp, rfl⟩ := List.mem_map.1 ha
      rw [hb]
      exact h p hp
    active := by
      show r.nActive = na (r.peers ++ _)
      rw [C.active]
      unfold na
      rw [List.filter_append]
      simp
    part := fun x => by dsimp only; rw [hfh]; exact C.part x
    win := fun x hx => C.win x (by dsimp only at hx; rw [hfh] at hx; exact hx)
    tim := fun p hp f hf => by
      rcases List.mem_append.1 hp with h' | h'
      · exact C.tim p h' f hf
      · rw [List.mem_singleton] at h'
        rw [h'] at hf
        simp at hf }

theorem Inv.join {c : Client} {g : G} (I : Inv c g) (id : Nat) (snd : Nat → Send) :
    Inv (onJoin c id snd).1 (netG g (onJoin c id snd).2) := by
  unfold onJoin
  cases hr : c.fr with
  | none => exact I.net_same
  | some r =>
    dsimp only
    cases hq : findPeer id r.peers with
    | some q => exact I.net_same
    | none =>
      dsimp only
      obtain ⟨C2, S2, M2⟩ := reschedule_core snd ((I.cur r hr).core.join (findPeer_none hq))
      exact I.net_go hr C2 S2 M2.serial M2.offset M2.first

theorem Inv.leave {c : Client} {g : G} (I : Inv c g) (id : Nat) (snd : Nat → Send) :
    Inv (onLeave c id snd).1 (netG g (onLeave c id snd).2) := by
  unfold onLeave
  cases hr : c.fr with
  | none => exact I.net_same
  | some r =>
    dsimp only
    have K := I.cur r hr
    cases hq : findPeer id r.peers with
    | none => exact I.net_same
    | some q =>
      obtain ⟨i, p⟩ := q
      dsimp only
      obtain ⟨hp, _⟩ := findPeer_some hq
      have C1 := K.core.remove hp
      cases hf : p.f with
      | none =>
        dsimp only
        have e1 : one p = 0 := by simp [one, hf]
        rw [hf, e1] at C1
        refine I.net_go hr (r' := { r with peers := removeAt r.peers i }) C1 ?_ rfl rfl rfl
        rcases K.sat with h | h | h
        · exact Or.inl h
        · exfalso
          have h1 := (removeAt_perm _ _ _ hp)
          have h2 := na_perm h1
          have h3 := h1.length_eq
          rw [na_cons, e1] at h2
          rw [List.length_cons] at h3
          have := na_le (removeAt r.peers i)
          have := K.core.active
          omega
        · exact Or.inr (Or.inr h)
      | some f =>
        dsimp only
        have e1 : one p = 1 := by simp [one, hf]
        rw [hf, e1] at C1
        simp only [Option.map_some, Option.toList_some, List.singleton_append] at C1
        obtain ⟨C2, e2⟩ := C1.add
        have e3 : ({ addHeight { r with peers := removeAt r.peers i } f.height with
            nActive := (addHeight { r with peers := removeAt r.peers i } f.height).nActive - 1 } : Req) =
            addHeight { r with peers := removeAt r.peers i, nActive := r.nActive - 1 } f.height := by
          unfold addHeight
          dsimp only
          split_ifs <;> rfl
        rw [e3]
        obtain ⟨C3, S3, M3⟩ := reschedule_core snd C2
        refine I.net_go hr C3 S3 (M3.serial.trans ?_) (M3.offset.trans ?_) (M3.first.trans ?_)
        · rw [e2]
        · rw [e2]
        · rw [e2]; rfl

theorem Inv.fetch {c : Client} {g : G} (I : Inv c g) (b s : Nat) (ids : List Nat) (hn : ids.Nodup) (snd : Nat → Send) :
    Inv ((fetchBlocks c b s ids snd).getD c) (g.next c (.fetch b s ids) []) := by
  unfold fetchBlocks G.next
  dsimp only
  cases hr : c.fr with
  | some r =>
    refine I.same (by simp) rfl rfl rfl (fun x hx => hx) (fun r' _ => List.Perm.refl _)
  | none =>
    dsimp only
    have C0 : Core ⟨c.next, (c.fetchID + 1) % 65536, b, s, [], ids.map fun id => ⟨id, 0, none⟩, 0, b,
      List.replicate maxPending none, false⟩ [] := by
      have hfh : fh (ids.map fun id => (⟨id, 0, none⟩ : Peer)) = [] := by
        unfold fh
        rw [List.filterMap_map]
        simp [Function.comp_def]
      have hph : ph (List.replicate maxPending none) = [] := by
        unfold ph; simp
      refine ⟨rfl, ?_, ?_, by simp, ?_, ?_, ?_, ?_, Nat.le_refl _, Or.inr rfl⟩
      · dsimp only
        rw [List.map_map]
        simpa [Function.comp_def] using hn
      · show 0 = na _
        unfold na
        rw [List.filter_eq_nil_iff.2]
        · rfl
        · intro a ha
          obtain ⟨i, _, rfl⟩ := List.mem_map.1 ha
          simp
      · intro i x h
        dsimp only at h
        have := List.mem_of_getElem? h
        simp at this
      · intro h
        dsimp only
        rw [hfh, hph, if_neg (by omega)]
        simp
      · intro h hh
        dsimp only at hh
        rw [hfh] at hh
        simp at hh
      · intro p hp f hf
        obtain ⟨i, _, rfl⟩ := List.mem_map.1 hp
        simp at hf
    obtain ⟨C1, S1, M1⟩ := reschedule_core snd C0
    generalize reschedule snd _ = r1 at *
    have s1 := M1.serial
    have o1 := M1.offset
    have f1 := M1.first
    dsimp only at s1 o1
    have hfn : first r1 = none := by rw [f1]; rfl
    show Inv { c with fetchID := _, next := c.next + 1, fr := some r1, crash := c.crash || r1.crash } _
    refine ⟨?_, ?_, ?_, ?_, ?_, ?_⟩
    · dsimp only; rw [I.crash, C1.crash]; rfl
    · intro x hx
      have := I.giv x hx
      dsimp only
      omega
    · intro o ho
      have := I.log o (by simpa using ho)
      dsimp only
      omega
    · simpa using I.pw
    · intro n ok hno r hr'
      have hno' : Out.onEnd n ok ∈ g.log := by simpa using hno
      have h1 : n < c.next := I.log _ hno'
      have : r1 = r := by simpa using hr'
      rw [← this, s1]
      omega
    · intro r hr'
      have : r1 = r := by simpa using hr'
      subst this
      refine ⟨C1, S1, by dsimp only; omega, ?_, ?_, by dsimp only; omega⟩
      · rw [hfn, s1]
        rw [List.filter_eq_nil_iff.2]
        · exact List.Perm.refl _
        · intro x hx
          have := I.giv x hx
          simp
          omega
      · dsimp only
        rw [o1, Nat.sub_self]
        rfl

end Verif.FastSync
