import Verif.FastSync.Forever

/-!
# When a request fails
-/

namespace Verif.FastSync

theorem rejPeer_len {r : Req} {L : List Nat} (C : Core r L) (id : Nat) (snd : Nat → Send) :
    r.peers.length ≤ (rejPeer r id snd).peers.length + 1 := by
  unfold rejPeer
  cases hq : findPeer id r.peers with
  | none => exact Nat.le_succ _
  | some q =>
    obtain ⟨i, p⟩ := q
    dsimp only
    obtain ⟨hp, _⟩ := findPeer_some hq
    have hl := removeAt_length hp
    have C1 := C.remove hp
    cases hf : p.f with
    | none => dsimp only; omega
    | some f =>
      have e1 : one p = 1 := by simp [one, hf]
      rw [e1] at C1
      have := (reschedule_core snd C1).2.2.len
      dsimp only at this ⊢
      omega

theorem error_false {c : Client} {g : G} (I : Inv c g) {r : Req} (hr : c.fr = some r) {i : Nat} {p : Peer} {f f' : Fetcher}
    (hp : r.peers[i]? = some p) (hf : p.f = some f) (hh : f'.height = f.height) {id : Nat} {nb : Bool} {snd : Nat → Send}
    {n : Nat} (ho : Out.onEnd n false ∈ (onError c r i id f' nb snd).2) :
    n = r.serial ∧ r.peers.length = 1 ∧ first r = none := by
  have C := (I.cur r hr).core
  have C1 := C.remove hp
  have e1 : one p = 1 := by simp [one, hf]
  rw [hf, e1] at C1
  simp only [Option.map_some, Option.toList_some, List.singleton_append] at C1
  rw [← hh] at C1
  have hlen := removeAt_length hp
  obtain ⟨C2, e2⟩ := C1.add
  unfold onError at ho
  dsimp only at ho
  generalize hr2 : addHeight { r with nActive := r.nActive - 1, peers := removeAt r.peers i } f'.height = r2 at *
  have s2 : r2.serial = r.serial := by rw [e2]
  have f2 : first r2 = first r := by rw [e2]; rfl
  have p2 : r2.peers = removeAt r.peers i := by rw [e2]
  have h3 : ∃ r3, (if nb = true then r2 else dropResults r2 id) = r3 ∧ r3.serial = r.serial ∧
      first r3 = first r ∧ r3.peers = removeAt r.peers i := by
    cases nb with
    | true => exact ⟨r2, rfl, s2, f2, p2⟩
    | false =>
      obtain ⟨_, a, b, d, _⟩ := C2.drop id
      exact ⟨_, rfl, d.trans s2, a.trans f2, b.trans p2⟩
  obtain ⟨r3, e3, s3, f3, p3⟩ := h3
  rw [e3] at ho
  by_cases hl : r3.peers.length ≠ 0
  · rw [if_pos hl] at ho; simp [keep] at ho
  rw [if_neg hl] at ho
  by_cases hn : first r3 = none
  · rw [if_pos hn] at ho
    have : n = r3.serial := by simpa [cancelReq] using ho
    refine ⟨this.trans s3, ?_, f3.symm.trans hn⟩
    rw [p3] at hl
    omega
  · rw [if_neg hn] at ho; simp [keep] at ho

/-- A request fails only when its last peer failed, or was rejected. -/
theorem end_fail {parse : List Nat → Option Blk} {c : Client} {g : G} (h : Run parse c g) {e : Ev} (ha : Allowed g e)
    (snd : Nat → Send) {n : Nat} (ho : Out.onEnd n false ∈ (step parse c e snd).2) :
    ∃ r, c.fr = some r ∧ n = r.serial ∧ r.peers.length ≤ 1 ∧
      ((∃ x, e = .reject x ∧ x.req = n) ∨
       ((∃ id, e = .timer id ∨ ∃ m, e = .recv id m) ∧ ∀ x ∈ g.given, x.req ≠ n)) := by
  have I := h.inv
  have quiet : ∀ r, c.fr = some r → n = r.serial → first r = none → ∀ x ∈ g.given, x.req ≠ n := by
    intro r hr hn hf x hx hq
    have := (I.cur r hr).head hx (by rw [hq, hn])
    rw [hf] at this
    simp at this
  have noB : ∀ {c : Client} {r : Req} {i id : Nat} {p : Peer} {f : Fetcher} {b : Blk},
      Out.onEnd n false ∉ (onBlock c r i id p f b snd).2 := by
    intro c r i id p f b hm
    unfold onBlock at hm
    dsimp only at hm
    split_ifs at hm <;> simp [keep] at hm
  cases e with
  | fetch b s ids => exact absurd ho (by simp [step])
  | cancel n => exact absurd ho (by simp [step])
  | recv id m =>
    have ho' : Out.onEnd n false ∈ (onReceive parse c id m snd).2 := ho
    unfold onReceive at ho'
    cases hr : c.fr with
    | none => rw [hr] at ho'; simp at ho'
    | some r =>
      rw [hr] at ho'
      dsimp only at ho'
      cases hq : findPeer id r.peers with
      | none => rw [hq] at ho'; simp at ho'
      | some q =>
        obtain ⟨i, p⟩ := q
        rw [hq] at ho'
        dsimp only at ho'
        obtain ⟨hp, _⟩ := findPeer_some hq
        cases hf : p.f with
        | none => rw [hf] at ho'; simp at ho'
        | some f =>
          rw [hf] at ho'
          dsimp only at ho'
          have fin : ∀ {f' : Fetcher} {nb : Bool}, f'.height = f.height → Out.onEnd n false ∈ (onError c r i id f' nb snd).2 →
              ∃ r', some r = some r' ∧ n = r'.serial ∧ r'.peers.length ≤ 1 ∧
                ((∃ x, Ev.recv id m = .reject x ∧ x.req = n) ∨
                 ((∃ id', Ev.recv id m = .timer id' ∨ ∃ m', Ev.recv id m = .recv id' m') ∧ ∀ x ∈ g.given, x.req ≠ n)) := by
            intro f' nb hh hm
            obtain ⟨h1, h2, h3⟩ := error_false I hr hp hf hh hm
            exact ⟨r, rfl, h1, by omega, Or.inr ⟨⟨id, Or.inr ⟨m, rfl⟩⟩, quiet r hr h1 h3⟩⟩
          cases hs : f.step <;> cases m <;> simp only [hs] at ho' <;>
            first
            | (exfalso; simp at ho'; done)
            | skip
          · split_ifs at ho'
            · simp at ho'
            · exact fin rfl ho'
            · simp [keep] at ho'
          · split_ifs at ho'
            · simp at ho'
            · cases hb : parse _ with
              | none => rw [hb] at ho'; exact fin rfl ho'
              | some b =>
                rw [hb] at ho'
                dsimp only at ho'
                split_ifs at ho'
                · exact fin rfl ho'
                · exact absurd ho' noB
            · exact fin rfl ho'
            · simp [keep] at ho'
  | timer id =>
    have ho' : Out.onEnd n false ∈ (onTimer c id snd).2 := ho
    unfold onTimer at ho'
    cases hr : c.fr with
    | none => rw [hr] at ho'; simp at ho'
    | some r =>
      rw [hr] at ho'
      dsimp only at ho'
      cases hq : findPeer id r.peers with
      | none => rw [hq] at ho'; simp at ho'
      | some q =>
        obtain ⟨i, p⟩ := q
        rw [hq] at ho'
        dsimp only at ho'
        obtain ⟨hp, _⟩ := findPeer_some hq
        cases hf : p.f with
        | none => rw [hf] at ho'; simp at ho'
        | some f =>
          rw [hf] at ho'
          dsimp only at ho'
          have fin : ∀ {nb : Bool}, Out.onEnd n false ∈ (onError c r i id f nb snd).2 →
              ∃ r', some r = some r' ∧ n = r'.serial ∧ r'.peers.length ≤ 1 ∧
                ((∃ x, Ev.timer id = .reject x ∧ x.req = n) ∨
                 ((∃ id', Ev.timer id = .timer id' ∨ ∃ m', Ev.timer id = .recv id' m') ∧ ∀ x ∈ g.given, x.req ≠ n)) := by
            intro nb hm
            obtain ⟨h1, h2, h3⟩ := error_false I hr hp hf rfl hm
            exact ⟨r, rfl, h1, by omega, Or.inr ⟨⟨id, Or.inl rfl⟩, quiet r hr h1 h3⟩⟩
          cases ht : f.timer with
          | none => rw [ht] at ho'; simp at ho'
          | some t =>
            rw [ht] at ho'
            cases t with
            | timeout => exact fin ho'
            | resend =>
              dsimp only at ho'
              cases hsd : snd id <;> rw [hsd] at ho'
              · simp [keep] at ho'
              · simp at ho'
              · exact fin ho'
  | join id =>
    exfalso
    have ho' : Out.onEnd n false ∈ (onJoin c id snd).2 := ho
    unfold onJoin at ho'
    cases hr : c.fr with
    | none => rw [hr] at ho'; simp at ho'
    | some r =>
      rw [hr] at ho'
      dsimp only at ho'
      cases hq : findPeer id r.peers <;> rw [hq] at ho' <;> simp [keep] at ho'
  | leave id =>
    exfalso
    have ho' : Out.onEnd n false ∈ (onLeave c id snd).2 := ho
    unfold onLeave at ho'
    cases hr : c.fr with
    | none => rw [hr] at ho'; simp at ho'
    | some r =>
      rw [hr] at ho'
      dsimp only at ho'
      cases hq : findPeer id r.peers with
      | none => rw [hq] at ho'; simp at ho'
      | some q =>
        obtain ⟨i, p⟩ := q
        rw [hq] at ho'
        dsimp only at ho'
        cases hf : p.f <;> rw [hf] at ho' <;> simp [keep] at ho'
  | consume x =>
    exfalso
    have ho' : Out.onEnd n false ∈ (consume c x snd).2 := ho
    unfold consume at ho'
    cases hr : c.fr with
    | none => rw [hr] at ho'; simp at ho'
    | some r =>
      rw [hr] at ho'
      dsimp only at ho'
      by_cases hs : r.serial ≠ x.req
      · rw [if_pos hs] at ho'; simp at ho'
      rw [if_neg hs] at ho'
      split at ho'
      · simp [keep] at ho'
      · split_ifs at ho'
        · simp [cancelReq] at ho'
        · split at ho' <;> simp [keep] at ho'
  | reject x =>
    have ho' : Out.onEnd n false ∈ (reject c x snd).2 := ho
    by_cases hcur : ∃ r, c.fr = some r ∧ x.req = r.serial
    · obtain ⟨r, hr, hs⟩ := hcur
      have K := I.cur r hr
      rw [reject_eq hr hs] at ho'
      obtain ⟨hf, _⟩ := K.head ha hs
      obtain ⟨xs, hp⟩ := first_some hf
      obtain ⟨C1, s1, o1, p1, _⟩ := rejPeer_core hr K.core x.id snd
      have hlen := rejPeer_len K.core x.id snd
      generalize rejPeer r x.id snd = r1 at *
      rw [hp] at p1
      rw [p1] at ho'
      dsimp only at ho'
      obtain ⟨C3, e3⟩ := (C1.back p1).add
      obtain ⟨_, _, q4, s4, _⟩ := C3.drop x.id
      have q3 : (addHeight { r1 with pending := none :: xs } x.blk.height).peers = r1.peers := by rw [e3]
      have s3 : (addHeight { r1 with pending := none :: xs } x.blk.height).serial = r.serial := by rw [e3]; exact s1
      rw [q3] at q4
      rw [s3] at s4
      by_cases hl : (dropResults (addHeight { r1 with pending := none :: xs } x.blk.height) x.id).peers.length ≠ 0
      · rw [if_pos hl] at ho'; simp [keep] at ho'
      · rw [if_neg hl] at ho'
        have hn : n = (dropResults (addHeight { r1 with pending := none :: xs } x.blk.height) x.id).serial := by
          simpa [cancelReq] using ho'
        rw [s4] at hn
        rw [q4] at hl
        exact ⟨r, hr, hn, by omega, Or.inl ⟨x, rfl, hs.trans hn.symm⟩⟩
    · exfalso
      unfold reject at ho'
      cases hr : c.fr with
      | none => rw [hr] at ho'; simp at ho'
      | some r =>
        rw [hr] at ho'
        dsimp only at ho'
        rw [if_pos (fun e => hcur ⟨r, hr, e.symm⟩)] at ho'
        simp at ho'

end Verif.FastSync
