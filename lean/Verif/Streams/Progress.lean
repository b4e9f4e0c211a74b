import Verif.Streams.Thms

/-!
# It can always go on
-/

namespace Verif.Streams

theorem Step.arrive_eq {c : Sys} {h : Hist} {x : Side} {m : Msg} {ms : List Msg} {now : Nat} {ok : Nat → Bool}
    (hn : c.net x = m :: ms) {s : Stream} (hs : c.str x.other = s) {o : List Msg} (ho : c.net x.other = o)
    {s' : Stream} {o' : List Msg} {b : Bool} (hr : receive s m now ok = (s', o', b)) :
    Step c h ⟨set c.str x.other s', set (set c.net x ms) x.other (o ++ o')⟩
      { h with taken := if b then set h.taken x (h.taken x ++ [m.data]) else h.taken } := by
  subst hs
  subst ho
  have := Step.arrive (c := c) (h := h) x m ms now ok hn
  rw [hr] at this
  exact this

/-- What the repost timer sends when there is something to send. -/
theorem End.repost_out {s : Stream} {S : List Data} {a k : Nat} (E : End s S a k) (hu : s.unacked ≠ []) (now : Nat) :
    ∃ d, (onRepost s now true).2 = [⟨(a + 1) % 65536, s.peerSeq, some d⟩] ∧
      (onRepost s now true).1.unacked.length = s.unacked.length := by
  have ht := E.timer
  cases hr : s.repost with
  | none =>
    exfalso
    rw [hr, ← E.un] at ht
    cases hl : s.unacked with
    | nil => exact hu hl
    | cons i is => rw [hl] at ht; simp at ht
  | some q =>
    obtain ⟨n, d⟩ := q
    rw [hr] at ht
    obtain ⟨p, hp, h2, items, h1, hi⟩ := onRepost_some hr now true
    have hn : n = (a + 1) % 65536 := by
      cases hd : S.drop a with
      | nil => rw [hd] at ht; simp at ht
      | cons x xs =>
        rw [hd] at ht
        simp only [List.head?_cons, Option.map_some, Option.some.injEq, Prod.mk.injEq] at ht
        exact ht.1
    refine ⟨d, ?_, ?_⟩
    · rw [h2, hp, ← hn]; rfl
    · rw [h1, (updateTimer_rest _).2.2.1]
      have := congrArg List.length hi
      simp only [List.length_map] at this
      rw [this, hp]
      rfl

/-- After a timeout and the arrival of what is sent then, the peer has taken the first message that is not acknowledged. -/
theorem first_try {c : Sys} {h : Hist} (r : Run c h) (x : Side) (hu : (c.str x).unacked ≠ []) :
    ∃ c' h', After c h c' h' ∧ h'.sent = h.sent ∧ (c'.str x).unacked.length = (c.str x).unacked.length ∧
      (h.sent x).length - (c.str x).unacked.length + 1 ≤ (h'.taken x).length := by
  obtain ⟨a, I⟩ := r.inv
  have E := I.fin x
  have hl := E.len
  have hle := E.le
  obtain ⟨d, ho, hul⟩ := E.repost_out hu 0
  have s1 : Step c h ⟨c.str, set c.net x []⟩ h := .lose x [] (List.nil_sublist _)
  have s2 := Step.repost (c := ⟨c.str, set c.net x []⟩) (h := h) x 0 true
  dsimp only at s2
  rw [set_same, ho, List.nil_append] at s2
  have hn : (set (set c.net x []) x [⟨(a x + 1) % 65536, (c.str x).peerSeq, some d⟩]) x =
      [⟨(a x + 1) % 65536, (c.str x).peerSeq, some d⟩] := set_same _ _ _
  obtain ⟨⟨s', o', b⟩, hr⟩ : ∃ q, receive (c.str x.other) ⟨(a x + 1) % 65536, (c.str x).peerSeq, some d⟩ 0 (fun _ => true) = q :=
    ⟨_, rfl⟩
  have s3 := Step.arrive_eq (c := ⟨set c.str x (onRepost (c.str x) 0 true).1, set (set c.net x []) x _⟩) (h := h) hn
    (set_other _ _ _) rfl hr
  refine ⟨_, _, ((After.refl.step s1).step s2).step s3, rfl, ?_, ?_⟩
  · dsimp only
    rw [set_other', set_same]
    exact hul
  · dsimp only
    have hk := I.ack x
    have hE := I.fin x.other
    rw [Side.other_other] at hE
    by_cases hc : (h.taken x).length = a x
    · have hres : b = true := by
        have : (receive (c.str x.other) ⟨(a x + 1) % 65536, (c.str x).peerSeq, some d⟩ 0 fun _ => true).2.2 = true := by
          unfold receive accept
          dsimp only
          rw [if_pos]
          rw [hE.pseq]; omega
        rw [hr] at this
        exact this
      rw [if_pos hres, set_same, List.length_append, List.length_singleton]
      omega
    · have : (h.taken x).length ≤ ((if b = true then set h.taken x (h.taken x ++ [some d]) else h.taken) x).length := by
        split_ifs
        · rw [set_same, List.length_append]; omega
        · exact Nat.le_refl _
      omega

/-- A second timeout brings the acknowledgement. -/
theorem second_try {c : Sys} {h : Hist} (r : Run c h) (x : Side) (hu : (c.str x).unacked ≠ [])
    (hk : (h.sent x).length - (c.str x).unacked.length + 1 ≤ (h.taken x).length) :
    ∃ c' h', After c h c' h' ∧ h'.sent = h.sent ∧ (c'.str x).unacked.length < (c.str x).unacked.length := by
  obtain ⟨a, I⟩ := r.inv
  have E := I.fin x
  have hl := E.len
  have hle := E.le
  have hw := E.win
  have htk := (I.took x).le
  have hE := I.fin x.other
  rw [Side.other_other] at hE
  have hpos : 0 < (c.str x).unacked.length := List.length_pos_iff.2 hu
  obtain ⟨d, ho, hul⟩ := E.repost_out hu 0
  have E' := (E.repost 0 true).1
  have s1 : Step c h ⟨c.str, set c.net x []⟩ h := .lose x [] (List.nil_sublist _)
  have s2 := Step.repost (c := ⟨c.str, set c.net x []⟩) (h := h) x 0 true
  dsimp only at s2
  rw [set_same, ho, List.nil_append] at s2
  have s3 := Step.lose (c := ⟨set c.str x (onRepost (c.str x) 0 true).1,
      set (set c.net x []) x [⟨(a x + 1) % 65536, (c.str x).peerSeq, some d⟩]⟩) (h := h) x.other [] (List.nil_sublist _)
  dsimp only at s3
  have hn : (set (set (set c.net x []) x [⟨(a x + 1) % 65536, (c.str x).peerSeq, some d⟩]) x.other []) x =
      [⟨(a x + 1) % 65536, (c.str x).peerSeq, some d⟩] := by rw [set_other', set_same]
  have hrej : ¬ (a x + 1) % 65536 = ((c.str x.other).peerSeq + 1) % 65536 := by
    rw [hE.pseq]; omega
  have hacc : accept (c.str x.other) ⟨(a x + 1) % 65536, (c.str x).peerSeq, some d⟩ true =
      ({ c.str x.other with ackTimer := none }, [⟨(c.str x.other).seq, (c.str x.other).peerSeq, none⟩], false) := by
    unfold accept
    dsimp only
    rw [if_neg hrej]
    rfl
  obtain ⟨rest, hout⟩ : ∃ rest, (receive (c.str x.other) ⟨(a x + 1) % 65536, (c.str x).peerSeq, some d⟩ 0 fun _ => true).2.1 =
      ⟨(c.str x.other).seq, (c.str x.other).peerSeq, none⟩ :: rest := by
    unfold receive
    rw [hacc]
    exact ⟨_, rfl⟩
  have hfalse : (receive (c.str x.other) ⟨(a x + 1) % 65536, (c.str x).peerSeq, some d⟩ 0 fun _ => true).2.2 = false := by
    unfold receive
    rw [hacc]
  obtain ⟨sy, hr⟩ : ∃ sy, receive (c.str x.other) ⟨(a x + 1) % 65536, (c.str x).peerSeq, some d⟩ 0 (fun _ => true) =
      (sy, ⟨(c.str x.other).seq, (c.str x.other).peerSeq, none⟩ :: rest, false) :=
    ⟨_, Prod.ext rfl (Prod.ext hout hfalse)⟩
  have s4 := Step.arrive_eq (c := ⟨set c.str x (onRepost (c.str x) 0 true).1,
      set (set (set c.net x []) x [⟨(a x + 1) % 65536, (c.str x).peerSeq, some d⟩]) x.other []⟩) (h := h) hn
    (set_other _ _ _) (set_same _ _ _) hr
  dsimp only at s4
  rw [List.nil_append, if_neg (by simp)] at s4
  obtain ⟨⟨s', o', b⟩, hr5⟩ : ∃ q, receive (onRepost (c.str x) 0 true).1 ⟨(c.str x.other).seq, (c.str x.other).peerSeq, none⟩ 0
      (fun _ => true) = q := ⟨_, rfl⟩
  have s5 := Step.arrive_eq (c := ⟨set (set c.str x (onRepost (c.str x) 0 true).1) x.other sy,
      set (set (set (set (set c.net x []) x [⟨(a x + 1) % 65536, (c.str x).peerSeq, some d⟩]) x.other []) x []) x.other
      (⟨(c.str x.other).seq, (c.str x.other).peerSeq, none⟩ :: rest)⟩) (h := h) (x := x.other) (set_same _ _ _)
    (s := (onRepost (c.str x) 0 true).1) (by dsimp only; rw [Side.other_other, set_other', set_same]) rfl hr5
  refine ⟨_, _, ((((After.refl.step s1).step s2).step s3).step s4).step s5, rfl, ?_⟩
  dsimp only
  rw [Side.other_other, set_same]
  generalize hm : (⟨(c.str x.other).seq, (c.str x.other).peerSeq, none⟩ : Msg) = m at hr5
  have hmack : m.ack = (h.taken x).length % 65536 := by rw [← hm]; exact hE.pseq
  have hmdat : m.data = none := by rw [← hm]
  have hA : ∀ s, End s (h.sent x) (a x) (h.taken x.other).length → ∃ k', End (accept s m true).1 (h.sent x) (a x) k' := by
    intro s Es
    unfold accept
    by_cases hc : m.seq = (s.peerSeq + 1) % 65536
    · rw [if_pos hc]
      refine ⟨(h.taken x.other).length + 1, { Es with pseq := ?_ }⟩
      dsimp only
      rw [Es.pseq]; omega
    · rw [if_neg hc, hmdat]
      exact ⟨_, Es⟩
  obtain ⟨k', Ea⟩ := hA _ E'
  obtain ⟨Eb, _⟩ := Ea.acknowledge hmack (I.ack x) htk 0 (fun _ => true)
  have hlen := Eb.len
  have : (receive (onRepost (c.str x) 0 true).1 m 0 fun _ => true).1 =
      (acknowledge (accept (onRepost (c.str x) 0 true).1 m true).1 m 0 fun _ => true).1 := rfl
  rw [hr5] at this
  have this' : s' = (acknowledge (accept (onRepost (c.str x) 0 true).1 m true).1 m 0 fun _ => true).1 := this
  rw [this', hlen]
  omega

/-- From every state, whatever was lost, something that is not acknowledged can get through and be acknowledged. -/
theorem progress {c : Sys} {h : Hist} (r : Run c h) (x : Side) (hu : (c.str x).unacked ≠ []) :
    ∃ c' h', After c h c' h' ∧ h'.sent = h.sent ∧ (c'.str x).unacked.length < (c.str x).unacked.length := by
  obtain ⟨c1, h1, s1, e1, l1, k1⟩ := first_try r x hu
  have hu1 : (c1.str x).unacked ≠ [] := by
    intro h
    rw [h] at l1
    exact hu (List.length_eq_zero_iff.1 l1.symm)
  obtain ⟨c2, h2, s2, e2, l2⟩ := second_try (r.after s1) x hu1 (by rw [e1, l1]; exact k1)
  refine ⟨c2, h2, ?_, e2.trans e1, by omega⟩
  clear e2 l2
  induction s2 with
  | refl => exact s1
  | step _ s ih => exact ih.step s

end Verif.Streams
