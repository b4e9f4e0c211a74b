import Verif.Streams.Main

/-!
# Theorems
-/

namespace Verif.Streams

theorem Run.after {c c' : Sys} {h h' : Hist} (r : Run c h) (s : After c h c' h') : Run c' h' := by
  induction s with
  | refl => exact r
  | step _ s ih => exact ih.step s

/-- What is at a place of what the peer took is what was sent there, if data went to the user at all; the peer takes no more
than was sent. -/
theorem places {c : Sys} {h : Hist} (r : Run c h) (x : Side) :
    (h.taken x).length ≤ (h.sent x).length ∧
    ∀ (i : Nat) (d : Data), (h.taken x)[i]? = some (some d) → (h.sent x)[i]? = some d := by
  obtain ⟨a, I⟩ := r.inv
  exact ⟨(I.took x).le, (I.took x).eq⟩

theorem took_sublist : ∀ (T : List (Option Data)) (S : List Data), Took S T → (T.filterMap id).Sublist S := by
  intro T
  induction T with
  | nil => intro S _; exact List.nil_sublist _
  | cons o t ih =>
    intro S h
    cases S with
    | nil => have := h.le; simp at this
    | cons d S =>
      have h' : Took S t := ⟨by have := h.le; simpa using this, fun i d' hi => by
        have := h.eq (i + 1) d' (by simpa using hi)
        simpa using this⟩
      cases o with
      | none => exact (ih S h').cons d
      | some e =>
        have := h.eq 0 e rfl
        simp only [List.getElem?_cons_zero, Option.some.injEq] at this
        rw [List.filterMap_cons]
        dsimp only [id]
        rw [this]
        exact (ih S h').cons_cons e

/-- The user of the peer gets messages that were sent, in their order, each at most once. -/
theorem in_order {c : Sys} {h : Hist} (r : Run c h) (x : Side) : (h.got x).Sublist (h.sent x) := by
  obtain ⟨a, I⟩ := r.inv
  exact took_sublist _ _ (I.took x)

theorem took_take : ∀ (T : List (Option Data)) (S : List Data), Took S T → none ∉ T → T.filterMap id = S.take T.length := by
  intro T
  induction T with
  | nil => intro S _ _; rfl
  | cons o t ih =>
    intro S h hn
    cases S with
    | nil => have := h.le; simp at this
    | cons d S =>
      have h' : Took S t := ⟨by have := h.le; simpa using this, fun i d' hi => by
        have := h.eq (i + 1) d' (by simpa using hi)
        simpa using this⟩
      cases o with
      | none => simp at hn
      | some e =>
        have := h.eq 0 e rfl
        simp only [List.getElem?_cons_zero, Option.some.injEq] at this
        rw [List.filterMap_cons]
        dsimp only [id]
        rw [this, List.length_cons, List.take_succ_cons, ih S h' (fun hc => hn (List.mem_cons_of_mem _ hc))]

/-- If no message without data was taken for the next one, nothing is missing in between. -/
theorem complete {c : Sys} {h : Hist} (r : Run c h) (x : Side) (hn : none ∉ h.taken x) :
    h.got x = (h.sent x).take (h.taken x).length := by
  obtain ⟨a, I⟩ := r.inv
  exact took_take _ _ (I.took x) hn

/-- A stream keeps every message until the peer took one in its place; then comes the rest, in order, and the timer is set for the
first. -/
theorem kept {c : Sys} {h : Hist} (r : Run c h) (x : Side) :
    (∃ n ≤ (h.taken x).length, (c.str x).unacked.map (fun i => i.data) = (h.sent x).drop n) ∧
    ((c.str x).unacked ≠ [] → (c.str x).repost ≠ none) ∧
    (∀ q d, (c.str x).repost = some (q, d) → (c.str x).unacked.head?.map (fun i => i.data) = some d) := by
  obtain ⟨a, I⟩ := r.inv
  have E := I.fin x
  have ht := E.timer
  rw [← E.un] at ht
  refine ⟨⟨a x, I.ack x, E.un⟩, ?_, ?_⟩
  · intro hne
    rw [ht]
    cases hu : (c.str x).unacked with
    | nil => exact absurd hu hne
    | cons i is => simp
  · intro q d hq
    rw [hq] at ht
    cases hu : (c.str x).unacked with
    | nil => rw [hu] at ht; simp at ht
    | cons i is =>
      rw [hu] at ht
      simp only [List.map_cons, List.head?_cons, Option.map_some, Option.some.injEq, Prod.mk.injEq] at ht
      simp [ht.2]

/-- A message is refused, while no timeout is pending and the network takes it, exactly if 65535 messages are not acknowledged. -/
theorem refused {c : Sys} {h : Hist} (r : Run c h) (x : Side) (d : Data) (now : Nat) :
    send (c.str x) d now true = none ↔ (c.str x).unacked.length = 65535 := by
  obtain ⟨a, I⟩ := r.inv
  have E := I.fin x
  have hl := E.len
  have h1 := E.seq
  have h2 := E.ack
  have h3 := E.win
  have h4 := E.le
  unfold send
  dsimp only
  have : ((c.str x).seq + 1) % 65536 = (c.str x).peerAck ↔ (c.str x).unacked.length = 65535 := by
    rw [h1, h2, hl]; omega
  by_cases hc : ((c.str x).seq + 1) % 65536 = (c.str x).peerAck
  · rw [if_pos hc]; simp [this.1 hc]
  · rw [if_neg hc, if_neg (by simp)]
    simp only [reduceCtorEq, false_iff]
    exact fun h => hc (this.2 h)

/-! ### What was taken stays -/

theorem Step.taken {c c' : Sys} {h h' : Hist} (s : Step c h c' h') (x : Side) : h.taken x <+: h'.taken x := by
  cases s with
  | arrive y m ms now ok hn =>
    dsimp only
    split_ifs
    · rcases Side.eq_or y x with rfl | rfl
      · rw [set_same]; exact List.prefix_append _ _
      · rw [set_other]
        exact List.prefix_rfl
    · exact List.prefix_rfl
  | _ => exact List.prefix_rfl

/-- What was taken at a place is never changed: if there was no data, the message sent there never goes to the user. -/
theorem taken_stays {c c' : Sys} {h h' : Hist} (s : After c h c' h') (x : Side) (i : Nat) (o : Option Data)
    (ho : (h.taken x)[i]? = some o) : (h'.taken x)[i]? = some o := by
  have : h.taken x <+: h'.taken x := by
    induction s with
    | refl => exact List.prefix_rfl
    | step _ s ih => exact ih.trans (s.taken x)
  obtain ⟨l, hl⟩ := this
  have hlt : i < (h.taken x).length := by
    by_contra hc
    rw [List.getElem?_eq_none (by omega)] at ho
    simp at ho
  rw [← hl, List.getElem?_append_left hlt]
  exact ho

/-! ### Traffic in one direction -/

theorem acknowledge_data (s : Stream) (m : Msg) (now : Nat) (ok : Nat → Bool) (hs : s.ackTimer = none) :
    (acknowledge s m now ok).1.ackTimer = none ∧ ∀ m' ∈ (acknowledge s m now ok).2, m'.data ≠ none := by
  unfold acknowledge
  dsimp only
  generalize (if m.ack < s.peerAck then m.ack + 65536 else m.ack) = k
  by_cases hc : s.peerAck < k ∧ k ≤ s.peerAck + s.unacked.length
  · rw [if_pos hc]
    refine ⟨?_, ?_⟩
    · unfold updateTimer
      dsimp only
      split <;> · dsimp only; split_ifs <;> first | exact hs | rfl
    · intro m' hm'
      obtain ⟨j, i, _, e⟩ := resend_out _ _ _ _ _ _ hm'
      rw [e]; simp
  · rw [if_neg hc]
    exact ⟨hs, by simp⟩

theorem updateTimer_ack (s : Stream) : (updateTimer s).ackTimer = s.ackTimer := by
  unfold updateTimer; split <;> rfl

/-- If the other side sends nothing, everything the peer takes has data: nothing is missing (`complete`). -/
theorem one_way {c : Sys} {h : Hist} (r : Run c h) (x : Side) (hx : h.sent x.other = []) : none ∉ h.taken x := by
  suffices H : (∀ m ∈ c.net x, m.data ≠ none) ∧ (c.str x).ackTimer = none ∧ none ∉ h.taken x from H.2.2
  have hpost : ∀ (s : Stream) (m : Msg) (ok : Bool), s.ackTimer = none → (post s m ok).1.ackTimer = none := by
    intro s m ok hs
    unfold post
    split_ifs
    · rfl
    · exact hs
  induction r with
  | init => exact ⟨by simp [Sys.new], rfl, by simp [Hist.new]⟩
  | @step c c' h h' r s ih =>
    obtain ⟨a, I⟩ := r.inv
    cases s with
    | @send y d now ok s o hs =>
      dsimp only at hx ⊢
      rcases Side.eq_or y x with rfl | rfl
      · rw [set_other] at hx
        obtain ⟨h1, h2, h3⟩ := ih hx
        rw [set_same, set_same]
        unfold send at hs
        dsimp only at hs
        by_cases c1 : ((c.str x).seq + 1) % 65536 = (c.str x).peerAck
        · rw [if_pos c1] at hs; simp at hs
        rw [if_neg c1] at hs
        by_cases c2 : (!(c.str x).timedout && !ok) = true
        · rw [if_pos c2] at hs; simp at hs
        rw [if_neg c2] at hs
        simp only [Option.some.injEq, Prod.mk.injEq] at hs
        obtain ⟨e1, e2⟩ := hs
        have hp : ∀ p : Stream × List Msg, p = (if (c.str x).timedout = true then (c.str x, [])
            else post (c.str x) ⟨((c.str x).seq + 1) % 65536, (c.str x).peerSeq, some d⟩ ok) →
            p.1.ackTimer = none ∧ ∀ m ∈ p.2, m.data ≠ none := by
          intro p e
          rw [e]
          split_ifs
          · exact ⟨h2, by simp⟩
          · refine ⟨hpost _ _ _ h2, fun m hm => ?_⟩
            rw [post_out _ _ _ m hm]; simp
        obtain ⟨p1, p2⟩ := hp _ rfl
        clear hp
        generalize (if (c.str x).timedout = true then (c.str x, [])
            else post (c.str x) ⟨((c.str x).seq + 1) % 65536, (c.str x).peerSeq, some d⟩ ok) = p at *
        refine ⟨?_, ?_, h3⟩
        · intro m hm
          rcases List.mem_append.1 hm with hm | hm
          · exact h1 m hm
          · rw [← e2] at hm; exact p2 m hm
        · rw [← e1]
          by_cases hn : p.1.repost.isNone = true
          · rw [if_pos hn, updateTimer_ack]; exact p1
          · rw [if_neg hn]; exact p1
      · rw [Side.other_other] at hx
        rw [set_same] at hx
        simp at hx
    | @lose y l hl =>
      obtain ⟨h1, h2, h3⟩ := ih hx
      refine ⟨?_, h2, h3⟩
      dsimp only
      rcases Side.eq_or y x with rfl | rfl
      · rw [set_same]
        exact fun m hm => h1 m (hl.subset hm)
      · rw [set_other]; exact h1
    | repost y now ok =>
      obtain ⟨h1, h2, h3⟩ := ih hx
      dsimp only
      rcases Side.eq_or y x with rfl | rfl
      · rw [set_same, set_same]
        cases hr : (c.str x).repost with
        | none =>
          unfold onRepost
          rw [hr]
          exact ⟨by simpa using h1, h2, h3⟩
        | some q =>
          obtain ⟨n, d⟩ := q
          obtain ⟨p, hp, e2, items, e1, _⟩ := onRepost_some hr now ok
          rw [e1, e2, updateTimer_ack]
          refine ⟨?_, ?_, h3⟩
          · intro m hm
            rcases List.mem_append.1 hm with hm | hm
            · exact h1 m hm
            · rw [hp] at hm
              rw [post_out _ _ _ m hm]; simp
          · dsimp only
            rw [hp]
            exact hpost _ _ _ h2
      · rw [set_other, set_other]; exact ⟨h1, h2, h3⟩
    | ack y ok =>
      obtain ⟨h1, h2, h3⟩ := ih hx
      dsimp only
      rcases Side.eq_or y x with rfl | rfl
      · rw [set_same, set_same]
        unfold onAckTimer
        rw [h2]
        exact ⟨by simpa using h1, h2, h3⟩
      · rw [set_other, set_other]; exact ⟨h1, h2, h3⟩
    | arrive y m ms now ok hn =>
      have hx' : h.sent x.other = [] := hx
      obtain ⟨h1, h2, h3⟩ := ih hx'
      dsimp only
      rcases Side.eq_or y x with rfl | rfl
      · rw [set_other', set_other', set_same]
        refine ⟨fun m' hm' => h1 m' (by rw [hn]; exact List.mem_cons_of_mem _ hm'), h2, ?_⟩
        split_ifs
        · rw [set_same]
          intro hm
          rcases List.mem_append.1 hm with hm | hm
          · exact h3 hm
          · rw [List.mem_singleton] at hm
            exact h1 m (by rw [hn]; exact List.mem_cons_self) hm.symm
        · exact h3
      · rw [Side.other_other] at hx'
        rw [set_same, set_same]
        obtain ⟨ts, L⟩ := I.link y
        rw [hn] at L
        obtain ⟨fits, lo, ak, mono⟩ := L
        cases fits with
        | @cons t _ ts _ F Fs =>
          have hlo := lo t List.mem_cons_self
          have hE := I.fin y.other
          rw [Side.other_other] at hE
          have hle := F.le
          rw [hx'] at hlo
          simp only [List.length_nil] at hlo
          have hnd : m.data = none := by
            cases hd : m.data with
            | none => rfl
            | some d => have := (F.dat d hd).1; omega
          have hacc : accept (c.str y.other) m (ok 0) = (c.str y.other, [], false) := by
            unfold accept
            rw [if_neg, hnd]
            rw [F.seq, hE.pseq]
            omega
          unfold receive
          rw [hacc]
          dsimp only
          obtain ⟨k1, k2⟩ := acknowledge_data (c.str y.other) m now (fun i => ok (i + 1)) h2
          refine ⟨?_, k1, ?_⟩
          · intro m' hm'
            rw [List.nil_append] at hm'
            rcases List.mem_append.1 hm' with hm' | hm'
            · exact h1 m' hm'
            · exact k2 m' hm'
          · exact h3

end Verif.Streams
