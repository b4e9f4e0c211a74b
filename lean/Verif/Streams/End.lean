import Verif.Streams.Spec
import Mathlib.Tactic.SplitIfs

/-!
# One side
-/

namespace Verif.Streams

/-- What a number stands for: the count behind the 16 bits. -/
structure Tag where
  i : Nat
  n : Nat
  k : Nat

/-- A message sent when `t.n` messages were given to `Unicast` and `t.k` taken from the peer; `S` are the former. -/
structure Fits (S : List Data) (t : Tag) (m : Msg) : Prop where
  seq : m.seq = t.i % 65536
  ack : m.ack = t.k % 65536
  dat : ∀ d, m.data = some d → 1 ≤ t.i ∧ S[t.i - 1]? = some d
  non : m.data = none → t.i = t.n
  le : t.i ≤ t.n
  win : t.n ≤ t.i + 65534

theorem Fits.mono {S : List Data} {t : Tag} {m : Msg} (F : Fits S t m) (l : List Data) : Fits (S ++ l) t m :=
  { F with
    dat := fun d hd => by
      obtain ⟨h1, h2⟩ := F.dat d hd
      refine ⟨h1, ?_⟩
      have hlt : t.i - 1 < S.length := by
        by_contra hc
        rw [List.getElem?_eq_none (by omega)] at h2
        simp at h2
      rw [List.getElem?_append_left hlt]; exact h2 }

/-- A stream: `S` was given to it, the first `a` of them are acknowledged, `k` messages were taken from the peer. -/
structure End (s : Stream) (S : List Data) (a k : Nat) : Prop where
  seq : s.seq = S.length % 65536
  ack : s.peerAck = a % 65536
  un : s.unacked.map (fun i => i.data) = S.drop a
  pseq : s.peerSeq = k % 65536
  win : S.length ≤ a + 65535
  le : a ≤ S.length
  timer : s.repost = (S.drop a).head?.map fun d => ((a + 1) % 65536, d)

theorem End.len {s : Stream} {S : List Data} {a k : Nat} (E : End s S a k) : s.unacked.length = S.length - a := by
  have := congrArg List.length E.un
  simpa using this

/-- What goes out. -/
def Outs (S : List Data) (k : Nat) (o : List Msg) : Prop := ∀ m ∈ o, ∃ i, Fits S ⟨i, S.length, k⟩ m

theorem Outs.nil (S : List Data) (k : Nat) : Outs S k [] := by intro m hm; simp at hm

theorem Outs.append {S : List Data} {k : Nat} {o o' : List Msg} (h : Outs S k o) (h' : Outs S k o') : Outs S k (o ++ o') := by
  intro m hm
  rcases List.mem_append.1 hm with hm | hm
  · exact h m hm
  · exact h' m hm

theorem End.post {s : Stream} {S : List Data} {a k : Nat} (E : End s S a k) (m : Msg) (ok : Bool) :
    End (post s m ok).1 S a k := by
  unfold Verif.Streams.post
  split_ifs
  · exact { E with }
  · exact E

theorem post_out (s : Stream) (m : Msg) (ok : Bool) : ∀ m' ∈ (post s m ok).2, m' = m := by
  unfold post
  split_ifs <;> simp

theorem End.postAck {s : Stream} {S : List Data} {a k : Nat} (E : End s S a k) (ok : Bool) :
    End (postAck s ok).1 S a k ∧ Outs S k (postAck s ok).2 := by
  refine ⟨E.post _ ok, ?_⟩
  intro m hm
  have := post_out _ _ _ m hm
  subst this
  exact ⟨S.length, E.seq, E.pseq, by simp, fun _ => rfl, Nat.le_refl _, by dsimp only; omega⟩

/-- A message that comes. -/
theorem End.accept {s : Stream} {S : List Data} {a k : Nat} (E : End s S a k) {S' : List Data} {t : Tag} {m : Msg}
    (F : Fits S' t m) (h1 : k ≤ t.n) (h2 : t.n ≤ k + 65535) (ok : Bool) :
    End (accept s m ok).1 S a (if t.i = k + 1 then k + 1 else k) ∧
    Outs S (if t.i = k + 1 then k + 1 else k) (accept s m ok).2.1 ∧ (accept s m ok).2.2 = decide (t.i = k + 1) := by
  have hiff : m.seq = (s.peerSeq + 1) % 65536 ↔ t.i = k + 1 := by
    rw [F.seq, E.pseq]
    have := F.le
    have := F.win
    omega
  unfold Verif.Streams.accept
  by_cases hc : t.i = k + 1
  · rw [if_pos (hiff.2 hc), if_pos hc]
    refine ⟨{ E with pseq := ?_ }, Outs.nil _ _, by simp [hc]⟩
    dsimp only
    rw [E.pseq]
    omega
  · rw [if_neg (fun h => hc (hiff.1 h)), if_neg hc]
    cases m.data with
    | none => exact ⟨E, Outs.nil _ _, by simp [hc]⟩
    | some d => exact ⟨(E.postAck ok).1, (E.postAck ok).2, by simp [hc]⟩

theorem resend_data (s : Stream) (now : Nat) (ok : Nat → Bool) : ∀ (l : List Item) (n : Nat),
    (resend s now ok n l).1.map (fun i => i.data) = l.map fun i => i.data := by
  intro l
  induction l with
  | nil => intro n; rfl
  | cons i t ih =>
    intro n
    unfold resend
    dsimp only
    split_ifs <;> simp [ih]

theorem resend_out (s : Stream) (now : Nat) (ok : Nat → Bool) : ∀ (l : List Item) (n : Nat) (m : Msg),
    m ∈ (resend s now ok n l).2 → ∃ (j : Nat) (i : Item), l[j]? = some i ∧
      m = ⟨(s.peerAck + (n + j) + 1) % 65536, s.peerSeq, some i.data⟩ := by
  intro l
  induction l with
  | nil => intro n m hm; simp [resend] at hm
  | cons i t ih =>
    intro n m hm
    unfold resend at hm
    dsimp only at hm
    have htail : m ∈ (resend s now ok (n + 1) t).2 → ∃ (j : Nat) (i' : Item), (i :: t)[j]? = some i' ∧
        m = ⟨(s.peerAck + (n + j) + 1) % 65536, s.peerSeq, some i'.data⟩ := by
      intro h
      obtain ⟨j, i', h1, h2⟩ := ih (n + 1) m h
      refine ⟨j + 1, i', by simpa using h1, ?_⟩
      rw [h2]
      have : n + 1 + j = n + (j + 1) := by omega
      rw [this]
    by_cases hc : i.t ≤ now ∨ s.timedout = true
    · rw [if_pos hc] at hm
      rcases List.mem_append.1 hm with h | h
      · by_cases hk : ok n = true
        · rw [if_pos hk, List.mem_singleton] at h
          exact ⟨0, i, rfl, h⟩
        · rw [if_neg hk] at h
          simp at h
      · exact htail h
    · rw [if_neg hc] at hm
      exact htail hm

theorem updateTimer_repost (s : Stream) : (updateTimer s).repost =
    (s.unacked.map fun i => i.data).head?.map fun d => ((s.peerAck + 1) % 65536, d) := by
  unfold updateTimer
  split <;> rename_i h <;> rw [h] <;> rfl

theorem updateTimer_rest (s : Stream) : (updateTimer s).seq = s.seq ∧ (updateTimer s).peerAck = s.peerAck ∧
    (updateTimer s).unacked = s.unacked ∧ (updateTimer s).peerSeq = s.peerSeq := by
  unfold updateTimer
  split <;> exact ⟨rfl, rfl, rfl, rfl⟩

/-- The timer is set anew. -/
theorem End.update {s : Stream} {S : List Data} {a k : Nat} (h1 : s.seq = S.length % 65536) (h2 : s.peerAck = a % 65536)
    (h3 : s.unacked.map (fun i => i.data) = S.drop a) (h4 : s.peerSeq = k % 65536) (h5 : S.length ≤ a + 65535)
    (h6 : a ≤ S.length) : End (updateTimer s) S a k := by
  obtain ⟨e1, e2, e3, e4⟩ := updateTimer_rest s
  refine ⟨e1.trans h1, e2.trans h2, by rw [e3]; exact h3, e4.trans h4, h5, h6, ?_⟩
  rw [updateTimer_repost, h3, h2]
  congr 1
  funext d
  congr 1
  omega

/-- What a message acknowledges. -/
theorem End.acknowledge {s : Stream} {S : List Data} {a k : Nat} (E : End s S a k) {m : Msg} {K : Nat} (hm : m.ack = K % 65536)
    (h1 : a ≤ K) (h2 : K ≤ S.length) (now : Nat) (ok : Nat → Bool) :
    End (acknowledge s m now ok).1 S K k ∧ Outs S k (acknowledge s m now ok).2 := by
  have hlen := E.len
  have hw := E.win
  have ha := E.ack
  have hdiff : (if m.ack < s.peerAck then m.ack + 65536 else m.ack) = s.peerAck + (K - a) := by
    rw [hm, ha]
    split_ifs <;> omega
  unfold Verif.Streams.acknowledge
  dsimp only
  rw [hdiff, hlen]
  by_cases hc : a < K
  · rw [if_pos (by omega)]
    have hsub : s.peerAck + (K - a) - s.peerAck = K - a := by omega
    rw [hsub]
    have hdrop : (s.unacked.drop (K - a)).map (fun i => i.data) = S.drop K := by
      rw [List.map_drop, E.un, List.drop_drop]
      congr 1
      omega
    refine ⟨End.update E.seq hm (by rw [resend_data]; exact hdrop) E.pseq (by omega) h2, ?_⟩
    intro m' hm'
    obtain ⟨j, i, hj, e⟩ := resend_out _ _ _ _ _ _ hm'
    dsimp only at e hj
    have hj' : (S.drop K)[j]? = some i.data := by
      rw [← hdrop, List.getElem?_map, hj]; rfl
    rw [List.getElem?_drop] at hj'
    have hlt : K + j < S.length := by
      by_contra hn
      rw [List.getElem?_eq_none (by omega)] at hj'
      simp at hj'
    refine ⟨K + j + 1, ?_, ?_, ?_, ?_, ?_, ?_⟩
    · rw [e, hm]
      dsimp only
      omega
    · rw [e]; exact E.pseq
    · intro d hd
      rw [e] at hd
      simp only [Option.some.injEq] at hd
      rw [← hd]
      exact ⟨by dsimp only; omega, by simpa using hj'⟩
    · intro hd; rw [e] at hd; simp at hd
    · dsimp only; omega
    · dsimp only; omega
  · rw [if_neg (by omega)]
    have : K = a := by omega
    rw [this]
    exact ⟨E, Outs.nil _ _⟩

theorem End.send {s : Stream} {S : List Data} {a k : Nat} (E : End s S a k) {d : Data} {now : Nat} {ok : Bool} {s' : Stream}
    {o : List Msg} (h : send s d now ok = some (s', o)) : End s' (S ++ [d]) a k ∧ Outs (S ++ [d]) k o := by
  unfold Verif.Streams.send at h
  dsimp only at h
  have hw := E.win
  have hle := E.le
  by_cases h1 : (s.seq + 1) % 65536 = s.peerAck
  · rw [if_pos h1] at h; simp at h
  rw [if_neg h1] at h
  rw [E.seq, E.ack] at h1
  by_cases h2 : (!s.timedout && !ok) = true
  · rw [if_pos h2] at h; simp at h
  rw [if_neg h2] at h
  simp only [Option.some.injEq, Prod.mk.injEq] at h
  obtain ⟨e1, e2⟩ := h
  have hl : (S ++ [d]).length = S.length + 1 := by simp
  have hdrop : (S ++ [d]).drop a = S.drop a ++ [d] := by
    rw [List.drop_append_of_le_length hle]
  have hp : End (if s.timedout = true then (s, []) else Verif.Streams.post s ⟨(s.seq + 1) % 65536, s.peerSeq, some d⟩ ok).1 S a k := by
    split_ifs
    · exact E
    · exact E.post _ _
  have ho : ∀ m ∈ (if s.timedout = true then (s, []) else Verif.Streams.post s ⟨(s.seq + 1) % 65536, s.peerSeq, some d⟩ ok).2,
      m = ⟨(s.seq + 1) % 65536, s.peerSeq, some d⟩ := by
    split_ifs
    · intro m hm; simp at hm
    · exact post_out _ _ _
  generalize (if s.timedout = true then (s, []) else Verif.Streams.post s ⟨(s.seq + 1) % 65536, s.peerSeq, some d⟩ ok) = p at *
  have B : (End (updateTimer { p.1 with seq := (s.seq + 1) % 65536, unacked := p.1.unacked ++ [⟨d, now + ackTimeout⟩] }) (S ++ [d]) a k) := by
    refine End.update ?_ hp.ack ?_ hp.pseq (by omega) (by omega)
    · dsimp only; rw [E.seq, hl]; omega
    · dsimp only
      rw [List.map_append, hp.un, hdrop]
      rfl
  refine ⟨?_, ?_⟩
  · rw [← e1]
    by_cases hr : p.1.repost.isNone = true
    · rw [if_pos hr]; exact B
    · rw [if_neg hr]
      have ht := hp.timer
      cases hd : S.drop a with
      | nil => rw [hd] at ht; rw [ht] at hr; simp at hr
      | cons x xs =>
        refine ⟨?_, hp.ack, ?_, hp.pseq, by omega, by omega, ?_⟩
        · dsimp only; rw [E.seq, hl]; omega
        · dsimp only
          rw [List.map_append, hp.un, hdrop]
          rfl
        · dsimp only
          rw [ht, hdrop, hd]
          rfl
  · rw [← e2]
    intro m hm
    have := ho m hm
    subst this
    refine ⟨S.length + 1, ?_, E.pseq, ?_, by simp, by dsimp only; omega, by dsimp only; omega⟩
    · dsimp only; rw [E.seq]; omega
    · intro d' hd'
      simp only [Option.some.injEq] at hd'
      subst hd'
      refine ⟨by dsimp only; omega, ?_⟩
      simp

/-- What the repost timer does, if it is set. -/
theorem onRepost_some {s : Stream} {n : Nat} {d : Data} (hr : s.repost = some (n, d)) (now : Nat) (ok : Bool) :
    ∃ p : Stream × List Msg, p = Verif.Streams.post { s with timedout := true } ⟨n, s.peerSeq, some d⟩ ok ∧
      (onRepost s now ok).2 = p.2 ∧ ∃ items, (onRepost s now ok).1 = updateTimer { p.1 with unacked := items } ∧
      items.map (fun i => i.data) = p.1.unacked.map fun i => i.data := by
  refine ⟨_, rfl, ?_, ?_⟩
  · unfold onRepost
    rw [hr]
  · unfold onRepost
    rw [hr]
    refine ⟨_, rfl, ?_⟩
    split <;> rename_i h <;> rw [h] <;> rfl

theorem End.repost {s : Stream} {S : List Data} {a k : Nat} (E : End s S a k) (now : Nat) (ok : Bool) :
    End (onRepost s now ok).1 S a k ∧ Outs S k (onRepost s now ok).2 := by
  have ht := E.timer
  cases hr : s.repost with
  | none =>
    unfold onRepost
    rw [hr]
    exact ⟨E, Outs.nil _ _⟩
  | some q =>
    obtain ⟨n, d⟩ := q
    obtain ⟨p, hp, h2, items, h1, hi⟩ := onRepost_some hr now ok
    rw [hr] at ht
    have E1 : End { s with timedout := true } S a k := { E with }
    have hp' := E1.post ⟨n, s.peerSeq, some d⟩ ok
    have ho := post_out { s with timedout := true } ⟨n, s.peerSeq, some d⟩ ok
    rw [← hp] at hp' ho
    rw [h1, h2]
    refine ⟨End.update hp'.seq hp'.ack (hi.trans hp'.un) hp'.pseq hp'.win hp'.le, ?_⟩
    intro m hm
    have := ho m hm
    subst this
    cases hd : S.drop a with
    | nil => rw [hd] at ht; simp at ht
    | cons x xs =>
      rw [hd] at ht
      simp only [List.head?_cons, Option.map_some, Option.some.injEq, Prod.mk.injEq] at ht
      obtain ⟨t1, t2⟩ := ht
      have hx : S[a]? = some x := by
        have : (S.drop a)[0]? = some x := by rw [hd]; rfl
        rw [List.getElem?_drop] at this
        exact this
      have hlt : a < S.length := by
        by_contra hn
        rw [List.getElem?_eq_none (by omega)] at hx
        simp at hx
      have hw := E.win
      obtain ⟨i, hi1⟩ : ∃ i, i = a + 1 := ⟨_, rfl⟩
      rw [← hi1] at t1
      refine ⟨i, t1, E.pseq, ?_, fun h => ?_, by show i ≤ S.length; omega, by show S.length ≤ i + 65534; omega⟩
      · intro d' hd'
        simp only [Option.some.injEq] at hd'
        subst hd'
        rw [t2]
        refine ⟨by show 1 ≤ i; omega, ?_⟩
        show S[i - 1]? = _
        have : i - 1 = a := by omega
        rw [this]; exact hx
      · simp at h

theorem End.ackTimer {s : Stream} {S : List Data} {a k : Nat} (E : End s S a k) (ok : Bool) :
    End (onAckTimer s ok).1 S a k ∧ Outs S k (onAckTimer s ok).2 := by
  unfold onAckTimer
  split
  · have E1 : End { s with ackTimer := some false } S a k := { E with }
    exact E1.postAck ok
  · exact ⟨E, Outs.nil _ _⟩

theorem End.init : End Stream.new [] 0 0 := ⟨rfl, rfl, rfl, rfl, by simp, by simp, rfl⟩

end Verif.Streams
