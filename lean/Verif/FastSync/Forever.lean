import Verif.FastSync.Main

/-!
# Later
-/

namespace Verif.FastSync

/-- What can come after a state. -/
inductive After (parse : List Nat → Option Blk) (c : Client) (g : G) : Client → G → Prop
  | refl : After parse c g c g
  | step {c' : Client} {g' : G} (e : Ev) (snd : Nat → Send) : After parse c g c' g' → Allowed g' e →
      After parse c g (step parse c' e snd).1 (g'.next c' e (step parse c' e snd).2)

theorem After.run {parse : List Nat → Option Blk} {c c' : Client} {g g' : G} (h : Run parse c g) (a : After parse c g c' g') :
    Run parse c' g' := by
  induction a with
  | refl => exact h
  | step e snd _ ha ih => exact ih.step e snd ha

/-! ### What a step can do to the request -/

/-- The request is the same one or there is none; what is said is about it. -/
structure Tame (c c' : Client) (o : List Out) : Prop where
  next : c'.next = c.next
  cur : ∀ r', c'.fr = some r' → ∃ r, c.fr = some r ∧ r'.serial = r.serial
  out : ∀ a ∈ o, ∃ r, c.fr = some r ∧ about a = r.serial

theorem Tame.same (c : Client) : Tame c c [] := ⟨rfl, fun r h => ⟨r, h, rfl⟩, by simp⟩

theorem Tame.keep {c : Client} {r r' : Req} (hr : c.fr = some r) (hs : r'.serial = r.serial) {o : List Out}
    (ho : ∀ a ∈ o, about a = r.serial) : Tame c (keep c r' o).1 (keep c r' o).2 := by
  refine ⟨rfl, ?_, fun a ha => ⟨r, hr, ho a ha⟩⟩
  intro r2 h2
  have : r' = r2 := by
    have : some r' = some r2 := h2
    simpa using this
  exact ⟨r, hr, by rw [← this]; exact hs⟩

theorem Tame.keep0 {c : Client} {r r' : Req} (hr : c.fr = some r) (hs : r'.serial = r.serial) :
    Tame c (Verif.FastSync.keep c r' []).1 (Verif.FastSync.keep c r' []).2 := Tame.keep hr hs (by simp)

theorem Tame.stop {c : Client} {r r' : Req} (hr : c.fr = some r) (hs : r'.serial = r.serial) (ok : Bool) :
    Tame c (cancelReq c r' [.onEnd r'.serial ok]).1 (cancelReq c r' [.onEnd r'.serial ok]).2 := by
  refine ⟨rfl, by simp [cancelReq], fun a ha => ⟨r, hr, ?_⟩⟩
  have : a = Out.onEnd r'.serial ok := by simpa [cancelReq] using ha
  rw [this]; exact hs

theorem addHeight_serial (r : Req) (h : Nat) : (addHeight r h).serial = r.serial := by
  unfold addHeight; split_ifs <;> rfl

theorem foldl_serial (l : List Nat) : ∀ r : Req, (l.foldl addHeight r).serial = r.serial := by
  induction l with
  | nil => intro r; rfl
  | cons a t ih => intro r; rw [List.foldl_cons, ih, addHeight_serial]

theorem dropResults_serial (r : Req) (id : Nat) : (dropResults r id).serial = r.serial := by
  unfold dropResults
  split
  · rfl
  · rw [foldl_serial]

theorem popLowest_serial (r : Req) : (popLowest r).serial = r.serial := by
  unfold popLowest
  split
  · rfl
  · split_ifs <;> rfl

theorem rescheduleN_serial (snd : Nat → Send) : ∀ (n : Nat) (r : Req), (rescheduleN snd n r).serial = r.serial := by
  intro n
  induction n with
  | zero => intro r; rfl
  | succ n ih =>
    intro r
    unfold rescheduleN
    by_cases h1 : r.nActive ≥ maxActive
    · rw [if_pos h1]
    rw [if_neg h1]
    by_cases h2 : r.peers.length = r.nActive
    · rw [if_pos h2]
    rw [if_neg h2]
    cases getLowest r with
    | none => rfl
    | some l =>
      dsimp only
      by_cases h3 : r.offset + r.pending.length ≤ l
      · rw [if_pos h3]
      rw [if_neg h3]
      cases assign r.fetchID l snd r.peers with
      | none => rfl
      | some ps =>
        dsimp only
        rw [ih]
        exact popLowest_serial _

theorem reschedule_serial (snd : Nat → Send) (r : Req) : (reschedule snd r).serial = r.serial := rescheduleN_serial snd _ r

theorem error_tame {c : Client} {r : Req} (hr : c.fr = some r) (i id : Nat) (f : Fetcher) (nb : Bool) (snd : Nat → Send) :
    Tame c (onError c r i id f nb snd).1 (onError c r i id f nb snd).2 := by
  unfold onError
  dsimp only
  have h3 : ∃ r3, (if nb = true then addHeight { r with nActive := r.nActive - 1, peers := removeAt r.peers i } f.height
      else dropResults (addHeight { r with nActive := r.nActive - 1, peers := removeAt r.peers i } f.height) id) = r3 ∧
      r3.serial = r.serial := by
    refine ⟨_, rfl, ?_⟩
    split_ifs
    · rw [addHeight_serial]
    · rw [dropResults_serial, addHeight_serial]
  obtain ⟨r3, e3, s3⟩ := h3
  rw [e3]
  by_cases hl : r3.peers.length ≠ 0
  · rw [if_pos hl]
    exact Tame.keep0 hr ((reschedule_serial snd r3).trans s3)
  rw [if_neg hl]
  by_cases hn : first r3 = none
  · rw [if_pos hn]; exact Tame.stop hr s3 false
  · rw [if_neg hn]; exact Tame.keep0 hr s3

theorem block_tame {c : Client} {r : Req} (hr : c.fr = some r) (i id : Nat) (p : Peer) (f : Fetcher) (b : Blk)
    (snd : Nat → Send) : Tame c (onBlock c r i id p f b snd).1 (onBlock c r i id p f b snd).2 := by
  unfold onBlock
  dsimp only
  by_cases h : f.height < r.offset ∨ f.height - r.offset ≥ r.pending.length
  · rw [if_pos h]
    exact Tame.keep0 hr rfl
  · rw [if_neg h]
    refine Tame.keep hr (by rw [reschedule_serial]) ?_
    intro a ha
    split_ifs at ha
    · rw [List.mem_singleton] at ha
      rw [ha]; rfl
    · simp at ha

theorem recv_tame (parse : List Nat → Option Blk) (c : Client) (id : Nat) (m : Msg) (snd : Nat → Send) :
    Tame c (onReceive parse c id m snd).1 (onReceive parse c id m snd).2 := by
  unfold onReceive
  cases hr : c.fr with
  | none => exact Tame.same c
  | some r =>
    dsimp only
    cases hq : findPeer id r.peers with
    | none => exact Tame.same c
    | some q =>
      obtain ⟨i, p⟩ := q
      dsimp only
      cases hf : p.f with
      | none => exact Tame.same c
      | some f =>
        dsimp only
        cases hs : f.step with
        | send => exact Tame.same c
        | fin => exact Tame.same c
        | resp =>
          cases m with
          | data rid b => exact Tame.same c
          | info rid len votes =>
            dsimp only
            by_cases h1 : rid ≠ f.rid
            · rw [if_pos h1]; exact Tame.same c
            rw [if_neg h1]
            by_cases h2 : len < 0
            · rw [if_pos h2]; exact error_tame hr ..
            rw [if_neg h2]
            exact Tame.keep0 hr rfl
        | data =>
          cases m with
          | info rid len votes => exact Tame.same c
          | data rid bytes =>
            dsimp only
            by_cases h1 : rid ≠ f.rid
            · rw [if_pos h1]; exact Tame.same c
            rw [if_neg h1]
            by_cases h2 : f.left - bytes.length = 0
            · rw [if_pos h2]
              cases hb : parse (f.data ++ bytes) with
              | none => exact error_tame hr ..
              | some b =>
                dsimp only
                by_cases h3 : b.height ≠ f.height
                · rw [if_pos h3]; exact error_tame hr ..
                · rw [if_neg h3]; exact block_tame hr ..
            rw [if_neg h2]
            by_cases h4 : f.left - bytes.length < 0
            · rw [if_pos h4]; exact error_tame hr ..
            rw [if_neg h4]
            exact Tame.keep0 hr rfl

theorem timer_tame (c : Client) (id : Nat) (snd : Nat → Send) : Tame c (onTimer c id snd).1 (onTimer c id snd).2 := by
  unfold onTimer
  cases hr : c.fr with
  | none => exact Tame.same c
  | some r =>
    dsimp only
    cases hq : findPeer id r.peers with
    | none => exact Tame.same c
    | some q =>
      obtain ⟨i, p⟩ := q
      dsimp only
      cases hf : p.f with
      | none => exact Tame.same c
      | some f =>
        dsimp only
        cases ht : f.timer with
        | none => exact Tame.same c
        | some t =>
          cases t with
          | timeout => exact error_tame hr ..
          | resend =>
            dsimp only
            cases snd id with
            | ok => exact Tame.keep0 hr rfl
            | temp => exact Tame.same c
            | perm => exact error_tame hr ..

theorem join_tame (c : Client) (id : Nat) (snd : Nat → Send) : Tame c (onJoin c id snd).1 (onJoin c id snd).2 := by
  unfold onJoin
  cases hr : c.fr with
  | none => exact Tame.same c
  | some r =>
    dsimp only
    cases hq : findPeer id r.peers with
    | some q => exact Tame.same c
    | none => exact Tame.keep0 hr (by rw [reschedule_serial])

theorem leave_tame (c : Client) (id : Nat) (snd : Nat → Send) : Tame c (onLeave c id snd).1 (onLeave c id snd).2 := by
  unfold onLeave
  cases hr : c.fr with
  | none => exact Tame.same c
  | some r =>
    dsimp only
    cases hq : findPeer id r.peers with
    | none => exact Tame.same c
    | some q =>
      obtain ⟨i, p⟩ := q
      dsimp only
      cases hf : p.f with
      | none => exact Tame.keep0 hr rfl
      | some f =>
        dsimp only
        refine Tame.keep0 hr ((reschedule_serial snd _).trans ?_)
        dsimp only
        rw [addHeight_serial]

theorem cancel_tame (c : Client) (n : Nat) : Tame c (cancel c n) [] := by
  unfold cancel
  cases hr : c.fr with
  | none => exact Tame.same c
  | some r =>
    dsimp only
    split_ifs
    · exact ⟨rfl, by simp, by simp⟩
    · exact Tame.same c

/-- Consuming and rejecting: with the invariant. -/
theorem consume_tame {c : Client} {g : G} (I : Inv c g) {x : Res} (hx : x ∈ g.given) (snd : Nat → Send) :
    Tame c (consume c x snd).1 (consume c x snd).2 := by
  unfold consume
  cases hr : c.fr with
  | none => exact Tame.same c
  | some r =>
    dsimp only
    have K := I.cur r hr
    by_cases hs : r.serial ≠ x.req
    · rw [if_pos hs]; exact Tame.same c
    rw [if_neg hs]
    obtain ⟨hf, _⟩ := K.head hx (not_not.1 hs).symm
    obtain ⟨xs, hp⟩ := first_some hf
    rw [hp]
    dsimp only
    obtain ⟨C1, _, _⟩ := K.core.shift hp
    obtain ⟨C2, _, M2⟩ := reschedule_core snd C1
    have s2 := M2.serial
    dsimp only at s2
    generalize reschedule snd _ = r2 at *
    by_cases hend : r2.offset > r2.stop ∨ (r2.peers.length = 0 ∧ first r2 = none)
    · rw [if_pos hend]; exact Tame.stop hr s2 true
    rw [if_neg hend]
    cases hf2 : first r2 with
    | none => exact Tame.keep0 hr s2
    | some y =>
      obtain ⟨ys, hys⟩ := first_some hf2
      have hy := (C2.pres 0 y (by rw [hys]; rfl)).2
      refine Tame.keep hr s2 ?_
      intro a ha
      rw [List.mem_singleton] at ha
      rw [ha]
      exact hy.trans s2

theorem rejPeer_serial (r : Req) (id : Nat) (snd : Nat → Send) : (rejPeer r id snd).serial = r.serial := by
  unfold rejPeer
  cases findPeer id r.peers with
  | none => rfl
  | some q =>
    obtain ⟨i, p⟩ := q
    dsimp only
    cases p.f with
    | none => rfl
    | some f => exact reschedule_serial snd _

theorem reject_tame (c : Client) (x : Res) (snd : Nat → Send) : Tame c (reject c x snd).1 (reject c x snd).2 := by
  by_cases hcur : ∃ r, c.fr = some r ∧ x.req = r.serial
  · obtain ⟨r, hr, hs⟩ := hcur
    rw [reject_eq hr hs]
    have s1 := rejPeer_serial r x.id snd
    generalize rejPeer r x.id snd = r1 at *
    cases r1.pending with
    | nil => exact Tame.keep0 hr s1
    | cons y xs =>
      dsimp only
      have s4 : (dropResults (addHeight { r1 with pending := none :: xs } x.blk.height) x.id).serial = r.serial := by
        rw [dropResults_serial, addHeight_serial]; exact s1
      by_cases hl : (dropResults (addHeight { r1 with pending := none :: xs } x.blk.height) x.id).peers.length ≠ 0
      · rw [if_pos hl]
        exact Tame.keep0 hr ((reschedule_serial snd _).trans s4)
      · rw [if_neg hl]
        exact Tame.stop hr s4 false
  · have hne : ∀ r, c.fr = some r → r.serial ≠ x.req := fun r hr e => hcur ⟨r, hr, e.symm⟩
    have e : reject c x snd = (c, []) := by
      unfold reject
      cases hr : c.fr with
      | none => rfl
      | some r =>
        dsimp only
        rw [if_pos (hne r hr)]
    rw [e]
    exact Tame.same c

theorem fetch_next (c : Client) (b s : Nat) (ids : List Nat) (snd : Nat → Send) :
    c.next ≤ ((fetchBlocks c b s ids snd).getD c).next ∧
    ∀ r', ((fetchBlocks c b s ids snd).getD c).fr = some r' → r'.serial = c.next ∨ c.fr = some r' := by
  unfold fetchBlocks
  cases hr : c.fr with
  | some r =>
    refine ⟨Nat.le_refl _, fun r' h => Or.inr ?_⟩
    have h' : c.fr = some r' := h
    rw [hr] at h'
    exact h'
  | none =>
    dsimp only
    refine ⟨by dsimp only [Option.getD_some]; omega, fun r' h => Or.inl ?_⟩
    have : reschedule snd _ = r' := Option.some.inj h
    rw [← this]
    exact reschedule_serial snd _

/-- The number of a request that is over does not come back. -/
theorem step_new {parse : List Nat → Option Blk} {c : Client} {g : G} (I : Inv c g) (e : Ev) (snd : Nat → Send)
    (ha : Allowed g e) : c.next ≤ (step parse c e snd).1.next ∧
    (∀ r', (step parse c e snd).1.fr = some r' → r'.serial = c.next ∨ ∃ r, c.fr = some r ∧ r'.serial = r.serial) ∧
    ∀ a ∈ (step parse c e snd).2, ∃ r, c.fr = some r ∧ about a = r.serial := by
  have key : ∀ {c' : Client} {o : List Out}, Tame c c' o → c.next ≤ c'.next ∧
      (∀ r', c'.fr = some r' → r'.serial = c.next ∨ ∃ r, c.fr = some r ∧ r'.serial = r.serial) ∧
      ∀ a ∈ o, ∃ r, c.fr = some r ∧ about a = r.serial :=
    fun T => ⟨Nat.le_of_eq T.next.symm, fun r' h => Or.inr (T.cur r' h), T.out⟩
  cases e with
  | fetch b s ids =>
    obtain ⟨h1, h2⟩ := fetch_next c b s ids snd
    refine ⟨h1, fun r' h => ?_, fun a ha => ?_⟩
    · rcases h2 r' h with h | h
      · exact Or.inl h
      · exact Or.inr ⟨r', h, rfl⟩
    · have : a ∈ ([] : List Out) := ha
      simp at this
  | recv id m => exact key (recv_tame parse c id m snd)
  | timer id => exact key (timer_tame c id snd)
  | join id => exact key (join_tame c id snd)
  | leave id => exact key (leave_tame c id snd)
  | consume x => exact key (consume_tame I ha snd)
  | reject x => exact key (reject_tame c x snd)
  | cancel n => exact key (cancel_tame c n)

/-- Once a request is over or cancelled, nothing more is said about it, ever. -/
theorem silence {parse : List Nat → Option Blk} {c c' : Client} {g g' : G} (h : Run parse c g) (a : After parse c g c' g')
    {n : Nat} (hn : n < c.next) (ho : ∀ r, c.fr = some r → r.serial ≠ n) :
    (∀ r, c'.fr = some r → r.serial ≠ n) ∧ ∃ l, g'.log = g.log ++ l ∧ (∀ x, Out.onBlock x ∈ l → x.req ≠ n) ∧
      ∀ ok, Out.onEnd n ok ∉ l := by
  have main : (c.next ≤ c'.next) ∧ (∀ r, c'.fr = some r → r.serial ≠ n) ∧ ∃ l, g'.log = g.log ++ l ∧
      ∀ o ∈ l, about o ≠ n := by
    induction a with
    | refl => exact ⟨Nat.le_refl _, ho, [], by simp, by simp⟩
    | @step c1 g1 e snd a1 ha ih =>
      obtain ⟨h1, h2, l, h3, h4⟩ := ih
      obtain ⟨k1, k2, k3⟩ := step_new (parse := parse) (a1.run h).inv e snd ha
      refine ⟨Nat.le_trans h1 k1, fun r hr => ?_, l ++ (step parse c1 e snd).2, ?_, ?_⟩
      · rcases k2 r hr with h | ⟨r0, h, h'⟩
        · omega
        · rw [h']; exact h2 r0 h
      · have : ∀ o, (g1.next c1 e o).log = g1.log ++ o := by
          intro o
          cases e <;> try rfl
          show (match c1.fr with | some _ => _ | none => _ : G).log = _
          cases c1.fr <;> rfl
        rw [this, h3, List.append_assoc]
      · intro o ho
        rcases List.mem_append.1 ho with h | h
        · exact h4 o h
        · obtain ⟨r0, h5, h6⟩ := k3 o h
          rw [h6]; exact h2 r0 h5
  obtain ⟨_, h2, l, h3, h4⟩ := main
  exact ⟨h2, l, h3, fun x hx => h4 _ hx, fun ok hx => h4 _ hx rfl⟩

theorem next_lost {c : Client} {g : G} {r : Req} (hr : c.fr = some r) (e : Ev) (o : List Out) {k : Nat}
    (hk : k ∈ g.lost) : k ∈ (g.next c e o).lost := by
  cases e with
  | fetch b s ids =>
    unfold G.next
    rw [hr]
    exact hk
  | reject x =>
    show k ∈ (if current c x = true then g.lost ++ fetching c x.id else g.lost)
    split_ifs
    · exact List.mem_append_left _ hk
    · exact hk
  | _ => exact hk

/-- A height that a rejected peer was fetching is never fetched or handed over again while the request lasts: it never gets
beyond that height. -/
theorem lost_forever {parse : List Nat → Option Blk} {c c' : Client} {g g' : G} (h : Run parse c g) (a : After parse c g c' g')
    {r r' : Req} (hr : c.fr = some r) (hr' : c'.fr = some r') (hs : r'.serial = r.serial) {k : Nat} (hk : k ∈ g.lost) :
    r'.offset ≤ k ∧ k ∉ active r' ∧ (∀ x ∈ g'.done, x.blk.height < k) ∧
    ∀ x ∈ g'.given, x.req = r'.serial → x.blk.height < k := by
  have key : ∀ r', c'.fr = some r' → r'.serial = r.serial → k ∈ g'.lost := by
    clear hr' hs r'
    induction a with
    | refl => intro _ _ _; exact hk
    | @step c1 g1 e snd a1 ha ih =>
      intro r' hr' hs
      obtain ⟨_, k2, _⟩ := step_new (parse := parse) (a1.run h).inv e snd ha
      have hser : ∀ {c2 : Client} {g2 : G}, After parse c g c2 g2 → r.serial < c2.next := by
        intro c2 g2 a2
        induction a2 with
        | refl => exact (h.inv.cur r hr).ser
        | step e2 snd2 a3 ha3 ih3 =>
          exact Nat.lt_of_lt_of_le ih3 (step_new (parse := parse) (a3.run h).inv e2 snd2 ha3).1
      have := hser a1
      rcases k2 r' hr' with h1 | ⟨r0, h1, h2⟩
      · omega
      · exact next_lost h1 e _ (ih r0 h1 (by rw [← h2]; exact hs))
  have R := a.run h
  obtain ⟨h1, h2, h3, h4, h5, h6, h7⟩ := lost_nowhere R hr' (key r' hr' hs)
  have K := R.inv.cur r' hr'
  refine ⟨h1, h4, ?_, ?_⟩
  · intro x hx
    have : x.blk.height ∈ List.range' g'.start (r'.offset - g'.start) := by
      rw [← K.don]; exact List.mem_map.2 ⟨x, hx, rfl⟩
    rw [List.mem_range'_1] at this
    omega
  · intro x hx hq
    obtain ⟨hf, _⟩ := K.head hx hq
    obtain ⟨xs, hpp⟩ := first_some hf
    have e1 := (K.core.shift hpp).2.1
    have e2 := h7 x hx hq
    omega

/-! ### Why a request ends -/

theorem removeAt_length {l : List Peer} {i : Nat} {p : Peer} (h : l[i]? = some p) : l.length = (removeAt l i).length + 1 := by
  have := (removeAt_perm l i p h).length_eq
  simpa using this

/-- A request ends well only when a block was consumed and all blocks of its range were, or there is no peer. -/
theorem end_ok {parse : List Nat → Option Blk} {c : Client} {g : G} (h : Run parse c g) {e : Ev} (ha : Allowed g e)
    (snd : Nat → Send) {n : Nat} (ho : Out.onEnd n true ∈ (step parse c e snd).2) :
    ∃ r x, c.fr = some r ∧ n = r.serial ∧ e = .consume x ∧ x.req = n ∧
      (((g.next c e (step parse c e snd).2).done.map fun x => x.blk.height) = List.range' g.start (r.stop + 1 - g.start) ∨
        r.peers = []) := by
  have noE : ∀ {c : Client} {r : Req} {i id : Nat} {f : Fetcher} {nb : Bool},
      Out.onEnd n true ∉ (onError c r i id f nb snd).2 := by
    intro c r i id f nb hm
    unfold onError at hm
    dsimp only at hm
    split_ifs at hm <;> simp [keep, cancelReq] at hm
  have noB : ∀ {c : Client} {r : Req} {i id : Nat} {p : Peer} {f : Fetcher} {b : Blk},
      Out.onEnd n true ∉ (onBlock c r i id p f b snd).2 := by
    intro c r i id p f b hm
    unfold onBlock at hm
    dsimp only at hm
    split_ifs at hm <;> simp [keep] at hm
  cases e with
  | fetch b s ids => exact absurd ho (by simp [step])
  | cancel n => exact absurd ho (by simp [step])
  | recv id m =>
    exfalso
    have ho' : Out.onEnd n true ∈ (onReceive parse c id m snd).2 := ho
    unfold onReceive at ho'
    cases hr : c.fr with
    | none => rw [hr] at ho'; simp at ho'
    | some r =>
      rw [hr] at ho'
      dsimp only at ho'
      cases hq : findPeer id r.peers with
      | none => rw [hq] at ho'; simp at ho'
      | some q =>
        obtain ⟨i, p⟩ := q
        rw [hq] at ho'
        dsimp only at ho'
        cases hf : p.f with
        | none => rw [hf] at ho'; simp at ho'
        | some f =>
          rw [hf] at ho'
          dsimp only at ho'
          cases hs : f.step <;> cases m <;> simp only [hs] at ho' <;>
            first
            | (exfalso; simp at ho'; done)
            | skip
          · split_ifs at ho'
            · simp at ho'
            · exact noE ho'
            · simp [keep] at ho'
          · split_ifs at ho'
            · simp at ho'
            · cases hb : parse _ with
              | none => rw [hb] at ho'; exact noE ho'
              | some b =>
                rw [hb] at ho'
                dsimp only at ho'
                split_ifs at ho'
                · exact noE ho'
                · exact noB ho'
            · exact noE ho'
            · simp [keep] at ho'
  | timer id =>
    exfalso
    have ho' : Out.onEnd n true ∈ (onTimer c id snd).2 := ho
    unfold onTimer at ho'
    cases hr : c.fr with
    | none => rw [hr] at ho'; simp at ho'
    | some r =>
      rw [hr] at ho'
      dsimp only at ho'
      cases hq : findPeer id r.peers with
      | none => rw [hq] at ho'; simp at ho'
      | some q =>
        obtain ⟨i, p⟩ := q
        rw [hq] at ho'
        dsimp only at ho'
        cases hf : p.f with
        | none => rw [hf] at ho'; simp at ho'
        | some f =>
          rw [hf] at ho'
          dsimp only at ho'
          cases ht : f.timer with
          | none => rw [ht] at ho'; simp at ho'
          | some t =>
            rw [ht] at ho'
            cases t with
            | timeout => exact noE ho'
            | resend =>
              dsimp only at ho'
              cases hsd : snd id <;> rw [hsd] at ho'
              · simp [keep] at ho'
              · simp at ho'
              · exact noE ho'
  | join id =>
    exfalso
    have ho' : Out.onEnd n true ∈ (onJoin c id snd).2 := ho
    unfold onJoin at ho'
    cases hr : c.fr with
    | none => rw [hr] at ho'; simp at ho'
    | some r =>
      rw [hr] at ho'
      dsimp only at ho'
      cases hq : findPeer id r.peers <;> rw [hq] at ho' <;> simp [keep] at ho'
  | leave id =>
    exfalso
    have ho' : Out.onEnd n true ∈ (onLeave c id snd).2 := ho
    unfold onLeave at ho'
    cases hr : c.fr with
    | none => rw [hr] at ho'; simp at ho'
    | some r =>
      rw [hr] at ho'
      dsimp only at ho'
      cases hq : findPeer id r.peers with
      | none => rw [hq] at ho'; simp at ho'
      | some q =>
        obtain ⟨i, p⟩ := q
        rw [hq] at ho'
        dsimp only at ho'
        cases hf : p.f <;> rw [hf] at ho' <;> simp [keep] at ho'
  | reject x =>
    exfalso
    have ho' : Out.onEnd n true ∈ (reject c x snd).2 := ho
    unfold reject at ho'
    cases hr : c.fr with
    | none => rw [hr] at ho'; simp at ho'
    | some r =>
      rw [hr] at ho'
      dsimp only at ho'
      by_cases hs : r.serial ≠ x.req
      · rw [if_pos hs] at ho'; simp at ho'
      rw [if_neg hs] at ho'
      split at ho'
      · simp [keep] at ho'
      · split_ifs at ho' <;> simp [keep, cancelReq] at ho'
  | consume x =>
    have ho' : Out.onEnd n true ∈ (consume c x snd).2 := ho
    have hnx : ∀ o, (g.next c (.consume x) o).done = if current c x then g.done ++ [x] else g.done := fun o => rfl
    rw [hnx]
    unfold consume at ho'
    cases hr : c.fr with
    | none => rw [hr] at ho'; simp at ho'
    | some r =>
      rw [hr] at ho'
      dsimp only at ho'
      have K := h.inv.cur r hr
      by_cases hs : r.serial ≠ x.req
      · rw [if_pos hs] at ho'; simp at ho'
      rw [if_neg hs] at ho'
      have hs' : x.req = r.serial := (not_not.1 hs).symm
      obtain ⟨hf, _⟩ := K.head ha hs'
      obtain ⟨xs, hp⟩ := first_some hf
      rw [hp] at ho'
      dsimp only at ho'
      obtain ⟨C1, hh, hle⟩ := K.core.shift hp
      obtain ⟨C2, _, M2⟩ := reschedule_core snd C1
      have s2 := M2.serial
      have o2 := M2.offset
      have t2 := M2.stop
      have l2 := M2.len
      dsimp only at s2 o2 t2 l2
      generalize reschedule snd _ = r2 at *
      have hct : current c x = true := by unfold current; rw [hr]; simpa using hs'.symm
      rw [if_pos hct]
      by_cases hend : r2.offset > r2.stop ∨ (r2.peers.length = 0 ∧ first r2 = none)
      · rw [if_pos hend] at ho'
        have hn : n = r2.serial := by simpa [cancelReq] using ho'
        refine ⟨r, x, rfl, hn.trans s2, rfl, by rw [hs', hn, s2], ?_⟩
        rcases hend with h1 | h1
        · left
          have hst := K.sta
          rw [List.map_append, K.don]
          have : r.stop + 1 - g.start = (r.offset - g.start) + 1 := by omega
          rw [this, List.range'_1_concat]
          simp only [List.map_cons, List.map_nil, hh]
          congr 2
          omega
        · right
          exact List.length_eq_zero_iff.1 (by omega)
      · rw [if_neg hend] at ho'
        cases hf2 : first r2 with
        | none => rw [hf2] at ho'; simp [keep] at ho'
        | some y => rw [hf2] at ho'; simp [keep] at ho'

end Verif.FastSync
