import Verif.Streams.Progress

/-!
# Runs
-/

namespace Verif.Streams

def d1 : Data := ⟨1, [1]⟩
def d2 : Data := ⟨1, [2]⟩

/-- What can be done. -/
inductive Do where
  | send (x : Side) (d : Data)
  | arrive (x : Side)
  | lose (x : Side)
  | repost (x : Side)
  | ack (x : Side)

/-- One step, at time 0; the network takes everything. -/
def do1 (c : Sys) (h : Hist) : Do → Option (Sys × Hist)
  | .send x d =>
    match send (c.str x) d 0 true with
    | none => none
    | some (s, o) => some (⟨set c.str x s, set c.net x (c.net x ++ o)⟩, { h with sent := set h.sent x (h.sent x ++ [d]) })
  | .arrive x =>
    match c.net x with
    | [] => none
    | m :: ms => some (⟨set c.str x.other (receive (c.str x.other) m 0 fun _ => true).1,
          set (set c.net x ms) x.other (c.net x.other ++ (receive (c.str x.other) m 0 fun _ => true).2.1)⟩,
        { h with taken := if (receive (c.str x.other) m 0 fun _ => true).2.2 then set h.taken x (h.taken x ++ [m.data]) else h.taken })
  | .lose x => some (⟨c.str, set c.net x (c.net x).tail⟩, h)
  | .repost x => some (⟨set c.str x (onRepost (c.str x) 0 true).1, set c.net x (c.net x ++ (onRepost (c.str x) 0 true).2)⟩, h)
  | .ack x => some (⟨set c.str x (onAckTimer (c.str x) true).1, set c.net x (c.net x ++ (onAckTimer (c.str x) true).2)⟩, h)

def play (c : Sys) (h : Hist) : List Do → Option (Sys × Hist)
  | [] => some (c, h)
  | d :: ds => match do1 c h d with
    | none => none
    | some p => play p.1 p.2 ds

theorem do1_run {c : Sys} {h : Hist} (r : Run c h) (d : Do) {p : Sys × Hist} (e : do1 c h d = some p) : Run p.1 p.2 := by
  cases d with
  | send x d =>
    unfold do1 at e
    dsimp only at e
    cases hs : send (c.str x) d 0 true with
    | none => rw [hs] at e; simp at e
    | some q =>
      obtain ⟨s, o⟩ := q
      rw [hs] at e
      simp only [Option.some.injEq] at e
      rw [← e]
      exact r.step (.send x d 0 true hs)
  | arrive x =>
    unfold do1 at e
    dsimp only at e
    cases hn : c.net x with
    | nil => rw [hn] at e; simp at e
    | cons m ms =>
      rw [hn] at e
      simp only [Option.some.injEq] at e
      rw [← e]
      exact r.step (.arrive x m ms 0 (fun _ => true) hn)
  | lose x =>
    simp only [do1, Option.some.injEq] at e
    rw [← e]
    exact r.step (.lose x _ (List.tail_sublist _))
  | repost x =>
    simp only [do1, Option.some.injEq] at e
    rw [← e]
    exact r.step (.repost x 0 true)
  | ack x =>
    simp only [do1, Option.some.injEq] at e
    rw [← e]
    exact r.step (.ack x true)

theorem play_run {c : Sys} {h : Hist} (r : Run c h) (ds : List Do) {p : Sys × Hist} (e : play c h ds = some p) :
    Run p.1 p.2 := by
  induction ds generalizing c h with
  | nil =>
    simp only [play, Option.some.injEq] at e
    rw [← e]; exact r
  | cons d ds ih =>
    unfold play at e
    cases hd : do1 c h d with
    | none => rw [hd] at e; simp at e
    | some q =>
      rw [hd] at e
      exact ih (do1_run r d hd) e

/-- What is to be seen of a state. -/
def see (p : Sys × Hist) : List Nat × List Data × List (Option Data) × List Data :=
  ([(p.1.str .a).seq, (p.1.str .a).peerAck, (p.1.str .b).peerSeq], (p.1.str .a).unacked.map (fun i => i.data),
    p.2.taken .a, p.2.got .a)

/-- Two messages; the first is lost and sent again, then the second. -/
example : (play Sys.new Hist.new [.send .a d1, .send .a d2, .lose .a, .arrive .a, .arrive .b, .repost .a, .arrive .a,
    .ack .b, .arrive .b, .arrive .a, .ack .b, .arrive .b]).map see =
    some ([2, 2, 2], [], [some d1, some d2], [d1, d2]) := by decide +kernel

/-- A message of `a` is lost; a message of `b` comes, and `a` acknowledges it. -/
def swallow : List Do :=
  [.send .a d1, .lose .a, .send .b d2, .arrive .b, .ack .a, .arrive .a, .ack .b, .arrive .b]

/-- Found in the Go code: `postAck` (stream.go:176-181) sends the number of the last message, and `receive` (stream.go:184-198)
takes a message with the next number whether there is data in it or not. So the acknowledgement is taken in the place of the lost
message, the lost message is acknowledged, and `a` forgets it. -/
theorem found_swallowed : ∃ c h, Run c h ∧ h.sent .a = [d1] ∧ h.taken .a = [none] ∧ h.got .a = [] ∧ (c.str .a).unacked = [] ∧
    (c.str .a).repost = none ∧ ∀ c' h', After c h c' h' → (h'.taken .a)[0]? = some none := by
  cases e : play Sys.new Hist.new swallow with
  | none =>
    have : (play Sys.new Hist.new swallow).isSome = true := by decide +kernel
    rw [e] at this
    simp at this
  | some p =>
    have H : (play Sys.new Hist.new swallow).map (fun p => (p.2.sent .a, p.2.taken .a, p.2.got .a, (p.1.str .a).unacked.length,
        (p.1.str .a).repost.isSome)) = some ([d1], [none], [], 0, false) := by decide +kernel
    rw [e] at H
    simp only [Option.map_some, Option.some.injEq, Prod.mk.injEq] at H
    obtain ⟨h1, h2, h3, h4, h5⟩ := H
    exact ⟨p.1, p.2, play_run .init _ e, h1, h2, h3, List.length_eq_zero_iff.mp h4, by simpa using h5, fun c' h' s => taken_stays s .a 0 none (by rw [h2]; rfl)⟩

end Verif.Streams
