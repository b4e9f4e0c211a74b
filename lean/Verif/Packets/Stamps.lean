import Verif.Packets.Thms

/-!
# The pool with seconds

Models `TimestampPool` of `network/pool.go`: a peer remembers for some seconds what it sent and got.

Simplifications: keys are numbers, and so are seconds, from 1 on; the clock does not go back and a removal is of at least one
second (as in peer.go:440); the loop of `RemoveBefore` is one change of all buckets (it treats each alone).
-/

namespace Verif.Packets

/-- A `TimestampPool` (pool.go:87-94). -/
structure TPool where
  n : Nat
  cur : Nat
  ts : Nat → Nat
  buckets : Nat → Option (List Nat)
  lastRemove : Nat

/-- `NewTimestampPool` (pool.go:96-104). -/
def TPool.new (n : Nat) : TPool := ⟨n, 0, fun _ => 0, fun _ => none, 0⟩

/-- The loop of `_contains` (pool.go:108-122). -/
def TPool.look (p : TPool) (k : Nat) : Nat → Nat → Bool
  | 0, _ => false
  | i + 1, cur =>
    if p.ts cur < 1 then false
    else if ((p.buckets cur).getD []).contains k then true
    else p.look k i ((if cur < 1 then p.n else cur) - 1)

/-- `_contains`, `Contains` (pool.go:106-124, 179-184). -/
def TPool.contains (p : TPool) (k : Nat) : Bool := p.look k p.n p.cur

/-- `Put` (pool.go:126-143); none: a panic. -/
def TPool.put (p : TPool) (k now : Nat) : Option TPool :=
  let q : TPool :=
    if p.ts p.cur ≠ now then
      let c := if p.n ≤ p.cur + 1 then 0 else p.cur + 1
      { p with cur := c, buckets := upd p.buckets c (some []), ts := upd p.ts c now }
    else p
  match q.buckets q.cur with
  | none => none
  | some m => some { q with buckets := upd q.buckets q.cur (some (k :: m)) }

/-- `Clear` (pool.go:145-154). -/
def TPool.clear (p : TPool) : TPool :=
  { p with cur := 0, buckets := fun i => if i < p.n then none else p.buckets i, ts := fun i => if i < p.n then 0 else p.ts i }

/-- `RemoveBefore` (pool.go:156-177). -/
def TPool.remove (p : TPool) (d now : Nat) : TPool :=
  let expire := now - d
  if expire ≤ p.lastRemove then p
  else { p with
    buckets := fun i => if i < p.n ∧ p.ts i ≤ expire then none else p.buckets i
    ts := fun i => if i < p.n ∧ p.ts i ≤ expire then 0 else p.ts i
    lastRemove := expire }

/-- A pool, the clock, and what was put (when, and what; the last one first) since the last clear and after what was removed. -/
inductive TRun (n : Nat) : TPool → Nat → List (Nat × Nat) → Prop
  | new : TRun n (.new n) 1 []
  | tick {p : TPool} {now : Nat} {hs : List (Nat × Nat)} (d : Nat) : TRun n p now hs → TRun n p (now + d) hs
  | put {p p' : TPool} {now : Nat} {hs : List (Nat × Nat)} {k : Nat} : TRun n p now hs → p.put k now = some p' →
      TRun n p' now ((now, k) :: hs)
  | clear {p : TPool} {now : Nat} {hs : List (Nat × Nat)} : TRun n p now hs → TRun n p.clear now []
  | remove {p : TPool} {now : Nat} {hs : List (Nat × Nat)} (d : Nat) : TRun n p now hs → 1 ≤ d →
      TRun n (p.remove d now) now (hs.filter fun e => decide (now - d < e.1))

/-- The buckets as groups, the current one first: from some place on all are empty. -/
structure TInv (n : Nat) (p : TPool) (gs : List (Nat × List Nat)) (now : Nat) (hs : List (Nat × Nat)) : Prop where
  hn : p.n = n
  cur : p.cur < n
  le : gs.length ≤ n
  one : 1 ≤ now
  rep : ∀ j < n, ∀ g, gs[j]? = some g → p.ts (back n p.cur j) = g.1 ∧ p.buckets (back n p.cur j) = some g.2
  zero : ∀ j < n, gs[j]? = none → p.ts (back n p.cur j) = 0
  pos : ∀ g ∈ gs, 1 ≤ g.1 ∧ g.1 ≤ now ∧ p.lastRemove < g.1
  last : p.lastRemove < now
  sorted : gs.Pairwise fun a b => b.1 < a.1
  sound : ∀ g ∈ gs, ∀ k ∈ g.2, (g.1, k) ∈ hs
  all : ∀ t k, (t, k) ∈ hs → (∃ b, (t, b) ∈ gs ∧ k ∈ b) ∨ (gs.length = n ∧ ∀ g ∈ gs, t < g.1)
  head : ∀ e g, hs.head? = some e → gs.head? = some g → e.1 = g.1
  order : hs.Pairwise fun a b => b.1 ≤ a.1
  after : ∀ e ∈ hs, p.lastRemove < e.1

theorem TInv.look {n : Nat} {p : TPool} {gs : List (Nat × List Nat)} {now : Nat} {hs : List (Nat × Nat)} (I : TInv n p gs now hs)
    (k : Nat) (i : Nat) : ∀ j, i + j = n → (p.look k i (back n p.cur j) = true ↔ ∃ g ∈ gs.drop j, k ∈ g.2) := by
  induction i with
  | zero =>
    intro j hj
    have := I.le
    rw [List.drop_eq_nil_of_le (by omega)]
    simp [TPool.look]
  | succ i ih =>
    intro j hj
    have hc := I.cur
    unfold TPool.look
    cases hg : gs[j]? with
    | none =>
      rw [if_pos (by rw [I.zero j (by omega) hg]; omega)]
      rw [List.getElem?_eq_none_iff] at hg
      rw [List.drop_eq_nil_of_le hg]
      simp
    | some g =>
      obtain ⟨h1, h2⟩ := I.rep j (by omega) g hg
      obtain ⟨hlt, hm⟩ := List.getElem?_eq_some_iff.1 hg
      have hp := (I.pos g (List.mem_of_getElem? hg)).1
      rw [if_neg (by omega), h2, Option.getD_some, List.drop_eq_getElem_cons hlt, hm]
      by_cases hmem : k ∈ g.2
      · rw [if_pos (by simpa using hmem)]
        simp [hmem]
      · rw [if_neg (by simpa using hmem)]
        cases i with
        | zero =>
          have := I.le
          rw [List.drop_eq_nil_of_le (by omega)]
          simp [TPool.look, hmem]
        | succ i =>
          have : (if back n p.cur j < 1 then p.n else back n p.cur j) - 1 = back n p.cur (j + 1) := by
            rw [I.hn]
            unfold back
            split_ifs <;> omega
          rw [this, ih (j + 1) (by omega)]
          simp [hmem]

theorem TInv.contains {n : Nat} {p : TPool} {gs : List (Nat × List Nat)} {now : Nat} {hs : List (Nat × Nat)}
    (I : TInv n p gs now hs) (k : Nat) : p.contains k = true ↔ ∃ g ∈ gs, k ∈ g.2 := by
  have := I.look k n 0 rfl
  unfold TPool.contains
  rw [I.hn]
  rw [show back n p.cur 0 = p.cur from by unfold back; rw [if_pos (Nat.zero_le _)]; rfl, List.drop_zero] at this
  exact this

theorem TInv.empty {n : Nat} (hn : 1 ≤ n) {p : TPool} {now : Nat} (h1 : p.n = n) (h3 : p.cur = 0) (h4 : ∀ i < n, p.ts i = 0)
    (h5 : p.lastRemove < now) : TInv n p [] now [] := by
  refine ⟨h1, by omega, Nat.zero_le _, by omega, by simp, ?_, by simp, h5, List.Pairwise.nil, by simp, by simp, by simp,
    List.Pairwise.nil, by simp⟩
  intro j hj _
  apply h4
  unfold back
  split_ifs <;> omega

theorem TInv.tick {n : Nat} {p : TPool} {gs : List (Nat × List Nat)} {now : Nat} {hs : List (Nat × Nat)}
    (I : TInv n p gs now hs) (d : Nat) : TInv n p gs (now + d) hs := by
  have := I.last
  have := I.one
  exact ⟨I.hn, I.cur, I.le, by omega, I.rep, I.zero,
    fun g hg => ⟨(I.pos g hg).1, Nat.le_trans (I.pos g hg).2.1 (Nat.le_add_right _ _), (I.pos g hg).2.2⟩,
    by omega, I.sorted, I.sound, I.all, I.head, I.order, I.after⟩

theorem TInv.hist_le {n : Nat} (hn : 1 ≤ n) {p : TPool} {gs : List (Nat × List Nat)} {now : Nat} {hs : List (Nat × Nat)}
    (I : TInv n p gs now hs) : ∀ e ∈ hs, e.1 ≤ now := by
  rintro ⟨t, k⟩ he
  rcases I.all t k he with ⟨b, hb, _⟩ | ⟨hl, h⟩
  · exact (I.pos _ hb).2.1
  · cases gs with
    | nil => simp at hl; omega
    | cons g gs =>
      have h1 := h g (by simp)
      have h2 := (I.pos g (by simp)).2.1
      dsimp only
      omega

/-- A put in the second of the current bucket. -/
theorem TInv.put_same {n : Nat} (hn : 1 ≤ n) {p : TPool} {g : Nat × List Nat} {rest : List (Nat × List Nat)} {now : Nat}
    {hs : List (Nat × Nat)} (I : TInv n p (g :: rest) now hs) (hg : g.1 = now) (k : Nat) :
    TInv n { p with buckets := upd p.buckets p.cur (some (k :: g.2)) } ((now, k :: g.2) :: rest) now ((now, k) :: hs) := by
  have hcur := I.cur
  have hle := I.hist_le hn
  refine ⟨I.hn, I.cur, by simpa using I.le, I.one, ?_, ?_, ?_, I.last, ?_, ?_, ?_, ?_, ?_, ?_⟩
  · intro j hj x hx
    cases j with
    | zero =>
      rw [List.getElem?_cons_zero, Option.some.injEq] at hx
      subst hx
      have := (I.rep 0 hj g rfl).1
      have hb : back n p.cur 0 = p.cur := by unfold back; rw [if_pos (Nat.zero_le _)]; rfl
      dsimp only
      rw [hb] at this ⊢
      exact ⟨by rw [this, hg], by unfold upd; rw [if_pos rfl]⟩
    | succ j =>
      rw [List.getElem?_cons_succ] at hx
      obtain ⟨h1, h2⟩ := I.rep (j + 1) hj x (by rw [List.getElem?_cons_succ]; exact hx)
      refine ⟨h1, ?_⟩
      unfold upd
      dsimp only
      rw [if_neg (by unfold back; split_ifs <;> omega)]
      exact h2
  · intro j hj hx
    cases j with
    | zero => simp at hx
    | succ j => exact I.zero (j + 1) hj (by rw [List.getElem?_cons_succ] at hx ⊢; exact hx)
  · intro x hx
    rcases List.mem_cons.1 hx with rfl | hx
    · exact ⟨I.one, Nat.le_refl _, I.last⟩
    · exact I.pos x (List.mem_cons_of_mem _ hx)
  · obtain ⟨h1, h2⟩ := List.pairwise_cons.1 I.sorted
    refine List.pairwise_cons.2 ⟨?_, h2⟩
    intro x hx
    have := h1 x hx
    dsimp only
    omega
  · intro x hx y hy
    rcases List.mem_cons.1 hx with rfl | hx
    · rcases List.mem_cons.1 hy with rfl | hy
      · simp
      · exact List.mem_cons_of_mem _ (hg ▸ I.sound g (by simp) y hy)
    · exact List.mem_cons_of_mem _ (I.sound x (List.mem_cons_of_mem _ hx) y hy)
  · intro t y hy
    rcases List.mem_cons.1 hy with hy | hy
    · rw [Prod.mk.injEq] at hy
      obtain ⟨rfl, rfl⟩ := hy
      exact .inl ⟨_, List.mem_cons_self, by simp⟩
    · rcases I.all t y hy with ⟨b, hb, hyb⟩ | ⟨hl, h⟩
      · rcases List.mem_cons.1 hb with rfl | hb
        · refine .inl ⟨k :: b, ?_, List.mem_cons_of_mem _ hyb⟩
          have : t = now := hg
          rw [this]
          exact List.mem_cons_self
        · exact .inl ⟨b, List.mem_cons_of_mem _ hb, hyb⟩
      · refine .inr ⟨by simpa using hl, ?_⟩
        intro x hx
        rcases List.mem_cons.1 hx with rfl | hx
        · have := h g (by simp); dsimp only; omega
        · exact h x (List.mem_cons_of_mem _ hx)
  · intro e x he hx
    rw [List.head?_cons, Option.some.injEq] at he hx
    rw [← he, ← hx]
  · exact List.pairwise_cons.2 ⟨fun e he => hle e he, I.order⟩
  · intro e he
    rcases List.mem_cons.1 he with rfl | he
    · exact I.last
    · exact I.after e he

/-- A put in another second than that of the current bucket. -/
theorem TInv.put_next {n : Nat} (hn : 1 ≤ n) {p : TPool} {gs : List (Nat × List Nat)} {now : Nat}
    {hs : List (Nat × Nat)} (I : TInv n p gs now hs) (hg : ∀ g ∈ gs, g.1 < now) (k : Nat) {c : Nat}
    (hc : (if n ≤ p.cur + 1 then 0 else p.cur + 1) = c) :
    TInv n { p with cur := c, buckets := upd (upd p.buckets c (some [])) c (some [k]), ts := upd p.ts c now }
      (((now, [k]) :: gs).take n) now ((now, k) :: hs) := by
  have hcur := I.cur
  have hle := I.hist_le hn
  have hcn : c < n := by rw [← hc]; split_ifs <;> omega
  have hback : ∀ j, j + 1 < n → back n c (j + 1) ≠ c ∧ back n c (j + 1) = back n p.cur j := by
    intro j hj
    constructor
    · unfold back; split_ifs <;> omega
    · rw [← hc]; unfold back; split_ifs <;> omega
  have hb0 : back n c 0 = c := by unfold back; rw [if_pos (Nat.zero_le _)]; rfl
  have hupd : ∀ {α : Type} (f : Nat → α) (v : α) (j : Nat), j + 1 < n → upd f c v (back n c (j + 1)) = f (back n p.cur j) := by
    intro α f v j hj
    unfold upd
    rw [if_neg (hback j hj).1, (hback j hj).2]
  refine ⟨I.hn, hcn, by rw [List.length_take]; omega, I.one, ?_, ?_, ?_, I.last, ?_, ?_, ?_, ?_, ?_, ?_⟩
  · intro j hj x hx
    rw [List.getElem?_take, if_pos hj] at hx
    cases j with
    | zero =>
      rw [List.getElem?_cons_zero, Option.some.injEq] at hx
      subst hx
      dsimp only
      rw [hb0]
      unfold upd
      rw [if_pos rfl, if_pos rfl]
      exact ⟨rfl, rfl⟩
    | succ j =>
      rw [List.getElem?_cons_succ] at hx
      dsimp only
      obtain ⟨h1, h2⟩ := I.rep j (by omega) x hx
      refine ⟨(hupd _ _ j hj).trans h1, (hupd _ _ j hj).trans ?_⟩
      rw [← (hback j hj).2]
      exact (hupd _ _ j hj).trans h2
  · intro j hj hx
    rw [List.getElem?_take, if_pos hj] at hx
    cases j with
    | zero => simp at hx
    | succ j =>
      rw [List.getElem?_cons_succ] at hx
      dsimp only
      rw [hupd _ _ j hj]
      exact I.zero j (by omega) hx
  · intro x hx
    rcases List.mem_cons.1 (List.mem_of_mem_take hx) with rfl | hx
    · exact ⟨I.one, Nat.le_refl _, I.last⟩
    · exact I.pos x hx
  · exact (List.pairwise_cons.2 ⟨fun x hx => hg x hx, I.sorted⟩).sublist (List.take_sublist _ _)
  · intro x hx y hy
    rcases List.mem_cons.1 (List.mem_of_mem_take hx) with rfl | hx
    · rw [List.mem_singleton] at hy
      rw [hy]; exact List.mem_cons_self
    · exact List.mem_cons_of_mem _ (I.sound x hx y hy)
  · obtain ⟨m, rfl⟩ : ∃ m, n = m + 1 := ⟨n - 1, by omega⟩
    have hle' := I.le
    intro t y hy
    rcases List.mem_cons.1 hy with hy | hy
    · rw [Prod.mk.injEq] at hy
      obtain ⟨rfl, rfl⟩ := hy
      exact .inl ⟨_, by rw [List.take_succ_cons]; exact List.mem_cons_self, by simp⟩
    · -- is it among those that stay?
      have hgone : gs.length = m + 1 → (∀ x ∈ gs.take m, t < x.1) → t < now →
          (((now, [k]) :: gs).take (m + 1)).length = m + 1 ∧ ∀ x ∈ ((now, [k]) :: gs).take (m + 1), t < x.1 := by
        intro hl h ht
        refine ⟨by rw [List.length_take, List.length_cons]; omega, ?_⟩
        intro x hx
        rw [List.take_succ_cons] at hx
        rcases List.mem_cons.1 hx with rfl | hx
        · exact ht
        · exact h x hx
      rcases I.all t y hy with ⟨b, hb, hyb⟩ | ⟨hl, h⟩
      · by_cases hin : (t, b) ∈ gs.take m
        · exact .inl ⟨b, by rw [List.take_succ_cons]; exact List.mem_cons_of_mem _ hin, hyb⟩
        · right
          have hsplit := List.take_append_drop m gs
          have hd : (t, b) ∈ gs.drop m := by
            rw [← hsplit] at hb
            exact (List.mem_append.1 hb).resolve_left hin
          have hl : gs.length = m + 1 := by
            by_contra hcon
            rw [List.drop_eq_nil_of_le (by omega)] at hd
            simp at hd
          refine hgone hl ?_ (hg _ hb)
          intro x hx
          have hs := I.sorted
          rw [← hsplit] at hs
          exact (List.pairwise_append.1 hs).2.2 x hx (t, b) hd
      · right
        refine hgone hl (fun x hx => h x (List.mem_of_mem_take hx)) ?_
        cases gs with
        | nil => simp at hl
        | cons g gs =>
          have h1 := h g (by simp)
          have h2 := hg g (by simp)
          omega
  · intro e x he hx
    obtain ⟨m, rfl⟩ : ∃ m, n = m + 1 := ⟨n - 1, by omega⟩
    rw [List.take_succ_cons, List.head?_cons, Option.some.injEq] at hx
    rw [List.head?_cons, Option.some.injEq] at he
    rw [← he, ← hx]
  · exact List.pairwise_cons.2 ⟨fun e he => hle e he, I.order⟩
  · intro e he
    rcases List.mem_cons.1 he with rfl | he
    · exact I.last
    · exact I.after e he

theorem TInv.put {n : Nat} (hn : 1 ≤ n) {p : TPool} {gs : List (Nat × List Nat)} {now : Nat}
    {hs : List (Nat × Nat)} (I : TInv n p gs now hs) (k : Nat) :
    ∃ p' gs', p.put k now = some p' ∧ TInv n p' gs' now ((now, k) :: hs) := by
  have hone := I.one
  have hb0 : back n p.cur 0 = p.cur := by unfold back; rw [if_pos (Nat.zero_le _)]; rfl
  unfold TPool.put
  by_cases hts : p.ts p.cur = now
  · cases gs with
    | nil =>
      have := I.zero 0 (by omega) rfl
      rw [hb0] at this
      omega
    | cons g rest =>
      obtain ⟨h1, h2⟩ := I.rep 0 (by omega) g rfl
      rw [hb0] at h1 h2
      rw [if_neg (not_not_intro hts)]
      dsimp only
      rw [h2]
      exact ⟨_, _, rfl, I.put_same hn (by omega) k⟩
  · rw [if_pos hts]
    dsimp only
    rw [I.hn]
    generalize hc : (if n ≤ p.cur + 1 then 0 else p.cur + 1) = c
    have hu : upd p.buckets c (some []) c = some [] := by unfold upd; rw [if_pos rfl]
    rw [hu]
    dsimp only
    have hg : ∀ g ∈ gs, g.1 < now := by
      cases gs with
      | nil => simp
      | cons g rest =>
        obtain ⟨h1, h2⟩ := I.rep 0 (by omega) g rfl
        rw [hb0] at h1
        have h3 := (I.pos g (by simp)).2.1
        intro x hx
        rcases List.mem_cons.1 hx with rfl | hx
        · omega
        · have := (List.pairwise_cons.1 I.sorted).1 x hx
          omega
    have h := I.put_next hn hg k hc
    rw [I.hn] at h
    exact ⟨_, _, rfl, h⟩

theorem TInv.remove {n : Nat} {p : TPool} {gs : List (Nat × List Nat)} {now : Nat}
    {hs : List (Nat × Nat)} (I : TInv n p gs now hs) {d : Nat} (hd : 1 ≤ d) :
    ∃ gs', TInv n (p.remove d now) gs' now (hs.filter fun e => decide (now - d < e.1)) := by
  have hone := I.one
  have hcur := I.cur
  unfold TPool.remove
  dsimp only
  by_cases hr : now - d ≤ p.lastRemove
  · rw [if_pos hr]
    refine ⟨gs, ?_⟩
    rw [List.filter_eq_self.2]
    · exact I
    · intro e he
      have := I.after e he
      simp only [decide_eq_true_eq]
      omega
  · rw [if_neg hr]
    generalize hx : now - d = x at hr ⊢
    have hxn : x < now := by omega
    -- what stays comes first
    have hpre : gs.filter (fun g => decide (x < g.1)) <+: gs := by
      have hs := I.sorted
      clear I
      induction gs with
      | nil => exact List.nil_prefix
      | cons g gs ih =>
        obtain ⟨h1, h2⟩ := List.pairwise_cons.1 hs
        by_cases hg : x < g.1
        · rw [List.filter_cons_of_pos (by simpa using hg)]
          exact List.cons_prefix_cons.2 ⟨rfl, ih h2⟩
        · rw [List.filter_cons_of_neg (by simpa using hg)]
          have : gs.filter (fun g => decide (x < g.1)) = [] := by
            rw [List.filter_eq_nil_iff]
            intro y hy
            have := h1 y hy
            simp only [decide_eq_true_eq]
            omega
          rw [this]
          exact List.nil_prefix
    have hget : ∀ (j : Nat) (g : Nat × List Nat), gs[j]? = some g → x < g.1 → (gs.filter (fun g => decide (x < g.1)))[j]? = some g := by
      intro j g hg hxg
      obtain ⟨t, ht⟩ := hpre
      rw [← ht, List.getElem?_append] at hg
      split_ifs at hg with hlt
      · exact hg
      · exfalso
        have hmem : g ∈ gs := by
          rw [← ht]
          exact List.mem_append_right _ (List.mem_of_getElem? hg)
        have h2 : g ∈ gs.filter (fun g => decide (x < g.1)) := List.mem_filter.2 ⟨hmem, by simpa using hxg⟩
        have hs := I.sorted
        rw [← ht] at hs
        have := (List.pairwise_append.1 hs).2.2 g h2 g (List.mem_of_getElem? hg)
        omega
    have hbn : ∀ j < n, back n p.cur j < p.n := by
      intro j hj
      rw [I.hn]
      unfold back
      split_ifs <;> omega
    refine ⟨gs.filter fun g => decide (x < g.1), I.hn, I.cur, Nat.le_trans hpre.length_le I.le, hone, ?_, ?_, ?_, hxn,
      I.sorted.filter _, ?_, ?_, ?_, I.order.filter _, ?_⟩
    · intro j hj g hg
      have hmem := List.mem_filter.1 (List.mem_of_getElem? hg)
      have hxg : x < g.1 := by simpa using hmem.2
      obtain ⟨h1, h2⟩ := I.rep j hj g (by
        obtain ⟨t, ht⟩ := hpre
        rw [← ht, List.getElem?_append_left (List.getElem?_eq_some_iff.1 hg).1]
        exact hg)
      dsimp only
      rw [if_neg (by rw [h1]; omega), if_neg (by rw [h1]; omega)]
      exact ⟨h1, h2⟩
    · intro j hj hg
      dsimp only
      cases hgs : gs[j]? with
      | none =>
        have := I.zero j hj hgs
        split_ifs
        · rfl
        · exact this
      | some g =>
        obtain ⟨h1, h2⟩ := I.rep j hj g hgs
        rw [if_pos]
        refine ⟨hbn j hj, ?_⟩
        rw [h1]
        by_contra hcon
        rw [hget j g hgs (by omega)] at hg
        simp at hg
    · intro g hg
      obtain ⟨h1, h2⟩ := List.mem_filter.1 hg
      exact ⟨(I.pos g h1).1, (I.pos g h1).2.1, by simpa using h2⟩
    · intro g hg k hk
      obtain ⟨h1, h2⟩ := List.mem_filter.1 hg
      exact List.mem_filter.2 ⟨I.sound g h1 k hk, h2⟩
    · intro t k hk
      obtain ⟨h1, h2⟩ := List.mem_filter.1 hk
      simp only [decide_eq_true_eq] at h2
      rcases I.all t k h1 with ⟨b, hb, hkb⟩ | ⟨hl, h⟩
      · exact .inl ⟨b, List.mem_filter.2 ⟨hb, by simpa using h2⟩, hkb⟩
      · right
        have : gs.filter (fun g => decide (x < g.1)) = gs := by
          rw [List.filter_eq_self]
          intro g hg
          have := h g hg
          simp only [decide_eq_true_eq]
          omega
        rw [this]
        exact ⟨hl, h⟩
    · intro e g he hg
      -- the newest is the newest of all, or nothing stays
      cases hs with
      | nil => simp at he
      | cons e0 hs =>
        cases gs with
        | nil => simp at hg
        | cons g0 gs =>
          have h0 := I.head e0 g0 rfl rfl
          by_cases hx0 : x < g0.1
          · rw [List.filter_cons_of_pos (by simpa [h0] using hx0), List.head?_cons, Option.some.injEq] at he
            rw [List.filter_cons_of_pos (by simpa using hx0), List.head?_cons, Option.some.injEq] at hg
            rw [← he, ← hg, h0]
          · exfalso
            have hmem := List.mem_filter.1 (List.mem_of_mem_head? hg)
            have h1 : x < g.1 := by simpa using hmem.2
            rcases List.mem_cons.1 hmem.1 with h | h
            · rw [h] at h1; omega
            · have := (List.pairwise_cons.1 I.sorted).1 g h
              omega
    · intro e he
      simpa using (List.mem_filter.1 he).2

theorem TRun.inv {n : Nat} (hn : 1 ≤ n) {p : TPool} {now : Nat} {hs : List (Nat × Nat)} (r : TRun n p now hs) :
    ∃ gs, TInv n p gs now hs := by
  induction r with
  | new => exact ⟨[], TInv.empty hn rfl rfl (fun _ _ => rfl) (Nat.lt_succ_self 0)⟩
  | tick d _ ih => obtain ⟨gs, I⟩ := ih; exact ⟨gs, I.tick d⟩
  | put _ hp ih =>
    obtain ⟨gs, I⟩ := ih
    obtain ⟨p', gs', e, I'⟩ := I.put hn _
    rw [e, Option.some.injEq] at hp
    rw [← hp]
    exact ⟨gs', I'⟩
  | clear _ ih =>
    obtain ⟨gs, I⟩ := ih
    refine ⟨[], TInv.empty hn I.hn rfl ?_ I.last⟩
    intro i hi
    show (if _ then _ else _) = _
    rw [if_pos (by rw [I.hn]; exact hi)]
  | remove d _ hd ih => obtain ⟨gs, I⟩ := ih; exact I.remove hd

/-- A put never panics. -/
theorem stamp_total {n : Nat} (hn : 1 ≤ n) {p : TPool} {now : Nat} {hs : List (Nat × Nat)} (r : TRun n p now hs) (k : Nat) :
    p.put k now ≠ none := by
  obtain ⟨gs, I⟩ := r.inv hn
  obtain ⟨p', gs', e, -⟩ := I.put hn k
  rw [e]; simp

/-- What is there was put since the last clear, and later than what was removed. -/
theorem stamp_was_put {n : Nat} (hn : 1 ≤ n) {p : TPool} {now : Nat} {hs : List (Nat × Nat)} (r : TRun n p now hs) (k : Nat)
    (hc : p.contains k = true) : ∃ t, (t, k) ∈ hs := by
  obtain ⟨gs, I⟩ := r.inv hn
  obtain ⟨g, hg, hk⟩ := (I.contains k).1 hc
  exact ⟨g.1, I.sound g hg k hk⟩

theorem span {gs : List (Nat × List Nat)} (hs : gs.Pairwise fun a b => b.1 < a.1) {g x : Nat × List Nat} (hg : gs.head? = some g)
    {t : Nat} (ht : ∀ x ∈ gs, t < x.1) : t + gs.length ≤ g.1 := by
  induction gs generalizing g with
  | nil => simp at hg
  | cons y gs ih =>
    rw [List.head?_cons, Option.some.injEq] at hg
    subst hg
    obtain ⟨h1, h2⟩ := List.pairwise_cons.1 hs
    cases gs with
    | nil => have := ht y (by simp); simp; omega
    | cons z gs =>
      have := ih h2 (g := z) rfl (fun x hx => ht x (List.mem_cons_of_mem _ hx))
      have := h1 z (by simp)
      simp only [List.length_cons] at *
      omega

/-- What was put and not removed is there, until something is put as many seconds later as there are buckets. -/
theorem stamp_stays {n : Nat} (hn : 1 ≤ n) {p : TPool} {now : Nat} {hs : List (Nat × Nat)} (r : TRun n p now hs) {t k : Nat}
    (hk : (t, k) ∈ hs) {e : Nat × Nat} (he : hs.head? = some e) (hlt : e.1 < t + n) : p.contains k = true := by
  obtain ⟨gs, I⟩ := r.inv hn
  rw [I.contains]
  rcases I.all t k hk with ⟨b, hb, hkb⟩ | ⟨hl, h⟩
  · exact ⟨_, hb, hkb⟩
  · exfalso
    cases gs with
    | nil => simp at hl; omega
    | cons g gs =>
      have h1 := span (x := g) I.sorted rfl h
      have h2 := I.head e g he rfl
      rw [hl] at h1
      omega

/-- Nothing that was put within the last seconds goes, as `peer.go` uses it: `d + 1` buckets, and removals of `d`. -/
theorem stamp_window {n : Nat} (hn : 1 ≤ n) {p : TPool} {now : Nat} {hs : List (Nat × Nat)} (r : TRun n p now hs) {t k : Nat}
    (hk : (t, k) ∈ hs) (hlt : now < t + n) : p.contains k = true := by
  obtain ⟨gs, I⟩ := r.inv hn
  cases hh : hs with
  | nil => rw [hh] at hk; simp at hk
  | cons e l =>
    have := I.hist_le hn e (by rw [hh]; simp)
    exact stamp_stays hn r hk (e := e) (by rw [hh]; rfl) (by omega)

/-- There are such runs: three buckets; what was put in second 1 goes with the fourth second. -/
example : ∃ p, TRun 3 p 4 [(4, 13), (3, 12), (2, 11), (1, 10)] ∧ p.contains 10 = false ∧ p.contains 11 = true ∧
    (p.remove 1 4).contains 12 = false ∧ (p.remove 1 4).contains 13 = true := by
  have r1 := TRun.put (k := 10) (TRun.new (n := 3)) rfl
  have r2 := TRun.put (k := 11) (r1.tick 1) rfl
  have r3 := TRun.put (k := 12) (r2.tick 1) rfl
  have r4 := TRun.put (k := 13) (r3.tick 1) rfl
  exact ⟨_, r4, by decide +kernel, by decide +kernel, by decide +kernel, by decide +kernel⟩

end Verif.Packets
