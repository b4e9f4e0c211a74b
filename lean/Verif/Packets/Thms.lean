import Verif.Packets.Model

/-!
# What the pool remembers
-/

namespace Verif.Packets

/-- The bucket that is `j` behind the current one. -/
def back (n cur j : Nat) : Nat := if j ≤ cur then cur - j else cur + n - j

/-- The buckets as groups, the current one first. -/
structure Inv (n l : Nat) (p : Pool) (gs : List (List Nat)) (hs : List Nat) : Prop where
  hn : p.n = n
  hl : p.l = l
  cur : p.cur < n
  ne : gs ≠ []
  le : gs.length ≤ n
  rep : ∀ j < n, p.buckets (back n p.cur j) = gs[j]?
  full : ∀ g ∈ gs.tail.dropLast, l ≤ g.length
  hist : gs.flatten = hs ∨ (gs.length = n ∧ (∀ g ∈ gs.tail, l ≤ g.length) ∧ gs.flatten <+: hs)
  now : ∀ g, gs.head? = some g → g.length < max l 1 ∧ g.length ≤ p.len p.cur ∧ (2 ≤ gs.length → g.length = p.len p.cur)
  bound : ∀ g ∈ gs, g.length ≤ max l 1

theorem Inv.look {n l : Nat} {p : Pool} {gs : List (List Nat)} {hs : List Nat} (I : Inv n l p gs hs) (h : Nat) (i : Nat) :
    ∀ j, i + j = n → (p.look h i (back n p.cur j) = true ↔ h ∈ (gs.drop j).flatten) := by
  induction i with
  | zero =>
    intro j hj
    have := I.le
    rw [List.drop_eq_nil_of_le (by omega)]
    simp [Pool.look]
  | succ i ih =>
    intro j hj
    have hc := I.cur
    unfold Pool.look
    rw [I.rep j (by omega)]
    cases hg : gs[j]? with
    | none =>
      rw [List.getElem?_eq_none_iff] at hg
      rw [List.drop_eq_nil_of_le hg]
      simp
    | some m =>
      obtain ⟨hlt, hm⟩ := List.getElem?_eq_some_iff.1 hg
      dsimp only
      rw [List.drop_eq_getElem_cons hlt, hm, List.flatten_cons, List.mem_append]
      by_cases hmem : h ∈ m
      · rw [if_pos (by simpa using hmem)]
        simp [hmem]
      · rw [if_neg (by simpa using hmem)]
        cases i with
        | zero =>
          have := I.le
          rw [List.drop_eq_nil_of_le (by omega)]
          simp [Pool.look, hmem]
        | succ i =>
          have : (if back n p.cur j < 1 then p.n else back n p.cur j) - 1 = back n p.cur (j + 1) := by
            rw [I.hn]
            unfold back
            split_ifs <;> omega
          rw [this, ih (j + 1) (by omega)]
          simp [hmem]

theorem Inv.contains {n l : Nat} {p : Pool} {gs : List (List Nat)} {hs : List Nat} (I : Inv n l p gs hs) (h : Nat) :
    p.contains h = true ↔ h ∈ gs.flatten := by
  have := I.look h n 0 rfl
  unfold Pool.contains
  rw [I.hn]
  rw [show back n p.cur 0 = p.cur from by unfold back; rw [if_pos (Nat.zero_le _)]; rfl, List.drop_zero] at this
  exact this

theorem Inv.start {n l : Nat} (hn : 1 ≤ n) {p : Pool} (h1 : p.n = n) (h2 : p.l = l) (h3 : p.cur = 0)
    (h4 : ∀ i < n, p.buckets i = if i = 0 then some [] else none) : Inv n l p [[]] [] := by
  refine ⟨h1, h2, by omega, by simp, by simpa using hn, ?_, by simp, .inl rfl, ?_, by simp⟩
  rotate_left
  · intro g hg
    rw [List.head?_cons, Option.some.injEq] at hg
    subst hg
    exact ⟨by simp only [List.length_nil]; omega, Nat.zero_le _, by simp⟩
  intro j hj
  rw [h3]
  unfold back
  cases j with
  | zero => rw [if_pos (Nat.le_refl 0), h4 _ (by omega), if_pos rfl]; rfl
  | succ j => rw [if_neg (by omega), h4 _ (by omega), if_neg (by omega)]; rfl

/-- A put of a new packet. -/
theorem Inv.put {n l : Nat} {p : Pool} {gs : List (List Nat)} {hs : List Nat} (I : Inv n l p gs hs) {h : Nat}
    (hc : p.contains h = false) : ∃ p' gs', p.put h = some (p', true) ∧ Inv n l p' gs' (h :: hs) := by
  have hcur := I.cur
  have hle := I.le
  obtain ⟨g, rest, rfl⟩ : ∃ g rest, gs = g :: rest := by
    cases gs with
    | nil => exact absurd rfl I.ne
    | cons g rest => exact ⟨g, rest, rfl⟩
  obtain ⟨hn1, hn2, hn3⟩ := I.now g rfl
  rw [List.length_cons] at hle hn3
  have hb : p.buckets p.cur = some g := by
    have := I.rep 0 (by omega)
    rw [show back n p.cur 0 = p.cur from by unfold back; rw [if_pos (Nat.zero_le _)]; rfl] at this
    exact this
  have hfull := I.full
  have hhist := I.hist
  have hbound := I.bound
  rw [List.tail_cons] at hfull hhist
  unfold Pool.put
  rw [hc, hb]
  simp only [Bool.false_eq_true, if_false]
  have hl1 : upd p.len p.cur (p.len p.cur + 1) p.cur = p.len p.cur + 1 := by unfold upd; rw [if_pos rfl]
  rw [hl1]
  have hrep1 : ∀ j < n, upd p.buckets p.cur (some (h :: g)) (back n p.cur j) = ((h :: g) :: rest)[j]? := by
    intro j hj
    unfold upd
    cases j with
    | zero => rw [if_pos (by unfold back; rw [if_pos (Nat.zero_le _)]; rfl)]; rfl
    | succ j =>
      rw [if_neg (by unfold back; split_ifs <;> omega), I.rep (j + 1) hj]
      rfl
  have hhist1 : ((h :: g) :: rest).flatten = h :: hs ∨
      ((((h :: g) :: rest).length = n ∧ ∀ x ∈ rest, l ≤ x.length) ∧ ((h :: g) :: rest).flatten <+: h :: hs) := by
    rcases hhist with hh | ⟨h1, h2, h3⟩
    · left; rw [← hh]; rfl
    · right
      refine ⟨⟨by simpa using h1, h2⟩, ?_⟩
      rw [List.flatten_cons] at h3 ⊢
      rw [List.cons_append]
      exact (List.cons_prefix_cons).2 ⟨rfl, h3⟩
  by_cases hr : p.l ≤ p.len p.cur + 1
  · rw [if_pos hr]
    rw [I.hl] at hr
    rw [I.hn]
    generalize hcc : (if n ≤ p.cur + 1 then 0 else p.cur + 1) = c
    have hcn : c < n := by rw [← hcc]; split_ifs <;> omega
    have hgl : rest ≠ [] → l ≤ (h :: g).length := by
      intro hne
      have : rest.length ≠ 0 := fun h => hne (List.length_eq_zero_iff.1 h)
      have := hn3 (by omega)
      rw [List.length_cons]
      omega
    have hfull2 : ∀ x ∈ ((h :: g) :: rest).dropLast, l ≤ x.length := by
      intro x hx
      cases hrest : rest with
      | nil => rw [hrest] at hx; simp at hx
      | cons y t =>
        rw [hrest, List.dropLast_cons_cons, List.mem_cons] at hx
        rcases hx with rfl | hx
        · exact hgl (by rw [hrest]; simp)
        · exact hfull x (by rw [hrest]; exact hx)
    refine ⟨_, ([] :: (h :: g) :: rest).take n, rfl, rfl, I.hl, hcn, ?_, ?_, ?_, ?_, ?_, ?_, ?_⟩
    · intro hnil
      rw [List.take_eq_nil_iff] at hnil
      rcases hnil with h | h
      · omega
      · simp at h
    · rw [List.length_take]; omega
    · intro j hj
      dsimp only
      rw [List.getElem?_take, if_pos hj]
      cases j with
      | zero =>
        rw [show back n c 0 = c from by unfold back; rw [if_pos (Nat.zero_le _)]; rfl]
        unfold upd
        rw [if_pos rfl]
        rfl
      | succ j =>
        rw [show upd (upd p.buckets p.cur (some (h :: g))) c (some []) (back n c (j + 1)) =
          upd p.buckets p.cur (some (h :: g)) (back n p.cur j) from by
            have h1 : back n c (j + 1) ≠ c := by unfold back; split_ifs <;> omega
            have h2 : back n c (j + 1) = back n p.cur j := by
              rw [← hcc]
              unfold back
              split_ifs <;> omega
            rw [← h2]
            show (if back n c (j + 1) = c then _ else _) = _
            rw [if_neg h1]]
        rw [hrep1 j (by omega)]
        rfl
    · intro x hx
      apply hfull2
      by_cases hlt : rest.length + 2 ≤ n
      · rw [List.take_of_length_le (by simpa using hlt)] at hx
        exact hx
      · have : n = rest.length + 1 := by omega
        rw [this, List.take_succ_cons, List.tail_cons] at hx
        have ht : ((h :: g) :: rest).take rest.length = ((h :: g) :: rest).dropLast := by
          rw [List.dropLast_eq_take]
          simp
        rw [ht] at hx
        exact List.dropLast_subset _ hx
    · by_cases hlt : rest.length + 2 ≤ n
      · left
        rw [List.take_of_length_le (by simpa using hlt), List.flatten_cons, List.nil_append]
        rcases hhist1 with hh | ⟨⟨h1, _⟩, _⟩
        · exact hh
        · rw [List.length_cons] at h1; omega
      · right
        have hn : n = rest.length + 1 := by omega
        have ht : ([] :: (h :: g) :: rest).take n = [] :: ((h :: g) :: rest).dropLast := by
          rw [hn, List.take_succ_cons, List.dropLast_eq_take]
          simp
        rw [ht]
        refine ⟨by simp [hn], fun x hx => hfull2 x hx, ?_⟩
        rw [List.flatten_cons, List.nil_append]
        have h1 : ((h :: g) :: rest).dropLast.flatten <+: ((h :: g) :: rest).flatten := by
          obtain ⟨t, ht⟩ := List.dropLast_prefix ((h :: g) :: rest)
          rw [← ht, List.flatten_append, ht]
          exact List.prefix_append _ _
        rcases hhist1 with hh | ⟨_, hh⟩
        · rw [← hh]; exact h1
        · exact h1.trans hh
    · intro x hx
      have : x = [] := by
        cases n with
        | zero => omega
        | succ n => rw [List.take_succ_cons, List.head?_cons, Option.some.injEq] at hx; exact hx.symm
      subst this
      dsimp only
      unfold upd
      rw [if_pos rfl]
      exact ⟨by simp; omega, Nat.le_refl _, fun _ => rfl⟩
    · intro x hx
      rcases List.mem_cons.1 (List.mem_of_mem_take hx) with rfl | hx
      · simp
      rcases List.mem_cons.1 hx with rfl | hx
      · rw [List.length_cons]; omega
      · exact hbound x (List.mem_cons_of_mem _ hx)
  · rw [if_neg hr]
    rw [I.hl] at hr
    refine ⟨_, (h :: g) :: rest, rfl, I.hn, I.hl, I.cur, by simp, by simpa using hle, hrep1, hfull, ?_, ?_, ?_⟩
    · rcases hhist1 with hh | ⟨⟨h1, h2⟩, h3⟩
      · exact .inl hh
      · exact .inr ⟨h1, h2, h3⟩
    · intro x hx
      rw [List.head?_cons, Option.some.injEq] at hx
      subst hx
      dsimp only
      rw [hl1, List.length_cons, List.length_cons]
      exact ⟨by omega, by omega, fun h2 => by rw [hn3 h2]⟩
    · intro x hx
      rcases List.mem_cons.1 hx with rfl | hx
      · rw [List.length_cons]; omega
      · exact hbound x (List.mem_cons_of_mem _ hx)

theorem Run.inv {n l : Nat} (hn : 1 ≤ n) {p : Pool} {hs : List Nat} (r : Run n l p hs) : ∃ gs, Inv n l p gs hs := by
  induction r with
  | new =>
    refine ⟨[[]], Inv.start hn rfl rfl rfl ?_⟩
    intro i _
    rfl
  | @put p p' hs h b _ hp ih =>
    obtain ⟨gs, I⟩ := ih
    cases hc : p.contains h with
    | true =>
      unfold Pool.put at hp
      rw [hc, if_pos rfl, Option.some.injEq, Prod.mk.injEq] at hp
      rw [← hp.1, ← hp.2]
      exact ⟨gs, I⟩
    | false =>
      obtain ⟨p1, gs', e, I'⟩ := I.put hc
      rw [e, Option.some.injEq, Prod.mk.injEq] at hp
      rw [← hp.1, ← hp.2]
      exact ⟨gs', I'⟩
  | clear _ ih =>
    obtain ⟨gs, I⟩ := ih
    refine ⟨[[]], Inv.start hn I.hn I.hl rfl ?_⟩
    intro i hi
    unfold Pool.clear upd
    dsimp only
    split_ifs with h1 h2
    · rfl
    · rfl
    · exact absurd (I.hn ▸ hi) h2

/-- A put never panics, and says whether the packet was not there. -/
theorem put_says {n l : Nat} (hn : 1 ≤ n) {p : Pool} {hs : List Nat} (r : Run n l p hs) (h : Nat) :
    ∃ p', p.put h = some (p', !p.contains h) ∧ (p.contains h = true → p' = p) := by
  obtain ⟨gs, I⟩ := r.inv hn
  cases hc : p.contains h with
  | true => exact ⟨p, by unfold Pool.put; rw [if_pos hc]; rfl, fun _ => rfl⟩
  | false =>
    obtain ⟨p', gs', e, -⟩ := I.put hc
    exact ⟨p', e, fun h => by simp at h⟩

/-- What is there was put, since the last clear. -/
theorem was_put {n l : Nat} (hn : 1 ≤ n) {p : Pool} {hs : List Nat} (r : Run n l p hs) (h : Nat) (hc : p.contains h = true) :
    h ∈ hs := by
  obtain ⟨gs, I⟩ := r.inv hn
  rw [I.contains] at hc
  rcases I.hist with hh | ⟨_, _, hh⟩
  · rw [← hh]; exact hc
  · exact hh.subset hc

theorem flatten_ge {l : Nat} (gs : List (List Nat)) (h : ∀ g ∈ gs, l ≤ g.length) : gs.length * l ≤ gs.flatten.length := by
  induction gs with
  | nil => simp
  | cons g gs ih =>
    rw [List.length_cons, List.flatten_cons, List.length_append, Nat.succ_mul]
    have := ih (fun x hx => h x (List.mem_cons_of_mem _ hx))
    have := h g (by simp)
    omega

/-- The last packets are there: as many as all buckets but one hold. -/
theorem recent_stays {n l : Nat} (hn : 1 ≤ n) {p : Pool} {hs : List Nat} (r : Run n l p hs) (i h : Nat) (hi : i < (n - 1) * l)
    (hh : hs[i]? = some h) : p.contains h = true := by
  obtain ⟨gs, I⟩ := r.inv hn
  rw [I.contains]
  rcases I.hist with he | ⟨h1, h2, t, h3⟩
  · rw [he]; exact List.mem_of_getElem? hh
  · have hlen : (n - 1) * l ≤ gs.flatten.length := by
      cases gs with
      | nil => exact absurd rfl I.ne
      | cons g rest =>
        have := flatten_ge rest h2
        rw [List.flatten_cons, List.length_append]
        rw [List.length_cons] at h1
        rw [← h1, Nat.add_sub_cancel]
        omega
    rw [← h3, List.getElem?_append_left (by omega)] at hh
    exact List.mem_of_getElem? hh

/-- It holds no more than its buckets. -/
theorem bounded {n l : Nat} (hn : 1 ≤ n) {p : Pool} {hs : List Nat} (r : Run n l p hs) :
    ∃ S : List Nat, S.length ≤ n * max l 1 ∧ ∀ h, p.contains h = true ↔ h ∈ S := by
  obtain ⟨gs, I⟩ := r.inv hn
  refine ⟨gs.flatten, ?_, I.contains⟩
  have hsum : ∀ (gs : List (List Nat)) (b : Nat), (∀ g ∈ gs, g.length ≤ b) → gs.flatten.length ≤ gs.length * b := by
    intro gs b
    induction gs with
    | nil => simp
    | cons g gs ih =>
      intro h
      rw [List.length_cons, List.flatten_cons, List.length_append, Nat.succ_mul]
      have := ih (fun x hx => h x (List.mem_cons_of_mem _ hx))
      have := h g (by simp)
      omega
  exact Nat.le_trans (hsum gs _ I.bound) (Nat.mul_le_mul_right _ I.le)

/-- So no packet is taken twice within that many packets. -/
theorem no_repeat {n l : Nat} (hn : 1 ≤ n) {p : Pool} {hs : List Nat} (r : Run n l p hs) (i d h : Nat) (hd : d < (n - 1) * l)
    (h1 : hs[i]? = some h) : hs[i + 1 + d]? ≠ some h := by
  induction r generalizing i with
  | new => simp at h1
  | @put p p' hs x b r hp ih =>
    cases b with
    | false => exact ih i h1
    | true =>
      simp only [if_true] at h1 ⊢
      cases i with
      | succ i =>
        rw [List.getElem?_cons_succ] at h1
        rw [show i + 1 + 1 + d = (i + 1 + d) + 1 from by omega, List.getElem?_cons_succ]
        exact ih i h1
      | zero =>
        rw [List.getElem?_cons_zero, Option.some.injEq] at h1
        subst h1
        rw [show 0 + 1 + d = d + 1 from by omega, List.getElem?_cons_succ]
        intro h2
        have hc := recent_stays hn r d x hd h2
        unfold Pool.put at hp
        rw [if_pos hc] at hp
        simp at hp
  | clear => simp at h1

/-- Buckets of two, three of them: the fifth packet makes the first ones go, one bucket at a time. -/
def puts (p : Pool) : List Nat → Option Pool
  | [] => some p
  | h :: hs => match p.put h with
    | none => none
    | some (p', _) => puts p' hs

example : ((puts (.new 3 2) [1, 2, 3, 4, 5, 3, 6]).map fun p => [1, 2, 3, 4, 5, 6].map p.contains) =
      some [false, false, true, true, true, true] ∧
    ((puts (.new 3 2) [1, 2, 3, 4, 5]).map fun p => [1, 2, 3, 4, 5].map p.contains) = some [true, true, true, true, true] := by
  decide +kernel

/-- There are such runs, with packets forgotten. -/
example : ∃ p, Run 3 2 p [6, 5, 4, 3, 2, 1] ∧ p.contains 1 = false ∧ p.contains 3 = true := by
  have h0 : Run 3 2 (.new 3 2) [] := .new
  have h1 := Run.put (h := 1) h0 rfl
  have h2 := Run.put (h := 2) h1 rfl
  have h3 := Run.put (h := 3) h2 rfl
  have h4 := Run.put (h := 4) h3 rfl
  have h5 := Run.put (h := 5) h4 rfl
  have h6 := Run.put (h := 6) h5 rfl
  exact ⟨_, h6, by decide +kernel, by decide +kernel⟩

end Verif.Packets
