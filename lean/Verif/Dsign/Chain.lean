import Verif.Dsign.Log

/-!
# Double signs on the chain: the history of validators, and executing a report

Models `service/contract/dscontext.go`, `service/contract/dsrhandler.go` and the address lookup of `service/state/dsrcontext.go`.

Simplifications: encodings are left out (the data are decoded, `Msg`; a context is its list of validators), so is the store of
the history; `hash` is the hash of a list of validators; the call of the chain SCORE is a truth value; a message of a type other
than the report's is undecodable (`DecodeDoubleSignData`).
-/

namespace Verif.Dsign

/-- A `DSContextHistory` (dscontext.go:30-36): heights and hashes. -/
abbrev History := List (Int × Nat)

/-- `DSContextHistoryLimit` (dscontext.go:35). -/
def limit : Nat := 20

/-- `Get` (dscontext.go:38-50). -/
def History.get (h : History) (height : Int) : Option Nat :=
  match h with
  | [] => none
  | e :: _ => if height < e.1 then none else (h.reverse.find? fun e => decide (e.1 ≤ height)).map fun e => e.2

/-- `Push` (dscontext.go:52-74); none: an error. -/
def History.push (h : History) (height : Int) (hash : Nat) : Option History :=
  let full := if limit < h.length + 1 then h.drop (h.length - limit + 1) else h
  match h.getLast? with
  | none => some (full ++ [(height, hash)])
  | some e =>
    if height ≤ e.1 then none
    else if e.2 = hash then some h
    else some (full ++ [(height, hash)])

/-- `FirstHeight` (dscontext.go:82-89). -/
def History.first (h : History) : Option Int := h.head?.map fun e => e.1

/-- A `DoubleSignReport` (dsrhandler.go:92-100), decoded. -/
structure Report where
  a : Msg
  b : Msg
  validators : List Nat

/-- Do both messages decode as one type? -/
def Report.typed (r : Report) : Bool :=
  match r.a.kind, r.b.kind with
  | .vote _, .vote _ => true
  | .proposal, .proposal => true
  | _, _ => false

/-- `DoExecuteSync`, `verifyHashOfHeight` (dsrhandler.go:51-90); `score`: the chain SCORE takes it. -/
def execute (hash : List Nat → Nat) (h : History) (system : Bool) (blockHeight : Int) (r : Report) (score : Bool) : Bool :=
  system && r.typed && conflict r.a r.b && !(decide (blockHeight < r.a.height)) && r.validators.contains r.a.signer &&
    (h.get (r.a.height - 2) == some (hash r.validators)) && score

/-- What was pushed, block after block: at each height once, in order. -/
inductive Pushed : History → List (Int × Nat) → Prop
  | nil : Pushed [] []
  | push {h h' : History} {l : List (Int × Nat)} {height : Int} {hash : Nat} :
      Pushed h l → (∀ x ∈ l, x.1 < height) → h.push height hash = some h' → Pushed h' (l ++ [(height, hash)])

/-- What was in force at a height: the last of what was pushed that is not above it. -/
def inForce (l : List (Int × Nat)) (height : Int) : Option Nat :=
  ((l.filter fun e => decide (e.1 ≤ height)).getLast?).map fun e => e.2

/-- What differs from what was pushed before. -/
def changes : Option Nat → List (Int × Nat) → List (Int × Nat)
  | _, [] => []
  | p, e :: l => if p = some e.2 then changes p l else e :: changes (some e.2) l

theorem changes_snoc (l : List (Int × Nat)) (e : Int × Nat) : ∀ p, changes p (l ++ [e]) =
    changes p l ++ if ((l.getLast?.map fun e => e.2) <|> p) = some e.2 then [] else [e] := by
  induction l with
  | nil => intro p; simp [changes]
  | cons x l ih =>
    intro p
    have hl : ((x :: l).getLast?.map fun e => e.2) = ((l.getLast?.map fun e => e.2) <|> some x.2) := by
      cases l with
      | nil => rfl
      | cons y l =>
        rw [List.getLast?_cons_cons]
        cases h : (y :: l).getLast? with
        | none => simp at h
        | some z => rfl
    show (if p = some x.2 then changes p (l ++ [e]) else x :: changes (some x.2) (l ++ [e])) =
      (if p = some x.2 then changes p l else x :: changes (some x.2) l) ++ _
    rw [hl]
    have h2 : (((l.getLast?.map fun e => e.2) <|> some x.2) <|> p) = ((l.getLast?.map fun e => e.2) <|> some x.2) := by
      cases (l.getLast?.map fun e : Int × Nat => e.2) <;> rfl
    rw [h2]
    split_ifs with h1 h3 h3
    · rw [ih, h1, if_pos h3]
    · rw [ih, h1, if_neg h3]
    · rw [ih, if_pos h3]; rfl
    · rw [ih, if_neg h3]; rfl

/-- The history: heights go up, the last entry is in force now, and it says what was in force from its first entry on. -/
structure HistInv (h : History) (l : List (Int × Nat)) : Prop where
  below : ∀ e ∈ h, ∀ x, l.getLast? = some x → e.1 ≤ x.1
  sorted : l.Pairwise fun a b => a.1 < b.1
  hsorted : h.Pairwise fun a b => a.1 < b.1
  last : (h.getLast?.map fun e => e.2) = l.getLast?.map fun e => e.2
  get : ∀ f, h.first = some f → ∀ x, f ≤ x → (h.reverse.find? fun e => decide (e.1 ≤ x)).map (fun e => e.2) = inForce l x
  keep : h = (changes none l).drop ((changes none l).length - limit)

theorem inForce_snoc (l : List (Int × Nat)) (e : Int × Nat) (x : Int) :
    inForce (l ++ [e]) x = if e.1 ≤ x then some e.2 else inForce l x := by
  unfold inForce
  rw [List.filter_append]
  by_cases h : e.1 ≤ x
  · rw [if_pos h, List.filter_cons_of_pos (by simpa using h)]
    simp
  · rw [if_neg h, List.filter_cons_of_neg (by simpa using h)]
    simp

theorem drop_snoc (l : List (Int × Nat)) (e : Int × Nat) (h : History) (hk : h = l.drop (l.length - limit)) :
    (if limit < h.length + 1 then h.drop (h.length - limit + 1) else h) ++ [e] =
      (l ++ [e]).drop ((l ++ [e]).length - limit) := by
  have hlim : limit = 20 := rfl
  have hlen : h.length = l.length - (l.length - limit) := by rw [hk, List.length_drop]
  rw [List.length_append, List.length_singleton, List.drop_append_of_le_length (by omega)]
  congr 1
  by_cases hc : limit < h.length + 1
  · rw [if_pos hc, hk, List.drop_drop]
    congr 1
    rw [List.length_drop]
    omega
  · rw [if_neg hc, hk]
    congr 1
    omega

theorem find_tail {l m : List (Int × Nat)} (p : Int × Nat → Bool) {e : Int × Nat} (he : e ∈ m) (hp : p e = true) :
    (m.reverse ++ l).find? p = m.reverse.find? p := by
  rw [List.find?_append]
  cases h : m.reverse.find? p with
  | some x => rfl
  | none =>
    rw [List.find?_eq_none] at h
    exact absurd hp (h e (List.mem_reverse.2 he))

theorem HistInv.append {h : History} {l : List (Int × Nat)} (I : HistInv h l) {e : Int × Nat}
    (hn : ∀ x, l.getLast? = some x → x.1 < e.1) (hd : (l.getLast?.map fun e => e.2) ≠ some e.2) :
    HistInv ((if limit < h.length + 1 then h.drop (h.length - limit + 1) else h) ++ [e]) (l ++ [e]) := by
  have hkeep := drop_snoc (changes none l) e h I.keep
  obtain ⟨k, hk⟩ : ∃ k, (if limit < h.length + 1 then h.drop (h.length - limit + 1) else h) = h.drop k := by
    split_ifs
    · exact ⟨_, rfl⟩
    · exact ⟨0, rfl⟩
  rw [hk] at hkeep ⊢
  have hall : ∀ x ∈ l, x.1 < e.1 := by
    intro x hx
    cases hl : l.getLast? with
    | none => rw [List.getLast?_eq_none_iff.1 hl] at hx; simp at hx
    | some y =>
      have hy := hn y hl
      obtain ⟨t, rfl⟩ := List.getLast?_eq_some_iff.1 hl
      rcases List.mem_append.1 hx with hx | hx
      · have := (List.pairwise_append.1 I.sorted).2.2 x hx y (by simp)
        omega
      · rw [List.mem_singleton] at hx; rw [hx]; exact hy
  have hbelow : ∀ x ∈ h, x.1 < e.1 := by
    intro x hx
    cases hl : l.getLast? with
    | none =>
      exfalso
      have := I.last
      rw [hl] at this
      cases hh : h.getLast? with
      | none => rw [List.getLast?_eq_none_iff.1 hh] at hx; simp at hx
      | some y => rw [hh] at this; simp at this
    | some y => have := I.below x hx y hl; have := hn y hl; omega
  refine ⟨?_, ?_, ?_, ?_, ?_, ?_⟩
  · intro x hx y hy
    rw [List.getLast?_concat, Option.some.injEq] at hy
    rcases List.mem_append.1 hx with hx | hx
    · rw [← hy]
      exact Int.le_of_lt (hbelow x (List.mem_of_mem_drop hx))
    · rw [List.mem_singleton] at hx; rw [hx, hy]; exact Int.le_refl _
  · rw [List.pairwise_append]
    refine ⟨I.sorted, List.pairwise_singleton _ _, ?_⟩
    intro a ha b hb
    rw [List.mem_singleton] at hb
    rw [hb]; exact hall a ha
  · rw [List.pairwise_append]
    refine ⟨I.hsorted.sublist (List.drop_sublist _ _), List.pairwise_singleton _ _, ?_⟩
    intro a ha b hb
    rw [List.mem_singleton] at hb
    rw [hb]; exact hbelow a (List.mem_of_mem_drop ha)
  · rw [List.getLast?_concat, List.getLast?_concat]
  · intro f hf x hx
    rw [List.reverse_append, List.reverse_singleton, List.singleton_append, inForce_snoc]
    by_cases hex : e.1 ≤ x
    · rw [if_pos hex, List.find?_cons_of_pos (by simpa using hex)]
      rfl
    · rw [if_neg hex, List.find?_cons_of_neg (by simpa using hex)]
      cases ht : h.drop k with
      | nil =>
        rw [ht] at hf
        unfold History.first at hf
        rw [List.nil_append] at hf
        simp at hf
        omega
      | cons y t =>
        rw [ht] at hf
        unfold History.first at hf
        simp at hf
        have hsplit : h = h.take k ++ (y :: t) := by rw [← ht, List.take_append_drop]
        have hfind := find_tail (l := (h.take k).reverse) (m := y :: t) (fun e => decide (e.1 ≤ x)) (e := y) (by simp)
          (by simp; omega)
        rw [← List.reverse_append, ← hsplit] at hfind
        rw [← hfind]
        cases hh : h with
        | nil => rw [hh] at ht; simp at ht
        | cons z s =>
          rw [← hh]
          refine I.get z.1 (by unfold History.first; rw [hh]; rfl) x ?_
          have hym : y ∈ h := by rw [hsplit]; simp
          have := I.hsorted
          rw [hh] at hym this
          rcases List.mem_cons.1 hym with hz | hz
          · rw [← hz]; omega
          · have := (List.pairwise_cons.1 this).1 y hz
            omega
  · rw [changes_snoc, if_neg]
    · exact hkeep
    · intro hc
      apply hd
      cases hl : l.getLast? with
      | none => rw [hl] at hc; simp at hc
      | some y => rw [hl] at hc; exact hc

theorem Pushed.inv {h : History} {l : List (Int × Nat)} (P : Pushed h l) : HistInv h l := by
  induction P with
  | nil => exact ⟨by simp, List.Pairwise.nil, List.Pairwise.nil, rfl, by intro f hf; simp [History.first] at hf, rfl⟩
  | @push h h' l height hash P hord hp I =>
    unfold History.push at hp
    dsimp only at hp
    cases hg : h.getLast? with
    | none =>
      rw [hg] at hp
      simp only [Option.some.injEq] at hp
      rw [← hp]
      have hl : l.getLast? = none := by
        have := I.last
        rw [hg] at this
        cases h : l.getLast? with
        | none => rfl
        | some x => rw [h] at this; simp at this
      exact I.append (fun x hx => hord x (List.mem_of_getLast? hx)) (by rw [hl]; simp)
    | some e =>
      rw [hg] at hp
      dsimp only at hp
      obtain ⟨y, hl⟩ : ∃ y, l.getLast? = some y := by
        have := I.last
        rw [hg] at this
        cases h : l.getLast? with
        | none => rw [h] at this; simp at this
        | some x => exact ⟨x, rfl⟩
      have hye : e.2 = y.2 := by
        have := I.last
        rw [hg, hl] at this
        simpa using this
      have hyh := hord y (List.mem_of_getLast? hl)
      have hey := I.below e (List.mem_of_getLast? hg) y hl
      rw [if_neg (by omega)] at hp
      by_cases hs : e.2 = hash
      · rw [if_pos hs, Option.some.injEq] at hp
        rw [← hp]
        refine ⟨?_, ?_, I.hsorted, ?_, ?_, ?_⟩
        · intro x hx z hz
          rw [List.getLast?_concat, Option.some.injEq] at hz
          rw [← hz]
          have := I.below x hx y hl
          dsimp only
          omega
        · rw [List.pairwise_append]
          refine ⟨I.sorted, List.pairwise_singleton _ _, ?_⟩
          intro a ha b hb
          rw [List.mem_singleton] at hb
          rw [hb]; exact hord a ha
        · rw [List.getLast?_concat, hg]
          simp [hs]
        · intro f hf x hx
          rw [inForce_snoc]
          by_cases hle : height ≤ x
          · rw [if_pos hle]
            have hex : e.1 ≤ x := by omega
            obtain ⟨t, ht⟩ := List.getLast?_eq_some_iff.1 hg
            rw [ht, List.reverse_append, List.reverse_singleton, List.singleton_append,
              List.find?_cons_of_pos (by simpa using hex)]
            simp [hs]
          · rw [if_neg hle]
            exact I.get f hf x hx
        · rw [changes_snoc, if_pos, List.append_nil]
          · exact I.keep
          · rw [hl]
            show some y.2 = some hash
            rw [← hye, hs]
      · rw [if_neg hs, Option.some.injEq] at hp
        rw [← hp]
        refine I.append (fun x hx => hord x (List.mem_of_getLast? hx)) ?_
        rw [hl]
        simp only [Option.map_some, ne_eq, Option.some.injEq]
        rw [← hye]
        exact hs

/-- A push at the next height never fails. -/
theorem push_ok {h : History} {l : List (Int × Nat)} (P : Pushed h l) {height : Int} (hh : ∀ x ∈ l, x.1 < height) (hash : Nat) :
    ∃ h', h.push height hash = some h' := by
  have I := P.inv
  unfold History.push
  dsimp only
  cases hg : h.getLast? with
  | none => exact ⟨_, rfl⟩
  | some e =>
    dsimp only
    cases hl : l.getLast? with
    | none =>
      have := I.last
      rw [hg, hl] at this
      simp at this
    | some y =>
      have h1 := I.below e (List.mem_of_getLast? hg) y hl
      have h2 := hh y (List.mem_of_getLast? hl)
      rw [if_neg (by omega)]
      split_ifs <;> exact ⟨_, rfl⟩

/-- The history is the last twenty changes. -/
theorem history_keeps {h : History} {l : List (Int × Nat)} (P : Pushed h l) :
    h = (changes none l).drop ((changes none l).length - 20) := P.inv.keep

/-- From its first height on the history gives what was in force; below it gives nothing. -/
theorem history_get {h : History} {l : List (Int × Nat)} (P : Pushed h l) (x : Int) :
    h.get x = if (∃ f, h.first = some f ∧ f ≤ x) then inForce l x else none := by
  have I := P.inv
  unfold History.get
  cases h with
  | nil =>
    rw [if_neg]
    rintro ⟨f, hf, _⟩
    simp [History.first] at hf
  | cons e t =>
    dsimp only
    by_cases hx : x < e.1
    · rw [if_pos hx, if_neg]
      rintro ⟨f, hf, h⟩
      simp [History.first] at hf
      omega
    · rw [if_neg hx, if_pos ⟨e.1, rfl, by omega⟩]
      exact I.get e.1 rfl x (by omega)

/-- What a report must be to be executed. -/
theorem execute_iff {h : History} {l : List (Int × Nat)} (P : Pushed h l) (hash : List Nat → Nat) (system : Bool) (bh : Int)
    (r : Report) (score : Bool) : execute hash h system bh r score = true ↔
      system = true ∧ score = true ∧ Double r.a r.b ∧ (r.a.kind = .proposal → r.a.nid = 0 ∨ r.b.nid = 0 ∨ r.a.nid = r.b.nid) ∧
      r.a.height ≤ bh ∧ r.a.signer ∈ r.validators ∧ (∃ f, h.first = some f ∧ f ≤ r.a.height - 2) ∧
      inForce l (r.a.height - 2) = some (hash r.validators) := by
  have hty : conflict r.a r.b = true → r.typed = true := by
    intro h
    have h2 := (conflict_double h).2.1
    unfold Report.typed
    cases ha : r.a.kind <;> rw [ha] at h2 <;> rw [← h2]
  unfold execute
  rw [history_get P]
  simp only [Bool.and_eq_true, Bool.not_eq_true', decide_eq_false_iff_not, Int.not_lt, List.contains_iff_mem, beq_iff_eq]
  rw [conflict_iff] at *
  constructor
  · rintro ⟨⟨⟨⟨⟨⟨h1, _⟩, h3⟩, h4⟩, h5⟩, h6⟩, h7⟩
    by_cases hf : ∃ f, h.first = some f ∧ f ≤ r.a.height - 2
    · rw [if_pos hf] at h6
      exact ⟨h1, h7, h3.1, h3.2, h4, h5, hf, h6⟩
    · rw [if_neg hf] at h6; simp at h6
  · rintro ⟨h1, h7, h3, h3', h4, h5, hf, h6⟩
    refine ⟨⟨⟨⟨⟨⟨h1, hty ⟨h3, h3'⟩⟩, h3, h3'⟩, h4⟩, h5⟩, ?_⟩, h7⟩
    rw [if_pos hf]
    exact h6

/-- Who signs one thing for each place, whatever the network, is not punished. -/
theorem honest_safe {h : History} {l : List (Int × Nat)} (P : Pushed h l) (hash : List Nat → Nat) (system : Bool) (bh : Int)
    (r : Report) (score : Bool) (signed : Msg → Prop) (ha : signed r.a) (hb : signed r.b)
    (honest : ∀ m m', signed m → signed m' → m.signer = r.a.signer → m'.signer = r.a.signer → m.kind = m'.kind →
      m.height = m'.height → m.round = m'.round → m.hash = m'.hash) : execute hash h system bh r score = false := by
  cases he : execute hash h system bh r score with
  | false => rfl
  | true =>
    obtain ⟨_, _, hd, _⟩ := (execute_iff P hash system bh r score).1 he
    exact absurd (honest r.a r.b ha hb rfl hd.1.symm hd.2.1 hd.2.2.1 hd.2.2.2.1) hd.2.2.2.2

/-- Who is punished was a validator two blocks before, if hashes of lists of validators differ. -/
theorem punished_validator {h : History} {l : List (Int × Nat)} (P : Pushed h l) (hash : List Nat → Nat)
    (inj : ∀ a b, hash a = hash b → a = b) (system : Bool) (bh : Int)
    (r : Report) (score : Bool) (he : execute hash h system bh r score = true) {vl : List Nat}
    (hv : inForce l (r.a.height - 2) = some (hash vl)) : r.a.signer ∈ vl := by
  obtain ⟨_, _, _, _, _, hm, _, hf⟩ := (execute_iff P hash system bh r score).1 he
  rw [hv, Option.some.injEq] at hf
  rw [inj _ _ hf]
  exact hm

end Verif.Dsign
