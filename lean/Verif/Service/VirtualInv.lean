import Verif.Service.Virtual
import Mathlib.Tactic.Linarith

/-! # The order of the block, and the invariant of concurrent execution -/

namespace Verif.Virtual

section
variable {A V R : Type} [DecidableEq A]

/-! ## Specification -/

/-- A transaction run alone. -/
def run : Prog A V R → (A → V) → (A → V) × R
  | .done r, w => (w, r)
  | .read a k, w => run (k (w a)) w
  | .write a v k, w => run k (Function.update w a v)

/-- The transactions one after the other: the world at the end and the receipts. -/
def seqRun : List (List (Req A) × Prog A V R) → (A → V) → (A → V) × List R
  | [], w => (w, [])
  | x :: l, w => ((seqRun l (run x.2 w).1).1, (run x.2 w).2 :: (seqRun l (run x.2 w).1).2)

/-- The locks allow to write the account. -/
def Writes (reqs : List (Req A)) (a : A) : Prop := ⟨none, true⟩ ∈ reqs ∨ ⟨some a, true⟩ ∈ reqs

/-- The locks allow to read the account. -/
def Reads (reqs : List (Req A)) (a : A) : Prop := Writes reqs a ∨ ⟨some a, false⟩ ∈ reqs

/-- A program reads and writes only accounts it may. -/
def Within (rd wr : A → Prop) : Prog A V R → Prop
  | .done _ => True
  | .read a k => rd a ∧ ∀ v, Within rd wr (k v)
  | .write a _ k => wr a ∧ Within rd wr k

/-- The transactions keep to their locks, and none has a read lock of the world only. -/
def Proper (work : List (List (Req A) × Prog A V R)) : Prop :=
  ∀ x ∈ work, Within (Reads x.1) (Writes x.1) x.2 ∧ ((⟨none, false⟩ : Req A) ∈ x.1 → ⟨none, true⟩ ∈ x.1)

/-! ## The worlds between the transactions -/

variable (work : List (List (Req A) × Prog A V R)) (real : A → V)

/-- The world before transaction `i`. -/
def seq : ℕ → A → V
  | 0 => real
  | i + 1 =>
    match work[i]? with
    | some x => (run x.2 (seq i)).1
    | none => seq i

/-- Transaction `i` may write the account. -/
def W (i : ℕ) (a : A) : Prop := ∃ x, work[i]? = some x ∧ Writes x.1 a

/-- Transaction `i` may read the account. -/
def Rd (i : ℕ) (a : A) : Prop := ∃ x, work[i]? = some x ∧ Reads x.1 a

/-- Transaction `i` locks the world. -/
def IsW (i : ℕ) : Prop := ∃ x, work[i]? = some x ∧ ⟨none, true⟩ ∈ x.1

variable {work real}

theorem W.rd {i : ℕ} {a : A} (h : W work i a) : Rd work i a := by
  obtain ⟨x, hx, h⟩ := h
  exact ⟨x, hx, Or.inl h⟩

theorem IsW.w {i : ℕ} (h : IsW work i) (a : A) : W work i a := by
  obtain ⟨x, hx, h⟩ := h
  exact ⟨x, hx, Or.inl h⟩

theorem run_keep {rd wr : A → Prop} : ∀ (p : Prog A V R) (w : A → V), Within rd wr p → ∀ a, ¬wr a → (run p w).1 a = w a := by
  intro p
  induction p with
  | done r => intro w _ a _; rfl
  | read b k ih => intro w h a ha; exact ih _ w (h.2 _) a ha
  | write b v k ih =>
    intro w h a ha
    rw [run, ih _ h.2 a ha, Function.update_of_ne]
    rintro rfl
    exact ha h.1

theorem seq_succ {i : ℕ} {x} (h : work[i]? = some x) : seq work real (i + 1) = (run x.2 (seq work real i)).1 := by
  rw [seq, h]

theorem seq_keep (hp : Proper work) {i : ℕ} {a : A} (h : ¬W work i a) : seq work real (i + 1) a = seq work real i a := by
  rw [seq]
  cases hx : work[i]? with
  | none => rfl
  | some x =>
    dsimp only
    apply run_keep x.2 _ (hp x (List.mem_of_getElem? hx)).1
    intro hw
    exact h ⟨x, hx, hw⟩

theorem seq_range (hp : Proper work) {i : ℕ} {a : A} : ∀ {k : ℕ}, i ≤ k → (∀ j, i ≤ j → j < k → ¬W work j a) →
    seq work real k a = seq work real i a := by
  intro k
  induction k with
  | zero => intro h _; rw [Nat.le_zero.mp h]
  | succ k ih =>
    intro h hj
    rcases Nat.lt_or_ge k i with e | e
    · have : i = k + 1 := by omega
      rw [this]
    · rw [seq_keep hp (hj k e (by omega)), ih e (fun j h1 h2 => hj j h1 (by omega))]

/-! ## The invariant -/

variable (work real)

/-- What is known of a single lock. -/
structure EntryOk (fin : ℕ → Prop) (i : ℕ) (t : Tx A V R) (w : A → V) (a : A) (e : Entry V) : Prop where
  lockW : W work i a → e.lock = if t.waiting then .write else .unlock
  lockR : ¬W work i a → e.lock = .read
  dep : ∀ j, e.depend = some j → e.st = none ∧ j < i ∧ W work j a ∧ (∀ k, j < k → k < i → ¬W work k a) ∧
    (W work i a → t.waiting = true ∧ w a = seq work real i a)
  nodepW : e.depend = none → W work i a → (∀ j, j < i → W work j a → fin j) ∧
    e.st = some (if t.waiting then .live else .ro (seq work real (i + 1) a))
  nodepR : e.depend = none → ¬W work i a → e.st = some (.ro (seq work real i a))
  base : ∀ v, e.base = some v → v = seq work real i a
  snap : ∀ sn, t.snap = some sn → t.waiting = true → W work i a →
    (∀ v, sn.accts a = some v → v = seq work real i a ∧ e.depend = none) ∧ (sn.accts a = none → e.depend = none → e.base ≠ none)

/-- What is known of a transaction; `w` is the world as it sees it. -/
structure TxOk (fin : ℕ → Prop) (i : ℕ) (t : Tx A V R) (w : A → V) : Prop where
  init : ∃ x, work[i]? = some x ∧ t.init = x.2
  run : run t.prog w = run t.init (seq work real i)
  within : Within (Rd work i) (W work i) t.prog
  keep : ∀ a, ¬W work i a → w a = seq work real i a
  fresh : t.snap = none → w = seq work real i ∧ t.prog = t.init ∧ t.waiting = true
  done : t.waiting = false → ∃ r, t.prog = .done r
  base : ∀ b, t.base = some b → b = seq work real i ∧ ∀ j, j < i → fin j
  comm : ∀ b, t.committed = some b → b = seq work real (i + 1) ∧ ∀ j, j ≤ i → fin j
  first : i = 0 → t.base ≠ none
  wEntries : IsW work i → ∀ a, t.entries a = none
  wWorld : IsW work i → t.world = some (if t.waiting then .write else .unlock)
  wFresh : IsW work i → t.waiting = true → t.base = none → w = seq work real i
  wComm : IsW work i → t.waiting = false → t.committed ≠ none
  wSnap : IsW work i → ∀ sn, t.snap = some sn → sn.base = some (seq work real i) ∧ t.base ≠ none
  aWorld : ¬IsW work i → t.world = none
  aNone : ¬IsW work i → ∀ a, t.entries a = none → ¬Rd work i a
  aSome : ¬IsW work i → ∀ a e, t.entries a = some e → Rd work i a ∧ EntryOk work real fin i t w a e
  aSnap : ¬IsW work i → ∀ sn b, t.snap = some sn → sn.base = some b → b = seq work real i

/-- The invariant; `w i` is the world as transaction `i` sees it. -/
structure Inv (s : State A V R) (w : ℕ → A → V) : Prop where
  n : s.n ≤ work.length
  tx : ∀ i, i < s.n → TxOk work real (fun j => (s.tx j).waiting = false) i (s.tx i) (w i)
  own : ∀ a c, c < s.n → W work c a → (s.tx c).waiting = true → (∀ j, j < c → W work j a → (s.tx j).waiting = false) →
    s.real a = w c a
  free : ∀ a, (∀ j, j < s.n → W work j a → (s.tx j).waiting = false) → s.real a = seq work real s.n a
  lock : ∀ a j, s.getLocker a = some j → j < s.n ∧ W work j a ∧ ∀ k, j < k → k < s.n → ¬W work k a
  nolock : ∀ a, s.getLocker a = none → ∀ j, j < s.n → ¬W work j a
  ro : ∀ a v, s.ro a = some v → v = seq work real 0 a

variable {work real}

theorem EntryOk.mono {fin fin' : ℕ → Prop} {i : ℕ} (hf : ∀ j, j ≤ i → fin j → fin' j) {t : Tx A V R} {w : A → V} {a : A} {e : Entry V}
    (h : EntryOk work real fin i t w a e) : EntryOk work real fin' i t w a e :=
  ⟨h.lockW, h.lockR, h.dep, fun h1 h2 => ⟨fun j hj hw => hf j (by omega) ((h.nodepW h1 h2).1 j hj hw), (h.nodepW h1 h2).2⟩, h.nodepR, h.base,
    h.snap⟩

theorem TxOk.mono {fin fin' : ℕ → Prop} {i : ℕ} (hf : ∀ j, j ≤ i → fin j → fin' j) {t : Tx A V R} {w : A → V}
    (h : TxOk work real fin i t w) : TxOk work real fin' i t w :=
  { h with
    base := fun b hb => ⟨(h.base b hb).1, fun j hj => hf j (by omega) ((h.base b hb).2 j hj)⟩
    comm := fun b hb => ⟨(h.comm b hb).1, fun j hj => hf j hj ((h.comm b hb).2 j hj)⟩
    aSome := fun hw a e he => ⟨(h.aSome hw a e he).1, (h.aSome hw a e he).2.mono hf⟩ }

/-- If a transaction has committed, then the earlier ones that may write what it may write have. -/
theorem earlier_fin {s : State A V R} {w : ℕ → A → V} (I : Inv work real s w) {j k : ℕ} {a : A} (hj : j < s.n) (hw : W work j a)
    (hf : (s.tx j).waiting = false) (hk : k < j) (hwk : W work k a) : (s.tx k).waiting = false := by
  have Tj := I.tx j hj
  by_cases hWj : IsW work j
  · obtain ⟨b, hb⟩ := Option.ne_none_iff_exists'.mp (Tj.wComm hWj hf)
    exact (Tj.comm b hb).2 k (by omega)
  · cases hej : (s.tx j).entries a with
    | none => exact absurd hw.rd (Tj.aNone hWj a hej)
    | some ej =>
      have Ej := (Tj.aSome hWj a ej hej).2
      cases hdj : ej.depend with
      | some k' =>
        have := ((Ej.dep k' hdj).2.2.2.2 hw).1
        rw [hf] at this; cases this
      | none => exact (Ej.nodepW hdj hw).1 k hk hwk

/-- The value of a committed state is that after its transaction. -/
theorem peek_ok {s : State A V R} {w : ℕ → A → V} (I : Inv work real s w) {j : ℕ} {a : A} (hj : j < s.n) (hw : W work j a)
    (hf : (s.tx j).waiting = false) : s.peek j a = some (seq work real (j + 1) a) := by
  have T := I.tx j hj
  unfold State.peek
  by_cases hW : IsW work j
  · rw [T.wEntries hW a]
    dsimp only
    rw [T.wWorld hW]
    dsimp only
    obtain ⟨b, hb⟩ := Option.ne_none_iff_exists'.mp (T.wComm hW hf)
    rw [hb, (T.comm b hb).1]
    rfl
  · cases he : (s.tx j).entries a with
    | none => exact absurd hw.rd (T.aNone hW a he)
    | some e =>
      dsimp only
      have E := (T.aSome hW a e he).2
      cases hd : e.depend with
      | some k =>
        have := ((E.dep k hd).2.2.2.2 hw).1
        rw [hf] at this; cases this
      | none =>
        dsimp only
        rw [(E.nodepW hd hw).2, hf]
        rfl

/-- If `Realize` does not wait, all transactions up to there are committed. -/
theorem realizeList_ok {s : State A V R} {w : ℕ → A → V} (I : Inv work real s w) : ∀ i, i < s.n →
    (s.realizeList i).all (fun j => !(s.tx j).waiting) = true → ∀ j, j ≤ i → (s.tx j).waiting = false := by
  intro i
  induction i with
  | zero =>
    intro hi h j hj
    obtain rfl := Nat.le_zero.mp hj
    rw [State.realizeList] at h
    by_cases hc : (s.tx 0).committed.isSome
    · obtain ⟨b, hb⟩ := Option.isSome_iff_exists.mp hc
      exact ((I.tx 0 hi).comm b hb).2 0 (le_refl _)
    · rw [if_neg hc] at h
      simpa using h
  | succ i ih =>
    intro hi h j hj
    rw [State.realizeList] at h
    by_cases hc : (s.tx (i + 1)).committed.isSome
    · obtain ⟨b, hb⟩ := Option.isSome_iff_exists.mp hc
      exact ((I.tx (i + 1) hi).comm b hb).2 j hj
    · rw [if_neg hc] at h
      by_cases hb : (s.tx (i + 1)).base.isSome
      · rw [if_pos hb] at h
        rcases Nat.lt_or_ge j (i + 1) with e | e
        · obtain ⟨b, hb⟩ := Option.isSome_iff_exists.mp hb
          exact ((I.tx (i + 1) hi).base b hb).2 j e
        · have : j = i + 1 := by omega
          subst this
          simpa using h
      · rw [if_neg hb, List.all_cons, Bool.and_eq_true] at h
        rcases Nat.lt_or_ge j (i + 1) with e | e
        · exact ih (by omega) h.2 j (by omega)
        · have : j = i + 1 := by omega
          subst this
          simpa using h.1

/-- Changing a transaction without its `waiting`, its world and what is not in the virtual state. -/
theorem Inv.change {s : State A V R} {w : ℕ → A → V} (I : Inv work real s w) (i : ℕ) (t : Tx A V R)
    (hw : t.waiting = (s.tx i).waiting)
    (ht : i < s.n → TxOk work real (fun j => (s.tx j).waiting = false) i t (w i)) :
    Inv work real { s with tx := Function.update s.tx i t } w := by
  have hwait : ∀ j, (Function.update s.tx i t j).waiting = (s.tx j).waiting := by
    intro j
    by_cases h : j = i
    · subst h; rw [Function.update_self, hw]
    · rw [Function.update_of_ne h]
  refine ⟨I.n, ?_, ?_, ?_, I.lock, I.nolock, I.ro⟩
  · intro j hj
    dsimp only at hj ⊢
    have : (fun j => (Function.update s.tx i t j).waiting = false) = (fun j => (s.tx j).waiting = false) := by
      funext j; rw [hwait]
    rw [this]
    by_cases h : j = i
    · subst h; rw [Function.update_self]; exact ht hj
    · rw [Function.update_of_ne h]; exact I.tx j hj
  · intro a c hc hW hwt hj
    dsimp only at hwt hj
    rw [hwait] at hwt
    exact I.own a c hc hW hwt (fun j h1 h2 => by have := hj j h1 h2; rwa [hwait] at this)
  · intro a hj
    exact I.free a (fun j h1 h2 => by
      have := hj j h1 h2
      dsimp only at this
      rwa [hwait] at this)

end

end Verif.Virtual
