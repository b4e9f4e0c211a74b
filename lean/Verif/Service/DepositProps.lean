import Verif.Service.Deposit
import Mathlib.Tactic.Linarith
import Mathlib.Tactic.Ring
import Mathlib.Algebra.BigOperators.Group.List.Basic
import Mathlib.Tactic.SplitIfs
import Mathlib.Data.List.Forall2

/-!
# C45: what step deposits pay, and what is left of them
-/

namespace Verif.Service
open Verif

/-! ### Specification -/

/-- The coins a deposit holds. -/
def Dep.held : Dep → ℤ
  | .v1 d => d.remain
  | .v2 r => r

/-- The coins a list of deposits holds. -/
def held (dl : List Dep) : ℤ := (dl.map Dep.held).sum

/-- The virtual steps a deposit can still pay, were it never to expire. -/
def Dep.virt : Dep → ℤ
  | .v1 d => d.stepRemain
  | .v2 _ => 0

def virt (dl : List Dep) : ℤ := (dl.map Dep.virt).sum

/-- A deposit that is in order: nothing is negative, no more is left than was put in. -/
def Dep.Sound : Dep → Prop
  | .v1 d => 0 ≤ d.remain ∧ d.remain ≤ d.amount ∧ 0 ≤ d.stepRemain ∧ d.stepRemain ≤ d.issued
  | .v2 r => 0 ≤ r

/-- The deposit is usable at this height. -/
def Dep.live (height : ℤ) : Dep → Bool
  | .v1 d => decide (height < d.expire)
  | .v2 _ => true

/-- Two deposits never answer to the same id. -/
def Dep.Apart (a b : Dep) : Prop := ∀ id, ¬ (a.isIdentifiedBy id = true ∧ b.isIdentifiedBy id = true)

@[simp] theorem held_nil : held [] = 0 := rfl
@[simp] theorem held_cons (d : Dep) (l : List Dep) : held (d :: l) = d.held + held l := by simp [held]
@[simp] theorem held_append (l m : List Dep) : held (l ++ m) = held l + held m := by simp [held]
@[simp] theorem virt_nil : virt [] = 0 := rfl
@[simp] theorem virt_cons (d : Dep) (l : List Dep) : virt (d :: l) = d.virt + virt l := by simp [virt]

/-- What stays the same of a deposit whatever is paid with it: its kind, id, amount, issued steps, expiry; and
everything if it has expired. -/
def Dep.Kept (height : ℤ) : Dep → Dep → Prop
  | .v1 d, .v1 e => e.id = d.id ∧ e.amount = d.amount ∧ e.issued = d.issued ∧ e.expire = d.expire ∧
      (height ≥ d.expire → e = d)
  | .v2 _, .v2 _ => True
  | _, _ => False

theorem Dep.Kept.rfl' (h : ℤ) : ∀ d : Dep, d.Kept h d
  | .v1 _ => ⟨rfl, rfl, rfl, rfl, fun _ => rfl⟩
  | .v2 _ => trivial

theorem Dep.Kept.trans {h : ℤ} : ∀ {a b c : Dep}, a.Kept h b → b.Kept h c → a.Kept h c
  | .v1 _, .v1 _, .v1 _, ⟨h1, h2, h3, h4, h5⟩, ⟨g1, g2, g3, g4, g5⟩ =>
    ⟨g1.trans h1, g2.trans h2, g3.trans h3, g4.trans h4, fun hh => (g5 (h4 ▸ hh)).trans (h5 hh)⟩
  | .v2 _, .v2 _, .v2 _, _, _ => trivial
  | .v1 _, .v1 _, .v2 _, _, h => h.elim
  | .v1 _, .v2 _, _, h, _ => h.elim
  | .v2 _, .v1 _, _, h, _ => h.elim
  | .v2 _, .v2 _, .v1 _, _, h => h.elim

theorem Dep.Kept.ident {h : ℤ} : ∀ {a b : Dep}, a.Kept h b → ∀ id, b.isIdentifiedBy id = a.isIdentifiedBy id
  | .v1 _, .v1 _, ⟨h1, _⟩, id => by simp [Dep.isIdentifiedBy, h1]
  | .v2 _, .v2 _, _, id => rfl
  | .v1 _, .v2 _, h, _ => h.elim
  | .v2 _, .v1 _, h, _ => h.elim

/-! ### One deposit -/

local macro "om" : tactic => `(tactic| ((try dsimp only at *); omega))

theorem expireAt_iff (d : DepV1) (h : ℤ) : d.expireAt h = true ↔ h ≥ d.expire := by
  simp [DepV1.expireAt]

theorem consumeSteps_spec {h s : ℤ} {d : Dep} (hd : d.Sound) (hs : 0 ≤ s) :
    ((d.consumeSteps h s).1).Sound ∧ 0 ≤ (d.consumeSteps h s).2 ∧ (d.consumeSteps h s).2 ≤ s ∧
    ((d.consumeSteps h s).1).held = d.held ∧
    ((d.consumeSteps h s).1).virt = d.virt - (s - (d.consumeSteps h s).2) ∧
    d.Kept h (d.consumeSteps h s).1 ∧
    (0 < (d.consumeSteps h s).2 → ((d.consumeSteps h s).1).availableSteps h = 0) ∧
    (d.reload = d → ((d.consumeSteps h s).1).reload = (d.consumeSteps h s).1) := by
  cases d with
  | v2 r =>
    rw [show (Dep.v2 r).consumeSteps h s = (.v2 r, s) from rfl]
    exact ⟨hd, hs, le_refl _, rfl, by om, trivial, fun _ => rfl, fun h => h⟩
  | v1 d =>
    obtain ⟨h1, h2, h3, h4⟩ := hd
    have hrel : ∀ x : ℤ, (Dep.v1 d).reload = .v1 d →
        (Dep.v1 { d with stepRemain := x }).reload = (Dep.v1 { d with stepRemain := x }) := by
      intro x hr
      simp only [Dep.reload, Dep.v1.injEq] at hr ⊢
      have := congrArg DepV1.exhausted hr
      simp only at this
      rw [this]
    by_cases he : d.expireAt h = true
    · rw [show (Dep.v1 d).consumeSteps h s = (.v1 d, s) by simp [Dep.consumeSteps, he]]
      refine ⟨⟨h1, h2, h3, h4⟩, hs, le_refl _, rfl, by om, Dep.Kept.rfl' _ _, ?_, fun h => h⟩
      intro _; simp [Dep.availableSteps, he]
    · by_cases h0 : d.stepRemain = 0
      · rw [show (Dep.v1 d).consumeSteps h s = (.v1 d, s) by simp [Dep.consumeSteps, he, h0]]
        refine ⟨⟨h1, h2, h3, h4⟩, hs, le_refl _, rfl, by om, Dep.Kept.rfl' _ _, ?_, fun h => h⟩
        intro _; simp [Dep.availableSteps, h0]
      · have he' := he
        rw [expireAt_iff] at he'
        by_cases hl : d.stepRemain < s
        · rw [show (Dep.v1 d).consumeSteps h s = (.v1 { d with stepRemain := 0 }, s - d.stepRemain) by
            simp [Dep.consumeSteps, he, h0, hl]]
          refine ⟨⟨h1, h2, le_refl _, by om⟩, by om, by om, rfl, by simp only [Dep.virt]; om,
            ⟨rfl, rfl, rfl, rfl, fun hh => absurd hh he'⟩, ?_, hrel 0⟩
          intro _; simp [Dep.availableSteps]
        · rw [show (Dep.v1 d).consumeSteps h s = (.v1 { d with stepRemain := d.stepRemain - s }, 0) by
            simp [Dep.consumeSteps, he, h0, hl]]
          refine ⟨⟨h1, h2, by om, by om⟩, by om, by om, rfl, by simp only [Dep.virt]; om,
            ⟨rfl, rfl, rfl, rfl, fun hh => absurd hh he'⟩, ?_, hrel _⟩
          intro hh; om

theorem minDeposit_nonneg {a : ℤ} (h : 0 ≤ a) : 0 ≤ minDeposit a := Int.ediv_nonneg h (by norm_num)

theorem consumeLv1_spec {h s : ℤ} {d : Dep} (hd : d.Sound) (hs : 0 ≤ s) :
    ((d.consumeLv1 h s).1).Sound ∧ 0 ≤ (d.consumeLv1 h s).2 ∧ (d.consumeLv1 h s).2 ≤ s ∧
    ((d.consumeLv1 h s).1).held = d.held - (s - (d.consumeLv1 h s).2) ∧
    ((d.consumeLv1 h s).1).available h = d.available h - (s - (d.consumeLv1 h s).2) ∧
    ((d.consumeLv1 h s).1).virt = d.virt ∧
    ((d.consumeLv1 h s).1).availableSteps h = d.availableSteps h ∧
    d.Kept h (d.consumeLv1 h s).1 ∧
    (d.reload = d → ((d.consumeLv1 h s).1).reload = (d.consumeLv1 h s).1) ∧
    (0 < (d.consumeLv1 h s).2 → ((d.consumeLv1 h s).1).reload = (d.consumeLv1 h s).1 → ∀ e, (d.consumeLv1 h s).1 = .v1 e → h < e.expire → e.exhausted = true) ∧
    (0 < (d.consumeLv1 h s).2 → ∀ r, (d.consumeLv1 h s).1 = .v2 r → r = 0) := by
  cases d with
  | v2 r =>
    simp only [Dep.Sound] at hd
    by_cases hl : r ≤ s
    · rw [show (Dep.v2 r).consumeLv1 h s = (.v2 0, s - r) by simp [Dep.consumeLv1, hl]]
      refine ⟨le_refl _, by om, by om, by simp only [Dep.held]; om, by simp only [Dep.available]; om, rfl, rfl, trivial,
        fun _ => rfl, ?_, ?_⟩
      · intro _ _ e he; exact absurd he (by simp)
      · intro _ x hx; exact (Dep.v2.inj hx).symm
    · rw [show (Dep.v2 r).consumeLv1 h s = (.v2 (r - s), 0) by simp [Dep.consumeLv1, hl]]
      refine ⟨by simp only [Dep.Sound]; om, le_refl _, by om, by simp only [Dep.held]; om, by simp only [Dep.available]; om,
        rfl, rfl, trivial, fun _ => rfl, ?_, ?_⟩
      · intro hh; om
      · intro hh; om
  | v1 d =>
    obtain ⟨h1, h2, h3, h4⟩ := hd
    have hm := minDeposit_nonneg (h1.trans h2)
    by_cases he : (d.expireAt h || d.exhausted) = true
    · rw [show (Dep.v1 d).consumeLv1 h s = (.v1 d, s) by simp only [Dep.consumeLv1]; rw [if_pos he]]
      refine ⟨⟨h1, h2, h3, h4⟩, hs, le_refl _, by om, by om, rfl, rfl, Dep.Kept.rfl' _ _, fun hr => hr, ?_, ?_⟩
      · intro _ hr e hee hlt
        obtain rfl : d = e := by simpa using hee
        simp only [Bool.or_eq_true, expireAt_iff] at he
        rcases he with he | he
        · omega
        · exact he
      · intro _ r hr; exact absurd hr (by simp)
    · have he0 := he
      simp only [Bool.or_eq_true, expireAt_iff, not_or] at he
      by_cases hle : d.remain ≤ minDeposit d.amount
      · rw [show (Dep.v1 d).consumeLv1 h s = (.v1 d, s) by
          simp only [Dep.consumeLv1]; rw [if_neg he0, if_pos hle]]
        refine ⟨⟨h1, h2, h3, h4⟩, hs, le_refl _, by om, by om, rfl, rfl, Dep.Kept.rfl' _ _, fun hr => hr, ?_, ?_⟩
        · intro _ hr e hee hlt
          simp only [Dep.reload, Dep.v1.injEq] at hr
          have := congrArg DepV1.exhausted hr
          simp only [hle, decide_true] at this
          exact absurd this.symm he.2
        · intro _ r hr; exact absurd hr (by simp)
      · have hne : ¬ d.expireAt h = true := by rw [expireAt_iff]; exact he.1
        have hex : ∀ x b, ({ d with remain := x, exhausted := b } : DepV1).expireAt h = d.expireAt h := fun _ _ => rfl
        have hex' : ∀ x, ({ d with remain := x } : DepV1).expireAt h = d.expireAt h := fun _ => rfl
        by_cases hp : d.remain - minDeposit d.amount ≤ s
        · have e : (Dep.v1 d).consumeLv1 h s =
              (.v1 { d with remain := d.remain - (d.remain - minDeposit d.amount), exhausted := true },
                s - (d.remain - minDeposit d.amount)) := by
            simp only [Dep.consumeLv1]; rw [if_neg he0, if_neg hle, if_pos hp]
          rw [e]
          refine ⟨⟨by om, by om, h3, h4⟩, by om, by om, by simp only [Dep.held]; om, ?_, rfl, rfl,
            ⟨rfl, rfl, rfl, rfl, fun hh => absurd hh he.1⟩, ?_, ?_, ?_⟩
          · simp only [Dep.available, hex, if_neg hne]; om
          · intro _; simp [Dep.reload]
          · intro _ _ e hee _
            obtain rfl := Dep.v1.inj hee; rfl
          · intro _ r hr; exact absurd hr (by simp)
        · rw [show (Dep.v1 d).consumeLv1 h s = (.v1 { d with remain := d.remain - s }, 0) by
            simp only [Dep.consumeLv1]; rw [if_neg he0, if_neg hle, if_neg hp]]
          refine ⟨⟨by om, by om, h3, h4⟩, by om, by om, by simp only [Dep.held]; om, ?_, rfl, rfl,
            ⟨rfl, rfl, rfl, rfl, fun hh => absurd hh he.1⟩, ?_, ?_, ?_⟩
          · simp only [Dep.available, hex', if_neg hne]; om
          · intro _
            have : d.exhausted = false := by simpa using he.2
            simp only [Dep.reload, Dep.v1.injEq]
            have hd : decide (d.remain - s ≤ minDeposit d.amount) = d.exhausted := by
              rw [this]; simp; omega
            rw [hd]
          · intro hh; om
          · intro hh; om

theorem consumeLv2_spec {h s : ℤ} {d : Dep} (hd : d.Sound) (hs : 0 ≤ s)
    (hr : d.reload = d → ∀ e, d = .v1 e → h < e.expire → e.exhausted = true) :
    ((d.consumeLv2 h s).1).Sound ∧ 0 ≤ (d.consumeLv2 h s).2 ∧ (d.consumeLv2 h s).2 ≤ s ∧
    ((d.consumeLv2 h s).1).held = d.held - (s - (d.consumeLv2 h s).2) ∧
    ((d.consumeLv2 h s).1).available h = d.available h - (s - (d.consumeLv2 h s).2) ∧
    ((d.consumeLv2 h s).1).virt = d.virt ∧
    ((d.consumeLv2 h s).1).availableSteps h = d.availableSteps h ∧
    d.Kept h (d.consumeLv2 h s).1 ∧
    (d.reload = d → ((d.consumeLv2 h s).1).reload = (d.consumeLv2 h s).1) ∧
    (0 < (d.consumeLv2 h s).2 → ∀ e, (d.consumeLv2 h s).1 = .v1 e → h < e.expire → e.remain = 0) := by
  cases d with
  | v2 r =>
    rw [show (Dep.v2 r).consumeLv2 h s = (.v2 r, s) from rfl]
    refine ⟨hd, hs, le_refl _, by om, by om, rfl, rfl, trivial, fun h => h, ?_⟩
    intro _ e he; exact absurd he (by simp)
  | v1 d =>
    obtain ⟨h1, h2, h3, h4⟩ := hd
    have hex' : ∀ x, ({ d with remain := x } : DepV1).expireAt h = d.expireAt h := fun _ => rfl
    by_cases he : d.expireAt h = true
    · rw [show (Dep.v1 d).consumeLv2 h s = (.v1 d, s) by simp only [Dep.consumeLv2]; rw [if_pos he]]
      refine ⟨⟨h1, h2, h3, h4⟩, hs, le_refl _, by om, by om, rfl, rfl, Dep.Kept.rfl' _ _, fun hr => hr, ?_⟩
      intro _ e hee hlt
      obtain rfl : d = e := by simpa using hee
      rw [expireAt_iff] at he; omega
    · have he' : ¬ h ≥ d.expire := by rwa [expireAt_iff] at he
      have key : ∀ x, x ≤ d.remain → (Dep.v1 d).reload = .v1 d → (Dep.v1 { d with remain := x }).reload = .v1 { d with remain := x } := by
        intro x hx hrr
        have hexh := hr hrr d rfl (by omega)
        simp only [Dep.reload, Dep.v1.injEq] at hrr ⊢
        have := congrArg DepV1.exhausted hrr
        simp only [hexh, decide_eq_true_eq] at this
        have hd : decide (x ≤ minDeposit d.amount) = d.exhausted := by
          rw [hexh]; simp; omega
        rw [hd]
      by_cases hl : d.remain < s
      · rw [show (Dep.v1 d).consumeLv2 h s = (.v1 { d with remain := 0 }, s - d.remain) by
          simp only [Dep.consumeLv2]; rw [if_neg he, if_pos hl]]
        refine ⟨⟨le_refl _, by om, h3, h4⟩, by om, by om, by simp only [Dep.held]; om, ?_, rfl, rfl,
          ⟨rfl, rfl, rfl, rfl, fun hh => absurd hh he'⟩, key 0 h1, ?_⟩
        · simp only [Dep.available, hex', if_neg he]; om
        · intro _ e hee _
          obtain rfl := Dep.v1.inj hee; rfl
      · rw [show (Dep.v1 d).consumeLv2 h s = (.v1 { d with remain := d.remain - s }, 0) by
          simp only [Dep.consumeLv2]; rw [if_neg he, if_neg hl]]
        refine ⟨⟨by om, by om, h3, h4⟩, by om, by om, by simp only [Dep.held]; om, ?_, rfl, rfl,
          ⟨rfl, rfl, rfl, rfl, fun hh => absurd hh he'⟩, key _ (by omega), ?_⟩
        · simp only [Dep.available, hex', if_neg he]; om
        · intro hh; om

/-! ### Lists of deposits -/

theorem kept_trans {h : ℤ} : ∀ {a b c : List Dep}, List.Forall₂ (Dep.Kept h) a b →
    List.Forall₂ (Dep.Kept h) b c → List.Forall₂ (Dep.Kept h) a c
  | _, _, _, .nil, .nil => .nil
  | _, _, _, .cons h1 t1, .cons h2 t2 => .cons (h1.trans h2) (kept_trans t1 t2)

theorem consumeStepsAll_spec {h : ℤ} : ∀ {dl : List Dep} {s : ℤ}, (∀ d ∈ dl, d.Sound) → 0 ≤ s →
    (∀ d ∈ (consumeStepsAll h s dl).1, d.Sound) ∧ 0 ≤ (consumeStepsAll h s dl).2 ∧ (consumeStepsAll h s dl).2 ≤ s ∧
    held (consumeStepsAll h s dl).1 = held dl ∧
    virt (consumeStepsAll h s dl).1 = virt dl - (s - (consumeStepsAll h s dl).2) ∧
    List.Forall₂ (Dep.Kept h) dl (consumeStepsAll h s dl).1 ∧
    (0 < (consumeStepsAll h s dl).2 → ∀ d ∈ (consumeStepsAll h s dl).1, d.availableSteps h = 0) ∧
    ((∀ d ∈ dl, d.reload = d) → ∀ d ∈ (consumeStepsAll h s dl).1, d.reload = d)
  | [], s, _, hs => by simp [consumeStepsAll, hs]
  | d :: dl, s, hd, hs => by
    obtain ⟨a1, a2, a3, a4, a5, a6, a7, a8⟩ := consumeSteps_spec (h := h) (hd d (by simp)) hs
    have hd' : ∀ e ∈ dl, e.Sound := fun e he => hd e (by simp [he])
    by_cases h0 : (d.consumeSteps h s).2 = 0
    · have e : consumeStepsAll h s (d :: dl) = ((d.consumeSteps h s).1 :: dl, 0) := by
        simp only [consumeStepsAll]; rw [if_pos h0]
      rw [e]
      refine ⟨?_, le_refl _, hs, ?_, ?_, ?_, fun hh => absurd hh (lt_irrefl _), ?_⟩
      · intro x hx; rcases List.mem_cons.1 hx with rfl | hx
        · exact a1
        · exact hd' x hx
      · simp only [held_cons, a4]
      · simp only [virt_cons, a5, h0]; omega
      · refine List.Forall₂.cons a6 ?_
        exact List.forall₂_same.2 (fun x _ => Dep.Kept.rfl' h x)
      · intro hr x hx; rcases List.mem_cons.1 hx with rfl | hx
        · exact a8 (hr d (by simp))
        · exact hr x (by simp [hx])
    · have e : consumeStepsAll h s (d :: dl) = ((d.consumeSteps h s).1 :: (consumeStepsAll h (d.consumeSteps h s).2 dl).1,
          (consumeStepsAll h (d.consumeSteps h s).2 dl).2) := by
        simp only [consumeStepsAll]; rw [if_neg h0]
      rw [e]
      obtain ⟨b1, b2, b3, b4, b5, b6, b7, b8⟩ := consumeStepsAll_spec (h := h) hd' a2
      refine ⟨?_, b2, b3.trans a3, ?_, ?_, List.Forall₂.cons a6 b6, ?_, ?_⟩
      · intro x hx; rcases List.mem_cons.1 hx with rfl | hx
        · exact a1
        · exact b1 x hx
      · simp only [held_cons, a4, b4]
      · simp only [virt_cons, a5, b5]; omega
      · intro hh x hx; rcases List.mem_cons.1 hx with rfl | hx
        · exact a7 (by omega)
        · exact b7 hh x hx
      · intro hr x hx; rcases List.mem_cons.1 hx with rfl | hx
        · exact a8 (hr d (by simp))
        · exact b8 (fun y hy => hr y (by simp [hy])) x hx

theorem available_of_held {h : ℤ} : ∀ {d : Dep}, d.Sound → 0 ≤ d.available h ∧ d.available h ≤ d.held
  | .v1 d, hd => by
    simp only [Dep.available, Dep.held]; split
    · exact ⟨le_refl _, hd.1⟩
    · exact ⟨hd.1, le_refl _⟩
  | .v2 r, hd => ⟨hd, le_refl _⟩

theorem availableDeposit_bounds {h : ℤ} : ∀ {dl : List Dep}, (∀ d ∈ dl, d.Sound) →
    0 ≤ availableDeposit h dl ∧ availableDeposit h dl ≤ held dl
  | [], _ => by simp [availableDeposit]
  | d :: dl, hd => by
    have a := available_of_held (h := h) (hd d (by simp))
    have b := availableDeposit_bounds (h := h) (fun e he => hd e (by simp [he]) : ∀ e ∈ dl, e.Sound)
    simp only [availableDeposit, held_cons]; omega

theorem consumeLv1All_spec {h : ℤ} : ∀ {dl : List Dep} {s : ℤ}, (∀ d ∈ dl, d.Sound) → 0 ≤ s →
    (∀ d ∈ (consumeLv1All h s dl).1, d.Sound) ∧ 0 ≤ (consumeLv1All h s dl).2 ∧ (consumeLv1All h s dl).2 ≤ s ∧
    held (consumeLv1All h s dl).1 = held dl - (s - (consumeLv1All h s dl).2) ∧
    availableDeposit h (consumeLv1All h s dl).1 = availableDeposit h dl - (s - (consumeLv1All h s dl).2) ∧
    virt (consumeLv1All h s dl).1 = virt dl ∧
    (consumeLv1All h s dl).1.map (Dep.availableSteps h) = dl.map (Dep.availableSteps h) ∧
    List.Forall₂ (Dep.Kept h) dl (consumeLv1All h s dl).1 ∧
    ((∀ d ∈ dl, d.reload = d) → ∀ d ∈ (consumeLv1All h s dl).1, d.reload = d) ∧
    (0 < (consumeLv1All h s dl).2 → ∀ d ∈ (consumeLv1All h s dl).1, d.reload = d → ∀ e, d = .v1 e →
      h < e.expire → e.exhausted = true) ∧
    (0 < (consumeLv1All h s dl).2 → ∀ r, Dep.v2 r ∈ (consumeLv1All h s dl).1 → r = 0)
  | [], s, _, hs => by simp [consumeLv1All, hs]
  | d :: dl, s, hd, hs => by
    obtain ⟨a1, a2, a3, a4, a5, a6, a7, a8, a9, a10, a11⟩ := consumeLv1_spec (h := h) (hd d (by simp)) hs
    have hd' : ∀ e ∈ dl, e.Sound := fun e he => hd e (by simp [he])
    by_cases h0 : (d.consumeLv1 h s).2 = 0
    · have e : consumeLv1All h s (d :: dl) = ((d.consumeLv1 h s).1 :: dl, 0) := by
        simp only [consumeLv1All]; rw [if_pos h0]
      rw [e]
      refine ⟨?_, le_refl _, hs, ?_, ?_, ?_, ?_, ?_, ?_, fun hh => absurd hh (lt_irrefl _), fun hh => absurd hh (lt_irrefl _)⟩
      · intro x hx; rcases List.mem_cons.1 hx with rfl | hx
        · exact a1
        · exact hd' x hx
      · simp only [held_cons, a4, h0]; omega
      · simp only [availableDeposit, a5, h0]; omega
      · simp only [virt_cons, a6]
      · simp only [List.map_cons, a7]
      · refine List.Forall₂.cons a8 ?_
        exact List.forall₂_same.2 (fun x _ => Dep.Kept.rfl' h x)
      · intro hr x hx; rcases List.mem_cons.1 hx with rfl | hx
        · exact a9 (hr d (by simp))
        · exact hr x (by simp [hx])
    · have e : consumeLv1All h s (d :: dl) = ((d.consumeLv1 h s).1 :: (consumeLv1All h (d.consumeLv1 h s).2 dl).1,
          (consumeLv1All h (d.consumeLv1 h s).2 dl).2) := by
        simp only [consumeLv1All]; rw [if_neg h0]
      rw [e]
      obtain ⟨b1, b2, b3, b4, b5, b6, b7, b8, b9, b10, b11⟩ := consumeLv1All_spec (h := h) hd' a2
      refine ⟨?_, b2, b3.trans a3, ?_, ?_, ?_, ?_, List.Forall₂.cons a8 b8, ?_, ?_, ?_⟩
      · intro x hx; rcases List.mem_cons.1 hx with rfl | hx
        · exact a1
        · exact b1 x hx
      · simp only [held_cons, a4, b4]; omega
      · simp only [availableDeposit, a5, b5]; omega
      · simp only [virt_cons, a6, b6]
      · simp only [List.map_cons, a7, b7]
      · intro hr x hx; rcases List.mem_cons.1 hx with rfl | hx
        · exact a9 (hr d (by simp))
        · exact b9 (fun y hy => hr y (by simp [hy])) x hx
      · intro hh x hx; rcases List.mem_cons.1 hx with rfl | hx
        · exact a10 (by omega)
        · exact b10 hh x hx
      · intro hh x hx; rcases List.mem_cons.1 hx with hx | hx
        · exact a11 (by omega) x hx.symm
        · exact b11 hh x hx

theorem consumeLv2All_spec {h : ℤ} : ∀ {dl : List Dep} {s : ℤ}, (∀ d ∈ dl, d.Sound) → 0 ≤ s →
    (∀ d ∈ dl, d.reload = d → ∀ e, d = .v1 e → h < e.expire → e.exhausted = true) →
    (∀ d ∈ (consumeLv2All h s dl).1, d.Sound) ∧ 0 ≤ (consumeLv2All h s dl).2 ∧ (consumeLv2All h s dl).2 ≤ s ∧
    held (consumeLv2All h s dl).1 = held dl - (s - (consumeLv2All h s dl).2) ∧
    availableDeposit h (consumeLv2All h s dl).1 = availableDeposit h dl - (s - (consumeLv2All h s dl).2) ∧
    virt (consumeLv2All h s dl).1 = virt dl ∧
    (consumeLv2All h s dl).1.map (Dep.availableSteps h) = dl.map (Dep.availableSteps h) ∧
    List.Forall₂ (Dep.Kept h) dl (consumeLv2All h s dl).1 ∧
    ((∀ d ∈ dl, d.reload = d) → ∀ d ∈ (consumeLv2All h s dl).1, d.reload = d) ∧
    (0 < (consumeLv2All h s dl).2 → (∀ r, Dep.v2 r ∈ dl → r = 0) → availableDeposit h (consumeLv2All h s dl).1 = 0)
  | [], s, _, hs, _ => by simp [consumeLv2All, hs, availableDeposit]
  | d :: dl, s, hd, hs, hr => by
    obtain ⟨a1, a2, a3, a4, a5, a6, a7, a8, a9, a10⟩ := consumeLv2_spec (h := h) (hd d (by simp)) hs (hr d (by simp))
    have hd' : ∀ e ∈ dl, e.Sound := fun e he => hd e (by simp [he])
    by_cases h0 : (d.consumeLv2 h s).2 = 0
    · have e : consumeLv2All h s (d :: dl) = ((d.consumeLv2 h s).1 :: dl, 0) := by
        simp only [consumeLv2All]; rw [if_pos h0]
      rw [e]
      refine ⟨?_, le_refl _, hs, ?_, ?_, ?_, ?_, ?_, ?_, fun hh => absurd hh (lt_irrefl _)⟩
      · intro x hx; rcases List.mem_cons.1 hx with rfl | hx
        · exact a1
        · exact hd' x hx
      · simp only [held_cons, a4, h0]; omega
      · simp only [availableDeposit, a5, h0]; omega
      · simp only [virt_cons, a6]
      · simp only [List.map_cons, a7]
      · refine List.Forall₂.cons a8 ?_
        exact List.forall₂_same.2 (fun x _ => Dep.Kept.rfl' h x)
      · intro hr x hx; rcases List.mem_cons.1 hx with rfl | hx
        · exact a9 (hr d (by simp))
        · exact hr x (by simp [hx])
    · have e : consumeLv2All h s (d :: dl) = ((d.consumeLv2 h s).1 :: (consumeLv2All h (d.consumeLv2 h s).2 dl).1,
          (consumeLv2All h (d.consumeLv2 h s).2 dl).2) := by
        simp only [consumeLv2All]; rw [if_neg h0]
      rw [e]
      obtain ⟨b1, b2, b3, b4, b5, b6, b7, b8, b9, b10⟩ :=
        consumeLv2All_spec (h := h) hd' a2 (fun x hx => hr x (by simp [hx]))
      refine ⟨?_, b2, b3.trans a3, ?_, ?_, ?_, ?_, List.Forall₂.cons a8 b8, ?_, ?_⟩
      · intro x hx; rcases List.mem_cons.1 hx with rfl | hx
        · exact a1
        · exact b1 x hx
      · simp only [held_cons, a4, b4]; omega
      · simp only [availableDeposit, a5, b5]; omega
      · simp only [virt_cons, a6, b6]
      · simp only [List.map_cons, a7, b7]
      · intro hr x hx; rcases List.mem_cons.1 hx with rfl | hx
        · exact a9 (hr d (by simp))
        · exact b9 (fun y hy => hr y (by simp [hy])) x hx
      · intro hh hz
        simp only [availableDeposit]
        rw [b10 hh (fun r hr => hz r (by simp [hr]))]
        have hpos : 0 < (d.consumeLv2 h s).2 := by omega
        have h10 := a10 hpos
        have : ((d.consumeLv2 h s).1).available h = 0 := by
          cases hx : (d.consumeLv2 h s).1 with
          | v2 r =>
            rw [hx] at a8
            cases d with
            | v1 d => exact a8.elim
            | v2 r' =>
              simp only [Dep.consumeLv2, Dep.v2.injEq] at hx
              simp only [Dep.available]
              exact hz r (by simp [hx])
          | v1 e =>
            simp only [Dep.available]; split
            · rfl
            · rename_i hne
              rw [expireAt_iff] at hne
              exact h10 e hx (by omega)
        omega

theorem kept_source {h : ℤ} {a b : List Dep} (hk : List.Forall₂ (Dep.Kept h) a b) {x : Dep} (hx : x ∈ b) :
    ∃ y ∈ a, Dep.Kept h y x := by
  induction hk with
  | nil => simp at hx
  | cons hk' _ ih =>
    rcases List.mem_cons.1 hx with rfl | hx
    · exact ⟨_, List.mem_cons_self, hk'⟩
    · obtain ⟨y, hy, hyk⟩ := ih hx
      exact ⟨y, List.mem_cons_of_mem _ hy, hyk⟩

/-! ### Paying -/

theorem C45_pay {bh price steps : ℤ} {dl : List Dep} (hd : ∀ d ∈ dl, d.Sound) (hp : 0 < price) (hs : 0 ≤ steps)
    (hne : dl ≠ []) :
    ∃ paid : ℤ, (paySteps bh price steps dl).1.paid = some paid ∧ 0 ≤ paid ∧ paid ≤ steps ∧
      let byDep := (paySteps bh price steps dl).1.byDeposit.getD 0
      let dl' := (paySteps bh price steps dl).2
      0 ≤ byDep ∧ byDep ≤ paid ∧
      held dl' = held dl - byDep * price ∧
      virt dl' = virt dl - (paid - byDep) ∧
      List.Forall₂ (Dep.Kept bh) dl dl' ∧
      (∀ d ∈ dl', d.Sound) ∧
      (0 < byDep ∨ paid < steps → ∀ d ∈ dl', d.availableSteps bh = 0) ∧
      (paid < steps → availableDeposit bh dl' < price) ∧
      ((∀ d ∈ dl, d.reload = d) → ∀ d ∈ dl', d.reload = d) := by
  obtain ⟨a1, a2, a3, a4, a5, a6, a7, a8⟩ := consumeStepsAll_spec (h := bh) hd hs
  by_cases h0 : (consumeStepsAll bh steps dl).2 = 0
  · have e : paySteps bh price steps dl = (⟨some steps, none⟩, (consumeStepsAll bh steps dl).1) := by
      simp only [paySteps]; rw [if_neg (by simp [hne, hp]), if_pos h0]
    rw [e]
    refine ⟨steps, rfl, hs, le_refl _, le_refl _, hs, ?_, ?_, a6, a1, ?_, ?_, a8⟩
    · simp [a4]
    · simp [a5, h0]
    · intro h; simp at h
    · intro h; simp at h
  · have hpos : 0 < (consumeStepsAll bh steps dl).2 := by omega
    generalize hr : (consumeStepsAll bh steps dl).2 = remains at *
    generalize hl : (consumeStepsAll bh steps dl).1 = l0 at *
    have ab := availableDeposit_bounds (h := bh) a1
    generalize hav : availableDeposit bh l0 = av at *
    have hq0 : 0 ≤ av / price := Int.ediv_nonneg ab.1 hp.le
    have hqm : av / price * price ≤ av := Int.ediv_mul_le _ hp.ne'
    have hqlt : av < (av / price + 1) * price := by
      have := Int.lt_ediv_add_one_mul_self av hp; exact this
    generalize hbd : (if av / price < remains then av / price else remains) = bd
    generalize hpd : (if av / price < remains then steps - remains + bd else steps) = pd
    have hbd0 : 0 ≤ bd := by rw [← hbd]; split <;> omega
    have hbdr : bd ≤ remains := by rw [← hbd]; split <;> omega
    have hbdq : bd ≤ av / price := by rw [← hbd]; split <;> omega
    have hpd' : pd = steps - remains + bd := by
      rw [← hpd]; split
      · rfl
      · rename_i h; rw [if_neg h] at hbd; omega
    have hfee : 0 ≤ bd * price := mul_nonneg hbd0 hp.le
    have hfav : bd * price ≤ av := le_trans (mul_le_mul_of_nonneg_right hbdq hp.le) hqm
    have e : paySteps bh price steps dl = (⟨some pd, some bd⟩,
        if (consumeLv1All bh (bd * price) l0).2 ≠ 0 then
          (consumeLv2All bh (consumeLv1All bh (bd * price) l0).2 (consumeLv1All bh (bd * price) l0).1).1
        else (consumeLv1All bh (bd * price) l0).1) := by
      simp only [paySteps]
      rw [if_neg (by simp [hne, hp])]
      rw [hr, hl, if_neg h0, hav, hbd, hpd]
    rw [e]
    obtain ⟨b1, b2, b3, b4, b5, b6, b7, b8, b9, b10, b11⟩ := consumeLv1All_spec (h := bh) a1 hfee
    have hvs : ∀ l : List Dep, l.map (Dep.availableSteps bh) = l0.map (Dep.availableSteps bh) →
        ∀ d ∈ l, d.availableSteps bh = 0 := by
      intro l hm d hd
      have : d.availableSteps bh ∈ l.map (Dep.availableSteps bh) := List.mem_map_of_mem hd
      rw [hm] at this
      obtain ⟨x, hx, hx'⟩ := List.mem_map.1 this
      rw [← hx']; exact a7 hpos x hx
    have fin : ∀ l : List Dep, held l = held l0 - bd * price → availableDeposit bh l = av - bd * price →
        virt l = virt l0 → l.map (Dep.availableSteps bh) = l0.map (Dep.availableSteps bh) →
        List.Forall₂ (Dep.Kept bh) l0 l → (∀ d ∈ l, d.Sound) → ((∀ d ∈ l0, d.reload = d) → ∀ d ∈ l, d.reload = d) →
        ∃ paid : ℤ, some pd = some paid ∧ 0 ≤ paid ∧ paid ≤ steps ∧
          0 ≤ bd ∧ bd ≤ paid ∧ held l = held dl - bd * price ∧ virt l = virt dl - (paid - bd) ∧
          List.Forall₂ (Dep.Kept bh) dl l ∧ (∀ d ∈ l, d.Sound) ∧
          (0 < bd ∨ paid < steps → ∀ d ∈ l, d.availableSteps bh = 0) ∧
          (paid < steps → availableDeposit bh l < price) ∧
          ((∀ d ∈ dl, d.reload = d) → ∀ d ∈ l, d.reload = d) := by
      intro l c1 c2 c3 c4 c5 c6 c7
      refine ⟨pd, rfl, by omega, by omega, hbd0, by omega, by rw [c1, a4], by rw [c3, a5]; omega, ?_, c6,
        fun _ => hvs l c4, ?_, fun h => c7 (a8 h)⟩
      · exact kept_trans a6 c5
      · intro hlt
        have : bd = av / price := by
          rw [← hbd]; split
          · rfl
          · rename_i h; rw [if_neg h] at hbd; omega
        rw [c2, this]; linarith
    by_cases hz : (consumeLv1All bh (bd * price) l0).2 = 0
    · rw [if_neg (by simp [hz])]
      refine fin _ ?_ ?_ b6 b7 b8 b1 b9
      · rw [b4, hz]; ring
      · rw [b5, hz, hav]; ring
    · rw [if_pos hz]
      have hz' : 0 < (consumeLv1All bh (bd * price) l0).2 := by omega
      obtain ⟨c1, c2, c3, c4, c5, c6, c7, c8, c9, c10⟩ := consumeLv2All_spec (h := bh) b1 b2 (b10 hz')
      -- nothing is left to pay
      have hnone : (consumeLv2All bh (consumeLv1All bh (bd * price) l0).2 (consumeLv1All bh (bd * price) l0).1).2 = 0 := by
        by_contra hn
        have := c10 (by omega) (b11 hz')
        omega
      refine fin _ ?_ ?_ (c6.trans b6) (c7.trans b7) (kept_trans b8 c8) c1 (fun h => c9 (b9 h))
      · rw [c4, b4, hnone]; ring
      · rw [c5, b5, hnone, hav]; ring

/-! ### The reserve of a tenth -/

/-- The second deposit is what is left of the first, and holds no less than the first or a tenth of what was put in. -/
def Dep.AboveTenth : Dep → Dep → Prop
  | .v1 d, .v1 e => min d.remain (d.amount / 10) ≤ e.remain
  | _, _ => True

/-- Same coins. -/
def Dep.SameCoins : Dep → Dep → Prop
  | .v1 d, .v1 e => e.remain = d.remain ∧ e.amount = d.amount
  | .v2 r, .v2 q => q = r
  | _, _ => False

theorem Dep.SameCoins.rfl' : ∀ d : Dep, d.SameCoins d
  | .v1 _ => ⟨rfl, rfl⟩
  | .v2 _ => rfl

theorem Dep.AboveTenth.rfl' : ∀ d : Dep, d.AboveTenth d
  | .v1 _ => min_le_left _ _
  | .v2 _ => trivial

theorem consumeSteps_coins {h s : ℤ} : ∀ d : Dep, d.SameCoins (d.consumeSteps h s).1
  | .v2 _ => rfl
  | .v1 d => by
    simp only [Dep.consumeSteps]
    split
    · exact ⟨rfl, rfl⟩
    · split
      · exact ⟨rfl, rfl⟩
      · split <;> exact ⟨rfl, rfl⟩

theorem consumeStepsAll_coins {h : ℤ} : ∀ {dl : List Dep} {s : ℤ}, List.Forall₂ Dep.SameCoins dl (consumeStepsAll h s dl).1
  | [], _ => .nil
  | d :: dl, s => by
    rw [consumeStepsAll]
    split
    · exact .cons (consumeSteps_coins d) (List.forall₂_same.2 (fun x _ => Dep.SameCoins.rfl' x))
    · exact .cons (consumeSteps_coins d) consumeStepsAll_coins

theorem consumeLv1_tenth {h s : ℤ} (hs : 0 ≤ s) : ∀ d : Dep, d.AboveTenth (d.consumeLv1 h s).1
  | .v2 _ => by simp only [Dep.consumeLv1]; split <;> trivial
  | .v1 d => by
    simp only [Dep.consumeLv1]
    split
    · exact min_le_left _ _
    · split
      · exact min_le_left _ _
      · next h1 =>
        have hm : minDeposit d.amount = d.amount / 10 := rfl
        by_cases h2 : d.remain - minDeposit d.amount ≤ s
        · rw [if_pos h2]; exact min_le_iff.2 (.inr (by show d.amount / 10 ≤ d.remain - (d.remain - minDeposit d.amount); omega))
        · rw [if_neg h2]; exact min_le_iff.2 (.inr (by show d.amount / 10 ≤ d.remain - s; omega))

theorem consumeLv1All_tenth {h : ℤ} : ∀ {dl : List Dep} {s : ℤ}, (∀ d ∈ dl, d.Sound) → 0 ≤ s →
    List.Forall₂ Dep.AboveTenth dl (consumeLv1All h s dl).1
  | [], _, _, _ => .nil
  | d :: dl, s, hd, hs => by
    have a2 := (consumeLv1_spec (h := h) (hd d (by simp)) hs).2.1
    rw [consumeLv1All]
    split
    · exact .cons (consumeLv1_tenth hs d) (List.forall₂_same.2 (fun x _ => Dep.AboveTenth.rfl' x))
    · exact .cons (consumeLv1_tenth hs d) (consumeLv1All_tenth (fun e he => hd e (by simp [he])) a2)

/-- Level 2 never adds to a deposit. -/
def Dep.NoMore : Dep → Dep → Prop
  | .v1 d, .v1 e => e.remain ≤ d.remain ∧ e.amount = d.amount ∧ e.expire = d.expire
  | .v2 r, .v2 q => q = r
  | _, _ => False

theorem Dep.NoMore.rfl' : ∀ d : Dep, d.NoMore d
  | .v1 _ => ⟨le_refl _, rfl, rfl⟩
  | .v2 _ => rfl

theorem consumeLv2_less {h s : ℤ} (hs : 0 ≤ s) : ∀ d : Dep, d.Sound → d.NoMore (d.consumeLv2 h s).1
  | .v2 _, _ => rfl
  | .v1 d, hd => by
    simp only [Dep.consumeLv2]
    split
    · exact Dep.NoMore.rfl' _
    · split
      · exact ⟨hd.1, rfl, rfl⟩
      · exact ⟨by show d.remain - s ≤ d.remain; omega, rfl, rfl⟩

theorem consumeLv2All_less {h : ℤ} : ∀ {dl : List Dep} {s : ℤ}, (∀ d ∈ dl, d.Sound) →
    (∀ d ∈ dl, d.reload = d → ∀ e, d = .v1 e → h < e.expire → e.exhausted = true) → 0 ≤ s →
    List.Forall₂ Dep.NoMore dl (consumeLv2All h s dl).1
  | [], _, _, _, _ => .nil
  | d :: dl, s, hd, hr, hs => by
    have a2 := (consumeLv2_spec (h := h) (hd d (by simp)) hs (hr d (by simp))).2.1
    rw [consumeLv2All]
    split
    · exact .cons (consumeLv2_less hs d (hd d (by simp))) (List.forall₂_same.2 (fun x _ => Dep.NoMore.rfl' x))
    · exact .cons (consumeLv2_less hs d (hd d (by simp)))
        (consumeLv2All_less (fun e he => hd e (by simp [he])) (fun x hx => hr x (by simp [hx])) a2)

theorem forall₂_comp {α : Type} {R S T : α → α → Prop} (hh : ∀ a b c, R a b → S b c → T a c) : ∀ {l m n : List α},
    List.Forall₂ R l m → List.Forall₂ S m n → List.Forall₂ T l n
  | _, _, _, .nil, .nil => .nil
  | _, _, _, .cons a b, .cons c d => .cons (hh _ _ _ a c) (forall₂_comp hh b d)

theorem forall₂_source {α : Type} {R : α → α → Prop} : ∀ {l m : List α}, List.Forall₂ R l m → ∀ b ∈ m, ∃ a ∈ l, R a b
  | _, _, .nil, _, h => by simp at h
  | _, _, .cons a c, b, h => by
    rcases List.mem_cons.1 h with rfl | h
    · exact ⟨_, by simp, a⟩
    · obtain ⟨x, hx, hr⟩ := forall₂_source c b h
      exact ⟨x, by simp [hx], hr⟩

/-- **C45 (the reserve of a tenth).** A payment takes the last tenth of a deposit only when every deposit is down to its last tenth:
either each deposit keeps a tenth of what was put in (or all it had), or afterwards no deposit that has not expired has more than that. -/
theorem C45_reserve {bh price steps : ℤ} {dl : List Dep} (hd : ∀ d ∈ dl, d.Sound) (hp : 0 < price) (hs : 0 ≤ steps)
    (hr : ∀ d ∈ dl, d.reload = d) :
    List.Forall₂ Dep.AboveTenth dl (paySteps bh price steps dl).2 ∨
    ((∀ e, Dep.v1 e ∈ (paySteps bh price steps dl).2 → bh < e.expire → e.remain ≤ e.amount / 10) ∧
      ∀ r, Dep.v2 r ∈ (paySteps bh price steps dl).2 → r = 0) := by
  have same : ∀ l m : List Dep, List.Forall₂ Dep.SameCoins l m → List.Forall₂ Dep.AboveTenth l m := by
    intro l m h
    refine h.imp (fun a b hab => ?_)
    cases a <;> cases b <;> simp only [Dep.SameCoins, Dep.AboveTenth] at *
    rw [hab.1]; exact min_le_left _ _
  by_cases hne : price ≤ 0 ∨ dl = []
  · left; simp only [paySteps]; rw [if_pos hne]; exact List.forall₂_same.2 (fun x _ => Dep.AboveTenth.rfl' x)
  obtain ⟨a1, a2, a3, a4, a5, a6, a7, a8⟩ := consumeStepsAll_spec (h := bh) hd hs
  have hc := consumeStepsAll_coins (h := bh) (dl := dl) (s := steps)
  by_cases h0 : (consumeStepsAll bh steps dl).2 = 0
  · left; simp only [paySteps]; rw [if_neg hne, if_pos h0]; exact same _ _ hc
  set l0 := (consumeStepsAll bh steps dl).1 with hl0
  set remains := (consumeStepsAll bh steps dl).2 with hrem
  obtain ⟨fee, hf⟩ : ∃ fee, fee = (if availableDeposit bh l0 / price < remains then availableDeposit bh l0 / price else remains) * price := ⟨_, rfl⟩
  have hfee : 0 ≤ fee := by
    have : 0 ≤ availableDeposit bh l0 / price := Int.ediv_nonneg (availableDeposit_bounds a1).1 hp.le
    rw [hf]
    apply mul_nonneg _ hp.le
    split
    · exact this
    · exact a2
  have e : (paySteps bh price steps dl).2 = if (consumeLv1All bh fee l0).2 ≠ 0 then
      (consumeLv2All bh (consumeLv1All bh fee l0).2 (consumeLv1All bh fee l0).1).1 else (consumeLv1All bh fee l0).1 := by
    simp only [paySteps]; rw [if_neg hne, if_neg h0, hf]
  obtain ⟨b1, b2, b3, b4, b5, b6, b7, b8, b9, b10, b11⟩ := consumeLv1All_spec (h := bh) a1 hfee
  rw [e]
  by_cases h1 : (consumeLv1All bh fee l0).2 = 0
  · left
    rw [if_neg (by simpa using h1)]
    refine forall₂_comp (R := Dep.SameCoins) (S := Dep.AboveTenth) ?_ hc (consumeLv1All_tenth a1 hfee)
    intro a b c hab hbc
    cases a <;> cases b <;> cases c <;> simp only [Dep.SameCoins, Dep.AboveTenth] at *
    rw [← hab.1, ← hab.2]; exact hbc
  · right
    rw [if_pos h1]
    have hpos : 0 < (consumeLv1All bh fee l0).2 := by omega
    have hl := consumeLv2All_less (h := bh) b1 (b10 hpos) b2
    have hrl := b9 (a8 hr)
    constructor
    · intro x hx hlt
      obtain ⟨d, hdm, hdx⟩ := forall₂_source hl _ hx
      cases d with
      | v2 r => exact hdx.elim
      | v1 d =>
        obtain ⟨c1, c2, c3⟩ := hdx
        have hex := b10 hpos _ hdm (hrl _ hdm) d rfl (by rw [← c3]; exact hlt)
        have := hrl _ hdm
        simp only [Dep.reload, Dep.v1.injEq] at this
        have hdec : decide (d.remain ≤ minDeposit d.amount) = true := by
          have h2 := congrArg DepV1.exhausted this
          simp only at h2
          rw [h2, hex]
        have := of_decide_eq_true hdec
        simp only [minDeposit] at this
        rw [c2]; omega
    · intro r hx
      obtain ⟨d, hdm, hdx⟩ := forall₂_source hl _ hx
      cases d with
      | v1 d => exact hdx.elim
      | v2 q => rw [show r = q from hdx]; exact b11 hpos q hdm

/-- **C45 (what is shown as usable).** The usable coins of a deposit are those above its last tenth, if it has not expired; all of them
for a deposit without term. -/
theorem C45_usable {bh : ℤ} : (∀ r, (Dep.v2 r).usable bh = r) ∧
    ∀ e : DepV1, (Dep.v1 e).usable bh = if bh < e.expire then max 0 (e.remain - e.amount / 10) else 0 := by
  refine ⟨fun r => rfl, fun e => ?_⟩
  have hm : minDeposit e.amount = e.amount / 10 := rfl
  simp only [Dep.usable]
  by_cases h : bh < e.expire
  · have h1 : ¬ e.expireAt bh = true := by rw [expireAt_iff]; omega
    rw [if_neg h1, if_pos h]
    split <;> omega
  · have h1 : e.expireAt bh = true := by rw [expireAt_iff]; omega
    rw [if_pos h1, if_neg h]

/-- `PaySteps` does nothing without deposits or without a price. -/
theorem C45_pay_nothing {bh price steps : ℤ} {dl : List Dep} (h : price ≤ 0 ∨ dl = []) :
    paySteps bh price steps dl = (⟨none, none⟩, dl) := by
  simp only [paySteps]; rw [if_pos h]

/-- A deposit of the new kind that `CanPay` the fee limit pays all steps within that limit. -/
theorem C45_canPay {bh price steps limit : ℤ} {dl : List Dep} (hd : ∀ d ∈ dl, d.Sound) (hp : 0 < price) (hs : 0 ≤ steps)
    (hl : steps * price ≤ limit) (hv : ∀ d ∈ dl, ∃ r, d = .v2 r) (hc : canPay bh limit dl = true) :
    (paySteps bh price steps dl).1.paid = some steps := by
  obtain ⟨d, hmem, hpay⟩ := List.any_eq_true.1 hc
  have hne : dl ≠ [] := by rintro rfl; simp at hmem
  obtain ⟨paid, h1, h2, h3, hrest⟩ := C45_pay (bh := bh) hd hp hs hne
  obtain ⟨h4, h5, h6, h7, h8, h9, h10, h11, _⟩ := hrest
  rw [h1]; congr 1
  by_contra hlt
  have hlt : paid < steps := by omega
  have hav := h11 hlt
  have eqav : ∀ l : List Dep, (∀ d ∈ l, ∃ r, d = .v2 r) → availableDeposit bh l = held l := by
    intro l
    induction l with
    | nil => intro _; rfl
    | cons a l ih =>
      intro h
      obtain ⟨r, hr⟩ := h a (by simp)
      simp only [availableDeposit, held_cons, ih (fun d hd => h d (by simp [hd])), hr, Dep.available, Dep.held]
  have hv' : ∀ d ∈ (paySteps bh price steps dl).2, ∃ r, d = .v2 r := by
    intro x hx
    obtain ⟨y, hy, hk⟩ := kept_source h8 hx
    obtain ⟨r, rfl⟩ := hv y hy
    cases x with
    | v1 _ => exact hk.elim
    | v2 r => exact ⟨r, rfl⟩
  rw [eqav _ hv', h6] at hav
  have hheld : limit ≤ held dl := by
    obtain ⟨r, rfl⟩ := hv d hmem
    simp only [Dep.canPay, decide_eq_true_eq] at hpay
    have : ∀ l : List Dep, (∀ d ∈ l, d.Sound) → Dep.v2 r ∈ l → r ≤ held l := by
      intro l
      induction l with
      | nil => intro _ h; simp at h
      | cons a l ih =>
        intro hs hm
        have h0 : 0 ≤ held l := le_trans (availableDeposit_bounds (h := 0) (fun d hd => hs d (by simp [hd]))).1
          (availableDeposit_bounds (h := 0) (fun d hd => hs d (by simp [hd]))).2
        have ha : 0 ≤ a.held := by
          have := hs a (by simp)
          cases a with
          | v1 d => exact this.1
          | v2 r => exact this
        rw [held_cons]
        rcases List.mem_cons.1 hm with rfl | hm
        · simp only [Dep.held] at *; omega
        · have := ih (fun d hd => hs d (by simp [hd])) hm; omega
    have := this dl hd hmem
    omega
  have : (paySteps bh price steps dl).1.byDeposit.getD 0 * price ≤ (steps - 1) * price :=
    mul_le_mul_of_nonneg_right (by omega) hp.le
  have e : (steps - 1) * price = steps * price - price := by ring
  omega

/-! ### Adding and withdrawing -/

/-- What a payment, a new deposit or a withdrawal leaves of deposits it is not about. -/
theorem addTo_spec {tid : Bytes} {value : ℤ} : ∀ {dl dl' : List Dep}, addTo tid value dl = some (.ok dl') →
    ∃ pre post r, dl = pre ++ .v2 r :: post ∧ dl' = pre ++ .v2 (r + value) :: post ∧ tid = []
  | [], _, h => by simp [addTo] at h
  | d :: dl, dl', h => by
    simp only [addTo] at h
    by_cases hi : d.isIdentifiedBy tid = true
    · rw [if_pos hi] at h
      cases d with
      | v1 _ => simp [Dep.add, Except.map] at h
      | v2 r =>
        simp only [Dep.add, Except.map, Option.some.injEq, Except.ok.injEq] at h
        refine ⟨[], dl, r, rfl, h.symm, ?_⟩
        simpa [Dep.isIdentifiedBy] using hi
    · rw [if_neg hi] at h
      cases ha : addTo tid value dl with
      | none => simp [ha] at h
      | some x =>
        cases x with
        | error _ => simp [ha, Except.map] at h
        | ok l =>
          simp only [ha, Option.map_some, Except.map, Option.some.injEq, Except.ok.injEq] at h
          obtain ⟨pre, post, r, h1, h2, h3⟩ := addTo_spec ha
          exact ⟨d :: pre, post, r, by simp [h1], by simp [← h, h2], h3⟩

theorem addTo_none {tid : Bytes} {value : ℤ} : ∀ {dl : List Dep}, addTo tid value dl = none →
    ∀ d ∈ dl, d.isIdentifiedBy tid = false
  | [], _, _, h => by simp at h
  | d :: dl, h, x, hx => by
    simp only [addTo] at h
    by_cases hi : d.isIdentifiedBy tid = true
    · rw [if_pos hi] at h; simp at h
    · rw [if_neg hi, Option.map_eq_none_iff] at h
      rcases List.mem_cons.1 hx with rfl | hx
      · simpa using hi
      · exact addTo_none h x hx

theorem calcVirtualSteps_nonneg {a r p : ℤ} (ha : 0 ≤ a) (hr : 0 ≤ r) : 0 ≤ calcVirtualSteps a r p := by
  unfold calcVirtualSteps; split
  · exact le_refl _
  · exact Int.ediv_nonneg (Int.ediv_nonneg (mul_nonneg ha hr) (by norm_num)) (by omega)

/-- `AddDeposit` adds exactly the value given; all deposits are in order afterwards, and no two answer to one id. -/
theorem C45_add {dc : DepCtx} {value : ℤ} {dl dl' : List Dep} (h : addDeposit dc value dl = .ok dl')
    (hv : 0 ≤ value) (hrate : 0 ≤ dc.rate) (hd : ∀ d ∈ dl, d.Sound)
    (ha : dl.Pairwise Dep.Apart) :
    held dl' = held dl + value ∧ (∀ d ∈ dl', d.Sound) ∧ dl'.Pairwise Dep.Apart ∧
    ((dc.term ≠ 0 → 0 < value) → (∀ d ∈ dl, d.reload = d) → ∀ d ∈ dl', d.reload = d) := by
  simp only [addDeposit] at h
  cases hat : addTo (if dc.term = 0 then [] else dc.txid) value dl with
  | some r =>
    rw [hat] at h
    simp only at h
    rw [h] at hat
    obtain ⟨pre, post, r, h1, h2, h3⟩ := addTo_spec hat
    subst h1 h2
    refine ⟨by simp [Dep.held]; ring, ?_, ?_, ?_⟩
    · intro d hm
      simp only [List.mem_append, List.mem_cons] at hm
      rcases hm with hm | rfl | hm
      · exact hd d (by simp [hm])
      · have := hd (.v2 r) (by simp)
        simp only [Dep.Sound] at *; omega
      · exact hd d (by simp [hm])
    · have hap : ∀ x : Dep, (Dep.Apart (.v2 (r + value)) x ↔ Dep.Apart (.v2 r) x) ∧ (Dep.Apart x (.v2 (r + value)) ↔ Dep.Apart x (.v2 r)) :=
        fun x => ⟨Iff.rfl, Iff.rfl⟩
      rw [List.pairwise_append, List.pairwise_cons] at ha ⊢
      refine ⟨ha.1, ⟨fun x hx => (hap x).1.2 (ha.2.1.1 x hx), ha.2.1.2⟩, ?_⟩
      intro a ha' b hb
      rcases List.mem_cons.1 hb with rfl | hb
      · exact (hap a).2.2 (ha.2.2 a ha' _ (by simp))
      · exact ha.2.2 a ha' b (by simp [hb])
    · intro _ hr d hm
      simp only [List.mem_append, List.mem_cons] at hm
      rcases hm with hm | rfl | hm
      · exact hr d (by simp [hm])
      · rfl
      · exact hr d (by simp [hm])
  | none =>
    rw [hat] at h
    simp only [Except.ok.injEq] at h
    subst h
    have hno := addTo_none hat
    by_cases ht : dc.term = 0
    · simp only [ht, if_true] at hno ⊢
      refine ⟨by simp [newDepositV2, Dep.held], ?_, ?_, ?_⟩
      · intro d hm
        rcases List.mem_append.1 hm with hm | hm
        · exact hd d hm
        · rw [List.mem_singleton.1 hm]; exact hv
      · rw [List.pairwise_append]
        refine ⟨ha, List.pairwise_singleton _ _, ?_⟩
        intro a hm b hb id hh
        rw [List.mem_singleton.1 hb] at hh
        have h2 := hh.2
        simp only [newDepositV2, Dep.isIdentifiedBy, decide_eq_true_eq, List.length_eq_zero_iff] at h2
        rw [h2] at hh
        rw [hno a hm] at hh
        exact absurd hh.1 (by simp)
      · intro _ hr d hm
        rcases List.mem_append.1 hm with hm | hm
        · exact hr d hm
        · rw [List.mem_singleton.1 hm]; rfl
    · simp only [ht, if_false] at hno ⊢
      refine ⟨by simp [newDepositV1, Dep.held], ?_, ?_, ?_⟩
      · intro d hm
        rcases List.mem_append.1 hm with hm | hm
        · exact hd d hm
        · rw [List.mem_singleton.1 hm]
          exact ⟨hv, le_refl _, calcVirtualSteps_nonneg hv hrate, le_refl _⟩
      · rw [List.pairwise_append]
        refine ⟨ha, List.pairwise_singleton _ _, ?_⟩
        intro a hm b hb id hh
        rw [List.mem_singleton.1 hb] at hh
        have h2 := hh.2
        simp only [newDepositV1, Dep.isIdentifiedBy, decide_eq_true_eq] at h2
        rw [← h2] at hh
        rw [hno a hm] at hh
        exact absurd hh.1 (by simp)
      · intro hpos hr d hm
        rcases List.mem_append.1 hm with hm | hm
        · exact hr d hm
        · rw [List.mem_singleton.1 hm]
          have : ¬ value ≤ minDeposit value := by
            have := hpos ht
            unfold minDeposit; omega
          simp [newDepositV1, Dep.reload, this]

theorem withdrawFrom_spec {dc : DepCtx} {id : Bytes} {value : Option ℤ} : ∀ {dl dl' : List Dep} {a p : ℤ},
    withdrawFrom dc id value dl = some (.ok (a, p, dl')) →
    ∃ pre post d w, dl = pre ++ d :: post ∧ (∀ e ∈ pre, e.isIdentifiedBy id = false) ∧ d.isIdentifiedBy id = true ∧
      d.withdraw dc.height dc.price value = .ok w ∧ a = w.amount ∧ p = w.penalty ∧
      dl' = pre ++ (if w.removal then post else w.after :: post)
  | [], _, _, _, h => by simp [withdrawFrom] at h
  | d :: dl, dl', a, p, h => by
    simp only [withdrawFrom] at h
    by_cases hi : d.isIdentifiedBy id = true
    · rw [if_pos hi] at h
      cases hw : d.withdraw dc.height dc.price value with
      | error _ => simp [hw, Except.map] at h
      | ok w =>
        simp only [hw, Except.map, Option.some.injEq, Except.ok.injEq, Prod.mk.injEq] at h
        exact ⟨[], dl, d, w, rfl, by simp, hi, hw, h.1.symm, h.2.1.symm, by simp [← h.2.2]⟩
    · rw [if_neg hi] at h
      cases hx : withdrawFrom dc id value dl with
      | none => simp [hx] at h
      | some x =>
        cases x with
        | error _ => simp [hx, Except.map] at h
        | ok t =>
          obtain ⟨a', p', l⟩ := t
          simp only [hx, Option.map_some, Except.map, Option.some.injEq, Except.ok.injEq, Prod.mk.injEq] at h
          obtain ⟨pre, post, d', w, h1, h2, h3, h4, h5, h6, h7⟩ := withdrawFrom_spec hx
          refine ⟨d :: pre, post, d', w, by simp [h1], ?_, h3, h4, by rw [← h.1, h5], by rw [← h.2.1, h6], by rw [← h.2.2, h7]; rfl⟩
          intro e he
          rcases List.mem_cons.1 he with rfl | he
          · simpa using hi
          · exact h2 e he

/-- Withdrawing from one deposit: what it held is split into the amount, the penalty and what stays. -/
theorem withdraw_spec {height price : ℤ} {value : Option ℤ} {d : Dep} {w : Withdrawal}
    (h : d.withdraw height price value = .ok w) (hd : d.Sound) (hp : 0 ≤ price) (hv : ∀ v, value = some v → 0 ≤ v) :
    0 ≤ w.amount ∧ 0 ≤ w.penalty ∧
    d.held = w.amount + w.penalty + (if w.removal then 0 else w.after.held) ∧ w.after.Sound ∧
    (∀ id, w.after.isIdentifiedBy id = d.isIdentifiedBy id) ∧ (d.reload = d → w.after.reload = w.after) ∧
    (∀ v, value = some v → w.amount = v ∧ w.penalty = 0) ∧ (value = none → w.removal = true) := by
  cases d with
  | v1 d =>
    obtain ⟨h1, h2, h3, h4⟩ := hd
    have hpen : 0 ≤ (d.issued - d.stepRemain) * price := mul_nonneg (by omega) hp
    cases value with
    | some v => simp [Dep.withdraw] at h
    | none =>
      simp only [Dep.withdraw] at h
      by_cases he : d.expireAt height = true
      · rw [if_pos he, Except.ok.injEq] at h; subst h
        refine ⟨h1, le_refl _, by simp [Dep.held], ⟨h1, h2, h3, h4⟩, fun _ => rfl, fun h => h, by simp, fun _ => rfl⟩
      · rw [if_neg he] at h
        by_cases hle : (d.issued - d.stepRemain) * price ≤ d.remain
        · rw [if_pos hle, Except.ok.injEq] at h; subst h
          refine ⟨by simpa using hle, hpen, by simp [Dep.held], ⟨h1, h2, h3, h4⟩, fun _ => rfl, fun h => h, by simp, fun _ => rfl⟩
        · rw [if_neg hle, Except.ok.injEq] at h; subst h
          refine ⟨le_refl _, h1, by simp [Dep.held], ⟨h1, h2, h3, h4⟩, fun _ => rfl, fun h => h, by simp, fun _ => rfl⟩
  | v2 r =>
    simp only [Dep.Sound] at hd
    simp only [Dep.withdraw] at h
    have ha : 0 ≤ value.getD r := by
      cases value with
      | none => exact hd
      | some v => exact hv v rfl
    by_cases hgt : r > value.getD r
    · rw [if_pos hgt, Except.ok.injEq] at h; subst h
      refine ⟨ha, le_refl _, by simp [Dep.held], by simp only [Dep.Sound]; omega, fun _ => rfl, fun _ => rfl, ?_, ?_⟩
      · rintro v rfl; exact ⟨rfl, rfl⟩
      · rintro rfl; simp at hgt
    · rw [if_neg hgt] at h
      by_cases heq : r = value.getD r
      · rw [if_pos heq, Except.ok.injEq] at h; subst h
        cases value with
        | none => exact ⟨ha, le_refl _, by simp [Dep.held], by simpa [Dep.Sound] using hd, fun _ => rfl, fun _ => rfl, by simp, fun _ => rfl⟩
        | some v =>
          simp only [Option.getD_some] at heq
          exact ⟨ha, le_refl _, by simp [Dep.held, heq], by simp [Dep.Sound], fun _ => rfl, fun _ => rfl, by simp, by simp⟩
      · rw [if_neg heq] at h; simp at h

/-- `WithdrawDeposit` pays out, as amount and penalty, exactly what leaves the deposits; a given value is paid exactly. -/
theorem C45_withdraw {dc : DepCtx} {id : Bytes} {value : Option ℤ} {dl dl' : List Dep} {a p : ℤ}
    (h : withdrawDeposit dc id value dl = .ok (a, p, dl')) (hd : ∀ d ∈ dl, d.Sound) (hp : 0 ≤ dc.price)
    (hap : dl.Pairwise Dep.Apart) :
    0 ≤ a ∧ 0 ≤ p ∧ held dl' = held dl - a - p ∧ (∀ d ∈ dl', d.Sound) ∧ dl'.Pairwise Dep.Apart ∧
    ((∀ d ∈ dl, d.reload = d) → ∀ d ∈ dl', d.reload = d) ∧
    (∀ v, value = some v → a = v ∧ p = 0) ∧
    (value = none → ∀ d ∈ dl', d.isIdentifiedBy id = false) := by
  simp only [withdrawDeposit] at h
  by_cases hneg : (value.any (· < 0)) = true
  · rw [if_pos hneg] at h; simp at h
  · rw [if_neg hneg] at h
    cases hw : withdrawFrom dc id value dl with
    | none => rw [hw] at h; simp at h
    | some x =>
      rw [hw] at h
      simp only at h
      rw [h] at hw
      obtain ⟨pre, post, d, w, h1, h2, h3, h4, h5, h6, h7⟩ := withdrawFrom_spec hw
      have hv : ∀ v, value = some v → 0 ≤ v := by
        rintro v rfl; simpa using hneg
      subst h1
      obtain ⟨w1, w2, w3, w4, w5, w6, w7, w8⟩ := withdraw_spec h4 (hd d (by simp)) hp hv
      subst h5 h6
      rw [List.pairwise_append, List.pairwise_cons] at hap
      refine ⟨w1, w2, ?_, ?_, ?_, ?_, w7, ?_⟩
      · rw [h7]
        by_cases hr : w.removal = true
        · rw [if_pos hr] at w3 ⊢; simp only [held_append, held_cons]; omega
        · rw [if_neg hr] at w3 ⊢; simp only [held_append, held_cons]; omega
      · intro e he
        rw [h7] at he
        rcases List.mem_append.1 he with he | he
        · exact hd e (by simp [he])
        · split at he
          · exact hd e (by simp [he])
          · rcases List.mem_cons.1 he with rfl | he
            · exact w4
            · exact hd e (by simp [he])
      · rw [h7]
        split
        · rw [List.pairwise_append]
          exact ⟨hap.1, hap.2.1.2, fun a ha b hb => hap.2.2 a ha b (by simp [hb])⟩
        · rw [List.pairwise_append, List.pairwise_cons]
          refine ⟨hap.1, ⟨?_, hap.2.1.2⟩, ?_⟩
          · intro x hx id hh; rw [w5] at hh; exact hap.2.1.1 x hx id hh
          · intro x hx b hb id hh
            rcases List.mem_cons.1 hb with rfl | hb
            · rw [w5] at hh; exact hap.2.2 x hx d (by simp) id hh
            · exact hap.2.2 x hx b (by simp [hb]) id hh
      · intro hr e he
        rw [h7] at he
        rcases List.mem_append.1 he with he | he
        · exact hr e (by simp [he])
        · split at he
          · exact hr e (by simp [he])
          · rcases List.mem_cons.1 he with rfl | he
            · exact w6 (hr d (by simp))
            · exact hr e (by simp [he])
      · intro hnone e he
        rw [h7, if_pos (w8 hnone)] at he
        rcases List.mem_append.1 he with he | he
        · exact h2 e he
        · by_contra hne
          exact hap.2.1.1 e he id ⟨h3, by simpa using hne⟩

/-- A deposit just made is withdrawn in full, and the other deposits are as before, if nothing was paid with it. -/
theorem C45_add_withdraw {dc dc' : DepCtx} {value : ℤ} {dl dl' : List Dep} (h : addDeposit dc value dl = .ok dl')
    (hv : 0 ≤ value) (hno : ∀ d ∈ dl, d.isIdentifiedBy (if dc.term = 0 then [] else dc.txid) = false) :
    withdrawDeposit dc' (if dc.term = 0 then [] else dc.txid) none dl' = .ok (value, 0, dl) := by
  have happ : dl' = dl ++ [if dc.term = 0 then newDepositV2 value else newDepositV1 dc value] := by
    simp only [addDeposit] at h
    cases hat : addTo (if dc.term = 0 then [] else dc.txid) value dl with
    | none => rw [hat] at h; simpa using h.symm
    | some r =>
      rw [hat] at h; simp only at h; rw [h] at hat
      obtain ⟨pre, post, r, h1, h2, h3⟩ := addTo_spec hat
      have := hno (.v2 r) (by simp [h1])
      rw [h3] at this; simp [Dep.isIdentifiedBy] at this
  subst happ
  clear h
  generalize htid : (if dc.term = 0 then [] else dc.txid) = tid at hno
  generalize hnd : (if dc.term = 0 then newDepositV2 value else newDepositV1 dc value) = nd
  have hident : nd.isIdentifiedBy tid = true := by
    rw [← hnd, ← htid]; split <;> simp [newDepositV1, newDepositV2, Dep.isIdentifiedBy]
  have hw : nd.withdraw dc'.height dc'.price none = .ok ⟨value, 0, true, nd⟩ := by
    rw [← hnd]; split
    · simp [newDepositV2, Dep.withdraw]
    · simp only [newDepositV1, Dep.withdraw, sub_self, zero_mul]
      by_cases he : DepV1.expireAt (DepV1.mk dc.txid value value ((dc.height + dc.term).bmod (2 ^ 64))
          (calcVirtualSteps value dc.rate dc.price) (calcVirtualSteps value dc.rate dc.price) false) dc'.height = true
      · rw [if_pos he]
      · rw [if_neg he, if_pos hv]; simp
  have key : ∀ l : List Dep, (∀ d ∈ l, d.isIdentifiedBy tid = false) →
      withdrawFrom dc' tid none (l ++ [nd]) = some (.ok (value, 0, l)) := by
    intro l
    induction l with
    | nil => intro _; simp [withdrawFrom, hident, hw, Except.map]
    | cons a l ih =>
      intro h
      have ha := h a (by simp)
      simp [withdrawFrom, ha, ih (fun d hd => h d (by simp [hd])), Except.map]
  simp [withdrawDeposit, key dl hno]

/-! ### Histories -/

/-- What can happen to the deposits of a contract. -/
inductive DepOp
  | add (dc : DepCtx) (value : ℤ)
  | withdraw (dc : DepCtx) (id : Bytes) (value : Option ℤ)
  | pay (bh price steps : ℤ)
  | restart

/-- The deposits, and the coins that came and went so far. -/
structure DepLedger where
  dl : List Dep
  added : ℤ
  withdrawn : ℤ
  penalties : ℤ
  fees : ℤ

/-- One operation; an operation that fails changes nothing (`account.go:837-863`). The fee of a payment is the price of the
steps that `PaySteps` says were paid by deposit. -/
def DepLedger.step (l : DepLedger) : DepOp → DepLedger
  | .add dc v =>
    match addDeposit dc v l.dl with
    | .ok dl => { l with dl := dl, added := l.added + v }
    | .error _ => l
  | .withdraw dc id v =>
    match withdrawDeposit dc id v l.dl with
    | .ok (a, p, dl) => { l with dl := dl, withdrawn := l.withdrawn + a, penalties := l.penalties + p }
    | .error _ => l
  | .pay bh price steps =>
    { l with dl := (paySteps bh price steps l.dl).2,
             fees := l.fees + ((paySteps bh price steps l.dl).1.byDeposit.getD 0) * price }
  | .restart => { l with dl := l.dl.map Dep.reload }

/-- What the callers guarantee (`deposithandler.go:127-140`: values are not negative, and at least 5000 coins for deposits
with a term). -/
def DepOp.Valid : DepOp → Prop
  | .add dc v => 0 ≤ v ∧ 0 ≤ dc.rate ∧ (dc.term ≠ 0 → 0 < v)
  | .withdraw dc _ _ => 0 ≤ dc.price
  | .pay _ _ steps => 0 ≤ steps
  | .restart => True

def DepLedger.run (l : DepLedger) (ops : List DepOp) : DepLedger := ops.foldl DepLedger.step l

def DepLedger.start : DepLedger := ⟨[], 0, 0, 0, 0⟩

structure DepLedger.Inv (l : DepLedger) : Prop where
  sound : ∀ d ∈ l.dl, d.Sound
  apart : l.dl.Pairwise Dep.Apart
  stable : ∀ d ∈ l.dl, d.reload = d
  balance : held l.dl + l.withdrawn + l.penalties + l.fees = l.added
  nonneg : 0 ≤ l.withdrawn ∧ 0 ≤ l.penalties ∧ 0 ≤ l.fees

theorem kept_mem {h : ℤ} {a b : List Dep} (hk : List.Forall₂ (Dep.Kept h) a b) (hp : a.Pairwise Dep.Apart) :
    b.Pairwise Dep.Apart := by
  induction hk with
  | nil => exact hp
  | cons hk ht ih =>
    rw [List.pairwise_cons] at hp ⊢
    refine ⟨?_, ih hp.2⟩
    intro x hx
    obtain ⟨y, hy, hyk⟩ := kept_source ht hx
    intro id hh
    rw [hk.ident, hyk.ident] at hh
    exact hp.1 y hy id hh

theorem DepLedger.Inv.step {l : DepLedger} (h : l.Inv) {op : DepOp} (hv : op.Valid) : (l.step op).Inv := by
  obtain ⟨h1, h2, h3, h4, h5, h6, h7⟩ := h
  cases op with
  | add dc v =>
    simp only [DepLedger.step]
    cases ha : addDeposit dc v l.dl with
    | error _ => exact ⟨h1, h2, h3, h4, h5, h6, h7⟩
    | ok dl =>
      obtain ⟨a1, a2, a3, a4⟩ := C45_add ha hv.1 hv.2.1 h1 h2
      exact ⟨a2, a3, a4 hv.2.2 h3, by simp only [a1]; omega, h5, h6, h7⟩
  | withdraw dc id v =>
    simp only [DepLedger.step]
    cases ha : withdrawDeposit dc id v l.dl with
    | error _ => exact ⟨h1, h2, h3, h4, h5, h6, h7⟩
    | ok t =>
      obtain ⟨a, p, dl⟩ := t
      obtain ⟨a1, a2, a3, a4, a5, a6, _⟩ := C45_withdraw ha h1 hv h2
      refine ⟨a4, a5, a6 h3, by simp only [a3]; omega, by simp only; omega, by simp only; omega, h7⟩
  | pay bh price steps =>
    by_cases hn : price ≤ 0 ∨ l.dl = []
    · simp only [DepLedger.step, C45_pay_nothing hn]
      exact ⟨h1, h2, h3, by simp only [Option.getD_none]; omega, h5, h6, by simp only [Option.getD_none]; omega⟩
    · rw [not_or] at hn
      obtain ⟨paid, _, _, _, hrest⟩ := C45_pay (bh := bh) h1 (not_le.1 hn.1) hv hn.2
      obtain ⟨c1, _, c3, _, c5, c6, _, _, c9⟩ := hrest
      have hf : 0 ≤ (paySteps bh price steps l.dl).1.byDeposit.getD 0 * price := mul_nonneg c1 (by omega)
      refine ⟨c6, kept_mem c5 h2, c9 h3, by simp only [DepLedger.step]; omega, h5, h6, by simp only [DepLedger.step]; omega⟩
  | restart =>
    have : l.dl.map Dep.reload = l.dl := by
      conv_rhs => rw [← List.map_id l.dl]
      exact List.map_congr_left (fun d hd => by simp [h3 d hd])
    simp only [DepLedger.step, this]
    exact ⟨h1, h2, h3, h4, h5, h6, h7⟩

theorem DepLedger.Inv.run {l : DepLedger} (h : l.Inv) : ∀ {ops : List DepOp}, (∀ op ∈ ops, op.Valid) → (l.run ops).Inv := by
  intro ops
  induction ops generalizing l with
  | nil => intro _; exact h
  | cons op ops ih =>
    intro hv
    exact ih (h.step (hv op (by simp))) (fun o ho => hv o (by simp [ho]))

theorem start_inv : DepLedger.start.Inv := ⟨by simp [DepLedger.start], by simp [DepLedger.start], by simp [DepLedger.start], rfl,
  le_refl _, le_refl _, le_refl _⟩

/-- **C45** Whatever is deposited, withdrawn and paid, in whatever order: what is left, together with all that was withdrawn, all
penalties and all fees, is what was deposited; no part is negative, so no more is ever paid than was deposited. -/
theorem C45_conserve {ops : List DepOp} (hv : ∀ op ∈ ops, op.Valid) :
    let l := DepLedger.start.run ops
    held l.dl + l.withdrawn + l.penalties + l.fees = l.added ∧
    (∀ d ∈ l.dl, d.Sound) ∧ 0 ≤ l.withdrawn ∧ 0 ≤ l.penalties ∧ 0 ≤ l.fees ∧
    l.withdrawn + l.penalties + l.fees ≤ l.added := by
  have h := start_inv.run hv
  have hh : 0 ≤ held (DepLedger.start.run ops).dl :=
    le_trans (availableDeposit_bounds (h := 0) h.sound).1 (availableDeposit_bounds (h := 0) h.sound).2
  have := h.balance
  exact ⟨h.balance, h.sound, h.nonneg.1, h.nonneg.2.1, h.nonneg.2.2, by omega⟩

/-- **C45** Writing the account to the database and reading it back, at any points of a history, changes neither the deposits nor
what is paid afterwards. -/
theorem C45_restart {ops ops' : List DepOp} (hv : ∀ op ∈ ops ++ ops', op.Valid) :
    DepLedger.start.run (ops ++ [.restart] ++ ops') = DepLedger.start.run (ops ++ ops') := by
  have h := (start_inv.run (ops := ops) (fun o ho => hv o (by simp [ho]))).stable
  simp only [DepLedger.run, List.foldl_append, List.foldl_cons, List.foldl_nil] at *
  congr 1
  generalize List.foldl DepLedger.step DepLedger.start ops = l at *
  have : l.dl.map Dep.reload = l.dl := by
    conv_rhs => rw [← List.map_id l.dl]
    exact List.map_congr_left (fun d hd => by simp [h d hd])
  simp only [DepLedger.step, this]

/-- **C45** At most one deposit answers to an id. -/
theorem C45_one_deposit_per_id {ops : List DepOp} (hv : ∀ op ∈ ops, op.Valid) :
    (DepLedger.start.run ops).dl.Pairwise
      (fun a b => ∀ id, ¬ (a.isIdentifiedBy id = true ∧ b.isIdentifiedBy id = true)) :=
  (start_inv.run hv).apart

/-- The value check of the deposit handler matters: an empty deposit with a term would let `CanPay` say yes until the account is
read back from the database, and no afterwards. -/
theorem C45_empty_deposit (dc : DepCtx) (ht : dc.term ≠ 0) (h limit : ℤ) (hh : h < Int.bmod (dc.height + dc.term) (2 ^ 64)) :
    ∃ dl, addDeposit dc 0 [] = .ok dl ∧ canPay h limit dl = true ∧ canPay h limit (dl.map Dep.reload) = false := by
  refine ⟨[newDepositV1 dc 0], by simp [addDeposit, addTo, ht], ?_, ?_⟩
  · have := hh; simp [canPay, newDepositV1, Dep.canPay, DepV1.expireAt]; simpa using this
  · simp [canPay, newDepositV1, Dep.canPay, Dep.reload, minDeposit]

/-! ### Examples -/

/-- A history with two old deposits, one new one, payments with virtual steps and with coins, a withdrawal with penalty. -/
def demoOps : List DepOp :=
  let dc : DepCtx := ⟨10, 100, 1000, 8, [1]⟩
  [.add dc 5000, .add { dc with txid := [2] } 3000, .add { dc with term := 0 } 700, .pay 200 10 100, .restart,
   .pay 300 10 700, .withdraw { dc with height := 400 } [1] none, .withdraw dc [] (some 1), .pay 1200 10 3]

example : ∀ op ∈ demoOps, op.Valid := by
  simp only [demoOps, List.mem_cons, List.not_mem_nil, or_false, forall_eq_or_imp, forall_eq, DepOp.Valid]
  norm_num

example : (DepLedger.start.run demoOps).dl.map Dep.held = [300, 509] ∧ (DepLedger.start.run demoOps).added = 8700 := by
  decide +kernel

end Verif.Service
