import Verif.Havah.Economy.Model

/-! Specification vocabulary for C22-C31, C36, C37: nothing here refers to lemmas or to the helper
functions of the model, only to its state and its entry points. -/
namespace Verif.Havah.Spec

/-- The reward record of planet `i` (absent = never rewarded). -/
def current (s : EState) (i : Int) : Int := match s.rewards i with | some r => r.current | none => 0
def total (s : EState) (i : Int) : Int := match s.rewards i with | some r => r.total | none => 0
def lastTerm (s : EState) (i : Int) : Int := match s.rewards i with | some r => r.lastTN | none => 0

/-- Blocks per term: the configured value, or one day. -/
def period (s : EState) : Int := if s.termPeriodRaw ≤ 0 then 43200 else s.termPeriodRaw
/-- Terms in which coins are issued: configured, or 50 years. -/
def limit (s : EState) : Int := if s.issueLimitRaw ≤ 0 then 18000 else s.issueLimitRaw
/-- Terms between two reductions of the issue: configured, or one year. -/
def cycle (s : EState) : Int := if s.reductionCycleRaw ≤ 0 then 360 else s.reductionCycleRaw

/-- The issue of coins has begun at height `h`. -/
def Started (s : EState) (h : Int) : Prop := 0 < s.issueStart ∧ s.issueStart ≤ h
/-- Number (from 0) of the term containing `h`. -/
def term (s : EState) (h : Int) : Int := (h - s.issueStart) / period s
/-- First block of the term containing `h`. -/
def termFirst (s : EState) (h : Int) : Int := s.issueStart + term s h * period s
/-- `h` is the first block of a term. -/
def IsTermFirst (s : EState) (h : Int) : Prop := Started s h ∧ (h - s.issueStart) % period s = 0

/-- The share of one planet in the reward of the current term. -/
def share (s : EState) : Int := if 0 < s.active then s.rewardTotal / s.active else 0

/-- The daily hoover guide of a planet: a tenth of its price per year of 360 days, in coins, at the
price of the term. -/
def guide (s : EState) (p : Planet) : Int := p.usdt * s.activeUSDT / 1000000 / 10 / 360
/-- The subsidy of the hoover fund for a report of planet `i`: fills the share up to the guide, as far
as the accumulated reward stays within the price of the planet and the fund can pay. -/
def subsidy (s : EState) (p : Planet) (i : Int) : Int :=
  max 0 (min (guide s p - share s) (min (p.price - total s i - share s)
    (s.bal 0x6000000000000000000000000000000000000000)))
/-- The part of `x` that a planet passes on to the ecosystem: 60 % (rounded down) for companies. -/
def toEco (p : Planet) (x : Int) : Int := if p.isCompany then x * 3 / 5 else 0

/-- The reward of a year is 30 % (rounded down) lower than that of the year before. -/
def reduce (x : Int) : Int := x - x * 3 / 10
/-- Coins issued for term `t`, starting with `x` per term. -/
def issueOfTerm (x cyc : Int) (t : ℕ) : Int := reduce^[t / cyc.toNat] x

/-- The release rate of private planets: the one set last, or 0/24. It is stored as `num<<16|denom`. -/
def rate (s : EState) : Int × Int :=
  if s.claimRateRaw ≤ 0 then (0, 24) else (s.claimRateRaw / 65536, s.claimRateRaw % 65536)
/-- The part of the accumulated reward `t` of planet `p` that may not be claimed yet. -/
def locked (s : EState) (p : Planet) (t : Int) : Int :=
  if p.isPrivate then ((rate s).2 - (rate s).1) * t / (rate s).2 else 0
/-- What the owner of planet `i` can claim. -/
def claimable (s : EState) (i : Int) : Int :=
  match s.planets i with
  | none => 0
  | some p => max 0 (current s i - locked s p (total s i))
/-- `a` owns planet `i`. -/
def Owns (s : EState) (a : Addr) (i : Int) : Prop := ∃ p, s.planets i = some p ∧ p.owner = a

/-- The reward of the term that nobody earned: the shares of the planets that did not report, or all of
it if there was no planet. -/
def missed (s : EState) : Int :=
  if 0 < s.active then share s * (s.active - s.working) else s.rewardTotal

/-- Coins destroyed by a successful call: what is paid to the system SCORE. -/
def burnedBy : Call → Int
  | .fallback v => v
  | _ => 0

/-- Two states are equal in everything but the listed balances. -/
def SameBut (s s' : EState) (A : List ℕ) : Prop := ∀ a, a ∉ A → s'.bal a = s.bal a

/-- A history: the calls made, in order, between two states of the chain, with any number of blocks
in between. -/
inductive Trace : Chain → List (Ctx × Call) → Chain → Prop
  | nil (c : Chain) : Trace c [] c
  | call {a b : Chain} {l : List (Ctx × Call)} (x : Ctx) (k : Call) : Trace a l b → x.height = b.height →
      x.caller.id ≠ publicTreasury.id → Trace a (l ++ [(x, k)]) ⟨b.height, apply x b.st k⟩
  | block {a b : Chain} {l : List (Ctx × Call)} (proposed : Int) (s' : EState) : Trace a l b →
      beginBlock b.st (b.height + 1) proposed = .ok s' → Trace a l ⟨b.height + 1, s'⟩

/-- Who may make a call (revision 3 and later; before it anybody may set the price). -/
def Allowed (c : Ctx) (s : EState) : Call → Prop
  | .setUSDTPrice _ => c.rev < 3 ∨ c.caller = c.gov
  | .startRewardIssue _ | .addPlanetManager _ | .removePlanetManager _
  | .setPrivateClaimableRate _ _ | .withdrawLostTo _ => c.caller = c.gov
  | .registerPlanet .. | .unregisterPlanet _ | .setPlanetOwner _ _ =>
      c.caller = ⟨true, 0x8000000000000000000000000000000000000000⟩
  | .reportPlanetWork _ => c.caller ∈ s.managers
  | _ => True

/-- The planet managers according to the history of calls. -/
def managersAfter (c : Ctx) (k : Call) (m : Set Addr) : Set Addr :=
  match k with
  | .addPlanetManager a => if c.caller = c.gov then {x | x = a ∨ x ∈ m} else m
  | .removePlanetManager a => if c.caller = c.gov then {x | x ≠ a ∧ x ∈ m} else m
  | _ => m

end Verif.Havah.Spec
