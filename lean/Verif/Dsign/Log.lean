import Verif.Caches.Random

/-!
# Double signs: when two messages conflict, and the log of a node

Models `consensus/doublesigndata.go` and `consensus/dsmlog.go`.

Simplifications: a message is what the code looks at, with the signer that its signature gives, and the hash of what is signed;
messages are decoded and their signatures are good (`newDoubleSignDataWith...`, `Verify`).
-/

namespace Verif.Dsign

/-- What a message is: a vote (with its type) or a proposal. -/
inductive Kind where
  | vote (type : Nat)
  | proposal
deriving Repr, DecidableEq

/-- A signed message. -/
structure Msg where
  kind : Kind
  height : Int
  round : Int
  signer : Nat
  /-- The network it names; 0: none. -/
  nid : Nat
  hash : Nat
deriving Repr, DecidableEq

/-- `matchNID` (doublesigndata.go:27-32). -/
def matchNID (a b : Nat) : Bool := a == 0 || b == 0 || a == b

/-- `dsVote.IsConflictWith` (doublesigndata.go:59-80), `dsProposal.IsConflictWith` (doublesigndata.go:115-132). For votes both
network ids are those of the first vote, as in the code. -/
def conflict (a b : Msg) : Bool :=
  match a.kind, b.kind with
  | .vote t, .vote t' =>
    matchNID a.nid a.nid && !(t' != t || b.height != a.height || b.round != a.round || b.signer != a.signer) && a.hash != b.hash
  | .proposal, .proposal =>
    matchNID a.nid b.nid && !(a.height != b.height || a.round != b.round || b.signer != a.signer) && a.hash != b.hash
  | _, _ => false

/-- `dsmCacheKey` (dsmlog.go:25-31). -/
structure Key where
  kind : Kind
  signer : Nat
  height : Int
  round : Int
deriving Repr, DecidableEq

def Msg.key (m : Msg) : Key := ⟨m.kind, m.signer, m.height, m.round⟩

/-- `LogAndCheckVoteMessage`, `LogAndCheckProposalMessage` (dsmlog.go:77-103); `r`: random numbers. None: a panic. -/
def check (cost : Msg → Nat) (c : Caches.Rand Key Msg) (m : Msg) (r : Nat → Nat) :
    Option (Caches.Rand Key Msg × Option (Msg × Msg)) :=
  match m.kind with
  | .vote _ =>
    if ((c.get m.key).map fun o => conflict o m) = some true then some (c, (c.get m.key).map fun o => (o, m))
    else (c.put cost m.key m r).map fun c => (c, none)
  | .proposal =>
    match c.get m.key with
    | some o => some (c, if conflict o m then some (o, m) else none)
    | none => (c.put cost m.key m r).map fun c => (c, none)

/-- What a node has logged: the log, the messages that came, and the pairs it found. -/
inductive Log (cost : Msg → Nat) (cap : Nat) : Caches.Rand Key Msg → List Msg → List (Msg × Msg) → Prop
  | init : Log cost cap (Caches.Rand.new cap) [] []
  | quiet {c c' : Caches.Rand Key Msg} {ms : List Msg} {rs : List (Msg × Msg)} {m : Msg} {r : Nat → Nat} :
      Log cost cap c ms rs → check cost c m r = some (c', none) → Log cost cap c' (ms ++ [m]) rs
  | found {c c' : Caches.Rand Key Msg} {ms : List Msg} {rs : List (Msg × Msg)} {m : Msg} {r : Nat → Nat} {p : Msg × Msg} :
      Log cost cap c ms rs → check cost c m r = some (c', some p) → Log cost cap c' (ms ++ [m]) (rs ++ [p])

/-- What a double sign is: one signer, one kind and type of message, one height and round, and two contents. -/
def Double (a b : Msg) : Prop :=
  a.signer = b.signer ∧ a.kind = b.kind ∧ a.height = b.height ∧ a.round = b.round ∧ a.hash ≠ b.hash

theorem conflict_double {a b : Msg} (h : conflict a b = true) : Double a b := by
  unfold conflict at h
  cases ha : a.kind <;> cases hb : b.kind <;> rw [ha, hb] at h <;> simp at h <;> unfold Double <;> rw [ha, hb]
  · obtain ⟨⟨_, ⟨⟨h1, h2⟩, h3⟩, h4⟩, h5⟩ := h
    exact ⟨h4.symm, by rw [h1], h2.symm, h3.symm, h5⟩
  · obtain ⟨⟨_, ⟨h1, h2⟩, h3⟩, h5⟩ := h
    exact ⟨h3.symm, rfl, h1, h2, h5⟩

/-- When two messages conflict: votes of any two networks, and proposals of one network or one without a network. -/
theorem conflict_iff (a b : Msg) : conflict a b = true ↔
    Double a b ∧ (a.kind = .proposal → a.nid = 0 ∨ b.nid = 0 ∨ a.nid = b.nid) := by
  constructor
  · intro h
    refine ⟨conflict_double h, ?_⟩
    intro hp
    unfold conflict at h
    rw [hp] at h
    cases hb : b.kind <;> rw [hb] at h <;> simp [matchNID] at h
    rcases h.1.1 with (h | h) | h
    · exact .inl h
    · exact .inr (.inl h)
    · exact .inr (.inr h)
  · rintro ⟨⟨h1, h2, h3, h4, h5⟩, hn⟩
    unfold conflict
    cases ha : a.kind <;> rw [ha] at h2 hn <;> rw [← h2] <;> simp [matchNID, h1, h3, h4, h5]
    rcases hn rfl with h | h | h <;> simp [h]

theorem key_eq {a b : Msg} : a.key = b.key ↔ a.signer = b.signer ∧ a.kind = b.kind ∧ a.height = b.height ∧ a.round = b.round := by
  unfold Msg.key
  rw [Key.mk.injEq]
  tauto

/-- What is in the log came, at its key; the log keeps its bound. -/
structure LogInv (cost : Msg → Nat) (cap : Nat) (c : Caches.Rand Key Msg) (ms : List Msg) (rs : List (Msg × Msg)) : Prop where
  inv : c.Inv cost
  cap : c.cap = cap
  sum : c.sum ≤ c.cap
  mem : ∀ k m, c.get k = some m → m ∈ ms ∧ m.key = k
  rep : ∀ p ∈ rs, p.1 ∈ ms ∧ p.2 ∈ ms ∧ conflict p.1 p.2 = true

/-- What a message does to the log. -/
theorem LogInv.check {cost : Msg → Nat} {cap : Nat} {c : Caches.Rand Key Msg} {ms : List Msg} {rs : List (Msg × Msg)}
    (I : LogInv cost cap c ms rs) (m : Msg) (r : Nat → Nat) :
    ((∃ o, c.get m.key = some o ∧ conflict o m = true ∧ check cost c m r = some (c, some (o, m))) ∨
     (∃ o, c.get m.key = some o ∧ conflict o m = false ∧ m.kind = .proposal ∧ check cost c m r = some (c, none)) ∨
     (∃ c', (∀ o, c.get m.key = some o → conflict o m = false ∧ m.kind ≠ .proposal) ∧ c.put cost m.key m r = some c' ∧
      check cost c m r = some (c', none))) := by
  obtain ⟨c', e, -⟩ := I.inv.put I.sum m.key m r
  unfold Dsign.check
  cases hk : m.kind with
  | vote t =>
    dsimp only
    cases hg : c.get m.key with
    | none =>
      right; right
      refine ⟨c', by intro o h; simp at h, e, ?_⟩
      simp [e]
    | some o =>
      cases hc : conflict o m with
      | true => left; exact ⟨o, rfl, hc, by simp [hc]⟩
      | false =>
        right; right
        refine ⟨c', ?_, e, by simp [hc, e]⟩
        intro o' h
        rw [Option.some.injEq] at h
        subst h
        exact ⟨hc, by simp⟩
  | proposal =>
    dsimp only
    cases hg : c.get m.key with
    | none =>
      right; right
      refine ⟨c', by intro o h; simp at h, e, ?_⟩
      simp [e]
    | some o =>
      cases hc : conflict o m with
      | true => left; exact ⟨o, rfl, hc, by simp [hc]⟩
      | false => right; left; exact ⟨o, rfl, hc, rfl, by simp [hc]⟩

/-- No message makes the log panic. -/
theorem LogInv.total {cost : Msg → Nat} {cap : Nat} {c : Caches.Rand Key Msg} {ms : List Msg} {rs : List (Msg × Msg)}
    (I : LogInv cost cap c ms rs) (m : Msg) (r : Nat → Nat) : Dsign.check cost c m r ≠ none := by
  rcases I.check m r with ⟨o, _, _, e⟩ | ⟨o, _, _, _, e⟩ | ⟨c', _, _, e⟩ <;> rw [e] <;> simp

theorem Log.inv {cost : Msg → Nat} {cap : Nat} {c : Caches.Rand Key Msg} {ms : List Msg} {rs : List (Msg × Msg)}
    (L : Log cost cap c ms rs) : LogInv cost cap c ms rs := by
  induction L with
  | init => exact ⟨.new cost cap, rfl, Nat.zero_le _, by intro k m h; simp [Caches.Rand.get, Caches.Rand.new] at h, by intro p h; simp at h⟩
  | @quiet c c' ms rs m r _ h I =>
    have hrep : ∀ p ∈ rs, p.1 ∈ ms ++ [m] ∧ p.2 ∈ ms ++ [m] ∧ conflict p.1 p.2 = true := fun p hp =>
      ⟨List.mem_append_left _ (I.rep p hp).1, List.mem_append_left _ (I.rep p hp).2.1, (I.rep p hp).2.2⟩
    have hmem : ∀ k m', c.get k = some m' → m' ∈ ms ++ [m] ∧ m'.key = k := fun k m' hg =>
      ⟨List.mem_append_left _ (I.mem k m' hg).1, (I.mem k m' hg).2⟩
    rcases I.check m r with ⟨o, _, _, e⟩ | ⟨o, _, _, _, e⟩ | ⟨c1, _, ep, e⟩ <;> rw [e] at h <;> simp at h
    · subst h
      exact ⟨I.inv, I.cap, I.sum, hmem, hrep⟩
    · subst h
      obtain ⟨c2, e2, I2, hs, hc, hp, hq, hx⟩ := I.inv.put I.sum m.key m r
      rw [ep, Option.some.injEq] at e2
      subst e2
      refine ⟨I2, hc.trans I.cap, hs, ?_, hrep⟩
      intro k m' hg
      by_cases hk : k = m.key
      · by_cases hcost : cost m ≤ c.cap
        · rw [hk, hp hcost, Option.some.injEq] at hg
          subst hg
          exact ⟨by simp, hk.symm⟩
        · rw [hq (by omega)] at hg
          exact hmem k m' hg
      · rcases hx k hk with h | h
        · rw [h] at hg; simp at hg
        · rw [h] at hg; exact hmem k m' hg
  | @found c c' ms rs m r p _ h I =>
    rcases I.check m r with ⟨o, ho, hc, e⟩ | ⟨o, _, _, _, e⟩ | ⟨c1, _, _, e⟩ <;> rw [e] at h <;> simp at h
    obtain ⟨rfl, rfl⟩ := h
    refine ⟨I.inv, I.cap, I.sum, fun k m' hg => ⟨List.mem_append_left _ (I.mem k m' hg).1, (I.mem k m' hg).2⟩, ?_⟩
    intro p hp
    rcases List.mem_append.1 hp with hp | hp
    · exact ⟨List.mem_append_left _ (I.rep p hp).1, List.mem_append_left _ (I.rep p hp).2.1, (I.rep p hp).2.2⟩
    · rw [List.mem_singleton] at hp
      subst hp
      exact ⟨List.mem_append_left _ (I.mem _ _ ho).1, by simp, hc⟩

/-- The log never panics, and what it holds costs no more than its size. -/
theorem log_total {cost : Msg → Nat} {cap : Nat} {c : Caches.Rand Key Msg} {ms : List Msg} {rs : List (Msg × Msg)}
    (L : Log cost cap c ms rs) (m : Msg) (r : Nat → Nat) : ∃ x, check cost c m r = some x ∧ c.sum ≤ cap ∧
      c.sum = (c.keys.map fun k => Caches.costOf cost (c.kv k)).sum := by
  have I := L.inv
  cases h : check cost c m r with
  | none => exact absurd h (I.total m r)
  | some x => exact ⟨x, rfl, I.cap ▸ I.sum, I.inv.sum⟩

/-- What a node reports are two messages that came, of one signer for one place, with two contents. -/
theorem log_true {cost : Msg → Nat} {cap : Nat} {c : Caches.Rand Key Msg} {ms : List Msg} {rs : List (Msg × Msg)}
    (L : Log cost cap c ms rs) : ∀ p ∈ rs, p.1 ∈ ms ∧ p.2 ∈ ms ∧ Double p.1 p.2 := fun p hp =>
  ⟨(L.inv.rep p hp).1, (L.inv.rep p hp).2.1, conflict_double (L.inv.rep p hp).2.2⟩

/-- A put that fits throws nothing out. -/
theorem put_fits {K V : Type} [DecidableEq K] {cost : V → Nat} {c c' : Caches.Rand K V} {key : K} {v : V} {r : Nat → Nat}
    (hf : c.sum + cost v ≤ c.cap) (h : c.put cost key v r = some c') :
    (∀ x, c'.get x = if x = key then some v else c.get x) ∧ c'.sum ≤ c.sum + cost v := by
  unfold Caches.Rand.put at h
  rw [if_neg (by omega)] at h
  dsimp only at h
  have hs : ∀ n (d : Caches.Rand K V), d.sum ≤ d.cap → Caches.Rand.shrink cost n d key r = some d := by
    intro n d hd
    cases n with
    | zero => show (if _ then _ else _) = _; rw [if_neg (by omega)]
    | succ n => show (if _ then _ else _) = _; rw [if_neg (by omega)]
  cases ho : c.kv key with
  | none =>
    rw [ho] at h
    dsimp only at h
    rw [hs _ _ (by dsimp only; omega), Option.some.injEq] at h
    subst h
    exact ⟨fun x => rfl, Nat.le_refl _⟩
  | some o =>
    rw [ho] at h
    dsimp only at h
    rw [hs _ _ (by dsimp only; omega), Option.some.injEq] at h
    subst h
    exact ⟨fun x => rfl, by dsimp only; omega⟩

/-- While everything that came fits in the log, and all of it is for networks that match, every double sign is found: if two
messages conflict, a pair of that signer for that place was reported. -/
theorem log_caught {cost : Msg → Nat} {cap : Nat} {c : Caches.Rand Key Msg} {ms : List Msg} {rs : List (Msg × Msg)}
    (L : Log cost cap c ms rs) (hfit : (ms.map cost).sum ≤ cap)
    (hnid : ∀ a ∈ ms, ∀ b ∈ ms, a.nid = 0 ∨ b.nid = 0 ∨ a.nid = b.nid) :
    ∀ a ∈ ms, ∀ b ∈ ms, Double a b → ∃ p ∈ rs, p.1.key = a.key ∧ p.2.key = a.key := by
  suffices H : c.sum ≤ (ms.map cost).sum ∧ ∀ a ∈ ms, (∃ p ∈ rs, p.1.key = a.key ∧ p.2.key = a.key) ∨
      ∃ e, c.get a.key = some e ∧ e.hash = a.hash by
    intro a ha b hb hd
    have hk : b.key = a.key := (key_eq.2 ⟨hd.1, hd.2.1, hd.2.2.1, hd.2.2.2.1⟩).symm
    rcases H.2 a ha with h | ⟨e, he, hea⟩
    · exact h
    rcases H.2 b hb with h | ⟨e', he', heb⟩
    · rw [← hk]; exact h
    rw [hk, he, Option.some.injEq] at he'
    subst he'
    exact absurd (hea.symm.trans heb) hd.2.2.2.2
  induction L with
  | init => exact ⟨Nat.zero_le _, by intro a ha; simp at ha⟩
  | @quiet c c' ms rs m r L h ih =>
    have I := L.inv
    rw [List.map_append, List.sum_append, List.map_singleton, List.sum_singleton] at hfit
    obtain ⟨hs, hx⟩ := ih (by omega) (fun a ha b hb => hnid a (List.mem_append_left _ ha) b (List.mem_append_left _ hb))
    rw [List.map_append, List.sum_append, List.map_singleton, List.sum_singleton]
    have hno : ∀ o, c.get m.key = some o → conflict o m = false → o.hash = m.hash := by
      intro o ho hc
      by_contra hne
      obtain ⟨hm, hkey⟩ := I.mem _ _ ho
      have hk := key_eq.1 hkey
      rw [(conflict_iff o m).2 ⟨⟨hk.1, hk.2.1, hk.2.2.1, hk.2.2.2, hne⟩,
        fun _ => hnid o (List.mem_append_left _ hm) m (by simp)⟩] at hc
      simp at hc
    rcases I.check m r with ⟨o, _, _, e⟩ | ⟨o, ho, hc, _, e⟩ | ⟨c1, hc, ep, e⟩ <;> rw [e] at h <;> simp at h
    · subst h
      refine ⟨by omega, ?_⟩
      intro a ha
      rcases List.mem_append.1 ha with ha | ha
      · exact hx a ha
      · rw [List.mem_singleton] at ha
        subst ha
        exact .inr ⟨o, ho, hno o ho hc⟩
    · subst h
      obtain ⟨hg, hsum⟩ := put_fits (by rw [I.cap]; omega) ep
      refine ⟨by omega, ?_⟩
      intro a ha
      rcases List.mem_append.1 ha with ha | ha
      · rcases hx a ha with h | ⟨o, ho, hoa⟩
        · exact .inl h
        · right
          rw [hg]
          by_cases hk : a.key = m.key
          · rw [if_pos hk]
            rw [hk] at ho
            exact ⟨m, rfl, (hno o ho (hc o ho).1) ▸ hoa⟩
          · rw [if_neg hk]
            exact ⟨o, ho, hoa⟩
      · rw [List.mem_singleton] at ha
        subst ha
        right
        rw [hg, if_pos rfl]
        exact ⟨a, rfl, rfl⟩
  | @found c c' ms rs m r p L h ih =>
    have I := L.inv
    rw [List.map_append, List.sum_append, List.map_singleton, List.sum_singleton] at hfit
    obtain ⟨hs, hx⟩ := ih (by omega) (fun a ha b hb => hnid a (List.mem_append_left _ ha) b (List.mem_append_left _ hb))
    rw [List.map_append, List.sum_append, List.map_singleton, List.sum_singleton]
    rcases I.check m r with ⟨o, ho, hc, e⟩ | ⟨o, _, _, _, e⟩ | ⟨c1, _, _, e⟩ <;> rw [e] at h <;> simp at h
    obtain ⟨rfl, rfl⟩ := h
    refine ⟨by omega, ?_⟩
    intro a ha
    rcases List.mem_append.1 ha with ha | ha
    · rcases hx a ha with ⟨p, hp, h⟩ | h
      · exact .inl ⟨p, List.mem_append_left _ hp, h⟩
      · exact .inr h
    · rw [List.mem_singleton] at ha
      subst ha
      exact .inl ⟨(o, a), by simp, (I.mem _ _ ho).2, rfl⟩

end Verif.Dsign
