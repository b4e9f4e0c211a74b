import Verif.Btp.Done

/-!
# BTP networks (C73): blocks
-/

namespace Verif.Btp

open Verif

/-! ## Specification -/

/-- The sections of a network in a list of BTP sections, each with the section of the network type that has it. -/
def entriesOf (sections : List Section) (n : ℕ) : List (NTS × NS) :=
  sections.flatMap fun sec => sec.types.flatMap fun t => (t.sections.filter fun x => x.nid == n).map fun x => (t, x)

/-- What a client of a network knows: it takes the proof context of a network type section when the section of the network says that it has changed. -/
def follow (l : List (NTS × NS)) : Option (Option Ctx) := l.foldl (fun c e => if e.2.changed then some e.1.ctx else c) none

/-- The messages in sections. -/
def messagesIn (l : List (NTS × NS)) : List Bytes := l.flatMap fun e => e.2.messages

/-- The hash of a section. -/
def hashOf (E : Env) (e : NTS × NS) : Bytes := e.2.hash E e.1.uid

/-- The sections of a network are linked: each has the hash of the one before and the number of the messages before; the first says that the proof context has changed. -/
def Linked (E : Env) (l : List (NTS × NS)) : Prop :=
  ∀ i e, l[i]? = some e → e.2.prev = ((l.take i).getLast?).map (hashOf E) ∧ e.2.first = ((messagesIn (l.take i)).length : ℤ) ∧ (i = 0 → e.2.changed = true)

/-- The setting of keys walks over all modules. -/
def Call.fine (E : Env) : Call → Prop
  | .setKey _ _ _ mods => ∀ uid dsa, E.dsaOf uid = some dsa → uid ∈ mods
  | .frame _ inner => ∀ c ∈ inner, c.fine E
  | _ => True

/-- Chains of blocks, with any calls and any order of the maps. -/
inductive Reach (E : Env) : Chain → Prop
  | genesis (vs : List Addr) : Reach E (genesis vs)
  | block {c c' : Chain} {height : ℕ} {calls : List Call} {o : Order} : Reach E c → (∀ x ∈ calls, x.fine E) → Fits (execs E (begin_ c height) calls) o →
    Verif.Btp.block E c height calls o = some c' → Reach E c'

/-! ## The sections of a block -/

theorem entriesOf_append (a b : List Section) (n : ℕ) : entriesOf (a ++ b) n = entriesOf a n ++ entriesOf b n := by
  unfold entriesOf; rw [List.flatMap_append]

theorem flatMap_one {α β : Type} (f : α → List β) (l : List α) (t0 : α) (hm : t0 ∈ l) (hd : l.Nodup) (hn : ∀ t ∈ l, t ≠ t0 → f t = []) : l.flatMap f = f t0 := by
  induction l with
  | nil => cases hm
  | cons a r ih =>
    rw [List.nodup_cons] at hd
    rw [List.flatMap_cons]
    by_cases ha : a = t0
    · subst ha
      have : r.flatMap f = [] := by
        rw [List.flatMap_eq_nil_iff]
        intro t ht
        exact hn t (List.mem_cons_of_mem _ ht) fun e => hd.1 (e ▸ ht)
      rw [this, List.append_nil]
    · rw [hn a List.mem_cons_self ha, List.nil_append]
      refine ih ?_ hd.2 fun t ht => hn t (List.mem_cons_of_mem _ ht)
      rcases List.mem_cons.1 hm with q | q
      · exact absurd q.symm ha
      · exact q

theorem filter_sorted {l : List NS} (hs : l.Pairwise (fun x y => x.nid < y.nid)) {x : NS} (hx : x ∈ l) : (l.filter fun y => y.nid == x.nid) = [x] := by
  induction l with
  | nil => cases hx
  | cons a r ih =>
    rw [List.pairwise_cons] at hs
    rw [List.filter_cons]
    rcases List.mem_cons.1 hx with rfl | hr
    · rw [if_pos (by simp)]
      congr 1
      rw [List.filter_eq_nil_iff]
      intro y hy
      have := hs.1 y hy
      simp; omega
    · have := hs.1 x hr
      rw [if_neg (by simp; omega)]
      exact ih hs.2 hr

theorem sorted_nodup {α : Type} (id : α → ℕ) {l : List α} (hs : l.Pairwise (fun x y => id x < id y)) : l.Nodup := by
  refine List.Pairwise.imp ?_ hs
  intro a b hlt e
  subst e; omega

/-- The entry of a touched network. -/
theorem Done.entry {E : Env} {w w' : World} {sec : Section} (h : Done E w w' sec) {n : ℕ} {nw : NW} (ht : touched w n = true) (hn : w.s.nws n = some nw) :
    ∃ t, entriesOf [sec] n = [(t, sectionOf w n nw)] ∧ t.ntid = nw.ntid ∧ t ∈ sec.types := by
  obtain ⟨t, m, e⟩ := h.all n nw ht hn
  refine ⟨t, ?_, e, m⟩
  unfold entriesOf
  rw [List.flatMap_singleton, flatMap_one _ _ t m (sorted_nodup NTS.ntid h.sorted)]
  · have hx : sectionOf w n nw ∈ t.sections := (h.sections t m _).2 ⟨n, nw, ht, hn, e.symm, rfl⟩
    have := filter_sorted (h.secSorted t m) hx
    have hid : (sectionOf w n nw).nid = n := rfl
    rw [hid] at this
    rw [this]; rfl
  · intro t' m' hne
    rw [List.map_eq_nil_iff, List.filter_eq_nil_iff]
    intro x hx q
    obtain ⟨n', nw', r1, r2, r3, r4⟩ := (h.sections t' m' x).1 hx
    have : n' = n := by
      rw [r4] at q
      simpa [sectionOf, newNS] using q
    subst this
    rw [hn] at r2; cases r2
    -- the two types are the same
    have key : ∀ l : List NTS, l.Pairwise (fun x y => x.ntid < y.ntid) → ∀ a ∈ l, ∀ b ∈ l, a.ntid = b.ntid → a = b := by
      intro l
      induction l with
      | nil => intro _ a ha; cases ha
      | cons c r ih =>
        intro hp a ha b hb hab
        rw [List.pairwise_cons] at hp
        rcases List.mem_cons.1 ha with ha' | ha'
        · rcases List.mem_cons.1 hb with hb' | hb'
          · rw [ha', hb']
          · have := hp.1 b hb'; rw [ha'] at hab; omega
        · rcases List.mem_cons.1 hb with hb' | hb'
          · have := hp.1 a ha'; rw [hb'] at hab; omega
          · exact ih hp.2 a ha' b hb' hab
    exact hne (key _ h.sorted t' m' t m (r3.symm.trans e.symm))

theorem Done.noEntry {E : Env} {w w' : World} {sec : Section} (h : Done E w w' sec) {n : ℕ} (ht : touched w n = false ∨ w.s.nws n = none) : entriesOf [sec] n = [] := by
  unfold entriesOf
  rw [List.flatMap_singleton, List.flatMap_eq_nil_iff]
  intro t m
  rw [List.map_eq_nil_iff, List.filter_eq_nil_iff]
  intro x hx q
  obtain ⟨n', nw', r1, r2, r3, r4⟩ := (h.sections t m x).1 hx
  have : n' = n := by
    rw [r4] at q
    simpa [sectionOf, newNS] using q
  subst this
  rcases ht with ht | ht
  · rw [ht] at r1; cases r1
  · rw [ht] at r2; cases r2

theorem NS.changed_new (n : ℕ) (nw : NW) (ms : List Bytes) : (newNS n nw ms).changed = nw.changed := by
  unfold newNS NS.changed
  cases nw.changed with
  | true => simp
  | false => simp

theorem NS.first_new (n : ℕ) (nw : NW) (ms : List Bytes) : (newNS n nw ms).first = (nw.sn : ℤ) - ms.length := by
  unfold newNS NS.first
  dsimp only
  split_ifs <;> omega

theorem sectionOf_changed (w : World) (n : ℕ) (nw : NW) : (sectionOf w n nw).changed = (decide (nw.last = none) || dirty w nw.ntid) := by
  unfold sectionOf; rw [NS.changed_new]; rfl

/-! ## The map of proof contexts -/

theorem foldl_changed (l : List NTS) : ∀ (m : ℕ → Option (Option Ctx)) (k : ℕ) (v : Option Ctx), (∀ t ∈ l, t.ntid = k → t.ctx = v) →
    ((∃ t ∈ l, t.ntid = k ∧ t.changed = true) → (l.foldl (fun m nts => if nts.changed then put m nts.ntid (some nts.ctx) else m) m) k = some v) ∧
    (¬ (∃ t ∈ l, t.ntid = k ∧ t.changed = true) → (l.foldl (fun m nts => if nts.changed then put m nts.ntid (some nts.ctx) else m) m) k = m k) := by
  induction l with
  | nil => intro m k v _; exact ⟨fun ⟨t, ht, _⟩ => (by cases ht), fun _ => rfl⟩
  | cons a r ih =>
    intro m k v hv
    rw [List.foldl_cons]
    obtain ⟨h1, h2⟩ := ih (if a.changed then put m a.ntid (some a.ctx) else m) k v fun t ht => hv t (List.mem_cons_of_mem _ ht)
    constructor
    · rintro ⟨t, ht, q1, q2⟩
      by_cases hr : ∃ t ∈ r, t.ntid = k ∧ t.changed = true
      · exact h1 hr
      · rw [h2 hr]
        rcases List.mem_cons.1 ht with rfl | ht
        · rw [if_pos q2, ← q1, put_self, hv t List.mem_cons_self q1]
        · exact absurd ⟨t, ht, q1, q2⟩ hr
    · intro hno
      have hr : ¬ ∃ t ∈ r, t.ntid = k ∧ t.changed = true := fun ⟨t, ht, q⟩ => hno ⟨t, List.mem_cons_of_mem _ ht, q⟩
      rw [h2 hr]
      by_cases hc : a.changed = true
      · rw [if_pos hc, put_ne _ _ fun e => hno ⟨a, List.mem_cons_self, e.symm, hc⟩]
      · rw [if_neg hc]

theorem foldl_inact (l : List ℕ) : ∀ (m : ℕ → Option (Option Ctx)) (k : ℕ), (k ∈ l → (l.foldl (fun m k => put m k none) m) k = none) ∧ (k ∉ l → (l.foldl (fun m k => put m k none) m) k = m k) := by
  induction l with
  | nil => intro m k; exact ⟨fun h => (by cases h), fun _ => rfl⟩
  | cons a r ih =>
    intro m k
    rw [List.foldl_cons]
    obtain ⟨h1, h2⟩ := ih (put m a none) k
    constructor
    · intro hm
      by_cases hr : k ∈ r
      · exact h1 hr
      · rw [h2 hr]
        rcases List.mem_cons.1 hm with rfl | q
        · exact put_self _ _ _
        · exact absurd q hr
    · intro hm
      rw [h2 fun q => hm (List.mem_cons_of_mem _ q), put_ne]
      rintro rfl; exact hm List.mem_cons_self

/-- The map is that of the state (`NewProofContextMap`). -/
theorem mapOf_eq {E : Env} {s : Store} (h : Good E s) (k : ℕ) : mapOf s k = ((s.nts k).bind NT.ctx).map some := by
  have key : ∀ (l : List ℕ) (m : ℕ → Option (Option Ctx)),
      (l.foldl (addCtx s) m) k =
        if k ∈ l ∧ (s.nts k).bind NT.ctx ≠ none then ((s.nts k).bind NT.ctx).map some else m k := by
    intro l
    induction l with
    | nil => intro m; simp
    | cons a r ih =>
      intro m
      rw [List.foldl_cons, ih]
      by_cases hx : a = k
      · subst hx
        unfold addCtx
        cases hn : s.nts a with
        | none => simp
        | some nt =>
          cases hc : nt.ctx with
          | none => simp [hc]
          | some c => simp [hc, put_self]
      · have hm : addCtx s m a k = m k := by
          unfold addCtx
          cases s.nts a with
          | none => rfl
          | some nt =>
            cases hc : nt.ctx with
            | none => simp [hc]
            | some c => simp [hc]; exact put_ne _ _ fun e => hx e.symm
        rw [hm]
        have : k ≠ a := fun e => hx e.symm
        simp [this]
  unfold mapOf
  rw [key]
  cases hn : s.nts k with
  | none => simp
  | some nt =>
    cases hc : nt.ctx with
    | none => simp [hc]
    | some c => simp [hc, (h.act k).2 ⟨nt, hn⟩]

end Verif.Btp
