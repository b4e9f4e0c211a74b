import Verif.Votes.Thms
import Mathlib.Logic.Equiv.List

/-! # A commit vote list gives back the votes -/

namespace Verif.Votes

theorem mapM_map {α β : Type} {f : α → Option β} {g : α → β} (l : List α) (h : ∀ x ∈ l, f x = some (g x)) : l.mapM f = some (l.map g) := by
  induction l with
  | nil => rfl
  | cons x l ih =>
    rw [List.mapM_cons, h x (by simp), ih fun y hy => h y (List.mem_cons_of_mem _ hy)]
    rfl

theorem set_fold_length (n : Nat) (qs : List (Nat × Nat)) (p : Proof) (h : p.length = n) :
    (qs.foldl (fun p q => p.set q.1 (some q.2)) p).length = n := by
  induction qs generalizing p with
  | nil => exact h
  | cons q qs ih => exact ih _ (by simpa using h)

theorem mkProof_length (n : Nat) (qs : List (Nat × Nat)) : (mkProof n qs).length = n :=
  set_fold_length n qs _ (by simp)

theorem set_fold_get {n : Nat} {qs : List (Nat × Nat)} (hn : (qs.map Prod.fst).Nodup) (hlt : ∀ q ∈ qs, q.1 < n) (p : Proof)
    (h : p.length = n) {v s : Nat} (hv : (v, s) ∈ qs ∨ ((∀ q ∈ qs, q.1 ≠ v) ∧ p[v]? = some (some s))) :
    (qs.foldl (fun p q => p.set q.1 (some q.2)) p)[v]? = some (some s) := by
  induction qs generalizing p with
  | nil =>
    rcases hv with hv | hv
    · simp at hv
    · exact hv.2
  | cons q qs ih =>
    rw [List.map_cons, List.nodup_cons] at hn
    have hlt' : ∀ q ∈ qs, q.1 < n := fun x hx => hlt x (List.mem_cons_of_mem _ hx)
    refine ih hn.2 hlt' (p.set q.1 (some q.2)) (by simpa using h) ?_
    rcases hv with hv | ⟨h1, h2⟩
    · rcases List.mem_cons.1 hv with e | hv
      · right
        subst e
        refine ⟨?_, ?_⟩
        · intro x hx e
          exact hn.1 (List.mem_map.2 ⟨x, hx, e⟩)
        · have := hlt (v, s) (by simp)
          rw [List.getElem?_set_self (by rw [h]; exact this)]
      · exact .inl hv
    · right
      refine ⟨fun x hx => h1 x (List.mem_cons_of_mem _ hx), ?_⟩
      rw [List.getElem?_set_ne (h1 q (by simp))]
      exact h2

theorem mkProof_get {n : Nat} {qs : List (Nat × Nat)} (hn : (qs.map Prod.fst).Nodup) (hlt : ∀ q ∈ qs, q.1 < n) {v s : Nat}
    (hv : (v, s) ∈ qs) : (mkProof n qs)[v]? = some (some s) :=
  set_fold_get hn hlt _ (by simp) (.inl hv)

theorem proofLoop_filter {keep : Nat → Bool} {nv : Nat} (es : List (Nat × Nat)) (ps : List Proof)
    (hl : ps.length = (es.filter fun e => keep e.1).length) (hn : ∀ p ∈ ps, p.length = nv) :
    proofLoop keep nv es ps = some (es.filter (fun e => keep e.1), ps) := by
  induction es generalizing ps with
  | nil =>
    rw [List.filter_nil, List.length_nil] at hl
    rw [List.eq_nil_of_length_eq_zero hl]
    rfl
  | cons e es ih =>
    unfold proofLoop
    by_cases h : keep e.1 = true
    · rw [if_pos h]
      rw [List.filter_cons_of_pos (p := fun e : Nat × Nat => keep e.1) h] at hl ⊢
      cases ps with
      | nil => simp at hl
      | cons p ps =>
        dsimp only
        rw [if_neg (by simpa using hn p (by simp))]
        rw [ih ps (by simpa using hl) fun q hq => hn q (List.mem_cons_of_mem _ hq)]
    · rw [if_neg h]
      rw [List.filter_cons_of_neg (p := fun e : Nat × Nat => keep e.1) h] at hl ⊢
      exact ih ps hl hn

theorem filterMap_some {α β : Type} {f : α → Option β} {g : α → β} (l : List α) (h : ∀ x ∈ l, f x = some (g x)) :
    l.filterMap f = l.map g := by
  induction l with
  | nil => rfl
  | cons x l ih =>
    rw [List.filterMap_cons, h x (by simp), ih fun y hy => h y (List.mem_cons_of_mem _ hy)]
    rfl

theorem range_getD {α : Type} (l : List α) (d : α) : (List.range l.length).map (fun i => l.getD i d) = l := by
  apply List.ext_getElem?
  intro i
  rw [List.getElem?_map]
  by_cases hi : i < l.length
  · rw [List.getElem?_range hi, List.getElem?_eq_getElem hi]
    simp [List.getD, List.getElem?_eq_getElem hi]
  · rw [List.getElem?_eq_none (by simpa using hi), List.getElem?_eq_none (by omega)]
    rfl

/-- The precommits of some validators for one block: each is signed by the one at its place, and has its part of each proof. -/
structure Precommits (addr : Base → Int → Nat → Nat) (vals : List Nat) (b : Base) (msgs : List Vote) (who : Vote → Nat) : Prop where
  base : ∀ m ∈ msgs, m.base = b
  signed : ∀ m ∈ msgs, vals[who m]? = some (addr b m.ts m.sig)
  once : (msgs.map who).Nodup
  count : ∀ m ∈ msgs, m.parts.length = b.dec.nts.length
  parts : ∀ m ∈ msgs, ∀ q ∈ m.parts, q.1 = who m

theorem addItems_adds {dig : Decision → Nat} {addr : Base → Int → Nat → Nat} {vals : List Nat} (hv : vals.Nodup) {b : Base}
    {ps : List Proof} (msgs : List Vote) (h : ∀ m ∈ msgs, m.base = b ∧ ∃ v, vals[v]? = some (addr b m.ts m.sig) ∧ partsOf ps v = m.parts)
    (vl : VList) : addItems dig addr vals b ps (msgs.map fun m => (m.ts, m.sig)) vl = some (msgs.foldl (fun vl m => vl.add dig m) vl) := by
  induction msgs generalizing vl with
  | nil => rfl
  | cons m msgs ih =>
    obtain ⟨hb, v, h1, h2⟩ := h m (by simp)
    rw [List.map_cons]
    unfold addItems
    have hf : vals.findIdx? (fun a => decide (a = addr b m.ts m.sig)) = some v := by
      obtain ⟨hlt, he⟩ := List.getElem?_eq_some_iff.1 h1
      rw [List.findIdx?_eq_some_iff_getElem]
      refine ⟨hlt, by simpa using he, ?_⟩
      intro j hj
      simp only [decide_eq_true_eq]
      intro e
      have := (List.Nodup.getElem_inj_iff hv (hi := by omega) (hj := hlt)).1 (e.trans he.symm)
      omega
    simp only [hf]
    rw [ih fun x hx => h x (List.mem_cons_of_mem _ hx), List.foldl_cons]
    have : (⟨b, m.ts, m.sig, partsOf ps v⟩ : Vote) = m := by rw [h2, ← hb]
    rw [this]

/-- Precommits made to a commit vote list come back from it, in order: only the height, the block and its network type entries are
taken from the block. -/
theorem commit_back {dig : Decision → Nat} (hd : Function.Injective dig) {addr : Base → Int → Nat → Nat} {keep : Nat → Bool}
    {vals : List Nat} (hv : vals.Nodup) {entries : List (Nat × Nat)} {b : Base} (ht : b.typ = 1)
    (he : b.dec.nts = entries.filter fun e => keep e.1) {pcm : Nat → Option Nat} (hp : ∀ e ∈ b.dec.nts, pcm e.1 = some vals.length)
    {msgs : List Vote} (hne : msgs ≠ []) {who : Vote → Nat} (P : Precommits addr vals b msgs who) :
    ∃ c vl, newCommit dig pcm msgs = some c ∧ c.toVotes dig addr keep b.height b.dec.bid vals entries = some vl ∧
      vl.items.length = msgs.length ∧ ∀ i, vl.get i = msgs[i]? := by
  obtain ⟨m0, ms, rfl⟩ := List.exists_cons_of_ne_nil hne
  have hb0 := P.base m0 (by simp)
  -- the proofs
  let qs : Nat → List (Nat × Nat) := fun i => (m0 :: ms).map fun m => m.parts.getD i (0, 0)
  have hpart : ∀ i < b.dec.nts.length, ∀ m ∈ m0 :: ms, m.parts[i]? = some (m.parts.getD i (0, 0)) ∧ (m.parts.getD i (0, 0)).1 = who m := by
    intro i hi m hm
    have hlt : i < m.parts.length := by rw [P.count m hm]; exact hi
    have hg : m.parts[i]? = some (m.parts.getD i (0, 0)) := by
      rw [List.getElem?_eq_getElem hlt]
      simp [List.getD, List.getElem?_eq_getElem hlt]
    exact ⟨hg, P.parts m hm _ (List.mem_of_getElem? hg)⟩
  have hwho : ∀ m ∈ m0 :: ms, who m < vals.length := fun m hm => (List.getElem?_eq_some_iff.1 (P.signed m hm)).1
  have hqn : ∀ i < b.dec.nts.length, ((qs i).map Prod.fst).Nodup ∧ ∀ q ∈ qs i, q.1 < vals.length := by
    intro i hi
    constructor
    · have : (qs i).map Prod.fst = (m0 :: ms).map who := by
        rw [List.map_map]
        exact List.map_congr_left fun m hm => (hpart i hi m hm).2
      rw [this]
      exact P.once
    · intro q hq
      obtain ⟨m, hm, rfl⟩ := List.mem_map.1 hq
      rw [(hpart i hi m hm).2]
      exact hwho m hm
  have hproofs : ((List.range m0.base.dec.nts.length).mapM (fun i =>
        match m0.base.dec.nts[i]? with
        | none => none
        | some e =>
          match pcm e.1 with
          | none => none
          | some n =>
            match (m0 :: ms).mapM (fun m : Vote => m.parts[i]?) with
            | none => none
            | some qs => if qs.all (fun q : Nat × Nat => decide (q.1 < n)) then some (mkProof n qs) else none)) =
      some ((List.range b.dec.nts.length).map fun i => mkProof vals.length (qs i)) := by
    rw [hb0]
    apply mapM_map
    intro i hi
    rw [List.mem_range] at hi
    have hm : (m0 :: ms).mapM (fun m : Vote => m.parts[i]?) = some (qs i) := mapM_map _ fun m hm => (hpart i hi m hm).1
    simp only [List.getElem?_eq_getElem hi, hp _ (List.getElem_mem hi), hm]
    rw [if_pos]
    rw [List.all_eq_true]
    intro q hq
    simpa using (hqn i hi).2 q hq
  have hc : newCommit dig pcm (m0 :: ms) = some ⟨b.round, b.dec.bps, (m0 :: ms).map (fun m => (m.ts, m.sig)),
      (List.range b.dec.nts.length).map fun i => mkProof vals.length (qs i)⟩ := by
    unfold newCommit
    dsimp only
    rw [if_pos]
    · rw [hb0] at hproofs ⊢
      exact congrArg (fun o : Option (List Proof) => match o with
        | none => none
        | some ps => some (⟨b.round, b.dec.bps, (m0 :: ms).map (fun m : Vote => (m.ts, m.sig)), ps⟩ : Commit)) hproofs
    · rw [List.all_eq_true]
      intro m hm
      rw [hb0, P.base m hm]
      simp
  refine ⟨_, adds dig (m0 :: ms), hc, ?_, ?_⟩
  · unfold Commit.toVotes
    rw [proofLoop_filter entries _ (by rw [List.length_map, List.length_range, he]) (by
      intro p hp
      obtain ⟨i, -, rfl⟩ := List.mem_map.1 hp
      exact mkProof_length _ _)]
    dsimp only
    rw [← he]
    have hbe : (⟨1, b.height, b.round, ⟨b.dec.bid, b.dec.bps, b.dec.nts⟩⟩ : Base) = b := by rw [← ht]
    rw [hbe]
    apply addItems_adds hv
    intro m hm
    refine ⟨P.base m hm, who m, P.signed m hm, ?_⟩
    unfold partsOf
    rw [List.filterMap_map]
    rw [filterMap_some (g := fun i => m.parts.getD i (0, 0))]
    · rw [← P.count m hm]
      exact range_getD _ _
    · intro i hi
      rw [List.mem_range] at hi
      have hq : (who m, (m.parts.getD i (0, 0)).2) ∈ qs i := by
        refine List.mem_map.2 ⟨m, hm, ?_⟩
        rw [← (hpart i hi m hm).2]
      have hg := mkProof_get (hqn i hi).1 (hqn i hi).2 hq
      show ((mkProof vals.length (qs i))[who m]?.join).map _ = _
      rw [hg]
      show some (who m, _) = _
      rw [← (hpart i hi m hm).2]
  · obtain ⟨h1, h2, -⟩ := votes_back hd (m0 :: ms) [b] (fun m hm => by simpa using P.base m hm) (by simp)
    exact ⟨h1, h2⟩

/-- Votes with different decisions make no commit vote list. -/
theorem commit_one {dig : Decision → Nat} (hd : Function.Injective dig) {pcm : Nat → Option Nat} {msgs : List Vote} {c : Commit}
    (h : newCommit dig pcm msgs = some c) : ∀ m ∈ msgs, ∀ m' ∈ msgs, m.base.dec = m'.base.dec := by
  cases msgs with
  | nil => simp
  | cons m0 ms =>
    unfold newCommit at h
    dsimp only at h
    split_ifs at h with ha
    · rw [List.all_eq_true] at ha
      have : ∀ m ∈ m0 :: ms, m0.base.dec = m.base.dec := fun m hm => hd (by simpa using ha m hm)
      intro m hm m' hm'
      rw [← this m hm, this m' hm']

/-- A list from elsewhere: what comes out are votes of validators, for this block, at the type and round of the list. -/
theorem commit_votes {dig : Decision → Nat} (hd : Function.Injective dig) {addr : Base → Int → Nat → Nat} {keep : Nat → Bool} {c : Commit}
    {h bid : Nat} {vals : List Nat} {entries : List (Nat × Nat)} {vl : VList}
    (hc : c.toVotes dig addr keep h bid vals entries = some vl) :
    vl.items.length = c.items.length ∧ ∀ (i : Nat) (it : Int × Nat), c.items[i]? = some it → ∃ m : Vote, vl.get i = some m ∧
      m.base = ⟨1, h, c.round, ⟨bid, c.bps, entries.filter fun e => keep e.1⟩⟩ ∧ (m.ts, m.sig) = it ∧ addr m.base m.ts m.sig ∈ vals := by
  unfold Commit.toVotes at hc
  cases hp : proofLoop keep vals.length entries c.proves with
  | none => simp only [hp] at hc; cases hc
  | some np =>
    obtain ⟨nts, ps⟩ := np
    simp only [hp] at hc
    have hn : nts = entries.filter fun e => keep e.1 := by
      clear hc
      generalize c.proves = pv at hp
      induction entries generalizing nts ps pv with
      | nil =>
        unfold proofLoop at hp
        rw [Option.some.injEq, Prod.mk.injEq] at hp
        rw [← hp.1]; rfl
      | cons e es ih =>
        unfold proofLoop at hp
        by_cases hk : keep e.1 = true
        · rw [if_pos hk] at hp
          rw [List.filter_cons_of_pos (p := fun e : Nat × Nat => keep e.1) hk]
          cases pv with
          | nil => cases hp
          | cons p pv =>
            dsimp only at hp
            split_ifs at hp
            cases hq : proofLoop keep vals.length es pv with
            | none => simp only [hq] at hp; cases hp
            | some bu =>
              simp only [hq] at hp
              rw [Option.some.injEq, Prod.mk.injEq] at hp
              rw [← hp.1, ih _ _ _ hq]
        · rw [if_neg hk] at hp
          rw [List.filter_cons_of_neg (p := fun e : Nat × Nat => keep e.1) hk]
          exact ih _ _ _ hp
    rw [← hn]
    generalize hB : (⟨1, h, c.round, ⟨bid, c.bps, nts⟩⟩ : Base) = B at hc ⊢
    -- what was added
    have key : ∀ (its : List (Int × Nat)) (done : List Vote) (v0 : VList), Holds v0 done → (∀ m ∈ done, m.base = B ∧ addr B m.ts m.sig ∈ vals) →
        addItems dig addr vals B ps its v0 = some vl → ∃ more : List Vote, Holds vl (done ++ more) ∧
          more.map (fun m => (m.ts, m.sig)) = its ∧ ∀ m ∈ more, m.base = B ∧ addr B m.ts m.sig ∈ vals := by
      intro its
      induction its with
      | nil =>
        intro done v0 H _ e
        unfold addItems at e
        rw [Option.some.injEq] at e
        exact ⟨[], by rw [← e]; simpa using H, rfl, by simp⟩
      | cons it its ih =>
        intro done v0 H hd' e
        unfold addItems at e
        cases hf : vals.findIdx? (fun a => decide (a = addr B it.1 it.2)) with
        | none => simp only [hf] at e; cases e
        | some v =>
          simp only [hf] at e
          obtain ⟨hlt, hv, -⟩ := List.findIdx?_eq_some_iff_getElem.1 hf
          have hmem : addr B it.1 it.2 ∈ vals := by
            have : vals[v] = addr B it.1 it.2 := by simpa using hv
            rw [← this]; exact List.getElem_mem hlt
          obtain ⟨more, h1, h2, h3⟩ := ih _ _ (H.add hd ⟨B, it.1, it.2, partsOf ps v⟩) (by
            intro m hm
            rcases List.mem_append.1 hm with hm | hm
            · exact hd' m hm
            · rw [List.mem_singleton] at hm
              rw [hm]; exact ⟨rfl, hmem⟩) e
          refine ⟨⟨B, it.1, it.2, partsOf ps v⟩ :: more, by simpa using h1, by rw [List.map_cons, h2], ?_⟩
          intro m hm
          rcases List.mem_cons.1 hm with rfl | hm
          · exact ⟨rfl, hmem⟩
          · exact h3 m hm
    obtain ⟨ms, H, h2, h3⟩ := key c.items [] .empty .empty (by simp) hc
    rw [List.nil_append] at H
    have hs := H.small (bs := [B]) fun m hm => by simpa using (h3 m hm).1
    refine ⟨by rw [H.len, ← h2, List.length_map], ?_⟩
    intro i it hi
    rw [← h2, List.getElem?_map] at hi
    cases hm : ms[i]? with
    | none => rw [hm] at hi; cases hi
    | some m =>
      rw [hm] at hi
      have hmm := h3 m (List.mem_of_getElem? hm)
      refine ⟨m, by rw [H.get (Nat.le_trans hs (by simp)), hm], hmm.1, by simpa using hi, by rw [hmm.1]; exact hmm.2⟩

/-- There are digests that tell all decisions apart. -/
example : ∃ dig : Decision → Nat, Function.Injective dig := by
  refine ⟨fun d => Encodable.encode (d.bid, d.bps, d.nts), ?_⟩
  intro a b h
  have := Encodable.encode_injective h
  rw [Prod.mk.injEq, Prod.mk.injEq] at this
  obtain ⟨h1, h2, h3⟩ := this
  cases a; cases b
  simp_all

/-- There are such votes: two of three validators, one network type of two in use; and a list from them. -/
example : ∃ (c : Commit) (vl : VList),
    newCommit (fun d => d.bid) (fun _ => some 3) [⟨⟨1, 5, 0, ⟨9, 8, [(2, 7)]⟩⟩, 4, 11, [(1, 100)]⟩, ⟨⟨1, 5, 0, ⟨9, 8, [(2, 7)]⟩⟩, 6, 10, [(0, 101)]⟩] = some c ∧
    c.proves = [[some 101, some 100, none]] ∧
    c.toVotes (fun d => d.bid) (fun _ _ s => s) (fun t => decide (t = 2)) 5 9 [10, 11, 12] [(1, 6), (2, 7)] = some vl ∧
    vl.protos.length = 1 ∧ vl.get 0 = some ⟨⟨1, 5, 0, ⟨9, 8, [(2, 7)]⟩⟩, 4, 11, [(1, 100)]⟩ ∧
    vl.get 1 = some ⟨⟨1, 5, 0, ⟨9, 8, [(2, 7)]⟩⟩, 6, 10, [(0, 101)]⟩ :=
  ⟨_, _, rfl, by decide +kernel, rfl, by decide +kernel, by decide +kernel, by decide +kernel⟩

example : Precommits (fun _ _ s => s) [10, 11, 12] ⟨1, 5, 0, ⟨9, 8, [(2, 7)]⟩⟩
    [⟨⟨1, 5, 0, ⟨9, 8, [(2, 7)]⟩⟩, 4, 11, [(1, 100)]⟩, ⟨⟨1, 5, 0, ⟨9, 8, [(2, 7)]⟩⟩, 6, 10, [(0, 101)]⟩] (fun m => m.sig - 10) :=
  ⟨by decide, by decide, by decide, by decide, by decide⟩

end Verif.Votes
