import Verif.Btp.Keys

/-!
# BTP networks (C73): proof contexts are those of the validators
-/

namespace Verif.Btp

open Verif

/-- The proof context of a network type during a block: it was made for keys that the validators of the beginning had, and later changes are noted. -/
def Made (E : Env) (w : World) (k : ℕ) (nt : NT) : Prop :=
  ∃ (ref : Addr → Option Bytes) (d : Bytes), E.dsaOf nt.uid = some d ∧ nt.ctx = newCtx E nt.uid (w.start.map fun v => (ref v).bind (E.typeKey nt.uid)) ∧
    ∀ a, w.s.keys a d = ref a ∨ k ∈ w.keyChanged a

/-- During a block. -/
structure Cur (E : Env) (w : World) : Prop where
  keys : KeyInv E w.s
  kcEx : ∀ a k, k ∈ w.keyChanged a → ∃ nt, w.s.nts k = some nt

/-- The proof contexts of open types are those of the validators of the beginning, unless they are marked; if `P`. -/
def Fresh (E : Env) (P : Prop) (w : World) : Prop :=
  P → w.odd = false → ∀ k nt, w.s.nts k = some nt → nt.opened ≠ [] → w.pc k = false → Made E w k nt

theorem noteKey_spec {E : Env} {a : Addr} {dsa : Bytes} (mods : List Bytes) : ∀ {w w' : World}, noteKey E a dsa mods w = some w' → ∃ kc, w' = { w with keyChanged := kc } ∧
    (∀ b k, k ∈ w.keyChanged b → k ∈ kc b) ∧ (∀ b k, k ∈ kc b → k ∈ w.keyChanged b ∨ ∃ nt, w.s.nts k = some nt) ∧
    (∀ uid ∈ mods, E.dsaOf uid = some dsa → w.s.ntIdOf uid ≠ 0 → ∀ nt, w.s.nts (w.s.ntIdOf uid) = some nt → nt.opened ≠ [] → w.s.ntIdOf uid ∈ kc a) := by
  induction mods with
  | nil =>
    intro w w' he
    rw [noteKey, Option.some.injEq] at he
    exact ⟨w.keyChanged, he.symm, fun _ _ q => q, fun _ _ q => Or.inl q, fun uid q => by cases q⟩
  | cons uid r ih =>
    intro w w' he
    rw [noteKey] at he
    by_cases h1 : E.dsaOf uid = some dsa
    · rw [if_pos h1] at he
      by_cases h2 : w.s.ntIdOf uid = 0
      · rw [if_pos h2] at he
        obtain ⟨kc, e, g1, g2, g3⟩ := ih he
        refine ⟨kc, e, g1, g2, fun u hu q1 q2 => ?_⟩
        rcases List.mem_cons.1 hu with rfl | hu
        · exact absurd h2 q2
        · exact g3 u hu q1 q2
      · rw [if_neg h2] at he
        cases h3 : w.s.nts (w.s.ntIdOf uid) with
        | none => rw [h3] at he; cases he
        | some nt =>
          rw [h3] at he
          dsimp only at he
          by_cases h4 : nt.opened = []
          · rw [if_pos h4] at he
            obtain ⟨kc, e, g1, g2, g3⟩ := ih he
            refine ⟨kc, e, g1, g2, fun u hu q1 q2 nt' q3 q4 => ?_⟩
            rcases List.mem_cons.1 hu with rfl | hu
            · rw [h3] at q3; cases q3; exact absurd h4 q4
            · exact g3 u hu q1 q2 nt' q3 q4
          · rw [if_neg h4] at he
            obtain ⟨kc, e, g1, g2, g3⟩ := ih he
            dsimp only at g1 g2 g3
            have hin : w.s.ntIdOf uid ∈ kc a := g1 a _ (by rw [put_self]; simp)
            refine ⟨kc, e, fun b k q => ?_, fun b k q => ?_, fun u hu q1 q2 nt' q3 q4 => ?_⟩
            · apply g1
              by_cases hb : b = a
              · subst hb; rw [put_self]; exact List.mem_append_left _ q
              · rw [put_ne _ _ hb]; exact q
            · rcases g2 b k q with q | q
              · by_cases hb : b = a
                · subst hb
                  rw [put_self] at q
                  rcases List.mem_append.1 q with q | q
                  · exact Or.inl q
                  · rw [List.mem_singleton] at q
                    rw [q]; exact Or.inr ⟨nt, h3⟩
                · rw [put_ne _ _ hb] at q; exact Or.inl q
              · exact Or.inr q
            · rcases List.mem_cons.1 hu with rfl | hu
              · exact hin
              · exact g3 u hu q1 q2 nt' q3 q4
    · rw [if_neg h1] at he
      obtain ⟨kc, e, g1, g2, g3⟩ := ih he
      refine ⟨kc, e, g1, g2, fun u hu q1 q2 => ?_⟩
      rcases List.mem_cons.1 hu with rfl | hu
      · exact absurd q1 h1
      · exact g3 u hu q1 q2

/-- Keys of one address and one algorithm were changed, and noted. -/
theorem note_cur {E : Env} {P : Prop} {s0 : Store} {w w' : World} {s1 : Store} {a : Addr} {d : Bytes} {mods : List Bytes} (m : Mid E s0 w) (hf : Fresh E P w) (hk : ∀ a k, k ∈ w.keyChanged a → ∃ nt, w.s.nts k = some nt)
    (hs : KeyInv E s1) (e1 : s1.nts = w.s.nts) (e2 : s1.ntIdOf = w.s.ntIdOf) (e3 : ∀ b d', ¬ (b = a ∧ d' = d) → s1.keys b d' = w.s.keys b d')
    (hm : ∀ uid dsa, E.dsaOf uid = some dsa → uid ∈ mods) (he : noteKey E a d mods { w with s := s1 } = some w') : Cur E w' ∧ Fresh E P w' := by
  obtain ⟨kc, e, g1, g2, g3⟩ := noteKey_spec mods he
  subst e
  dsimp only at g1 g2 g3
  refine ⟨⟨hs, fun b k q => ?_⟩, fun hP ho k nt q1 q2 q3 => ?_⟩
  · dsimp only
    rw [e1] at g2 ⊢
    rcases g2 b k q with q | q
    · exact hk b k q
    · exact q
  · dsimp only at q1 q3 ho
    rw [e1] at q1
    obtain ⟨ref, d', r1, r2, r3⟩ := hf hP ho k nt q1 q2 q3
    refine ⟨ref, d', r1, r2, fun b => ?_⟩
    dsimp only
    by_cases hc : b = a ∧ d' = d
    · right
      have hid := (m.good.ntUid k nt q1).1
      have hpos := (m.good.ntPos k nt q1).1
      rw [e2, e1] at g3
      have := g3 nt.uid (hm nt.uid d' r1) (hc.2 ▸ r1) (by rw [hid]; omega) nt (by rw [hid]; exact q1) q2
      rw [hid] at this
      rw [hc.1]; exact this
    · rw [e3 b d' hc]
      rcases r3 b with q | q
      · exact Or.inl q
      · exact Or.inr (g1 b k q)

theorem setKey_cur {E : Env} {P : Prop} {s0 : Store} {w w' : World} (m : Mid E s0 w) (hc : Cur E w) (hf : Fresh E P w) (a : Addr) (dsa key : Bytes) (mods : List Bytes)
    (hm : ∀ uid dsa, E.dsaOf uid = some dsa → uid ∈ mods) (he : setKey E w a dsa key mods = some w') : Cur E w' ∧ Fresh E P w' := by
  have o := dropOwner_keys E w.s (w.s.keys a dsa)
  have oid : (dropOwner E w.s (w.s.keys a dsa)).ntIdOf = w.s.ntIdOf := by cases w.s.keys a dsa <;> rfl
  unfold setKey at he
  by_cases h1 : E.known dsa = true
  · rw [if_pos h1] at he
    by_cases h2 : key = []
    · rw [if_pos h2] at he
      refine note_cur m hf hc.kcEx (dropKey_inv hc.keys a dsa) o.2.2.2.2 oid (fun b d' q => ?_) hm he
      unfold dropKey
      dsimp only
      rw [o.1, putKeys, if_neg q]
    · rw [if_neg h2] at he
      cases hcn : E.canon dsa key with
      | none => rw [hcn] at he; cases he
      | some k =>
        rw [hcn] at he
        dsimp only at he
        by_cases h3 : w.s.keyOwner (E.keyHash k) = none ∨ w.s.keyOwner (E.keyHash k) = some a
        · rw [if_pos h3] at he
          by_cases h4 : w.s.keys a dsa = some k
          · rw [if_pos h4, Option.some.injEq] at he
            subst he; exact ⟨hc, hf⟩
          · rw [if_neg h4] at he
            refine note_cur m hf hc.kcEx (addKey_inv hc.keys a dsa key k h1 hcn h3) o.2.2.2.2 oid (fun b d' q => ?_) hm he
            unfold addKey
            dsimp only
            rw [o.1, putKeys, if_neg q]
        · rw [if_neg h3] at he; cases he
  · rw [if_neg h1] at he; cases he

theorem Made.congr {E : Env} {w w' : World} {k : ℕ} {nt nt' : NT} (h : Made E w k nt) (h1 : nt'.uid = nt.uid) (h2 : nt'.ctx = nt.ctx) (h3 : w'.start = w.start) (h4 : w'.s.keys = w.s.keys)
    (h5 : w'.keyChanged = w.keyChanged) : Made E w' k nt' := by
  obtain ⟨ref, d, r1, r2, r3⟩ := h
  exact ⟨ref, d, by rw [h1]; exact r1, by rw [h1, h2, h3]; exact r2, fun a => by rw [h4, h5]; exact r3 a⟩

theorem openNet_cur {E : Env} {P : Prop} {s0 : Store} {w w' : World} (m : Mid E s0 w) (hc : Cur E w) (hf : Fresh E P w) (uid name : Bytes) (owner : Option Addr) (he : openNet E w uid name owner = some w') :
    Cur E w' ∧ Fresh E P w' := by
  unfold openNet at he
  cases hd : E.dsaOf uid with
  | none => rw [hd] at he; cases he
  | some dsa =>
    rw [hd] at he
    dsimp only at he
    by_cases h0 : w.s.ntIdOf uid = 0
    · rw [if_pos h0] at he
      cases hi : dsaIdx w.s dsa with
      | none => rw [hi] at he; cases he
      | some i =>
        rw [hi] at he
        dsimp only at he
        by_cases ha : (keysOf E w.s w.validators uid dsa).all Option.isSome = true
        · rw [if_pos ha] at he
          cases hn : newCtx E uid (keysOf E w.s w.validators uid dsa) with
          | none => rw [hn] at he; cases he
          | some c =>
            rw [hn] at he
            dsimp only at he
            rw [Option.some.injEq] at he
            subst he
            have hnone : w.s.nts (w.s.ntCount + 1) = none := by
              cases hx : w.s.nts (w.s.ntCount + 1) with
              | none => rfl
              | some nt => have := (m.good.ntPos _ nt hx).2; omega
            have hdsa := dsaIdx_some hi
            obtain ⟨K, hK⟩ : ∃ K, K = w.s.ntCount + 1 := ⟨_, rfl⟩
            unfold addNet
            dsimp only
            rw [← hK] at hnone ⊢
            refine ⟨⟨⟨hc.keys.canon, hc.keys.inDsas, hc.keys.nodup, hc.keys.mask, ?_, ?_, hc.keys.owner⟩, ?_⟩, ?_⟩
            · intro k nt d q1 q2
              dsimp only at q1 ⊢
              by_cases hx : k = K
              · subst hx
                rw [put_self, Option.some.injEq] at q1
                subst q1
                rw [hd] at q2
                rw [← Option.some.inj q2]; exact List.mem_of_getElem? hdsa
              · rw [put_ne _ _ hx] at q1; exact hc.keys.used k nt d q1 q2
            · intro j
              dsimp only
              rw [testBit_or_pow, Bool.or_eq_true, hc.keys.dmask, decide_eq_true_eq]
              constructor
              · rintro (⟨k, nt, d, q1, q2, q3⟩ | rfl)
                · refine ⟨k, nt, d, ?_, q2, q3⟩
                  rw [put_ne]
                  · exact q1
                  · rintro rfl; rw [hnone] at q1; cases q1
                · exact ⟨K, _, dsa, put_self _ _ _, hd, hdsa⟩
              · rintro ⟨k, nt, d, q1, q2, q3⟩
                by_cases hx : k = K
                · subst hx
                  rw [put_self, Option.some.injEq] at q1
                  subst q1
                  rw [hd] at q2
                  rw [← Option.some.inj q2] at q3
                  exact Or.inr (getElem?_nodup hc.keys.nodup hdsa q3)
                · rw [put_ne _ _ hx] at q1; exact Or.inl ⟨k, nt, d, q1, q2, q3⟩
            · intro a k q
              dsimp only at q ⊢
              by_cases hx : k = K
              · subst hx; exact ⟨_, put_self _ _ _⟩
              · rw [put_ne _ _ hx]; exact hc.kcEx a k q
            · intro hP ho k nt q1 q2 q3
              dsimp only at ho q1 q3
              rw [Bool.or_eq_false_iff] at ho
              by_cases hx : k = K
              · subst hx
                rw [put_self, Option.some.injEq] at q1
                subst q1
                have hv : w.validators = w.start := by simpa using ho.2
                refine ⟨fun a => w.s.keys a dsa, dsa, hd, ?_, fun a => Or.inl rfl⟩
                dsimp only
                rw [← hv, ← hn]; rfl
              · rw [put_ne _ _ hx] at q1
                exact (hf hP ho.1 k nt q1 q2 q3).congr rfl rfl rfl rfl rfl
        · rw [if_neg ha] at he; cases he
    · rw [if_neg h0] at he
      cases hn : w.s.nts (w.s.ntIdOf uid) with
      | none => rw [hn] at he; cases he
      | some nt0 =>
        rw [hn] at he
        dsimp only at he
        rw [Option.some.injEq] at he
        subst he
        obtain ⟨K, hK⟩ : ∃ K, K = w.s.ntIdOf uid := ⟨_, rfl⟩
        rw [← hK] at hn ⊢
        obtain ⟨pc', hpc⟩ : ∃ pc', pc' = if nt0.opened = [] then put w.pc K true else w.pc := ⟨_, rfl⟩
        have hw : (if nt0.opened = [] then { w with pc := put w.pc K true } else w) = { w with pc := pc' } := by
          rw [hpc]; split_ifs <;> rfl
        rw [hw]
        unfold addNet
        dsimp only
        refine ⟨⟨hc.keys.congr rfl rfl rfl rfl rfl fun k => ?_, fun a k q => ?_⟩, fun hP ho k nt q1 q2 q3 => ?_⟩
        · dsimp only
          by_cases hx : k = K
          · subst hx; rw [put_self, hn]; rfl
          · rw [put_ne _ _ hx]
        · dsimp only at q ⊢
          by_cases hx : k = K
          · subst hx; exact ⟨_, put_self _ _ _⟩
          · rw [put_ne _ _ hx]; exact hc.kcEx a k q
        · dsimp only at ho q1 q3
          by_cases hx : k = K
          · subst hx
            rw [put_self, Option.some.injEq] at q1
            subst q1
            by_cases hz : nt0.opened = []
            · rw [hpc, if_pos hz, put_self] at q3; cases q3
            · rw [hpc, if_neg hz] at q3
              exact (hf hP ho k nt0 hn hz q3).congr rfl rfl rfl rfl rfl
          · rw [put_ne _ _ hx] at q1
            have hpk : w.pc k = false := by
              rw [hpc] at q3
              by_cases hz : nt0.opened = []
              · rw [if_pos hz, put_ne _ _ hx] at q3; exact q3
              · rw [if_neg hz] at q3; exact q3
            exact (hf hP ho k nt q1 q2 hpk).congr rfl rfl rfl rfl rfl

theorem closeNet_cur {E : Env} {P : Prop} {w w' : World} (hc : Cur E w) (hf : Fresh E P w) (nid : ℕ) (he : closeNet w nid = some w') : Cur E w' ∧ Fresh E P w' := by
  unfold closeNet at he
  cases hw : w.s.nws nid with
  | none => rw [hw] at he; cases he
  | some nw =>
    rw [hw] at he
    dsimp only at he
    cases ht : w.s.nts nw.ntid with
    | none => rw [ht] at he; cases he
    | some nt0 =>
      rw [ht] at he
      dsimp only at he
      by_cases hm : nid ∈ nt0.opened
      · rw [if_pos hm, Option.some.injEq] at he
        have key : ∀ (ia : ℕ → Bool) (w1 : World), w1 = { w with s := { w.s with nws := put w.s.nws nid (some { nw with isOpen := false }), nts := put w.s.nts nw.ntid (some { nt0 with opened := nt0.opened.erase nid }) }, inact := ia } →
            Cur E w1 ∧ Fresh E P w1 := by
          rintro ia w1 rfl
          refine ⟨⟨hc.keys.congr rfl rfl rfl rfl rfl fun k => ?_, fun a k q => ?_⟩, fun hP ho k nt q1 q2 q3 => ?_⟩
          · dsimp only
            by_cases hx : k = nw.ntid
            · subst hx; rw [put_self, ht]; rfl
            · rw [put_ne _ _ hx]
          · dsimp only at q ⊢
            by_cases hx : k = nw.ntid
            · subst hx; exact ⟨_, put_self _ _ _⟩
            · rw [put_ne _ _ hx]; exact hc.kcEx a k q
          · dsimp only at ho q1 q3
            by_cases hx : k = nw.ntid
            · subst hx
              rw [put_self, Option.some.injEq] at q1
              subst q1
              exact (hf hP ho _ nt0 ht (fun e => q2 (by dsimp only; rw [e]; rfl)) q3).congr rfl rfl rfl rfl rfl
            · rw [put_ne _ _ hx] at q1
              exact (hf hP ho k nt q1 q2 q3).congr rfl rfl rfl rfl rfl
        by_cases hz : nt0.opened.erase nid = []
        · rw [if_pos hz] at he
          exact key _ w' he.symm
        · rw [if_neg hz] at he
          exact key w.inact w' he.symm
      · rw [if_neg hm] at he; cases he

theorem send_cur {E : Env} {P : Prop} {w w' : World} (hc : Cur E w) (hf : Fresh E P w) (sender : Addr) (nid : ℕ) (msg : Bytes) (he : send w sender nid msg = some w') : Cur E w' ∧ Fresh E P w' := by
  unfold send at he
  by_cases hm : msg = []
  · rw [if_pos hm] at he; cases he
  · rw [if_neg hm] at he
    cases hw : w.s.nws nid with
    | none => rw [hw] at he; cases he
    | some nw =>
      rw [hw] at he
      dsimp only at he
      by_cases ho : nw.isOpen = true
      · rw [if_pos ho] at he
        by_cases hs : nw.owner = some sender
        · rw [if_pos hs, Option.some.injEq] at he
          subst he
          exact ⟨⟨hc.keys.congr rfl rfl rfl rfl rfl fun _ => rfl, hc.kcEx⟩, fun hP h1 k nt q1 q2 q3 => (hf hP h1 k nt q1 q2 q3).congr rfl rfl rfl rfl rfl⟩
        · rw [if_neg hs] at he; cases he
      · rw [if_neg ho] at he; cases he

mutual

theorem exec_cur {E : Env} {P : Prop} {s0 : Store} (w : World) (c : Call) (h : Mid E s0 w) (hc : Cur E w) (hf : Fresh E P w) (hw : c.fine E) : Cur E (exec E w c) ∧ Fresh E P (exec E w c) := by
  match c with
  | .openNet uid name owner =>
    rw [exec]
    cases he : openNet E w uid name owner with
    | none => exact ⟨hc, hf⟩
    | some w' => exact openNet_cur h hc hf uid name owner he
  | .closeNet nid =>
    rw [exec]
    cases he : closeNet w nid with
    | none => exact ⟨hc, hf⟩
    | some w' => exact closeNet_cur hc hf nid he
  | .send sender nid msg =>
    rw [exec]
    cases he : send w sender nid msg with
    | none => exact ⟨hc, hf⟩
    | some w' => exact send_cur hc hf sender nid msg he
  | .setKey a dsa key mods =>
    rw [exec]
    cases he : setKey E w a dsa key mods with
    | none => exact ⟨hc, hf⟩
    | some w' => exact setKey_cur h hc hf a dsa key mods (by simpa only [Call.fine] using hw) he
  | .setValidators vs =>
    rw [exec]
    exact ⟨⟨hc.keys, hc.kcEx⟩, fun hP h1 k nt q1 q2 q3 => (hf hP h1 k nt q1 q2 q3).congr rfl rfl rfl rfl rfl⟩
  | .frame ok inner =>
    rw [exec]
    cases ok with
    | true => rw [if_pos rfl]; exact execs_cur w inner h hc hf (by simpa only [Call.fine] using hw)
    | false => rw [if_neg (by simp)]; exact ⟨hc, hf⟩

theorem execs_cur {E : Env} {P : Prop} {s0 : Store} (w : World) (cs : List Call) (h : Mid E s0 w) (hc : Cur E w) (hf : Fresh E P w) (hw : ∀ c ∈ cs, c.fine E) : Cur E (execs E w cs) ∧ Fresh E P (execs E w cs) := by
  match cs with
  | [] => rw [execs]; exact ⟨hc, hf⟩
  | c :: cs =>
    rw [execs]
    obtain ⟨h1, h2⟩ := exec_cur w c h hc hf (hw c (by simp))
    exact execs_cur _ cs (exec_mid w c h) h1 h2 fun x hx => hw x (List.mem_cons_of_mem _ hx)

end

mutual

theorem exec_start {E : Env} (w : World) (c : Call) : (exec E w c).start = w.start := by
  match c with
  | .openNet uid name owner =>
    rw [exec]
    cases he : openNet E w uid name owner with
    | none => rfl
    | some w' =>
      unfold openNet at he
      repeat' split at he
      all_goals first | cases he; rfl | cases he
      all_goals first | rfl | (rw [Option.getD_some]; unfold addNet; dsimp only; split_ifs <;> rfl)
  | .closeNet nid =>
    rw [exec]
    cases he : closeNet w nid with
    | none => rfl
    | some w' =>
      unfold closeNet at he
      repeat' split at he
      all_goals cases he
      all_goals first | rfl | (dsimp only [Option.getD_some]; split_ifs <;> rfl)
  | .send sender nid msg =>
    rw [exec]
    cases he : send w sender nid msg with
    | none => rfl
    | some w' =>
      unfold send at he
      repeat' split at he
      all_goals cases he
      all_goals rfl
  | .setKey a dsa key mods =>
    rw [exec]
    cases he : setKey E w a dsa key mods with
    | none => rfl
    | some w' =>
      unfold setKey at he
      repeat' split at he
      all_goals first | cases he; rfl | (obtain ⟨kc, rfl⟩ := noteKey_eq mods he; rfl) | cases he
  | .setValidators vs => rw [exec]
  | .frame ok inner =>
    rw [exec]
    cases ok with
    | true => rw [if_pos rfl]; exact execs_start w inner
    | false => rw [if_neg (by simp)]

theorem execs_start {E : Env} (w : World) (cs : List Call) : (execs E w cs).start = w.start := by
  match cs with
  | [] => rw [execs]
  | c :: cs => rw [execs, execs_start _ cs, exec_start w c]

end

end Verif.Btp
