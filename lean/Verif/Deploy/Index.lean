import Verif.Deploy.Props
import Mathlib.Data.Nat.ModEq

/-!
# Deployment of contracts (C71): the table of ids, ids and addresses
-/

namespace Verif.Deploy

open Verif Verif.WorldState

mutual

/-- The ids of all deployments in these calls. -/
def ids : Call → List Bytes
  | .deploy d _ inner => d.id :: idsAll inner
  | .accept _ _ _ inner => idsAll inner
  | .frame _ inner => idsAll inner
  | _ => []

/-- The same for many. -/
def idsAll : List Call → List Bytes
  | [] => []
  | c :: cs => ids c ++ idsAll cs

end

/-- The table has what waits; ids are used once. -/
structure Idx (U : List Bytes) (w : World) : Prop where
  used : ∀ a n, (w.acct a).next = some n → n.deployTx ∈ U
  dist : ∀ a b n m, (w.acct a).next = some n → (w.acct b).next = some m → n.deployTx = m.deployTx → a = b
  idx : ∀ a n, (w.acct a).next = some n → n.status = .pending → w.h2a n.deployTx = some a

theorem Idx.mono {U V : List Bytes} {w : World} (h : Idx U w) (hs : ∀ x ∈ U, x ∈ V) : Idx V w := ⟨fun a n hn => hs _ (h.used a n hn), h.dist, h.idx⟩

/-- Nothing new waits, and what still waits is still in the table. -/
theorem Idx.less {U : List Bytes} {w w' : World} (h : Idx U w) (hl : ∀ b n', (w'.acct b).next = some n' → ∃ n, (w.acct b).next = some n ∧ n.deployTx = n'.deployTx ∧
    (n'.status = .pending → n.status = .pending ∧ (w.h2a n.deployTx = some b → w'.h2a n.deployTx = some b))) : Idx U w' := by
  refine ⟨fun a n' hn => ?_, fun a b n' m' hn hm he => ?_, fun a n' hn hs => ?_⟩
  · obtain ⟨n, h1, h2, _⟩ := hl a n' hn
    rw [← h2]; exact h.used a n h1
  · obtain ⟨n, h1, h2, _⟩ := hl a n' hn
    obtain ⟨m, k1, k2, _⟩ := hl b m' hm
    exact h.dist a b n m h1 k1 (by rw [h2, k2]; exact he)
  · obtain ⟨n, h1, h2, h3⟩ := hl a n' hn
    obtain ⟨h4, h5⟩ := h3 hs
    rw [← h2]; exact h5 (h.idx a n h1 h4)

theorem Idx.same {U : List Bytes} {w : World} (h : Idx U w) {a : Bytes} {o : Op Unit} (hs : ((w.acct a).op o).1.next = (w.acct a).next) (l : List Ev) : Idx U { w.op a o with log := l } := by
  refine h.less (fun b n' hn => ⟨n', ?_, rfl, fun hp => ⟨hp, fun hh => hh⟩⟩)
  change ((w.op a o).acct b).next = _ at hn
  by_cases hx : b = a
  · subst hx; rw [op_self, hs] at hn; exact hn
  · rw [op_other w _ hx] at hn; exact hn

theorem prepare_addr {w : World} {id : Bytes} {i : Install} {aw : Bytes × World} (h : (prepare w id i).1 = some aw) : w.h2a id = some aw.1 := by
  unfold prepare at h
  split at h
  · cases h
  · next a ha =>
    split at h
    · cases h
    · next n _ =>
      by_cases c1 : n.status = .pending
      · rw [if_pos c1] at h
        by_cases c2 : hasMethod (w.acct a).cur n.eeType = true
        · rw [if_pos c2] at h
          split at h
          · cases h
          · dsimp only at h
            by_cases c3 : i.paramsOk = true
            · rw [if_pos c3] at h
              split at h
              · cases h; exact ha
              · cases h
            · rw [if_neg c3] at h; cases h
        · rw [if_neg c2] at h; cases h
      · rw [if_neg c1] at h; cases h

theorem ready_idx {U : List Bytes} {w w1 : World} {id a : Bytes} (h : Idx U w) (r : Ready w id a w1) (ha : w.h2a id = some a) : Idx U w1 := by
  refine h.less (fun b n' hn => ?_)
  by_cases hx : b = a
  · subst hx
    obtain ⟨n, h1, h2, h3, _, h4⟩ := r.next
    rw [h4] at hn
    cases hn
    exact ⟨n, h1, rfl, fun hh => by cases hh⟩
  · rw [r.oth b hx] at hn
    refine ⟨n', hn, rfl, fun hp => ⟨hp, fun hh => ?_⟩⟩
    rw [r.h2a, put_other _ _ ?_]
    · exact hh
    · rintro he
      rw [he, ha] at hh
      cases hh
      exact hx rfl

theorem finish_idx {U : List Bytes} {w w1 w2 : World} {id a audit : Bytes} {auto ok : Bool} (r : Ready w id a w1) (hk : Keeps (some a) w1 w2) (h : Idx U w2) :
    Idx U (finish a id audit auto ok w2).1 := by
  unfold finish
  split
  · split
    · refine h.less (fun b n' hn => ?_)
      change ((w2.op a (.accept id audit)).acct b).next = _ at hn
      by_cases hx : b = a
      · subst hx
        obtain ⟨n, hn0, hid, hst, hm, hn1⟩ := r.next
        obtain ⟨code, _, k1, k2, k3⟩ := hk.old b _ hn1 rfl
        have hC2 : (w2.acct b).isContract = true := k3.trans r.isC1
        have e1 : ((w2.acct b).op (.accept id audit)).1.next = none := by
          simp only [Acct.op, hC2, k1]
          rw [if_neg (by simp [hid]), if_neg (by simp)]
        rw [op_self, e1] at hn
        cases hn
      · rw [op_other w2 _ hx] at hn
        exact ⟨n', hn, rfl, fun hp => ⟨hp, fun hh => hh⟩⟩
    · exact h
  · exact h

/-- What inner calls do to the table. -/
def FineIdx (S : List Bytes) (inner : Bytes → World → World × Out) : Prop :=
  ∀ a w U, Inv w → Busy w a → Idx U w → (∀ x ∈ S, x ∉ U) → Idx (S ++ U) (inner a w).1

theorem accept_idx {S U : List Bytes} {inner : Bytes → World → World × Out} (hf : Fine inner) (hin : FineIdx S inner) {w : World} (h : Inv w) (hi : Idx U w) (hd : ∀ x ∈ S, x ∉ U)
    (id audit : Bytes) (auto : Bool) (i : Install) : Idx (S ++ U) (acceptWith inner w id audit auto i).1 := by
  have hw : Idx (S ++ U) w := hi.mono (fun x hx => List.mem_append_right _ hx)
  have hr := (prepare_spec h id i).2
  have ha := @prepare_addr w id i
  unfold acceptWith
  revert hr ha
  generalize prepare w id i = P
  obtain ⟨p, o⟩ := P
  intro hr ha
  cases p with
  | none => exact hw
  | some aw =>
    have r := hr aw rfl
    have h1 := ready_inv h r
    obtain ⟨_, i2, i3⟩ := hf aw.1 aw.2 h1 (ready_busy r)
    have hx := hin aw.1 aw.2 U h1 (ready_busy r) (ready_idx hi r (ha rfl)) hd
    have hfin := finish_idx (id := id) (audit := audit) (auto := auto) (ok := i.ok) r i3 hx
    dsimp only
    revert hx hfin
    generalize inner aw.1 aw.2 = Q
    obtain ⟨w2, o2⟩ := Q
    intro hx hfin
    cases o2 with
    | panic => exact hx
    | ok =>
      dsimp only at hfin ⊢
      revert hfin
      generalize finish aw.1 id audit auto i.ok w2 = R
      obtain ⟨w3, o3⟩ := R
      intro hfin
      cases o3 <;> first | exact hfin | exact hw
    | fail =>
      dsimp only at hfin ⊢
      revert hfin
      generalize finish aw.1 id audit auto i.ok w2 = R
      obtain ⟨w3, o3⟩ := R
      intro hfin
      cases o3 <;> first | exact hfin | exact hw

theorem init_idx {U : List Bytes} {w w1 : World} {d : Deploy} (h : Idx U w) (hi : d.init w = some w1) : Idx U w1 := by
  unfold Deploy.init at hi
  split at hi
  · split at hi
    · next hr =>
      cases hi
      obtain ⟨_, he⟩ := init_op (a := w.acct d.addr) (o := some d.sender) hr
      exact h.same (by rw [he]) _
    · cases hi
  · split at hi
    · cases hi; exact h
    · cases hi

theorem register_idx {U : List Bytes} {w w2 : World} {d : Deploy} (h : Idx U w) (hu : d.id ∉ U) (hc : (w.acct d.addr).isContract = true) (hr : d.register w = some w2) : Idx (d.id :: U) w2 := by
  obtain ⟨hid, old, hv, he⟩ := register_eq hr
  obtain ⟨ha, hold, hop⟩ := deploy_op hc hv
  have eself : w2.acct d.addr = { w.acct d.addr with next := some ⟨.pending, d.ct, d.ee, d.id, [], d.code, d.params⟩ } := by
    rw [he]; change (w.op d.addr _).acct d.addr = _; rw [op_self, hop]
  have eoth : ∀ b, b ≠ d.addr → w2.acct b = w.acct b := by
    intro b hb; rw [he]; exact op_other w _ hb
  have etab : w2.h2a = table w.h2a d.id d.addr ((w.acct d.addr).next.map Contract.deployTx) := by rw [he, hold]
  refine ⟨fun b n hn => ?_, fun b c n m hn hm hnm => ?_, fun b n hn hs => ?_⟩
  · by_cases hx : b = d.addr
    · subst hx; rw [eself] at hn; cases hn; simp
    · rw [eoth b hx] at hn; exact List.mem_cons_of_mem _ (h.used b n hn)
  · by_cases hx : b = d.addr
    · subst hx
      rw [eself] at hn; cases hn
      by_cases hy : c = d.addr
      · exact hy.symm
      · rw [eoth c hy] at hm
        exact absurd (by rw [show d.id = m.deployTx from hnm]; exact h.used c m hm) hu
    · rw [eoth b hx] at hn
      by_cases hy : c = d.addr
      · subst hy
        rw [eself] at hm; cases hm
        exact absurd (by rw [show d.id = n.deployTx from hnm.symm]; exact h.used b n hn) hu
      · rw [eoth c hy] at hm
        exact h.dist b c n m hn hm hnm
  · rw [etab]
    by_cases hx : b = d.addr
    · subst hx
      rw [eself] at hn; cases hn
      cases ho : (w.acct d.addr).next with
      | none => exact put_self _ _ _
      | some m =>
        change (if m.deployTx.length > 0 then put (put w.h2a d.id (some d.addr)) m.deployTx none else put w.h2a d.id (some d.addr)) d.id = some d.addr
        have hne : d.id ≠ m.deployTx := fun hh => hu (by rw [hh]; exact h.used _ m ho)
        split
        · rw [put_other _ _ hne, put_self]
        · rw [put_self]
    · rw [eoth b hx] at hn
      have h1 := h.idx b n hn hs
      have hne : n.deployTx ≠ d.id := fun hh => hu (by rw [← hh]; exact h.used _ n hn)
      cases ho : (w.acct d.addr).next with
      | none =>
        change put w.h2a d.id (some d.addr) n.deployTx = _
        rw [put_other _ _ hne]; exact h1
      | some m =>
        change (if m.deployTx.length > 0 then put (put w.h2a d.id (some d.addr)) m.deployTx none else put w.h2a d.id (some d.addr)) n.deployTx = some b
        have hne' : n.deployTx ≠ m.deployTx := fun hh => hx (h.dist b d.addr n m hn ho hh)
        split
        · rw [put_other _ _ hne', put_other _ _ hne]; exact h1
        · rw [put_other _ _ hne]; exact h1

theorem deploy_idx {S U : List Bytes} {inner : Bytes → World → World × Out} (hf : Fine inner) (hin : FineIdx S inner) {w : World} (h : Inv w) (hi : Idx U w) (d : Deploy) (i : Install)
    (hd : ∀ x ∈ S, x ∉ d.id :: U) (hu : d.id ∉ U) : Idx (d.id :: S ++ U) (deployWith inner w d i).1 := by
  have hw : Idx (d.id :: S ++ U) w := hi.mono (fun x hx => List.mem_append_right _ hx)
  unfold deployWith
  by_cases hal : d.allowed = true
  · rw [if_pos hal]
    have hne : d.id ≠ [] := by
      apply id_ne
      simp only [Deploy.allowed, Bool.and_eq_true, decide_eq_true_eq] at hal
      exact hal.1.1.1.1.1.1
    cases h1 : d.init w with
    | none => exact hw
    | some w1 =>
      obtain ⟨i1, i2, i3, i4, i5⟩ := init_spec h h1
      have x1 := init_idx hi h1
      dsimp only
      cases hr : d.register w1 with
      | none => exact hw
      | some w2 =>
        obtain ⟨j1, _⟩ := register_spec i1 i3 i4 i5 hne hr
        have x2 := register_idx x1 hu i3 hr
        dsimp only
        split
        · have h3 := accept_idx hf hin j1 x2 hd d.id d.tx true i
          revert h3
          generalize acceptWith inner w2 d.id d.tx true i = P
          obtain ⟨w3, o⟩ := P
          intro h3
          have h3' : Idx (d.id :: S ++ U) w3 := h3.mono (fun x hx => by
            simp only [List.mem_append, List.mem_cons, List.cons_append] at hx ⊢; tauto)
          cases o
          · exact h3'
          · exact hw
          · exact h3'
        · exact x2.mono (fun x hx => by simp only [List.mem_append, List.mem_cons, List.cons_append] at hx ⊢; tauto)
  · rw [if_neg hal]; exact hw

mutual

theorem exec_idx (i : Option Bytes) (w : World) (c : Call) (U : List Bytes) (h : Inv w) (hb : ∀ a, i = some a → Busy w a) (hi : Idx U w) (hd : ∀ x ∈ ids c, x ∉ U) (hn : (ids c).Nodup) :
    Idx (ids c ++ U) (exec i w c).1 := by
  cases c with
  | deploy d ins inner =>
    rw [exec]
    rw [ids] at hd hn ⊢
    rw [List.nodup_cons] at hn
    refine deploy_idx (fun a w h hb => execs_spec (some a) w inner h (fun a' ha => by cases ha; exact hb))
      (fun a w U h hb hi hd => execs_idx (some a) w inner U h (fun a' ha => by cases ha; exact hb) hi hd hn.2) h hi d ins ?_ (hd _ (by simp))
    intro x hx hxx
    rcases List.mem_cons.mp hxx with rfl | hxx
    · exact hn.1 hx
    · exact hd x (List.mem_cons_of_mem _ hx) hxx
  | accept id audit ins inner =>
    rw [exec]
    rw [ids] at hd hn ⊢
    exact accept_idx (fun a w h hb => execs_spec (some a) w inner h (fun a' ha => by cases ha; exact hb))
      (fun a w U h hb hi hd => execs_idx (some a) w inner U h (fun a' ha => by cases ha; exact hb) hi hd hn) h hi hd id audit false ins
  | reject id audit =>
    rw [exec]
    refine Idx.mono (U := U) ?_ (fun x hx => List.mem_append_right _ hx)
    unfold reject
    cases ha : w.h2a id with
    | none => exact hi
    | some a =>
      dsimp only
      split
      · next hr =>
        refine hi.less (fun b n' hn' => ?_)
        change ((World.op { w with h2a := put w.h2a id none } a (.reject id audit)).acct b).next = _ at hn'
        obtain ⟨n, q1, q2, q3⟩ := h.index id a ha
        by_cases hx : b = a
        · subst hx
          rw [op_self] at hn'
          change ((w.acct b).op (.reject id audit)).1.next = _ at hn'
          simp only [Acct.op, q1] at hn'
          split at hn'
          · next heq1 heq2 =>
            cases heq2
            rw [if_neg (by simp [q2]), if_pos q3] at hn'
            cases hn'
            exact ⟨n, q1, rfl, fun hh => by cases hh⟩
          · have hC : (w.acct b).isContract = true := by
              obtain ⟨⟨f, _, hrr⟩, _⟩ := h
              by_contra hc
              have := ((hrr b).blank (by simpa using hc)).2
              rw [q1] at this; cases this
            next hno => exact absurd rfl (hno n hC)
        · rw [op_other _ _ hx] at hn'
          refine ⟨n', hn', rfl, fun hp => ⟨hp, fun hh => ?_⟩⟩
          change put w.h2a id none n'.deployTx = some b
          rw [put_other _ _ ?_]
          · exact hh
          · intro he
            rw [he, ha] at hh
            cases hh
            exact hx rfl
      · exact hi
  | setOwner s a new =>
    rw [exec]
    refine Idx.mono (U := U) ?_ (fun x hx => List.mem_append_right _ hx)
    unfold setOwner
    split
    · refine hi.same ?_ _
      simp only [Acct.op]; split <;> rfl
    · exact hi
  | native a owner code tid ok version api =>
    rw [exec]
    refine Idx.mono (U := U) ?_ (fun x hx => List.mem_append_right _ hx)
    unfold native
    by_cases hr : w.res a (.init owner) = .flag true
    · rw [if_pos hr]
      obtain ⟨hc, he⟩ := init_op (a := w.acct a) (o := owner) hr
      have hbl : (w.acct a).cur = none ∧ (w.acct a).next = none := by
        obtain ⟨⟨f, _, hr⟩, _⟩ := h
        exact (hr a).blank hc
      dsimp only
      have e1 : (w.op a (.init owner)).acct a = { w.acct a with isContract := true, owner := owner } := by rw [op_self, he]
      split
      · split
        · next hacc =>
          refine hi.less (fun b n' hn' => ?_)
          change ((((((w.op a (.init owner)).op a (.deploy code system [] [] tid)).op a (.accept tid tid)).op a (.migrate version)).op a (.setApi api)).acct b).next = _ at hn'
          by_cases hx : b = a
          · subst hx
            have e2 : (({ w.acct b with isContract := true, owner := owner } : Acct Unit).op (.deploy code system [] [] tid)) =
                ({ w.acct b with isContract := true, owner := owner, next := some ⟨.pending, [], system, tid, [], code, []⟩ }, Res.value none) := by
              simp only [Acct.op, hbl.2]
              rw [if_neg (by simp), if_neg (by simp)]
              rfl
            have e5 : (({ w.acct b with isContract := true, owner := owner, next := some ⟨.pending, [], system, tid, [], code, []⟩ } : Acct Unit).op (.accept tid tid)) =
                ({ w.acct b with isContract := true, owner := owner, cur := some ⟨.active, [], system, tid, tid, code, []⟩, next := none }, Res.ok) := by
              simp only [Acct.op]
              rw [if_neg (by simp), if_neg (by simp)]
            rw [op_self, op_self, op_self, op_self, e1, e2, e5] at hn'
            cases hn'
          · rw [op_other _ _ hx, op_other _ _ hx, op_other _ _ hx, op_other _ _ hx, op_other _ _ hx] at hn'
            exact ⟨n', hn', rfl, fun hp => ⟨hp, fun hh => hh⟩⟩
        · exact hi
      · exact hi
    · rw [if_neg hr]; exact hi
  | touch a o =>
    rw [exec]
    refine Idx.mono (U := U) ?_ (fun x hx => List.mem_append_right _ hx)
    by_cases hp : plain o = true
    · rw [if_pos hp]; exact hi.same (plain_same _ _ hp).next w.log
    · rw [if_neg hp]; exact hi
  | setCode code =>
    refine Idx.mono (U := U) ?_ (fun x hx => List.mem_append_right _ hx)
    cases i with
    | none => rw [exec]; exact hi
    | some a =>
      rw [exec]
      obtain ⟨n, hn, hs⟩ := hb a rfl
      have hsc : setCode w a code = ({ w.op a (.setCode true code) with log := w.log ++ [.setCode a code] }, .ok) := by unfold setCode; simp only [hn]
      rw [hsc]
      refine hi.less (fun b n' hn' => ?_)
      change ((w.op a (.setCode true code)).acct b).next = _ at hn'
      by_cases hx : b = a
      · subst hx
        rw [op_self] at hn'
        simp only [Acct.op, hn] at hn'
        cases hn'
        exact ⟨n, hn, rfl, fun hh => by rw [hs] at hh; cases hh⟩
      · rw [op_other w _ hx] at hn'
        exact ⟨n', hn', rfl, fun hp => ⟨hp, fun hh => hh⟩⟩
  | frame ok inner =>
    rw [exec]
    rw [ids] at hd hn ⊢
    have := execs_idx none w inner U h (fun a ha => by cases ha) hi hd hn
    have hw : Idx (idsAll inner ++ U) w := hi.mono (fun x hx => List.mem_append_right _ hx)
    revert this
    generalize execs none w inner = P
    obtain ⟨w1, o⟩ := P
    intro this
    cases o <;> cases ok <;> first | exact this | exact hw

theorem execs_idx (i : Option Bytes) (w : World) (cs : List Call) (U : List Bytes) (h : Inv w) (hb : ∀ a, i = some a → Busy w a) (hi : Idx U w) (hd : ∀ x ∈ idsAll cs, x ∉ U)
    (hn : (idsAll cs).Nodup) : Idx (idsAll cs ++ U) (execs i w cs).1 := by
  cases cs with
  | nil => rw [execs, idsAll]; exact hi
  | cons c cs =>
    rw [execs]
    rw [idsAll] at hd hn ⊢
    rw [List.nodup_append] at hn
    have h1 := exec_spec i w c h hb
    have x1 := exec_idx i w c U h hb hi (fun x hx => hd x (List.mem_append_left _ hx)) hn.1
    revert h1 x1
    generalize exec i w c = P
    obtain ⟨w1, o⟩ := P
    intro h1 x1
    have x2 := execs_idx i w1 cs (ids c ++ U) h1.2.1 (fun a ha => h1.2.2.busy (hb a ha)) x1 (fun x hx hxx => by
      rcases List.mem_append.mp hxx with hxx | hxx
      · exact hn.2.2 x hxx x hx rfl
      · exact hd x (List.mem_append_right _ hx) hxx) hn.2.1
    have x3 : Idx ((ids c ++ idsAll cs) ++ U) (execs i w1 cs).1 := x2.mono (fun x hx => by simp only [List.mem_append] at hx ⊢; tauto)
    cases o with
    | panic => exact absurd rfl h1.1
    | ok => exact x3
    | fail => exact x3

end

/-- **C71.** If no deployment id is used twice, the table has exactly the contracts that wait: what waits can be accepted or rejected by its id, and nothing else can. -/
theorem C71_index (cs : List Call) (hn : (idsAll cs).Nodup) (id a : Bytes) :
    let w := (execs none start cs).1
    w.h2a id = some a ↔ ∃ n, (w.acct a).next = some n ∧ n.deployTx = id ∧ n.status = .pending := by
  intro w
  have hinv := (execs_spec none start cs start_inv (fun a ha => by cases ha)).2.1
  have hidx : Idx (idsAll cs ++ []) w := execs_idx none start cs [] start_inv (fun a ha => by cases ha) ⟨fun a n hn => (by cases hn), fun a b n m hn => (by cases hn), fun a n hn => (by cases hn)⟩ (by simp) hn
  constructor
  · exact hinv.index id a
  · rintro ⟨n, h1, rfl, h3⟩
    exact hidx.idx a n h1 h3

/-! ## Ids and addresses -/

/-- **C71.** The deployments of one transaction have different ids, as long as there are not more of them than hashes; the ids are as long as the hash. -/
theorem C71_ids (tx : Bytes) (s t : Option ℕ) (hs : ∀ n, s = some n → 0 < n ∧ n < 256 ^ tx.length) (ht : ∀ n, t = some n → 0 < n ∧ n < 256 ^ tx.length) (h : idWithSalt tx s = idWithSalt tx t) :
    s = t := by
  have key : ∀ o : Option ℕ, beNat (idWithSalt tx o) = (beNat tx + o.getD 0) % 256 ^ tx.length := by
    intro o
    cases o with
    | none => rw [idWithSalt, Option.getD_none, Nat.add_zero, Nat.mod_eq_of_lt (beNat_lt tx)]
    | some n => rw [idWithSalt, beNat_beBytes]; rfl
  have hm : (beNat tx + s.getD 0) % 256 ^ tx.length = (beNat tx + t.getD 0) % 256 ^ tx.length := by rw [← key, ← key, h]
  have hpos : 0 < 256 ^ tx.length := Nat.pos_of_ne_zero (by simp)
  have hb : ∀ o : Option ℕ, (∀ n, o = some n → 0 < n ∧ n < 256 ^ tx.length) → o.getD 0 < 256 ^ tx.length := by
    intro o ho
    cases o with
    | none => exact hpos
    | some n => exact (ho n rfl).2
  have hs' := hb s hs
  have ht' := hb t ht
  have : s.getD 0 = t.getD 0 := by
    have hmm : (s.getD 0) % 256 ^ tx.length = (t.getD 0) % 256 ^ tx.length := Nat.ModEq.add_left_cancel' (beNat tx) hm
    rwa [Nat.mod_eq_of_lt hs', Nat.mod_eq_of_lt ht'] at hmm
  cases s with
  | none =>
    cases t with
    | none => rfl
    | some n => simp only [Option.getD_none, Option.getD_some] at this; exact absurd this.symm (by have := (ht n rfl).1; omega)
  | some m =>
    cases t with
    | none => simp only [Option.getD_none, Option.getD_some] at this; exact absurd this (by have := (hs m rfl).1; omega)
    | some n => simpa using this

end Verif.Deploy
