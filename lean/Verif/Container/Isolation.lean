import Verif.Container.ArrayProps

/-! # C09: containers of one SCORE do not interfere -/

namespace Verif.Container
open Verif.Keys Verif.IntCodec Spec

/-- a container created on the SCORE's database -/
inductive AnyContainer
  | var (name : Bytes) (ty : VType)
  | dict (name : Bytes) (ty : VType) (depth : Int)
  | arr (name : Bytes) (ty : VType)

/-- an operation on some container (an operation of the wrong kind is a `TypeError`) -/
inductive AnyOp
  | var (op : VarOp)
  | dict (op : DictOp)
  | arr (op : ArrOp)
  | arrContains (x : PyVal)
  | arrIter

/-- container kind and name: what the SCORE author writes -/
def AnyContainer.id : AnyContainer → Kind × Bytes
  | .var n _ => (.var, n)
  | .dict n _ _ => (.dict, n)
  | .arr n _ => (.array, n)

/-- results of an operation: a value, a truth value or a list -/
inductive AnyOut
  | val (r : Except Err PyVal)
  | truth (r : Except Err Bool)
  | items (r : Except Err (List PyVal))
  | wrongKind

/-- running an operation on a container of the SCORE -/
def anyExec (H : Bytes → Bytes) (c : AnyContainer) (s : Store) (op : AnyOp) : Store × AnyOut :=
  match c, op with
  | .var n ty, .var op => let r := varExec H (VarDB.mk' n Db.root ty) s op; (r.1, .val r.2)
  | .dict n ty d, .dict op => let r := dictExec H (DictDB.mk' n Db.root ty d) s op; (r.1, .val r.2)
  | .arr n ty, .arr op => let r := arrExec H (ArrayDB.mk' n Db.root ty) s op; (r.1, .val r.2)
  | .arr n ty, .arrContains x => (s, .truth ((ArrayDB.mk' n Db.root ty).contains H s x))
  | .arr n ty, .arrIter => (s, .items ((ArrayDB.mk' n Db.root ty).toList H s))
  | _, _ => (s, .wrongKind)

/-- slots that start with the base of `d` -/
def Area (H : Bytes → Bytes) (d : Db) (y : Bytes) : Prop := ∃ rest, y = H (base d ++ rest)

theorem area_slot (H : Bytes → Bytes) (d : Db) (k : Option Bytes) : Area H d (H (d.slot k)) :=
  ⟨flat k.toList, by rw [slot_base]⟩

theorem put_frame (H : Bytes → Bytes) (d : Db) (s : Store) (k : Option Bytes) (b y : Bytes)
    (h : ¬ Area H d y) : dbPut H d s k b y = s y := by
  unfold dbPut; apply put_other; intro hc; exact h (hc ▸ area_slot H d k)

theorem del_frame (H : Bytes → Bytes) (d : Db) (s : Store) (k : Option Bytes) (y : Bytes)
    (h : ¬ Area H d y) : dbDel H d s k y = s y := by
  unfold dbDel; apply del_other; intro hc; exact h (hc ▸ area_slot H d k)

theorem get_frame (H : Bytes → Bytes) (d : Db) (s s' : Store) (k : Option Bytes)
    (h : ∀ y, Area H d y → s' y = s y) : dbGet H d s' k = dbGet H d s k := h _ (area_slot H d k)

theorem walk_area : ∀ (p : List PyVal) (d d' : DictDB) (k : PyVal) (t0 : Bytes), d.db.tag = some t0 →
    d.walk p = .ok (d', k) → (∃ rest, base d'.db = base d.db ++ rest) ∧ d'.db.tag = some t0
  | [], d, d', k, t0, _, h => by simp [DictDB.walk] at h
  | [k0], d, d', k, t0, ht, h => by
    simp only [DictDB.walk, Except.ok.injEq, Prod.mk.injEq] at h
    obtain ⟨rfl, rfl⟩ := h
    exact ⟨⟨[], by simp⟩, ht⟩
  | k0 :: k1 :: ks, d, d', k, t0, ht, h => by
    rw [DictDB.walk] at h
    cases hs : d.sub k0 with
    | error e => rw [hs] at h; simp at h
    | ok d1 =>
      rw [hs] at h
      simp only [ok_bind] at h
      unfold DictDB.sub at hs
      split at hs
      · simp at hs
      · cases he : encodeKey k0 with
        | error e => rw [he] at hs; simp at hs
        | ok e =>
          rw [he] at hs
          simp only [ok_bind, pure, Except.pure, Except.ok.injEq] at hs
          subst hs
          have htag := subDb_tagged d.db e [0x01] t0 ht
          obtain ⟨⟨rest, hr⟩, h2⟩ := walk_area (k1 :: ks) _ d' k t0 htag.1 h
          refine ⟨⟨rlpEncode e ++ rest, ?_⟩, h2⟩
          rw [hr]
          simp [base, DictDB.mk', htag.1, htag.2, ht]

theorem area_mono (H : Bytes → Bytes) {d d' : Db} (h : ∃ rest, base d' = base d ++ rest) {y : Bytes}
    (hy : Area H d' y) : Area H d y := by
  obtain ⟨r, h⟩ := h
  obtain ⟨r', rfl⟩ := hy
  exact ⟨r ++ r', by rw [h, List.append_assoc]⟩

/-- the database of a container -/
def AnyContainer.db : AnyContainer → Db
  | .var n _ => Db.root.subDb n (some [0x02])
  | .dict n _ _ => Db.root.subDb n (some [0x01])
  | .arr n _ => Db.root.subDb n (some [0x00])

theorem container_base (c : AnyContainer) : base c.db = c.id.1.tag ++ rlpEncode c.id.2 := by
  have h : ∀ n t, base (Db.root.subDb n (some t)) = t ++ rlpEncode n := by
    intro n t
    have h1 := subDb_first Db.root n t rfl
    simp only [base, h1.1, h1.2, Option.getD_some]
    simp [Db.pfxBytes, Db.root]
  cases c <;> simp only [AnyContainer.db, h] <;> rfl

theorem area_disjoint (H : Bytes → Bytes) (hH : Function.Injective H) (c c' : AnyContainer)
    (hs : Sane c.id.2) (hs' : Sane c'.id.2) (hne : c.id ≠ c'.id) (y : Bytes) (h : Area H c.db y) :
    ¬ Area H c'.db y := by
  rintro ⟨r', h'⟩
  obtain ⟨r, rfl⟩ := h
  have h := hH h'
  rw [container_base, container_base] at h
  have hk : c.id.1 = c'.id.1 := by
    cases h1 : c.id.1 <;> cases h2 : c'.id.1 <;> rw [h1, h2] at h <;> simp [Kind.tag] at h ⊢
  rw [hk, List.append_assoc, List.append_assoc] at h
  have := rlpEncode_prefix_free hs hs' (List.append_cancel_left h)
  exact hne (Prod.ext hk this.1)

/-- an operation writes only slots of its container -/
theorem writes_own (H : Bytes → Bytes) (c : AnyContainer) (s : Store) (op : AnyOp) (y : Bytes)
    (hy : ¬ Area H c.db y) : (anyExec H c s op).1 y = s y := by
  cases c with
  | var n ty =>
    cases op with
    | var op =>
      cases op with
      | set x =>
        simp only [anyExec, varExec, VarDB.set]
        cases encodeValue x with
        | error e => rfl
        | ok b => exact put_frame H _ s none b y hy
      | remove => exact del_frame H _ s none y hy
      | get => rfl
    | _ => rfl
  | dict n ty dep =>
    have ht := (subDb_first Db.root n [0x01] rfl).1
    have hw : ∀ p d' k, (DictDB.mk' n Db.root ty dep).walk p = .ok (d', k) → ¬ Area H d'.db y := by
      intro p d' k h hc
      exact hy (area_mono H (walk_area p _ d' k _ ht h).1 hc)
    cases op with
    | dict op =>
      cases op with
      | set p x =>
        simp only [anyExec, dictExec]
        cases h : (DictDB.mk' n Db.root ty dep).walk p with
        | error e => rfl
        | ok r =>
          obtain ⟨d', k⟩ := r
          have := hw p d' k h
          simp only [ok_bind, DictDB.setItem]
          split
          · rename_i s' he
            split at he
            · simp at he
            · cases hk : encodeKey k with
              | error e => rw [hk] at he; simp at he
              | ok e =>
                cases hv : encodeValue x with
                | error e' => rw [hk, hv] at he; simp at he
                | ok b =>
                  rw [hk, hv] at he
                  simp only [ok_bind, pure, Except.pure, Except.ok.injEq] at he
                  subst he
                  exact put_frame H _ s _ b y this
          · rfl
      | del p =>
        simp only [anyExec, dictExec]
        cases h : (DictDB.mk' n Db.root ty dep).walk p with
        | error e => rfl
        | ok r =>
          obtain ⟨d', k⟩ := r
          have := hw p d' k h
          simp only [ok_bind, DictDB.delItem]
          split
          · rename_i s' he
            split at he
            · simp at he
            · cases hk : encodeKey k with
              | error e => rw [hk] at he; simp at he
              | ok e =>
                rw [hk] at he
                simp only [ok_bind, pure, Except.pure, Except.ok.injEq] at he
                subst he
                exact del_frame H _ s _ y this
          · rfl
      | get p => rfl
      | contains p => rfl
    | _ => rfl
  | arr n ty =>
    have hsz : ∀ s n' s', (ArrayDB.mk' n Db.root ty).setSize H s n' = .ok s' → s' y = s y := by
      intro s n' s' h
      simp only [ArrayDB.setSize, encodeValue, intBytes_eq, ok_bind, pure, Except.pure,
        Except.ok.injEq] at h
      subst h
      exact put_frame H _ s _ _ y hy
    have hpa : ∀ s i x s', (ArrayDB.mk' n Db.root ty).putAt H s i x = .ok s' → s' y = s y := by
      intro s i x s' h
      simp only [ArrayDB.putAt, encodeKey, intBytes_eq, ok_bind] at h
      cases hv : encodeValue x with
      | error e => rw [hv] at h; simp at h
      | ok b =>
        rw [hv] at h
        simp only [ok_bind, pure, Except.pure, Except.ok.injEq] at h
        subst h
        exact put_frame H _ s _ _ y hy
    cases op with
    | arr op =>
      cases op with
      | put x =>
        simp only [anyExec, arrExec, ArrayDB.put]
        split
        · rename_i s' he
          cases hz : (ArrayDB.mk' n Db.root ty).size H s with
          | error e => rw [hz] at he; simp at he
          | ok m =>
            rw [hz] at he; simp only [ok_bind] at he
            cases hp : (ArrayDB.mk' n Db.root ty).putAt H s m x with
            | error e => rw [hp] at he; simp at he
            | ok s1 =>
              rw [hp] at he; simp only [ok_bind] at he
              exact (hsz _ _ _ he).trans (hpa _ _ _ _ hp)
        · rfl
      | pop =>
        simp only [anyExec, arrExec, ArrayDB.pop]
        split
        · rename_i v s' he
          cases hz : (ArrayDB.mk' n Db.root ty).size H s with
          | error e => rw [hz] at he; simp at he
          | ok m =>
            rw [hz] at he; simp only [ok_bind] at he
            split at he
            · simp only [pure, Except.pure, Except.ok.injEq, Prod.mk.injEq] at he
              rw [he.2]
            · cases hg : (ArrayDB.mk' n Db.root ty).getItem H s (m - 1) with
              | error e => rw [hg] at he; simp at he
              | ok v' =>
                rw [hg] at he
                simp only [ok_bind, encodeKey, intBytes_eq] at he
                cases h1 : (ArrayDB.mk' n Db.root ty).setSize H
                    (dbDel H (ArrayDB.mk' n Db.root ty).db s (some (ib (m - 1)))) (m - 1) with
                | error e => rw [h1] at he; simp at he
                | ok s1 =>
                  rw [h1] at he
                  simp only [ok_bind, pure, Except.pure, Except.ok.injEq, Prod.mk.injEq] at he
                  rw [← he.2]
                  exact (hsz _ _ _ h1).trans (del_frame H _ s _ y hy)
        · rfl
      | get i => rfl
      | set i x =>
        simp only [anyExec, arrExec, ArrayDB.setItem]
        split
        · rename_i s' he
          cases hz : (ArrayDB.mk' n Db.root ty).size H s with
          | error e => rw [hz] at he; simp at he
          | ok m =>
            rw [hz] at he; simp only [ok_bind] at he
            split at he
            · split at he
              · exact hpa _ _ _ _ he
              · simp at he
            · split at he
              · exact hpa _ _ _ _ he
              · simp at he
        · rfl
      | len => rfl
    | _ => rfl

/-- the answer of an operation depends only on the slots of its container -/
theorem reads_own (H : Bytes → Bytes) (c : AnyContainer) (s s' : Store) (op : AnyOp)
    (h : ∀ y, Area H c.db y → s' y = s y) : (anyExec H c s' op).2 = (anyExec H c s op).2 := by
  cases c with
  | var n ty =>
    cases op with
    | var op =>
      cases op with
      | set x =>
        simp only [anyExec, varExec, VarDB.set]
        cases encodeValue x <;> rfl
      | remove => rfl
      | get =>
        have e : dbGet H (VarDB.mk' n Db.root ty).db s' none = dbGet H (VarDB.mk' n Db.root ty).db s none :=
          get_frame H _ s s' none h
        simp only [anyExec, varExec, VarDB.get, e]
    | _ => rfl
  | dict n ty dep =>
    have ht := (subDb_first Db.root n [0x01] rfl).1
    have hw : ∀ p d' k, (DictDB.mk' n Db.root ty dep).walk p = .ok (d', k) →
        ∀ o, dbGet H d'.db s' o = dbGet H d'.db s o := by
      intro p d' k hwk o
      apply get_frame
      intro y hy
      exact h y (area_mono H (walk_area p _ d' k _ ht hwk).1 hy)
    cases op with
    | dict op =>
      cases op with
      | set p x =>
        simp only [anyExec, dictExec]
        cases h1 : (DictDB.mk' n Db.root ty dep).walk p with
        | error e => rfl
        | ok r =>
          obtain ⟨d', k⟩ := r
          simp only [ok_bind, DictDB.setItem]
          by_cases hd : d'.depth ≠ 1
          · simp only [if_pos hd]
          · simp only [if_neg hd]
            cases encodeKey k with
            | error e => rfl
            | ok e => cases encodeValue x <;> rfl
      | del p =>
        simp only [anyExec, dictExec]
        cases h1 : (DictDB.mk' n Db.root ty dep).walk p with
        | error e => rfl
        | ok r =>
          obtain ⟨d', k⟩ := r
          simp only [ok_bind, DictDB.delItem]
          by_cases hd : d'.depth ≠ 1
          · simp only [if_pos hd]
          · simp only [if_neg hd]
            cases encodeKey k <;> rfl
      | get p =>
        simp only [anyExec, dictExec]
        cases h1 : (DictDB.mk' n Db.root ty dep).walk p with
        | error e => rfl
        | ok r =>
          obtain ⟨d', k⟩ := r
          simp only [ok_bind, DictDB.getItem, hw p d' k h1]
      | contains p =>
        simp only [anyExec, dictExec]
        cases h1 : (DictDB.mk' n Db.root ty dep).walk p with
        | error e => rfl
        | ok r =>
          obtain ⟨d', k⟩ := r
          simp only [ok_bind, DictDB.contains, hw p d' k h1]
    | _ => rfl
  | arr n ty =>
    have hg : ∀ o, dbGet H (ArrayDB.mk' n Db.root ty).db s' o = dbGet H (ArrayDB.mk' n Db.root ty).db s o :=
      fun o => get_frame H _ s s' o h
    have hsz : (ArrayDB.mk' n Db.root ty).size H s' = (ArrayDB.mk' n Db.root ty).size H s := by
      simp only [ArrayDB.size, hg]
    have hga : ∀ m i, (ArrayDB.mk' n Db.root ty).getAt H s' m i = (ArrayDB.mk' n Db.root ty).getAt H s m i := by
      intro m i; simp only [ArrayDB.getAt, hg]
    have hgi : ∀ i, (ArrayDB.mk' n Db.root ty).getItem H s' i = (ArrayDB.mk' n Db.root ty).getItem H s i := by
      intro i; simp only [ArrayDB.getItem, hsz, hga]
    have htl : (ArrayDB.mk' n Db.root ty).toList H s' = (ArrayDB.mk' n Db.root ty).toList H s := by
      simp only [ArrayDB.toList, hsz, hga]
    have hgc : ∀ m b, (ArrayDB.mk' n Db.root ty).goContains H s' m b =
        (ArrayDB.mk' n Db.root ty).goContains H s m b := by
      intro m b; simp only [ArrayDB.goContains, hg]
    have pok : ∀ (s : Store) i x, (ArrayDB.mk' n Db.root ty).putAt H s i x = match encodeValue x with
        | .ok b => .ok (dbPut H (ArrayDB.mk' n Db.root ty).db s (some (ib i)) b)
        | .error e => .error e := by
      intro s i x
      simp only [ArrayDB.putAt, encodeKey, intBytes_eq, ok_bind]
      cases encodeValue x <;> rfl
    have sok : ∀ (s : Store) i, (ArrayDB.mk' n Db.root ty).setSize H s i =
        .ok (dbPut H (ArrayDB.mk' n Db.root ty).db s none (ib i)) := by
      intro s i; simp [ArrayDB.setSize, encodeValue, intBytes_eq, pure, Except.pure]
    cases op with
    | arr op =>
      cases op with
      | put x =>
        simp only [anyExec, arrExec, ArrayDB.put, hsz]
        cases (ArrayDB.mk' n Db.root ty).size H s with
        | error e => rfl
        | ok m =>
          simp only [ok_bind, pok, sok]
          cases encodeValue x <;> rfl
      | pop =>
        simp only [anyExec, arrExec, ArrayDB.pop, hsz, hgi]
        cases (ArrayDB.mk' n Db.root ty).size H s with
        | error e => rfl
        | ok m =>
          simp only [ok_bind]
          by_cases hm : m = 0
          · simp only [if_pos hm]; rfl
          · simp only [if_neg hm]
            cases (ArrayDB.mk' n Db.root ty).getItem H s (m - 1) with
            | error e => rfl
            | ok v => simp only [ok_bind, encodeKey, intBytes_eq, sok, pure, Except.pure]
      | get i => simp only [anyExec, arrExec, hgi]
      | set i x =>
        simp only [anyExec, arrExec, ArrayDB.setItem, hsz]
        cases (ArrayDB.mk' n Db.root ty).size H s with
        | error e => rfl
        | ok m =>
          simp only [ok_bind, pok]
          generalize (if i < 0 then i + m else i) = j
          split <;> rename_i h1 <;> split <;> rename_i h2 <;> try rfl
          all_goals (split at h1 <;> split at h2 <;> cases hv : encodeValue x <;> simp_all)
      | len => simp only [anyExec, arrExec, hsz]
    | arrContains x =>
      simp only [anyExec, ArrayDB.contains, hsz, hgc, htl]
    | arrIter => simp only [anyExec, htl]
    | _ => rfl

/-- **C09.** Whatever operations are run on other containers of the SCORE (other kind or other name),
the next operation on this container gives the same answer as if they had not been run. -/
theorem C09_isolation (H : Bytes → Bytes) (hH : Function.Injective H) (c : AnyContainer)
    (hs : Sane c.id.2) (others : List (AnyContainer × AnyOp))
    (ho : ∀ p ∈ others, Sane p.1.id.2 ∧ p.1.id ≠ c.id) (s : Store) (op : AnyOp) :
    (anyExec H c (others.foldl (fun s p => (anyExec H p.1 s p.2).1) s) op).2 = (anyExec H c s op).2 := by
  apply reads_own
  intro y hy
  induction others generalizing s with
  | nil => rfl
  | cons p ps ih =>
    have h1 := ho p (by simp)
    rw [List.foldl_cons, ih (fun q hq => ho q (by simp [hq]))]
    exact writes_own H p.1 s p.2 y (area_disjoint H hH c p.1 hs h1.1 (Ne.symm h1.2) y hy)

example : (AnyContainer.var [0x61] .int).id ≠ (AnyContainer.dict [0x61] .int 1).id ∧
    Sane (AnyContainer.var [0x61] .int).id.2 := by
  constructor
  · simp [AnyContainer.id]
  · simp [Sane, AnyContainer.id]

/-- **C09** (limit). The claim does not extend to containers built on sub-databases: element `k` of
`ArrayDB(n, db)` and the length of `ArrayDB(n, db.get_sub_db(k))` share one slot. -/
theorem C09_subdb_array_alias (n k : Bytes) (ty ty' : VType) :
    (ArrayDB.mk' n Db.root ty).db.slot (some k) =
    (ArrayDB.mk' n (Db.root.subDb k none) ty').db.slot none := by
  have h0 := subDb_untagged Db.root k rfl
  have h1 := subDb_first (Db.root.subDb k none) n [0x00] h0.1
  have h2 := subDb_first Db.root n [0x00] rfl
  rw [slot_eq, slot_eq]
  simp only [ArrayDB.mk']
  rw [h1.1, h1.2, h2.1, h2.2, h0.2]
  simp [flat, Db.pfxBytes, Db.root]

/-- **C06/C09** (limit). Keys of different Python types with the same encoding are the same key: 65 and
`'A'` in one DictDB. -/
theorem C09_key_type_alias : encodeKey (.int 65) = encodeKey (.str "A") := by
  rw [encodeKey, intBytes_eq, encodeKey]
  have : ib 65 = [0x41] := by decide
  rw [this]; rfl

end Verif.Container
