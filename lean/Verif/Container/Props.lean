import Verif.Container.Lemmas
import Verif.Container.Spec

/-! # C06, C07, C08, C09: VarDB, DictDB and ArrayDB -/

namespace Verif.Container
open Verif.Keys Verif.IntCodec Spec

/-! ## VarDB -/

/-- one VarDB operation as the SCORE sees it: new store and result (an exception leaves the store) -/
def varExec (H : Bytes → Bytes) (v : VarDB) (s : Store) : VarOp → Store × Except Err PyVal
  | .set x => match v.set H s x with
    | .ok s' => (s', .ok .none)
    | .error e => (s, .error e)
  | .remove => (v.remove H s, .ok .none)
  | .get => (s, v.get H s)

/-- all values written have the declared type -/
def Spec.VarOp.Typed (ty : VType) : VarOp → Prop
  | .set x => WellTyped x ty
  | _ => True

/-- **C08.** Whatever sequence of operations is applied, a VarDB answers like a variable holding the
last value written; no operation raises. It needs no assumption about the hash function. -/
theorem C08_vardb_is_variable (H : Bytes → Bytes) (v : VarDB) (ops : List VarOp) :
    ∀ (s : Store) (c : PyVal), v.get H s = .ok c → (∀ op ∈ ops, VarOp.Typed v.ty op) →
      run (varExec H v) s ops = (run (varStep v.ty) c ops).map Except.ok := by
  induction ops with
  | nil => intros; rfl
  | cons op ops ih =>
    intro s c hc ht
    have ht' : ∀ op ∈ ops, VarOp.Typed v.ty op := fun o ho => ht o (by simp [ho])
    have h0 := ht op (by simp)
    simp only [run, List.map_cons]
    cases op with
    | set x =>
      obtain ⟨b, hb⟩ := encodeValue_ok h0
      have e : v.set H s x = .ok (dbPut H v.db s none b) := by simp [VarDB.set, hb, pure, Except.pure]
      simp only [varExec, e, varStep]
      congr 1
      apply ih _ _ _ ht'
      simp only [VarDB.get, dbGet, dbPut, put_same]
      exact decode_rep h0 hb
    | remove =>
      simp only [varExec, varStep]
      congr 1
      apply ih _ _ _ ht'
      simp [VarDB.get, VarDB.remove, dbGet, dbDel, decodeObject]
    | get =>
      simp only [varExec, varStep, hc]
      congr 1
      exact ih _ _ hc ht'

/-- On a fresh store the first read gives the default of the type. -/
theorem C08_vardb_fresh (H : Bytes → Bytes) (v : VarDB) :
    v.get H (fun _ => none) = .ok (defaultValue v.ty) := rfl

example : run (varExec id (VarDB.mk' [0x61] Db.root .int)) (fun _ => none)
    [.get, .set (.int (-300)), .get, .remove, .get] =
    [.ok (.int 0), .ok .none, .ok (.int (-300)), .ok .none, .ok (.int 0)] :=
  C08_vardb_is_variable id (VarDB.mk' [0x61] Db.root .int) _ _ _ rfl (by
    intro op hop
    simp only [List.mem_cons, List.not_mem_nil, or_false] at hop
    rcases hop with rfl | rfl | rfl | rfl | rfl <;> simp [VarOp.Typed, WellTyped, hasType, VarDB.mk'])

/-- **C08** (limit). The empty byte string is not stored: reading it back gives `None`. -/
theorem C08_empty_bytes_lost (H : Bytes → Bytes) (v : VarDB) (h : v.ty = .bytes) (s : Store) :
    ∃ s', v.set H s (.bytes []) = .ok s' ∧ v.get H s' = .ok .none := by
  refine ⟨_, rfl, ?_⟩
  simp [VarDB.get, dbGet, dbPut, h, decodeObject, defaultValue, rep]

/-! ## DictDB -/

/-- one DictDB operation `d[k1]...[kn] = x`, `del`, read, `kn in d[k1]...` -/
def dictExec (H : Bytes → Bytes) (d : DictDB) (s : Store) : DictOp → Store × Except Err PyVal
  | .set p x => match (do let (d', k) ← d.walk p; d'.setItem H s k x) with
    | .ok s' => (s', .ok .none)
    | .error e => (s, .error e)
  | .del p => match (do let (d', k) ← d.walk p; d'.delItem H s k) with
    | .ok s' => (s', .ok .none)
    | .error e => (s, .error e)
  | .get p => (s, do let (d', k) ← d.walk p; d'.getItem H s k)
  | .contains p => (s, do let (d', k) ← d.walk p; let b ← d'.contains H s k; pure (.bool b))

/-- a key of type `t` whose encoding fits in an address space -/
def KeyOk (t : VType) (k : PyVal) : Prop :=
  hasType k t = true ∧ ∃ e, encodeKey k = .ok e ∧ Sane e

/-- one key per level, of the level's key type -/
def PathOk : List VType → List PyVal → Prop
  | [], [] => True
  | t :: ts, k :: ks => KeyOk t k ∧ PathOk ts ks
  | _, _ => False

def Spec.DictOp.path : DictOp → List PyVal
  | .set p _ => p
  | .del p => p
  | .get p => p
  | .contains p => p

def Spec.DictOp.Typed (kts : List VType) (ty : VType) (op : DictOp) : Prop :=
  PathOk kts op.path ∧ ∀ p x, op = .set p x → WellTyped x ty

/-- encodings of a path -/
theorem path_enc : ∀ {kts p}, PathOk kts p → ∃ es, p.mapM encodeKey = .ok es ∧ (∀ e ∈ es, Sane e)
  | [], [], _ => ⟨[], rfl, by simp⟩
  | [], _ :: _, h => by simp [PathOk] at h
  | _ :: _, [], h => by simp [PathOk] at h
  | t :: ts, k :: ks, h => by
    obtain ⟨⟨_, e, he, hs⟩, h2⟩ := h
    obtain ⟨es, he', hs'⟩ := path_enc h2
    refine ⟨e :: es, ?_, ?_⟩
    · simp [List.mapM_cons, he, he', pure, Except.pure]
    · intro x hx
      simp only [List.mem_cons] at hx
      rcases hx with rfl | hx
      · exact hs
      · exact hs' x hx

theorem path_inj : ∀ {kts p q}, PathOk kts p → PathOk kts q →
    p.mapM encodeKey = q.mapM encodeKey → p = q
  | [], [], [], _, _, _ => rfl
  | [], _ :: _, _, h, _, _ => by simp [PathOk] at h
  | [], [], _ :: _, _, h, _ => by simp [PathOk] at h
  | _ :: _, [], _, h, _, _ => by simp [PathOk] at h
  | _ :: _, _ :: _, [], _, h, _ => by simp [PathOk] at h
  | t :: ts, k :: ks, l :: ls, h, h', e => by
    obtain ⟨⟨hk, e1, he1, _⟩, h2⟩ := h
    obtain ⟨⟨hl, e2, he2, _⟩, h2'⟩ := h'
    obtain ⟨es, hes, _⟩ := path_enc h2
    obtain ⟨es', hes', _⟩ := path_enc h2'
    simp [List.mapM_cons, he1, he2, hes, hes', pure, Except.pure] at e
    rw [encodeKey_inj hk hl (by rw [he1, he2, e.1]), path_inj h2 h2' (by rw [hes, hes', e.2])]

/-- walking a path of the right length reaches a dictionary of depth 1 and the slot of the path -/
theorem walk_ok : ∀ (p : List PyVal) (d : DictDB) (es : List Bytes) (t0 : Bytes), p ≠ [] →
    d.depth = p.length → d.db.tag = some t0 → p.mapM encodeKey = .ok es →
    ∃ d' k e, d.walk p = .ok (d', k) ∧ d'.depth = 1 ∧ d'.ty = d.ty ∧ encodeKey k = .ok e ∧
      d'.db.slot (some e) = base d.db ++ flat es
  | [], _, _, _, h, _, _, _ => by simp at h
  | [k], d, es, t0, _, hd, ht, he => by
    simp only [List.mapM_cons, List.mapM_nil] at he
    cases hk : encodeKey k with
    | error e => rw [hk] at he; simp at he
    | ok e =>
      rw [hk] at he
      simp [pure, Except.pure] at he
      subst he
      refine ⟨d, k, e, rfl, by simpa using hd, rfl, hk, ?_⟩
      rw [slot_base]; simp
  | k :: k' :: ks, d, es, t0, _, hd, ht, he => by
    rw [List.mapM_cons] at he
    cases hk : encodeKey k with
    | error e => rw [hk] at he; simp at he
    | ok e =>
      rw [hk] at he
      simp only [ok_bind] at he
      cases hr : (k' :: ks).mapM encodeKey with
      | error e => rw [hr] at he; simp at he
      | ok es' =>
        rw [hr] at he
        simp [pure, Except.pure] at he
        subst he
        have htag := subDb_tagged d.db e [0x01] t0 ht
        have hlen : d.depth = ks.length + 2 := by simp at hd; omega
        obtain ⟨d', kk, ee, h1, h2, h3, h4, h5⟩ := walk_ok (k' :: ks)
          (DictDB.mk' e d.db d.ty (d.depth - 1)) es' t0 (by simp)
          (by simp [DictDB.mk']; omega) htag.1 hr
        refine ⟨d', kk, ee, ?_, h2, h3, h4, ?_⟩
        · rw [DictDB.walk, DictDB.sub, if_neg (by omega), hk]
          exact h1
        · rw [h5]
          simp only [base, DictDB.mk', htag.1, htag.2, ht]
          simp [flat]

/-- relation between the store and the abstract map -/
def DictRel (H : Bytes → Bytes) (d : DictDB) (kts : List VType) (s : Store)
    (m : List PyVal → Option PyVal) : Prop :=
  ∀ p es, PathOk kts p → p.mapM encodeKey = .ok es →
    match m p with
    | none => s (H (base d.db ++ flat es)) = none
    | some x => WellTyped x d.ty ∧ ∃ b, encodeValue x = .ok b ∧ b ≠ [] ∧
        s (H (base d.db ++ flat es)) = some b

theorem stored_cases {x : PyVal} {ty : VType} {b : Bytes} (hw : WellTyped x ty)
    (hb : encodeValue x = .ok b) :
    (stored x = none ∧ b = []) ∨ (stored x = some x ∧ b ≠ []) := by
  unfold stored
  cases x with
  | none => simp [encodeValue] at hb
  | int i =>
    right; simp [encodeValue, intBytes_eq] at hb; subst hb; simp [ib_ne_nil]
  | bool v =>
    right; simp [encodeValue, intBytes_eq] at hb; subst hb; simp [ib_ne_nil]
  | str t =>
    simp [encodeValue] at hb
    by_cases h : t = ""
    · subst h; left; subst hb; exact ⟨by simp, rfl⟩
    · right
      refine ⟨by simp [h], ?_⟩
      intro hc; rw [hc] at hb; exact h (utf8_nil hb)
  | addr a =>
    right; simp [encodeValue] at hb; subst hb; simp [Address.toBytes]
  | bytes v =>
    simp [encodeValue] at hb
    subst hb
    by_cases h : v = []
    · left; simp [h]
    · right; simp [h]

/-- **C06.** A DictDB of depth `n` answers every sequence of writes, deletions, reads and membership
tests like a map from `n`-key paths to values. `H` (SHA3-256) is assumed collision-free. -/
theorem C06_dictdb_is_map (H : Bytes → Bytes) (hH : Function.Injective H) (d : DictDB)
    (kts : List VType) (hk : kts ≠ []) (hd : d.depth = kts.length) (htag : d.db.tag ≠ none)
    (ops : List DictOp) :
    ∀ (s : Store) (m : List PyVal → Option PyVal), DictRel H d kts s m →
      (∀ op ∈ ops, DictOp.Typed kts d.ty op) →
      run (dictExec H d) s ops = (run (dictStep d.ty) m ops).map Except.ok := by
  have lenEq : ∀ {kts p}, PathOk kts p → p.length = kts.length := by
    intro kts
    induction kts with
    | nil => intro p h; cases p <;> simp [PathOk] at h ⊢
    | cons t ts ih =>
      intro p h
      cases p with
      | nil => simp [PathOk] at h
      | cons k ks => simp [ih h.2]
  obtain ⟨t0, ht0⟩ : ∃ t0, d.db.tag = some t0 := by
    cases h : d.db.tag with
    | none => exact absurd h htag
    | some t => exact ⟨t, rfl⟩
  -- writing or deleting one path
  have upd : ∀ (s : Store) m (p : List PyVal) es (v : Option PyVal) (s' : Store), DictRel H d kts s m →
      PathOk kts p → p.mapM encodeKey = .ok es →
      (∀ x, x ≠ H (base d.db ++ flat es) → s' x = s x) →
      (match v with
        | none => s' (H (base d.db ++ flat es)) = none
        | some x => WellTyped x d.ty ∧ ∃ b, encodeValue x = .ok b ∧ b ≠ [] ∧
            s' (H (base d.db ++ flat es)) = some b) →
      DictRel H d kts s' (fun q => if q = p then v else m q) := by
    intro s m p es v s' hr hp he hother hsame q es' hq he'
    by_cases hqp : q = p
    · subst hqp
      rw [he] at he'
      cases he'
      simpa using hsame
    · simp only [if_neg hqp]
      have hne : H (base d.db ++ flat es') ≠ H (base d.db ++ flat es) := by
        intro hc
        have := List.append_cancel_left (hH hc)
        obtain ⟨es1, h1, h1s⟩ := path_enc hp
        obtain ⟨es2, h2, h2s⟩ := path_enc hq
        rw [he] at h1; cases h1
        rw [he'] at h2; cases h2
        have := rlp_list_inj h2s h1s this
        exact hqp (path_inj hq hp (by rw [he, he', this]))
      have := hr q es' hq he'
      rw [hother _ hne]
      exact this
  induction ops with
  | nil => intros; rfl
  | cons op ops ih =>
    intro s m hr ht
    have ht' : ∀ op ∈ ops, DictOp.Typed kts d.ty op := fun o ho => ht o (by simp [ho])
    obtain ⟨hp, hv⟩ := ht op (by simp)
    obtain ⟨es, he, hs⟩ := path_enc hp
    have hpne : op.path ≠ [] := by
      intro hc
      have := lenEq hp
      rw [hc] at this
      simp at this
      exact hk (List.length_eq_zero_iff.mp this.symm)
    obtain ⟨d', k, e, hw, hd1, hty, hek, hslot⟩ := walk_ok op.path d es t0 hpne
      (by rw [hd, lenEq hp]) ht0 he
    simp only [run, List.map_cons]
    cases op with
    | set p x =>
      simp only [DictOp.path] at hw hp he
      have hx := hv p x rfl
      obtain ⟨b, hb⟩ := encodeValue_ok hx
      have e1 : (do let (d', k) ← d.walk p; d'.setItem H s k x) =
          .ok (dbPut H d'.db s (some e) b) := by
        rw [hw]
        simp [DictDB.setItem, hd1, hek, hb, pure, Except.pure]
      simp only [dictExec, e1, dictStep]
      congr 1
      apply ih _ _ _ ht'
      apply upd s m p es (stored x) _ hr hp he
      · intro y hy
        simp only [dbPut, hslot]
        exact put_other s b hy
      · rcases stored_cases hx hb with ⟨h1, h2⟩ | ⟨h1, h2⟩
        · rw [h1]; simp [dbPut, hslot, h2, rep]
        · rw [h1]; exact ⟨hx, b, hb, h2, by simp [dbPut, hslot, rep, h2]⟩
    | del p =>
      simp only [DictOp.path] at hw hp he
      have e1 : (do let (d', k) ← d.walk p; d'.delItem H s k) = .ok (dbDel H d'.db s (some e)) := by
        rw [hw]
        simp [DictDB.delItem, hd1, hek, pure, Except.pure]
      simp only [dictExec, e1, dictStep]
      congr 1
      apply ih _ _ _ ht'
      apply upd s m p es none _ hr hp he
      · intro y hy
        simp only [dbDel, hslot]
        exact del_other s hy
      · simp [dbDel, hslot]
    | get p =>
      simp only [DictOp.path] at hw hp he
      have e1 : (do let (d', k) ← d.walk p; d'.getItem H s k) =
          Except.ok ((m p).getD (defaultValue d.ty)) := by
        rw [hw]
        simp only [ok_bind, DictDB.getItem, hd1, hek, ne_eq, not_true_eq_false, if_false, dbGet, hslot]
        have := hr p es hp he
        cases hm : m p with
        | none => rw [hm] at this; simp only at this; rw [this]; simp [decodeObject, hty]
        | some x =>
          rw [hm] at this
          obtain ⟨h1, b, h2, h3, h4⟩ := this
          rw [h4, hty]
          have hd := decode_rep h1 h2
          simp only [rep, if_neg h3] at hd
          rw [hd]
          have : x ≠ .bytes [] := by
            intro hc; subst hc; simp [encodeValue] at h2; exact h3 h2
          simp [seen, this]
      simp only [dictExec, e1, dictStep]
      congr 1
      exact ih _ _ hr ht'
    | contains p =>
      simp only [DictOp.path] at hw hp he
      have e1 : (do let (d', k) ← d.walk p; let b ← d'.contains H s k; pure (PyVal.bool b)) =
          Except.ok (PyVal.bool (m p).isSome) := by
        rw [hw]
        simp only [ok_bind, DictDB.contains, hek, dbGet, hslot, pure, Except.pure]
        have := hr p es hp he
        cases hm : m p with
        | none => rw [hm] at this; simp only at this; rw [this]
                  rfl
        | some x =>
          rw [hm] at this
          obtain ⟨h1, b, h2, h3, h4⟩ := this
          rw [h4]; rfl
      simp only [dictExec, e1, dictStep]
      congr 1
      exact ih _ _ hr ht'

/-- A fresh DictDB is the empty map, so `C06_dictdb_is_map` applies from the first operation on. -/
theorem C06_dictdb_fresh (H : Bytes → Bytes) (d : DictDB) (kts : List VType) :
    DictRel H d kts (fun _ => none) (fun _ => none) := by
  intro p es _ _; rfl

example : run (dictExec id (DictDB.mk' [0x64] Db.root .str 2)) (fun _ => none)
    [.set [.int 1, .str "a"] (.str "x"), .contains [.int 1, .str "a"], .get [.int 2, .str "a"],
     .get [.int 1, .str "a"], .del [.int 1, .str "a"], .contains [.int 1, .str "a"]] =
    [.ok .none, .ok (.bool true), .ok (.str ""), .ok (.str "x"), .ok .none, .ok (.bool false)] := by
  have hs : ∀ i : Int, 0 ≤ i → i < 2 ^ 64 → KeyOk .int (.int i) := fun i h0 h1 =>
    ⟨rfl, ib i, by simp [encodeKey, intBytes_eq], ib_sane h0 h1⟩
  have hp : ∀ i : Int, 0 ≤ i → i < 2 ^ 64 → PathOk [.int, .str] [.int i, .str "a"] := fun i h0 h1 =>
    ⟨hs i h0 h1, ⟨rfl, _, rfl, by show ([0x61] : Bytes).length < 2 ^ 53; norm_num⟩, trivial⟩
  have := C06_dictdb_is_map id (fun _ _ h => h) (DictDB.mk' [0x64] Db.root .str 2) [.int, .str] (by simp)
    rfl (by simp [DictDB.mk', Db.subDb, Db.root])
    [.set [.int 1, .str "a"] (.str "x"), .contains [.int 1, .str "a"], .get [.int 2, .str "a"],
     .get [.int 1, .str "a"], .del [.int 1, .str "a"], .contains [.int 1, .str "a"]]
    _ _ (C06_dictdb_fresh _ _ _) (by
      intro op hop
      simp only [List.mem_cons, List.not_mem_nil, or_false] at hop
      rcases hop with rfl | rfl | rfl | rfl | rfl | rfl
      all_goals refine ⟨by first | exact hp 1 (by norm_num) (by norm_num) | exact hp 2 (by norm_num) (by norm_num), ?_⟩
      all_goals intro p x hpx
      all_goals first
        | (cases hpx; exact ⟨rfl, by simp⟩)
        | cases hpx)
  rw [this]
  simp [run, dictStep, stored, defaultValue, DictDB.mk']

/-- **C06** (depth). Writing or deleting at the wrong depth raises `InvalidContainerAccess`. -/
theorem C06_depth_mismatch (H : Bytes → Bytes) (d : DictDB) (h : d.depth ≠ 1) (s : Store) (k x : PyVal) :
    d.setItem H s k x = .error .containerAccess ∧ d.delItem H s k = .error .containerAccess := by
  simp [DictDB.setItem, DictDB.delItem, h]

end Verif.Container
