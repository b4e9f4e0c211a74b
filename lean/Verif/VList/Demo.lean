import Verif.VList.Main

/-! # The validator list: a concrete environment and history -/

namespace Verif.VList.Demo

/-- A simple self-delimiting code (not the one of the code base; it shows that the assumptions can be met). -/
def encB : Bytes → Bytes
  | [] => [0]
  | b :: bs => 1 :: b :: encB bs

def parseB : Bytes → Option (Bytes × Bytes)
  | 0 :: r => some ([], r)
  | 1 :: b :: r => (parseB r).map fun x => (b :: x.1, x.2)
  | _ => none

theorem parseB_encB (bs r : Bytes) : parseB (encB bs ++ r) = some (bs, r) := by
  induction bs with
  | nil => simp [encB, parseB]
  | cons b bs ih => simp [encB, parseB, ih]

def encL : List Vd → Bytes
  | [] => [3]
  | v :: l => 2 :: (encB v.addr ++ (encB v.pub ++ encL l))

def parseL : Nat → Bytes → Option (List Vd)
  | 0, _ => none
  | n + 1, 2 :: r =>
    match parseB r with
    | none => none
    | some (a, r) =>
      match parseB r with
      | none => none
      | some (p, r) => (parseL n r).map fun l => ⟨a, p⟩ :: l
  | _ + 1, _ => some []

theorem parseL_encL (l : List Vd) : ∀ n, l.length < n → parseL n (encL l) = some l := by
  induction l with
  | nil => intro n hn; obtain ⟨m, rfl⟩ : ∃ m, n = m + 1 := ⟨n - 1, by simp at hn; omega⟩; simp [encL, parseL]
  | cons v l ih =>
    intro n hn
    obtain ⟨m, rfl⟩ : ∃ m, n = m + 1 := ⟨n - 1, by simp at hn; omega⟩
    simp only [encL, parseL, parseB_encB]
    rw [ih m (by simpa using hn)]
    rfl

theorem length_encL (l : List Vd) : l.length < (encL l).length := by
  induction l with
  | nil => simp [encL]
  | cons v l ih => simp only [encL, List.length_cons, List.length_append]; omega

/-- The environment: arrays get two spare cells. -/
def env : Env := ⟨encL, fun b => parseL b.length b, fun b => b ++ [9], fun _ => 2⟩

theorem env_good : env.Good :=
  ⟨fun l => parseL_encL l _ (length_encL l), fun l => by cases l <;> simp [env, encL], fun b => by simp [env]⟩

def v1 : Vd := ⟨[1], []⟩
def v2 : Vd := ⟨[2], [7]⟩
def v3 : Vd := ⟨[3], []⟩
def v4 : Vd := ⟨[4], []⟩

/-- Two states from one snapshot are changed in different ways; one is snapshotted twice and reset. -/
def history : List Op :=
  [.fromSlice [v1, v2], .stateFrom 0, .stateFrom 0, .st 0 (.indexOf [2]), .st 0 (.add v3), .st 0 (.remove v1),
    .st 0 .getSnapshot, .st 1 (.setAt 0 v4), .st 0 (.add v4), .st 0 (.set [v1, v1]), .st 0 (.replace v2 v1),
    .st 1 .getSnapshot, .st 1 (.remove v2), .st 1 (.reset 0), .st 1 (.add v3), .sn 1 .flush]

theorem setting (more : List Op) (h : ∀ op ∈ more, op.Fine) :
    Setting env (fun _ => none) (fun _ => none) (history ++ more) :=
  ⟨env_good, ⟨fun _ _ => rfl, fun _ _ h => by cases h⟩, by
    intro op hop
    rcases List.mem_append.1 hop with hop | hop
    · simp only [history, List.mem_cons, List.not_mem_nil, or_false] at hop
      rcases hop with rfl | rfl | rfl | rfl | rfl | rfl | rfl | rfl | rfl | rfl | rfl | rfl | rfl | rfl | rfl | rfl
      · show Distinct [v1, v2]; decide
      all_goals trivial
    · exact h op hop⟩

/-- The answers of that history. -/
example : (run env (World.start fun _ => none) history).2 =
    [.ref 0, .ref 0, .ref 1, .num 1, .ok, .flag true, .ref 1, .ok, .ok, .fail, .ok, .ref 2, .flag true, .ok, .ok,
      .ok] := by decide

/-- Afterwards the three snapshots and the two states have five different lists. -/
example : (after env (fun _ => none) history).snaps.length = 3 ∧
    [0, 1, 2].map (fun k => [0, 1, 2].map fun i =>
      ask env (after env (fun _ => none) history) (.sn k (.get (i : Int)))) =
      [[.val (some v1), .val (some v2), .val none], [.val (some v2), .val (some v3), .val none],
        [.val (some v4), .val (some v2), .val none]] ∧
    [0, 1].map (fun s => [0, 1, 2].map fun i =>
      ask env (after env (fun _ => none) history) (.st s (.get (i : Int)))) =
      [[.val (some v1), .val (some v3), .val (some v4)], [.val (some v1), .val (some v2), .val (some v3)]] := by
  decide

/-- Reading the flushed snapshot back. -/
example : ∃ h, ask env (after env (fun _ => none) history) (.sn 1 .hash) = .bytes h ∧
    ask env (after env (fun _ => none) history) (.fromHash h) = .ref 3 ∧
    ask env (exec env (after env (fun _ => none) history) (.fromHash h)).1 (.sn 3 (.indexOf [3])) = .num 1 :=
  ⟨_, rfl, by decide, by decide⟩

/-- The theorems on this history. -/
example (more : List Op) (h : ∀ op ∈ more, op.Fine) :
    ask env (after env (fun _ => none) (history ++ more)) (.sn 1 (.get 1)) = .val (some v3) :=
  (snapshot_frozen (setting more h) (by decide)).trans (by decide)

/-- Why `Op.Fine` is needed: `ValidatorSnapshotFromSlice` does not look for duplicates, and with duplicates the index
can lose a validator that is still in the list. -/
example : (run env (World.start fun _ => none) [.fromSlice [v1, v1, v1], .stateFrom 0, .st 0 (.setAt 0 v3),
      .st 0 (.setAt 1 v4), .st 0 (.get 2), .st 0 (.indexOf [1])]).2 =
    [.ref 0, .ref 0, .ok, .ok, .val (some v1), .num (-1)] := by decide

end Verif.VList.Demo
