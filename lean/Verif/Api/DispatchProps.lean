import Verif.Api.Dispatch

/-! # C20: which method a message runs -/
namespace Verif.Api.Dispatch

/-! ### Specification -/

/-- The member is decorated with `@external` (readonly or not). -/
def Member.MarkedExternal (m : Member) : Prop := ∃ ro, Deco.external ro ∈ m.decos
/-- The member is decorated with `@external(readonly=True)`. -/
def Member.MarkedReadonly (m : Member) : Prop := Deco.external true ∈ m.decos
/-- The member is decorated with `@payable`. -/
def Member.MarkedPayable (m : Member) : Prop := Deco.payable ∈ m.decos

instance (m : Member) : Decidable m.MarkedPayable := inferInstanceAs (Decidable (_ ∈ _))

/-- The value of a request. -/
def Req.value : Req → ℤ
  | .transfer v => v
  | .userCall _ v => v
  | .contractCall _ v => v
  | .query _ => 0
  | .deploy _ => 0

/-- The request names no method: a plain transfer, or a contract sending coins without naming a method. -/
def Req.Plain : Req → Prop
  | .transfer _ => True
  | .contractCall name _ => name = ""
  | _ => False

/-- A class body without aliases: every function is found under its own name, once; names are not empty, and event
signatures (which contain parentheses) are no names. -/
structure Ordinary (ms : List Member) : Prop where
  nodup : (ms.map Member.key).Nodup
  names : ∀ m ∈ ms, m.fname = m.key
  nonempty : ∀ m ∈ ms, m.key ≠ ""
  sigs : ∀ m ∈ ms, m.signature ≠ "" → ∀ m' ∈ ms, m.signature ≠ m'.key
  events : ∀ m ∈ ms, Deco.eventlog ∈ m.decos → m.signature ≠ ""

/-! ### Flags -/

theorem applyAll_flags (fname : String) : ∀ (l : List Deco) (f g : Flags), applyAll fname f l = some g →
    (g.external = true ↔ f.external = true ∨ ∃ ro, Deco.external ro ∈ l) ∧
    (g.readonly = true ↔ f.readonly = true ∨ Deco.external true ∈ l) ∧
    (g.payable = true ↔ f.payable = true ∨ Deco.payable ∈ l) ∧
    (g.fallback = true ↔ f.fallback = true ∨ (Deco.payable ∈ l ∧ fname = "fallback")) ∧
    (g.isolated = true ↔ f.isolated = true ∨ Deco.isolated ∈ l) ∧
    (g.eventlog = true ↔ f.eventlog = true ∨ Deco.eventlog ∈ l) ∧
    (g.interface = true ↔ f.interface = true ∨ Deco.interface ∈ l)
  | [], f, g, h => by
    simp only [applyAll, Option.some.injEq] at h
    subst h
    simp
  | d :: l, f, g, h => by
    rw [applyAll] at h
    obtain ⟨f', h1, h2⟩ := Option.bind_eq_some_iff.mp h
    obtain ⟨a1, a2, a3, a4, a5, a6, a7⟩ := applyAll_flags fname l f' g h2
    rw [a1, a2, a3, a4, a5, a6, a7]
    cases d with
    | external ro =>
      simp only [apply1] at h1
      by_cases hf : fname = "fallback"
      · rw [if_pos hf] at h1; cases h1
      · rw [if_neg hf] at h1
        by_cases he : f.external = true
        · rw [if_pos he] at h1; cases h1
        · rw [if_neg he] at h1
          cases h1
          have he' : f.external = false := by simpa using he
          cases ro <;> simp [he', or_assoc]
    | payable =>
      simp only [apply1] at h1
      by_cases he : f.payable = true
      · rw [if_pos he] at h1; cases h1
      · rw [if_neg he] at h1
        cases h1
        by_cases hf : fname = "fallback" <;> simp [hf]
    | isolated =>
      simp only [apply1] at h1
      by_cases he : f.isolated = true
      · rw [if_pos he] at h1; cases h1
      · rw [if_neg he] at h1; cases h1; simp
    | eventlog =>
      simp only [apply1] at h1
      by_cases he : f.eventlog = true
      · rw [if_pos he] at h1; cases h1
      · rw [if_neg he] at h1; cases h1; simp
    | interface =>
      simp only [apply1] at h1
      by_cases he : f.interface = true
      · rw [if_pos he] at h1; cases h1
      · rw [if_neg he] at h1; cases h1; simp

theorem flags_spec {m : Member} {g : Flags} (h : m.flags = some g) :
    (g.external = true ↔ m.MarkedExternal) ∧ (g.readonly = true ↔ m.MarkedReadonly) ∧
    (g.payable = true ↔ m.MarkedPayable) ∧ (g.fallback = true ↔ m.MarkedPayable ∧ m.fname = "fallback") ∧
    (g.isolated = true ↔ Deco.isolated ∈ m.decos) ∧ (g.eventlog = true ↔ Deco.eventlog ∈ m.decos) := by
  obtain ⟨a1, a2, a3, a4, a5, a6, _⟩ := applyAll_flags m.fname m.decos {} g h
  simp only [Bool.false_eq_true, false_or] at a1 a2 a3 a4 a5 a6
  exact ⟨a1, a2, a3, a4, a5, a6⟩

/-! ### Elements -/

theorem elements_mem : ∀ {ms : List Member} {es : List Element}, elements ms = some es → ∀ e,
    e ∈ es ↔ ∃ m ∈ ms, elementOf m = some (some e)
  | [], es, h, e => by simp only [elements, Option.some.injEq] at h; subst h; simp
  | m :: l, es, h, e => by
    rw [elements] at h
    rcases h1 : elementOf m with _ | o
    · simp [h1] at h
    rcases h2 : elements l with _ | es'
    · cases o <;> simp [h1, h2] at h
    have ih := elements_mem h2 e
    cases o with
    | none =>
      simp only [h1, h2, Option.some.injEq] at h
      subst h
      simp [ih, h1]
    | some e' =>
      simp only [h1, h2, Option.some.injEq] at h
      subst h
      simp only [List.mem_cons, ih]
      constructor
      · rintro (rfl | ⟨m', hm', h⟩)
        · exact ⟨m, .inl rfl, h1⟩
        · exact ⟨m', .inr hm', h⟩
      · rintro ⟨m', rfl | hm', h⟩
        · rw [h1] at h; cases h; exact .inl rfl
        · exact .inr ⟨m', hm', h⟩

theorem elements_defined : ∀ {ms : List Member} {es : List Element}, elements ms = some es → ∀ m ∈ ms,
    elementOf m ≠ none
  | m :: l, es, h, x, hx => by
    rw [elements] at h
    rcases h1 : elementOf m with _ | o
    · simp [h1] at h
    rcases h2 : elements l with _ | es'
    · cases o <;> simp [h1, h2] at h
    rcases List.mem_cons.mp hx with rfl | hx
    · simp [h1]
    · exact elements_defined h2 x hx

/-- Facts about an element. -/
theorem elementOf_spec {m : Member} {e : Element} (h : elementOf m = some (some e)) :
    e.key = m.key ∧ e.fname = m.fname ∧ m.flags = some e.flags ∧ m.key.startsWith "__" = false ∧
    ((m.key = "on_install" ∨ m.key = "on_update") ∧ e.flags.any = false ∧ e.event = false ∨
     ¬ (m.key = "on_install" ∨ m.key = "on_update") ∧ verifyFlag e.flags = true ∧
       e.event = e.flags.eventlog ∧ e.flags.collected = true ∧ (e.event = true → e.signature = m.signature)) := by
  rw [elementOf] at h
  rcases hf : m.flags with _ | f
  · simp [hf] at h
  simp only [hf] at h
  by_cases h1 : m.key.startsWith "__" = true
  · rw [if_pos h1] at h; simp at h
  rw [if_neg h1] at h
  have h1' : m.key.startsWith "__" = false := by simpa using h1
  by_cases h2 : m.key = "on_install" ∨ m.key = "on_update"
  · rw [if_pos h2] at h
    by_cases h3 : m.abstract = true
    · rw [if_pos h3] at h; simp at h
    rw [if_neg h3] at h
    by_cases h4 : f.any = true
    · rw [if_pos h4] at h; simp at h
    rw [if_neg h4] at h
    simp only [Option.some.injEq] at h
    subst h
    exact ⟨rfl, rfl, rfl, h1', .inl ⟨h2, by simpa using h4, rfl⟩⟩
  · rw [if_neg h2] at h
    by_cases h3 : f.collected = true
    · rw [if_pos h3] at h
      by_cases h4 : verifyFlag f = true
      · rw [if_pos h4] at h
        by_cases h5 : f.eventlog = true
        · rw [if_pos h5] at h
          simp only [Option.some.injEq] at h
          subst h
          exact ⟨rfl, rfl, rfl, h1', .inr ⟨h2, h4, h5.symm, h3, fun _ => rfl⟩⟩
        · rw [if_neg h5] at h
          by_cases h6 : (f.isFallback && !m.fallbackSig) = true
          · rw [if_pos h6] at h; cases h
          rw [if_neg h6] at h
          simp only [Option.some.injEq] at h
          subst h
          exact ⟨rfl, rfl, rfl, h1', .inr ⟨h2, h4, by simpa using h5, h3, fun h => by cases h⟩⟩
      · rw [if_neg h4] at h; cases h
    · rw [if_neg h3] at h; simp at h

theorem verify_cases {f : Flags} (h : verifyFlag f = true) :
    f = { external := true } ∨ f = { external := true, payable := true } ∨
    f = { external := true, readonly := true } ∨ f = { fallback := true, payable := true } ∨
    f = { eventlog := true } ∨ f = { interface := true } ∨ f = { payable := true } := by
  simpa [verifyFlag, validCombinations, or_assoc] using h

theorem not_any {f : Flags} (h : f.any = false) : f = {} := by
  cases f
  simp [Flags.any, Flags.collected] at h
  simp [h]

/-! ### Python side -/

theorem element_mem {ms : List Member} {c : Class} (hl : load ms = some c) {k : String} {e : Element}
    (h : c.element k = some e) : ∃ m ∈ ms, m.key = k ∧ elementOf m = some (some e) := by
  obtain ⟨es, he, rfl⟩ := Option.map_eq_some_iff.mp hl
  rw [Class.element] at h
  have h1 := List.mem_of_find?_eq_some h
  have h2 := List.find?_some h
  obtain ⟨m, hm, hme⟩ := (elements_mem he e).mp h1
  refine ⟨m, hm, ?_, hme⟩
  rw [← (elementOf_spec hme).1]
  simpa using h2

theorem isExternal_marked {ms : List Member} {c : Class} (hl : load ms = some c) {k : String}
    (h : c.isExternal k = true) : ∃ m ∈ ms, m.key = k ∧ m.MarkedExternal := by
  rw [Class.isExternal] at h
  rcases he : c.element k with _ | e
  · rw [he] at h; cases h
  rw [he] at h
  simp only [Bool.and_eq_true] at h
  obtain ⟨m, hm, hk, hme⟩ := element_mem hl he
  exact ⟨m, hm, hk, (flags_spec (elementOf_spec hme).2.2.1).1.mp h.2⟩

theorem isPayable_marked {ms : List Member} {c : Class} (hl : load ms = some c) {k : String}
    (h : c.isPayable k = true) : ∃ m ∈ ms, m.key = k ∧ m.MarkedPayable := by
  rw [Class.isPayable] at h
  rcases he : c.element k with _ | e
  · rw [he] at h; cases h
  rw [he] at h
  simp only [Bool.and_eq_true] at h
  obtain ⟨m, hm, hk, hme⟩ := element_mem hl he
  exact ⟨m, hm, hk, (flags_spec (elementOf_spec hme).2.2.1).2.2.1.mp h.2⟩

theorem pyCall_runs {c : Class} {n k : String} {ro ro' : Bool} {v v' : ℤ} :
    pyCall c n ro v = .runs k ro' v' ↔ k = n ∧ ro' = ro ∧ v' = v ∧
      (c.isExternal n = true ∨ n = "fallback" ∨ n = "on_install" ∨ n = "on_update") ∧
      (n = "fallback" ∨ v > 0 → c.isPayable n = true) := by
  rw [pyCall]
  by_cases h1 : n ≠ "fallback" ∧ n ≠ "on_install" ∧ n ≠ "on_update" ∧ c.isExternal n = false
  · rw [if_pos h1]
    simp only [reduceCtorEq, false_iff]
    rintro ⟨_, _, _, h, _⟩
    simp_all
  rw [if_neg h1]
  have h1' : c.isExternal n = true ∨ n = "fallback" ∨ n = "on_install" ∨ n = "on_update" := by
    by_contra hc
    simp only [not_or, Bool.not_eq_true] at hc
    exact h1 ⟨hc.2.1, hc.2.2.1, hc.2.2.2, hc.1⟩
  by_cases h2 : n = "fallback"
  · rw [if_pos h2]
    by_cases h3 : c.isPayable n = false
    · rw [if_pos h3]
      simp only [reduceCtorEq, false_iff]
      rintro ⟨_, _, _, _, h⟩
      rw [h (.inl h2)] at h3; cases h3
    · rw [if_neg h3]
      simp only [Outcome.runs.injEq]
      have : c.isPayable n = true := by simpa using h3
      constructor
      · rintro ⟨rfl, rfl, rfl⟩; exact ⟨rfl, rfl, rfl, h1', fun _ => this⟩
      · rintro ⟨rfl, rfl, rfl, _⟩; exact ⟨rfl, rfl, rfl⟩
  · rw [if_neg h2]
    by_cases h3 : v > 0 ∧ c.isPayable n = false
    · rw [if_pos h3]
      simp [h3.1, h3.2]
    · rw [if_neg h3]
      simp only [Outcome.runs.injEq]
      have : v > 0 → c.isPayable n = true := by
        intro hv; by_contra hc; exact h3 ⟨hv, by simpa using hc⟩
      constructor
      · rintro ⟨rfl, rfl, rfl⟩; exact ⟨rfl, rfl, rfl, h1', fun h => h.elim (fun h => absurd h h2) this⟩
      · rintro ⟨rfl, rfl, rfl, _⟩; exact ⟨rfl, rfl, rfl⟩

/-! ### Go side -/

theorem getMethod_mem {ms : List Method} {n : String} {m : Method} (h : getMethod ms n = some m) :
    m ∈ ms ∧ m.mapKey = some n := by
  rw [getMethod] at h
  refine ⟨List.mem_reverse.mp (List.mem_of_find?_eq_some h), ?_⟩
  simpa using List.find?_some h

theorem methodOf_name {e : Element} {m : Method} (h : methodOf e = some m) :
    m.name = e.fname ∧ (m.type = .fallback → m.name = "fallback" ∧ m.payable = true) := by
  rw [methodOf] at h
  split_ifs at h with h1 h2 h3 <;> cases h
  · simp
  · exact ⟨rfl, fun _ => ⟨h3.1, h3.2⟩⟩
  · simp

theorem api_method {ms : List Member} {c : Class} (hl : load ms = some c) {n : String} {m : Method}
    (h : getMethod c.api n = some m) : ∃ b ∈ ms, ∃ e, elementOf b = some (some e) ∧ methodOf e = some m := by
  obtain ⟨es, he, rfl⟩ := Option.map_eq_some_iff.mp hl
  obtain ⟨e, h1, h2⟩ := List.mem_filterMap.mp (getMethod_mem h).1
  obtain ⟨b, hb, hbe⟩ := (elements_mem he e).mp h1
  exact ⟨b, hb, e, hbe, h2⟩

/-- Name under which the method is called in Python. -/
theorem method_name {ms : List Member} {c : Class} (hl : load ms = some c) {n : String} {m : Method}
    (h : getMethod c.api n = some m) (ht : m.type ≠ .event) :
    (m.type = .fallback ∧ n = "" ∧ m.name = "fallback") ∨ (m.type = .function ∧ n ≠ "" ∧ m.name = n) := by
  obtain ⟨b, hb, e, h1, h2⟩ := api_method hl h
  have h3 := (getMethod_mem h).2
  rw [Method.mapKey] at h3
  rcases hm : m.type with _ | _ | _
  · right
    rw [hm] at h3
    simp only [] at h3
    by_cases hn : m.name = ""
    · rw [if_pos hn] at h3; cases h3
    · rw [if_neg hn] at h3; cases h3; exact ⟨rfl, hn, rfl⟩
  · left
    rw [hm] at h3
    cases h3
    exact ⟨rfl, rfl, ((methodOf_name h2).2 hm).1⟩
  · exact absurd hm ht

/-- What a call handler runs. -/
theorem callHandler_runs {ms : List Member} {c : Class} (hl : load ms = some c) {ext dep ro ro' : Bool}
    {n k : String} {v v' : ℤ} (h : callHandler c ext dep ro n v = .runs k ro' v') :
    ∃ m, getMethod c.api n = some m ∧ m.type ≠ .event ∧ v' = v ∧ k = m.name ∧
      pyCall c k ro' v = .runs k ro' v ∧
      (dep = true ∧ ro' = ro ∨ dep = false ∧ ro' = m.isReadOnly ∧ (ro = true → m.isReadOnly = true) ∧
        (m.type = .fallback ∧ ext = false ∨
         m.type = .function ∧ m.isExternal = true ∧ n ≠ "on_install" ∧ n ≠ "on_update")) := by
  rw [callHandler] at h
  rcases hg : getMethod c.api n with _ | m
  · rw [hg] at h; cases h
  rw [hg] at h
  simp only [] at h
  by_cases h1 : m.type = .event
  · rw [if_pos h1] at h; cases h
  rw [if_neg h1] at h
  refine ⟨m, rfl, h1, ?_⟩
  by_cases h2 : dep = true
  · rw [if_pos h2] at h
    obtain ⟨a, b, d, _⟩ := pyCall_runs.mp h
    subst a b d
    exact ⟨rfl, rfl, h, .inl ⟨h2, rfl⟩⟩
  rw [if_neg h2] at h
  have h2' : dep = false := by simpa using h2
  by_cases h3 : m.type = .fallback ∧ ext = true
  · rw [if_pos h3] at h; cases h
  rw [if_neg h3] at h
  by_cases h4 : m.type ≠ .fallback ∧ (n = "on_install" ∨ n = "on_update")
  · rw [if_pos h4] at h; cases h
  rw [if_neg h4] at h
  by_cases h5 : m.type ≠ .fallback ∧ m.isExternal = false
  · rw [if_pos h5] at h; cases h
  rw [if_neg h5] at h
  have hk : m.type = .fallback ∧ ext = false ∨
      m.type = .function ∧ m.isExternal = true ∧ n ≠ "on_install" ∧ n ≠ "on_update" := by
    rcases hm : m.type with _ | _ | _
    · right
      simp only [hm, ne_eq, reduceCtorEq, not_false_eq_true, true_and, not_or, Bool.not_eq_false] at h4 h5
      exact ⟨rfl, h5, h4.1, h4.2⟩
    · left
      simp only [hm, true_and, Bool.not_eq_true] at h3
      exact ⟨rfl, h3⟩
    · exact absurd hm h1
  by_cases h6 : m.isReadOnly ≠ ro
  · rw [if_pos h6] at h
    by_cases h7 : m.isReadOnly = true
    · rw [if_pos h7] at h
      obtain ⟨a, b, d, _⟩ := pyCall_runs.mp h
      subst a b d
      exact ⟨rfl, rfl, h, .inr ⟨h2', h7.symm, fun _ => h7, hk⟩⟩
    · rw [if_neg h7] at h; cases h
  · rw [if_neg h6] at h
    have h6' : m.isReadOnly = ro := by simpa using h6
    obtain ⟨a, b, d, _⟩ := pyCall_runs.mp h
    subst a b d
    exact ⟨rfl, rfl, h, .inr ⟨h2', h6'.symm, fun h => h6'.trans h, hk⟩⟩

theorem transferAndCall_runs {c : Class} {legacy funds ext ro ro' : Bool} {n k : String} {v v' : ℤ}
    (h : transferAndCall c legacy funds ext ro n v = .runs k ro' v') :
    ro = false ∧ 0 ≤ v ∧ funds = true ∧ callHandler c ext false ro n v = .runs k ro' v' := by
  rw [transferAndCall] at h
  by_cases h1 : ro = true
  · rw [if_pos h1] at h; cases h
  rw [if_neg h1] at h
  by_cases h2 : v < 0
  · rw [if_pos h2] at h; cases h
  rw [if_neg h2] at h
  by_cases h3 : (!funds) = true
  · rw [if_pos h3] at h; cases h
  rw [if_neg h3] at h
  refine ⟨by simpa using h1, by omega, by simpa using h3, ?_⟩
  simp only [] at h
  by_cases h4 : n = ""
  · rw [if_pos h4] at h
    split_ifs at h <;> exact h
  · rw [if_neg h4] at h
    split at h
    · cases h
    · split_ifs at h
      exact h

/-- Every run comes out of a call handler. -/
theorem handle_runs {c : Class} {legacy funds ro ro' : Bool} {r : Req} {k : String} {v : ℤ}
    (h : handle c legacy funds ro r = .runs k ro' v) :
    (∃ v0, r = .transfer v0 ∧ 0 ≤ v0 ∧ funds = true ∧ callHandler c false false false "" v0 = .runs k ro' v) ∨
    (∃ n v0, r = .userCall n v0 ∧ n ≠ "" ∧ (0 < v0 → funds = true) ∧
      callHandler c true false false n v0 = .runs k ro' v) ∨
    (∃ n v0, r = .contractCall n v0 ∧ (0 < v0 → funds = true ∧ ro = false) ∧
      callHandler c false false ro n v0 = .runs k ro' v) ∨
    (∃ n, r = .query n ∧ n ≠ "" ∧ (∃ m, getMethod c.api n = some m ∧ m.isReadOnly = true) ∧
      callHandler c true false true n 0 = .runs k ro' v) ∨
    (∃ u, r = .deploy u ∧ callHandler c false true false (if u then "on_update" else "on_install") 0 =
      .runs k ro' v) := by
  cases r with
  | transfer v0 =>
    left
    obtain ⟨_, h1, h2, h3⟩ := transferAndCall_runs h
    exact ⟨v0, rfl, h1, h2, h3⟩
  | userCall n v0 =>
    right; left
    simp only [handle] at h
    by_cases h1 : n = ""
    · rw [if_pos h1] at h; cases h
    rw [if_neg h1] at h
    by_cases h2 : v0 > 0
    · rw [if_pos h2] at h
      obtain ⟨_, _, h3, h4⟩ := transferAndCall_runs h
      exact ⟨n, v0, rfl, h1, fun _ => h3, h4⟩
    · rw [if_neg h2] at h
      exact ⟨n, v0, rfl, h1, fun h' => absurd h' h2, h⟩
  | contractCall n v0 =>
    right; right; left
    simp only [handle] at h
    by_cases h2 : v0 > 0
    · rw [if_pos h2] at h
      obtain ⟨h3, _, h5, h4⟩ := transferAndCall_runs h
      exact ⟨n, v0, rfl, fun _ => ⟨h5, h3⟩, h4⟩
    · rw [if_neg h2] at h
      exact ⟨n, v0, rfl, fun h' => absurd h' h2, h⟩
  | query n =>
    right; right; right; left
    simp only [handle] at h
    by_cases h1 : n = ""
    · rw [if_pos h1] at h; cases h
    rw [if_neg h1] at h
    rcases hg : getMethod c.api n with _ | m
    · rw [hg] at h; cases h
    rw [hg] at h
    simp only [] at h
    by_cases h2 : m.isReadOnly = false
    · rw [if_pos h2] at h; cases h
    rw [if_neg h2] at h
    exact ⟨n, rfl, h1, ⟨m, hg ▸ rfl, by simpa using h2⟩, h⟩
  | deploy u =>
    right; right; right; right
    exact ⟨u, rfl, h⟩

/-! ### Theorems -/

/-- C20: whatever the class, the mode, the revision and the request: a function is only run if it is marked
external and named by the request, or it is the `fallback`, marked payable, and the request names no method, or
it is `on_install`/`on_update` and the request is the acceptance of a deployment. -/
theorem C20_only_external (ms : List Member) (c : Class) (hl : load ms = some c) (legacy funds ro ro' : Bool)
    (r : Req) (k : String) (v : ℤ) (h : handle c legacy funds ro r = .runs k ro' v) :
    ((∃ m ∈ ms, m.key = k ∧ m.MarkedExternal) ∧
      ((∃ v, r = .userCall k v) ∨ (∃ v, r = .contractCall k v) ∨ r = .query k)) ∨
    ((∃ m ∈ ms, m.key = k ∧ m.MarkedPayable) ∧ k = "fallback" ∧ r.Plain) ∨
    (∃ u, r = .deploy u ∧ k = if u then "on_update" else "on_install") := by
  -- a named method that is not for deployment
  have named : ∀ {ext ro : Bool} {n : String} {v0 : ℤ}, callHandler c ext false ro n v0 = .runs k ro' v →
      (n ≠ "" ∧ n = k ∧ ∃ m ∈ ms, m.key = k ∧ m.MarkedExternal) ∨
      (n = "" ∧ ext = false ∧ k = "fallback" ∧ ∃ m ∈ ms, m.key = k ∧ m.MarkedPayable) := by
    intro ext ro n v0 h
    obtain ⟨m, hg, ht, _, hk, hp, hd⟩ := callHandler_runs hl h
    obtain ⟨_, _, _, hx, hy⟩ := pyCall_runs.mp hp
    rcases hd with ⟨hd, _⟩ | ⟨_, _, _, hd⟩
    · cases hd
    rcases method_name hl hg ht with ⟨a, b, d⟩ | ⟨a, b, d⟩
    · right
      rcases hd with ⟨_, hd⟩ | ⟨hd, _⟩
      · refine ⟨b, hd, hk.trans d, ?_⟩
        exact isPayable_marked hl (hy (.inl (hk.trans d)))
      · rw [a] at hd; cases hd
    · left
      rcases hd with ⟨hd, _⟩ | ⟨_, hd, h1, h2⟩
      · rw [a] at hd; cases hd
      · refine ⟨b, (hk.trans d).symm, ?_⟩
        rcases hx with hx | hx | hx | hx
        · exact isExternal_marked hl hx
        · -- a method called `fallback` of the ordinary kind is not external
          obtain ⟨b', hb', e, he, hme⟩ := api_method hl hg
          have hn := (methodOf_name hme).1
          have hf : b'.fname = "fallback" := by
            rw [← (elementOf_spec he).2.1, ← hn, ← hk]; exact hx
          have hfl := (elementOf_spec he).2.2.1
          have hext : e.flags.external = false := by
            by_contra hc
            have hc : e.flags.external = true := by simpa using hc
            obtain ⟨ro, hro⟩ := (flags_spec hfl).1.mp hc
            rw [Member.flags] at hfl
            clear hd
            have : ∀ (l : List Deco) (f g : Flags), Deco.external ro ∈ l → applyAll "fallback" f l ≠ some g := by
              intro l
              induction l with
              | nil => intro f g h; cases h
              | cons d l ih =>
                intro f g hm hh
                rw [applyAll] at hh
                obtain ⟨f', h1, h2⟩ := Option.bind_eq_some_iff.mp hh
                rcases List.mem_cons.mp hm with rfl | hm
                · simp [apply1] at h1
                · exact ih f' g hm h2
            rw [hf] at hfl
            exact this _ _ _ hro hfl
          have hro : e.flags.readonly = false := by
            rcases (elementOf_spec he).2.2.2.2 with ⟨_, hz, _⟩ | ⟨_, hz, _⟩
            · rw [not_any hz]
            · rcases verify_cases hz with hz | hz | hz | hz | hz | hz | hz <;> rw [hz] at hext ⊢ <;> cases hext
          rw [methodOf] at hme
          split_ifs at hme <;> cases hme <;> simp [Method.isExternal, hext, hro] at hd
        · exact absurd ((hk.trans d).symm.trans hx) h1
        · exact absurd ((hk.trans d).symm.trans hx) h2
  rcases handle_runs h with ⟨v0, rfl, _, _, h⟩ | ⟨n, v0, rfl, hn, _, h⟩ | ⟨n, v0, rfl, _, h⟩ |
      ⟨n, rfl, hn, _, h⟩ | ⟨u, rfl, h⟩
  · rcases named h with ⟨a, _⟩ | ⟨_, _, b, d⟩
    · exact absurd rfl a
    · exact .inr (.inl ⟨d, b, trivial⟩)
  · rcases named h with ⟨_, rfl, d⟩ | ⟨a, _⟩
    · exact .inl ⟨d, .inl ⟨v0, rfl⟩⟩
    · exact absurd a hn
  · rcases named h with ⟨_, rfl, d⟩ | ⟨a, _, b, d⟩
    · exact .inl ⟨d, .inr (.inl ⟨v0, rfl⟩)⟩
    · exact .inr (.inl ⟨d, b, a⟩)
  · rcases named h with ⟨_, rfl, d⟩ | ⟨a, _⟩
    · exact .inl ⟨d, .inr (.inr rfl)⟩
    · exact absurd a hn
  · right; right
    obtain ⟨m, hg, ht, _, hk, hp, hd⟩ := callHandler_runs hl h
    refine ⟨u, rfl, ?_⟩
    rcases method_name hl hg ht with ⟨_, b, _⟩ | ⟨a, b, d⟩
    · cases u <;> simp at b
    · rw [hk, d]

/-- C20: coins are only received by a function marked payable. -/
theorem C20_value (ms : List Member) (c : Class) (hl : load ms = some c) (legacy funds ro ro' : Bool)
    (r : Req) (k : String) (v : ℤ) (h : handle c legacy funds ro r = .runs k ro' v) (hv : 0 < v) :
    (∃ m ∈ ms, m.key = k ∧ m.MarkedPayable) ∧ funds = true ∧ v = r.value := by
  have key : ∀ {ext dep ro : Bool} {n : String} {v0 : ℤ}, callHandler c ext dep ro n v0 = .runs k ro' v →
      v = v0 ∧ ∃ m ∈ ms, m.key = k ∧ m.MarkedPayable := by
    intro ext dep ro n v0 h
    obtain ⟨m, hg, ht, hv', hk, hp, hd⟩ := callHandler_runs hl h
    obtain ⟨_, _, _, hx, hy⟩ := pyCall_runs.mp hp
    exact ⟨hv', isPayable_marked hl (hy (.inr (hv' ▸ hv)))⟩
  rcases handle_runs h with ⟨v0, rfl, _, hf, h⟩ | ⟨n, v0, rfl, hn, hf, h⟩ | ⟨n, v0, rfl, hf, h⟩ |
      ⟨n, rfl, hn, _, h⟩ | ⟨u, rfl, h⟩
  · obtain ⟨a, b⟩ := key h; exact ⟨b, hf, a⟩
  · obtain ⟨a, b⟩ := key h; exact ⟨b, hf (a ▸ hv), a⟩
  · obtain ⟨a, b⟩ := key h; exact ⟨b, (hf (a ▸ hv)).1, a⟩
  · obtain ⟨a, b⟩ := key h; omega
  · obtain ⟨a, b⟩ := key h; omega

/-- C20: users cannot run `fallback`, `on_install` or `on_update` by naming them. -/
theorem C20_user_call_restricted (ms : List Member) (c : Class) (hl : load ms = some c)
    (legacy funds ro ro' : Bool) (n k : String) (v v' : ℤ)
    (h : handle c legacy funds ro (.userCall n v) = .runs k ro' v') :
    k = n ∧ k ≠ "on_install" ∧ k ≠ "on_update" ∧
    (Ordinary ms → k ≠ "fallback") := by
  rcases handle_runs h with ⟨v0, hr, _⟩ | ⟨n', v0, hr, hn, hf, h⟩ | ⟨n', v0, hr, _⟩ |
      ⟨n', hr, _⟩ | ⟨u, hr, _⟩ <;> cases hr
  obtain ⟨m, hg, ht, hv', hk, hp, hd⟩ := callHandler_runs hl h
  rcases hd with ⟨hd, _⟩ | ⟨_, _, _, hd⟩
  · cases hd
  rcases hd with ⟨_, hd⟩ | ⟨ht', hx, h1, h2⟩
  · cases hd
  rcases method_name hl hg ht with ⟨a, _⟩ | ⟨_, b, d⟩
  · rw [ht'] at a; cases a
  refine ⟨hk.trans d, (hk.trans d) ▸ h1, (hk.trans d) ▸ h2, ?_⟩
  intro ho hfb
  rcases C20_only_external ms c hl legacy funds ro ro' _ k v' ‹_› with ⟨⟨m', hm', hkey, ⟨b', hb'⟩⟩, _⟩ | ⟨_, _, hq⟩ | ⟨u, hu, _⟩
  · obtain ⟨es, he, rfl⟩ := Option.map_eq_some_iff.mp hl
    have hdef := elements_defined he m' hm'
    have hfn : m'.fname = "fallback" := by rw [ho.names m' hm', hkey, hfb]
    apply hdef
    have : m'.flags = none := by
      rw [Member.flags, hfn]
      have : ∀ (l : List Deco) (f : Flags), Deco.external b' ∈ l → applyAll "fallback" f l = none := by
        intro l
        induction l with
        | nil => intro f h; cases h
        | cons d l ih =>
          intro f hm
          rw [applyAll]
          rcases List.mem_cons.mp hm with rfl | hm
          · simp [apply1]
          · cases hh : apply1 "fallback" f d with
            | none => rfl
            | some f' => exact ih f' hm
      exact this _ _ hb'
    rw [elementOf, this]
  · exact hq
  · cases hu

/-! ### Ordinary classes: exactly which requests run what -/

theorem find_unique {ms : List Method} {n : String} {m : Method} (hm : m ∈ ms) (hk : m.mapKey = some n)
    (hu : ∀ m' ∈ ms, m'.mapKey = some n → m' = m) : getMethod ms n = some m := by
  rw [getMethod]
  cases hf : ms.reverse.find? (fun m => m.mapKey == some n) with
  | none =>
    rw [List.find?_eq_none] at hf
    exact absurd (by simp [hk]) (hf m (List.mem_reverse.mpr hm))
  | some m' =>
    rw [hu m' (List.mem_reverse.mp (List.mem_of_find?_eq_some hf)) (by simpa using List.find?_some hf)]

theorem key_unique {ms : List Member} (h : (ms.map Member.key).Nodup) {a b : Member} (ha : a ∈ ms) (hb : b ∈ ms)
    (hk : a.key = b.key) : a = b := List.inj_on_of_nodup_map h ha hb hk

theorem element_unique {ms : List Member} {c : Class} (hl : load ms = some c) (ho : (ms.map Member.key).Nodup)
    {m : Member} {e : Element} (hm : m ∈ ms) (he : elementOf m = some (some e)) : c.element m.key = some e := by
  obtain ⟨es, h, rfl⟩ := Option.map_eq_some_iff.mp hl
  have hmem : e ∈ es := (elements_mem h e).mpr ⟨m, hm, he⟩
  rw [Class.element]
  cases hf : es.find? (fun x => x.key == m.key) with
  | none =>
    rw [List.find?_eq_none] at hf
    exact absurd (by simp [(elementOf_spec he).1]) (hf e hmem)
  | some e' =>
    obtain ⟨m', hm', he'⟩ := (elements_mem h e').mp (List.mem_of_find?_eq_some hf)
    have hk : e'.key = m.key := by simpa using List.find?_some hf
    have := key_unique ho hm' hm (by rw [← (elementOf_spec he').1, hk])
    subst this
    rw [he] at he'
    cases he'; rfl

/-- An externally marked member of a loaded class has an element and an entry of the API. -/
theorem external_entry {ms : List Member} {c : Class} (hl : load ms = some c) (ho : Ordinary ms) {m : Member}
    (hm : m ∈ ms) (hx : m.MarkedExternal) (hs : m.key.startsWith "__" = false)
    (h1 : m.key ≠ "on_install") (h2 : m.key ≠ "on_update") :
    ∃ e, elementOf m = some (some e) ∧ c.element m.key = some e ∧ e.event = false ∧ e.flags.external = true ∧
      getMethod c.api m.key = some ⟨.function, m.key, e.flags.readonly, true, e.flags.payable, ""⟩ := by
  obtain ⟨es, h, hc⟩ := Option.map_eq_some_iff.mp hl
  have hd := elements_defined h m hm
  -- the element exists
  have hex : ∃ e, elementOf m = some (some e) := by
    rw [elementOf] at hd ⊢
    rcases hf : m.flags with _ | f
    · rw [hf] at hd; exact absurd rfl hd
    simp only [hf] at hd ⊢
    have hfe : f.external = true := (flags_spec hf).1.mpr hx
    rw [if_neg (by simp [hs]), if_neg (by simp [h1, h2]), if_pos (by simp [Flags.collected, hfe])] at hd ⊢
    split_ifs at hd ⊢ <;> first | exact ⟨_, rfl⟩ | exact absurd rfl hd
  obtain ⟨e, he⟩ := hex
  obtain ⟨k1, k2, k3, _, k4⟩ := elementOf_spec he
  have hfe : e.flags.external = true := (flags_spec k3).1.mpr hx
  rcases k4 with ⟨hz, _⟩ | ⟨_, hv, hev, _, _⟩
  · exact absurd hz (by simp [h1, h2])
  have hev' : e.event = false := by
    rw [hev]
    rcases verify_cases hv with hz | hz | hz | hz | hz | hz | hz <;> rw [hz] at hfe ⊢ <;> cases hfe
  refine ⟨e, he, element_unique hl ho.nodup hm he, hev', hfe, ?_⟩
  have hfn : e.fname = m.key := by rw [k2, ho.names m hm]
  have hnf : m.key ≠ "fallback" := by
    intro hc
    have hfb : e.flags.fallback = true ∨ e.flags.payable = false := by
      rcases hp : e.flags.payable with _ | _
      · exact .inr rfl
      · exact .inl ((flags_spec k3).2.2.2.1.mpr ⟨(flags_spec k3).2.2.1.mp hp, by rw [ho.names m hm, hc]⟩)
    obtain ⟨ro, hro⟩ := hx
    have : ∀ (l : List Deco) (f : Flags), Deco.external ro ∈ l → applyAll "fallback" f l = none := by
      intro l
      induction l with
      | nil => intro f h; cases h
      | cons d l ih =>
        intro f hm
        rw [applyAll]
        rcases List.mem_cons.mp hm with rfl | hm
        · simp [apply1]
        · cases hh : apply1 "fallback" f d with
          | none => rfl
          | some f' => exact ih f' hm
    rw [Member.flags, ho.names m hm, hc, this _ _ hro] at k3
    cases k3
  have hmo : methodOf e = some ⟨.function, m.key, e.flags.readonly, true, e.flags.payable, ""⟩ := by
    rw [methodOf, if_neg (by simp [hev']), if_neg (by intro hz; rw [hz] at hfe; cases hfe), hfn, hfe,
      if_neg (fun hz => hnf hz.1)]
  subst hc
  refine find_unique (List.mem_filterMap.mpr ⟨e, (elements_mem h e).mpr ⟨m, hm, he⟩, hmo⟩)
    (by simp [Method.mapKey, ho.nonempty m hm]) ?_
  intro m' hm' hk'
  obtain ⟨e', he', hme'⟩ := List.mem_filterMap.mp hm'
  obtain ⟨b, hb, hbe⟩ := (elements_mem h e').mp he'
  obtain ⟨j1, j2, j3, _, j4⟩ := elementOf_spec hbe
  rw [Method.mapKey] at hk'
  rcases ht : m'.type with _ | _ | _
  · rw [ht] at hk'
    simp only [] at hk'
    by_cases hn : m'.name = ""
    · rw [if_pos hn] at hk'; cases hk'
    · rw [if_neg hn] at hk'
      have hn' : m'.name = m.key := by simpa using hk'
      have : b = m := key_unique ho.nodup hb hm (by
        rw [← ho.names b hb, ← j2, ← (methodOf_name hme').1, hn'])
      subst this
      rw [he] at hbe
      cases hbe
      rw [hmo] at hme'
      cases hme'; rfl
  · rw [ht] at hk'
    exact absurd (by simpa using hk'.symm) (ho.nonempty m hm)
  · rw [ht] at hk'
    have hsig : m'.signature = m.key := by simpa using hk'
    have hev : e'.event = true := by
      by_contra hcon
      rw [methodOf, if_neg hcon] at hme'
      split_ifs at hme' <;> cases hme' <;> cases ht
    rcases j4 with ⟨_, _, hz⟩ | ⟨_, _, hz, _, hsg⟩
    · rw [hz] at hev; cases hev
    have hs' : e'.signature = m.key := by
      rw [methodOf, if_pos hev] at hme'
      cases hme'; exact hsig
    have hlog : Deco.eventlog ∈ b.decos := (flags_spec j3).2.2.2.2.2.mp (hz ▸ hev)
    exact absurd ((hsg hev).symm.trans hs') (ho.sigs b hb (ho.events b hb hlog) m hm)

/-- The function `n` may be run by a call naming it. -/
def Callable (ms : List Member) (n : String) (ro ro' : Bool) (v : ℤ) : Prop :=
  n ≠ "on_install" ∧ n ≠ "on_update" ∧ n.startsWith "__" = false ∧
    ∃ m ∈ ms, m.key = n ∧ m.MarkedExternal ∧ (ro' = true ↔ m.MarkedReadonly) ∧
      (ro = true → m.MarkedReadonly) ∧ (0 < v → m.MarkedPayable)

theorem call_exact {ms : List Member} {c : Class} (hl : load ms = some c) (ho : Ordinary ms) (ext ro ro' : Bool)
    (n k : String) (hn : n ≠ "") (v v' : ℤ) :
    callHandler c ext false ro n v = .runs k ro' v' ↔ k = n ∧ v' = v ∧ Callable ms n ro ro' v := by
  constructor
  · intro h
    obtain ⟨m, hg, ht, hv', hk, hp, hd⟩ := callHandler_runs hl h
    rcases method_name hl hg ht with ⟨_, b, _⟩ | ⟨ht', _, hname⟩
    · exact absurd b hn
    rcases hd with ⟨hd, _⟩ | ⟨_, hro, hro2, hd⟩
    · cases hd
    rcases hd with ⟨hd, _⟩ | ⟨_, hx, h1, h2⟩
    · rw [ht'] at hd; cases hd
    have hkn : k = n := hk.trans hname
    subst hkn
    obtain ⟨b, hb, e, he, hme⟩ := api_method hl hg
    obtain ⟨k1, k2, k3, hs, k4⟩ := elementOf_spec he
    have hbk : b.key = k := by
      rw [← ho.names b hb, ← k2, ← (methodOf_name hme).1, hk]
    have hev : e.event = false := by
      by_contra hc
      rw [methodOf, if_pos (by simpa using hc)] at hme
      cases hme; cases ht'
    rw [methodOf, if_neg (by simp [hev])] at hme
    split_ifs at hme with hz1 hz2 <;> cases hme
    · cases ht'
    have hxx : e.flags.external = true := by
      simp only [Method.isExternal, beq_self_eq_true, Bool.true_and, Bool.or_eq_true] at hx
      rcases hx with hx | hx
      · exact hx
      · rcases k4 with ⟨_, hz, _⟩ | ⟨_, hz, _⟩
        · rw [not_any hz] at hx; cases hx
        · rcases verify_cases hz with hz | hz | hz | hz | hz | hz | hz <;> rw [hz] at hx ⊢ <;> cases hx
    refine ⟨rfl, hv', h1, h2, hbk ▸ hs, b, hb, hbk, (flags_spec k3).1.mp hxx, ?_, ?_, ?_⟩
    · rw [hro, ← (flags_spec k3).2.1]; simp [Method.isReadOnly]
    · intro h
      have := hro2 h
      exact (flags_spec k3).2.1.mp (by simpa [Method.isReadOnly] using this)
    · intro hv
      have := (pyCall_runs.mp hp).2.2.2.2 (.inr hv)
      obtain ⟨m', hm', hkm, hpm⟩ := isPayable_marked hl this
      rwa [key_unique ho.nodup hm' hb (hkm.trans hbk.symm)] at hpm
  · rintro ⟨rfl, rfl, h1, h2, hs, m, hm, rfl, hx, hr1, hr2, hv⟩
    obtain ⟨e, he, hel, hev, hfe, hg⟩ := external_entry hl ho hm hx hs h1 h2
    have hfs := flags_spec (elementOf_spec he).2.2.1
    have hr1' : e.flags.readonly = ro' := by
      have := hfs.2.1.trans hr1.symm
      cases h : e.flags.readonly <;> cases ro' <;> simp_all
    have hpy : pyCall c m.key ro' v' = .runs m.key ro' v' := by
      refine pyCall_runs.mpr ⟨rfl, rfl, rfl, .inl ?_, ?_⟩
      · simp [Class.isExternal, hel, hev, hfe]
      · rintro (hc | hc)
        · exfalso
          obtain ⟨b, hb⟩ := hx
          have hfl := (elementOf_spec he).2.2.1
          rw [Member.flags, ho.names m hm, hc] at hfl
          have : ∀ (l : List Deco) (f : Flags), Deco.external b ∈ l → applyAll "fallback" f l = none := by
            intro l
            induction l with
            | nil => intro f h; cases h
            | cons d l ih =>
              intro f hm
              rw [applyAll]
              rcases List.mem_cons.mp hm with rfl | hm
              · simp [apply1]
              · cases hh : apply1 "fallback" f d with
                | none => rfl
                | some f' => exact ih f' hm
          rw [this _ _ hb] at hfl; cases hfl
        · have := hfs.2.2.1.mpr (hv hc)
          simp [Class.isPayable, hel, hev, this]
    rw [callHandler, hg]
    simp only [reduceCtorEq, if_false, Bool.false_eq_true, false_and, ne_eq, not_false_eq_true, true_and, h1, h2,
      or_false, Method.isExternal, beq_self_eq_true, Bool.true_or, Bool.and_true, Bool.true_eq_false,
      Method.isReadOnly, Bool.true_and, hr1']
    by_cases hro : ro' = ro
    · rw [if_neg (by simp [hro])]
      rw [← hro]; exact hpy
    · rw [if_pos hro]
      have hro' : ro' = true := by
        cases hx : ro' with
        | true => rfl
        | false =>
          exfalso
          have : ro = true := by cases ro <;> simp_all
          have := hr1.mpr (hr2 this)
          rw [hx] at this; cases this
      rw [if_pos hro']
      rw [hro'] at hpy
      rw [hro']; exact hpy

theorem callHandler_payable {ms : List Member} {c : Class} (hl : load ms = some c) (ho : Ordinary ms) {n : String}
    {ro ro' : Bool} {v : ℤ} (hn : n ≠ "") (h : Callable ms n ro ro' v) (hv : 0 < v) :
    ∃ m, getMethod c.api n = some m ∧ m.isPayable = true ∧ m.isReadOnly = false := by
  obtain ⟨h1, h2, hs, m, hm, rfl, hx, hr1, hr2, hp⟩ := h
  obtain ⟨e, he, hel, hev, hfe, hg⟩ := external_entry hl ho hm hx hs h1 h2
  have hfs := flags_spec (elementOf_spec he).2.2.1
  have hpay := hfs.2.2.1.mpr (hp hv)
  refine ⟨_, hg, by simp [Method.isPayable, hpay], ?_⟩
  rcases (elementOf_spec he).2.2.2.2 with ⟨hz, _⟩ | ⟨_, hz, _⟩
  · exact absurd hz (by simp [h1, h2])
  · rcases verify_cases hz with hz | hz | hz | hz | hz | hz | hz <;> rw [hz] at hpay hfe ⊢ <;>
      first | rfl | cases hpay | cases hfe

theorem transferAndCall_named {ms : List Member} {c : Class} (hl : load ms = some c) (ho : Ordinary ms)
    (legacy funds ext ro ro' : Bool) (n k : String) (hn : n ≠ "") (v v' : ℤ) (hv : 0 < v) :
    transferAndCall c legacy funds ext ro n v = .runs k ro' v' ↔
      ro = false ∧ funds = true ∧ k = n ∧ v' = v ∧ Callable ms n ro ro' v := by
  constructor
  · intro h
    obtain ⟨h1, _, h2, h3⟩ := transferAndCall_runs h
    exact ⟨h1, h2, (call_exact hl ho _ _ _ _ _ hn _ _).mp h3⟩
  · rintro ⟨h1, h2, h3⟩
    obtain ⟨m, hg, hp, hr⟩ := callHandler_payable hl ho hn h3.2.2 hv
    have := (call_exact hl ho ext ro ro' n k hn v v').mpr h3
    rw [transferAndCall, if_neg (by simp [h1]), if_neg (by omega), if_neg (by simp [h2])]
    simp only [hg, if_neg hn]
    rw [if_neg (by simp [hp]), if_neg (by simp [hr])]
    exact this

/-- C20: for classes without aliases, exactly when a call by a user runs a function, and which one: the one named, if it is
marked external; with coins only if it is marked payable and the sender has the coins; in read-only mode exactly if it is
marked readonly. -/
theorem C20_user_call_exact (ms : List Member) (c : Class) (hl : load ms = some c) (ho : Ordinary ms)
    (legacy funds ro ro' : Bool) (n k : String) (v v' : ℤ) :
    handle c legacy funds ro (.userCall n v) = .runs k ro' v' ↔
      n ≠ "" ∧ k = n ∧ v' = v ∧ (0 < v → funds = true) ∧ Callable ms n false ro' v := by
  simp only [handle]
  by_cases hn : n = ""
  · rw [if_pos hn]; simp [hn]
  rw [if_neg hn]
  by_cases hv : v > 0
  · rw [if_pos hv, transferAndCall_named hl ho _ _ _ _ _ _ _ hn _ _ hv]
    simp [hn, show 0 < v from hv]
    tauto
  · rw [if_neg hv, call_exact hl ho _ _ _ _ _ hn]
    simp [hn, show ¬ 0 < v from hv]

/-- C20: the same for calls by contracts that name a method; a caller in read-only mode only reaches readonly functions, and
sends no coins. -/
theorem C20_contract_call_exact (ms : List Member) (c : Class) (hl : load ms = some c) (ho : Ordinary ms)
    (legacy funds ro ro' : Bool) (n k : String) (hn : n ≠ "") (v v' : ℤ) :
    handle c legacy funds ro (.contractCall n v) = .runs k ro' v' ↔
      k = n ∧ v' = v ∧ (0 < v → funds = true ∧ ro = false) ∧ Callable ms n ro ro' v := by
  simp only [handle]
  by_cases hv : v > 0
  · rw [if_pos hv, transferAndCall_named hl ho _ _ _ _ _ _ _ hn _ _ hv]
    simp [show 0 < v from hv]
    tauto
  · rw [if_neg hv, call_exact hl ho _ _ _ _ _ hn]
    simp [show ¬ 0 < v from hv]

/-- C20: a query runs exactly the readonly functions, in read-only mode and without coins. -/
theorem C20_query_exact (ms : List Member) (c : Class) (hl : load ms = some c) (ho : Ordinary ms)
    (legacy funds ro ro' : Bool) (n k : String) (v' : ℤ) :
    handle c legacy funds ro (.query n) = .runs k ro' v' ↔
      n ≠ "" ∧ k = n ∧ v' = 0 ∧ ro' = true ∧ Callable ms n true true 0 := by
  constructor
  · intro h
    rcases handle_runs h with ⟨v0, hr, _⟩ | ⟨n', v0, hr, _⟩ | ⟨n', v0, hr, _⟩ |
      ⟨n', hr, hn, hm, h⟩ | ⟨u, hr, _⟩ <;> cases hr
    obtain ⟨a, b, d⟩ := (call_exact hl ho _ _ _ _ _ hn _ _).mp h
    have : ro' = true := by
      obtain ⟨_, _, _, m, _, _, _, h1, h2, _⟩ := d
      exact h1.mpr (h2 rfl)
    subst this
    exact ⟨hn, a, b, rfl, d⟩
  · rintro ⟨hn, rfl, rfl, rfl, hc⟩
    have h := (call_exact hl ho true true true k k hn 0 0).mpr ⟨rfl, rfl, hc⟩
    simp only [handle]
    rw [if_neg hn]
    obtain ⟨m, hg, _, _, _, _, hd⟩ := callHandler_runs hl h
    rw [hg]
    simp only []
    rcases hd with ⟨hd, _⟩ | ⟨_, hd, _⟩
    · cases hd
    · rw [if_neg (by simp [← hd])]; exact h

/-- A payable fallback has an element and is the fallback of the API. -/
theorem fallback_entry {ms : List Member} {c : Class} (hl : load ms = some c) (ho : Ordinary ms) {m : Member}
    (hm : m ∈ ms) (hk : m.key = "fallback") (hp : m.MarkedPayable) :
    ∃ g, getMethod c.api "" = some g ∧ g.type = .fallback ∧ g.payable = true ∧ c.isPayable "fallback" = true := by
  obtain ⟨es, h, hc⟩ := Option.map_eq_some_iff.mp hl
  have hd := elements_defined h m hm
  have hns : m.key.startsWith "__" = false := by rw [hk]; decide +kernel
  have hex : ∃ e, elementOf m = some (some e) := by
    rw [elementOf] at hd ⊢
    rcases hf : m.flags with _ | f
    · rw [hf] at hd; exact absurd rfl hd
    simp only [hf] at hd ⊢
    have hfe : f.payable = true := (flags_spec hf).2.2.1.mpr hp
    rw [if_neg (by simp [hns]), if_neg (by simp [hk]), if_pos (by simp [Flags.collected, hfe])] at hd ⊢
    split_ifs at hd ⊢ <;> first | exact ⟨_, rfl⟩ | exact absurd rfl hd
  obtain ⟨e, he⟩ := hex
  obtain ⟨k1, k2, k3, _, k4⟩ := elementOf_spec he
  have hfp : e.flags.payable = true := (flags_spec k3).2.2.1.mpr hp
  have hff : e.flags.fallback = true := (flags_spec k3).2.2.2.1.mpr ⟨hp, by rw [ho.names m hm, hk]⟩
  rcases k4 with ⟨hz, _⟩ | ⟨_, hv, hev, _, _⟩
  · exact absurd hz (by simp [hk])
  have hfl : e.flags = { fallback := true, payable := true } := by
    rcases verify_cases hv with hz | hz | hz | hz | hz | hz | hz <;> rw [hz] at hff ⊢ <;> cases hff
  have hev' : e.event = false := by rw [hev, hfl]
  have hmo : methodOf e = some ⟨.fallback, "fallback", false, false, true, ""⟩ := by
    have hfn : e.fname = "fallback" := by rw [k2, ho.names m hm, hk]
    rw [methodOf, if_neg (by simp [hev']), if_neg (by rw [hfl]; decide), hfn, hfl]
    rfl
  have hel : c.element "fallback" = some e := hk ▸ element_unique hl ho.nodup hm he
  refine ⟨⟨.fallback, "fallback", false, false, true, ""⟩, ?_, rfl, rfl, by simp [Class.isPayable, hel, hev', hfp]⟩
  subst hc
  refine find_unique (List.mem_filterMap.mpr ⟨e, (elements_mem h e).mpr ⟨m, hm, he⟩, hmo⟩) rfl ?_
  intro m' hm' hk'
  obtain ⟨e', he', hme'⟩ := List.mem_filterMap.mp hm'
  obtain ⟨b, hb, hbe⟩ := (elements_mem h e').mp he'
  obtain ⟨j1, j2, j3, _, j4⟩ := elementOf_spec hbe
  rw [Method.mapKey] at hk'
  rcases ht : m'.type with _ | _ | _
  · rw [ht] at hk'
    simp only [] at hk'
    by_cases hn : m'.name = ""
    · rw [if_pos hn] at hk'; cases hk'
    · rw [if_neg hn] at hk'
      exact absurd (by simpa using hk') hn
  · have hn := ((methodOf_name hme').2 ht).1
    have : b = m := key_unique ho.nodup hb hm (by
      rw [← ho.names b hb, ← j2, ← (methodOf_name hme').1, hn, hk])
    subst this
    rw [he] at hbe
    cases hbe
    rw [hmo] at hme'
    cases hme'; rfl
  · rw [ht] at hk'
    have hsig : m'.signature = "" := by simpa using hk'
    have hev : e'.event = true := by
      by_contra hcon
      rw [methodOf, if_neg hcon] at hme'
      split_ifs at hme' <;> cases hme' <;> cases ht
    rcases j4 with ⟨_, _, hz⟩ | ⟨_, _, hz, _, hsg⟩
    · rw [hz] at hev; cases hev
    have hs' : e'.signature = "" := by
      rw [methodOf, if_pos hev] at hme'
      cases hme'; exact hsig
    have hlog : Deco.eventlog ∈ b.decos := (flags_spec j3).2.2.2.2.2.mp (hz ▸ hev)
    exact absurd ((hsg hev).symm.trans hs') (ho.events b hb hlog)

theorem no_fallback {ms : List Member} {c : Class} (hl : load ms = some c) (ho : Ordinary ms)
    (hn : ¬ ∃ m ∈ ms, m.key = "fallback" ∧ m.MarkedPayable) : getMethod c.api "" = none := by
  by_contra hg
  obtain ⟨g, hg⟩ := Option.ne_none_iff_exists'.mp hg
  obtain ⟨b, hb, e, he, hme⟩ := api_method hl hg
  obtain ⟨k1, k2, k3, _, k4⟩ := elementOf_spec he
  rcases ht : g.type with _ | _ | _
  · have h2 := (getMethod_mem hg).2
    rw [Method.mapKey, ht] at h2
    simp only [] at h2
    by_cases hx : g.name = ""
    · rw [if_pos hx] at h2; cases h2
    · rw [if_neg hx] at h2; exact absurd (by simpa using h2) hx
  · have hf := (methodOf_name hme).2 ht
    have hpay : e.flags.payable = true := by
      rw [methodOf] at hme
      split_ifs at hme <;> cases hme <;> first | exact hf.2 | cases ht
    exact hn ⟨b, hb, by rw [← ho.names b hb, ← k2, ← (methodOf_name hme).1, hf.1], (flags_spec k3).2.2.1.mp hpay⟩
  · have hk' := (getMethod_mem hg).2
    rw [Method.mapKey, ht] at hk'
    have hsig : g.signature = "" := by simpa using hk'
    have hev : e.event = true := by
      by_contra hcon
      rw [methodOf, if_neg hcon] at hme
      split_ifs at hme <;> cases hme <;> cases ht
    rcases k4 with ⟨_, _, hz⟩ | ⟨_, _, hz, _, hsg⟩
    · rw [hz] at hev; cases hev
    have hs' : e.signature = "" := by
      rw [methodOf, if_pos hev] at hme
      cases hme; exact hsig
    have hlog : Deco.eventlog ∈ b.decos := (flags_spec k3).2.2.2.2.2.mp (hz ▸ hev)
    exact absurd ((hsg hev).symm.trans hs') (ho.events b hb hlog)

theorem fallback_call {ms : List Member} {c : Class} (hl : load ms = some c) (ho : Ordinary ms) {m : Member}
    (hm : m ∈ ms) (hk : m.key = "fallback") (hp : m.MarkedPayable) (v : ℤ) :
    callHandler c false false false "" v = .runs "fallback" false v := by
  obtain ⟨g, hg, ht, hpay, hc⟩ := fallback_entry hl ho hm hk hp
  have hname := (method_name hl hg (by rw [ht]; decide))
  rcases hname with ⟨_, _, hname⟩ | ⟨a, _⟩
  · have hpy : pyCall c "fallback" false v = .runs "fallback" false v :=
      pyCall_runs.mpr ⟨rfl, rfl, rfl, .inr (.inl rfl), fun _ => hc⟩
    have hr : g.isReadOnly = false := by simp [Method.isReadOnly, ht]
    rw [callHandler, hg]
    simp only [ht, hr, hname, reduceCtorEq, if_false, Bool.false_eq_true, and_false, ne_eq, not_true_eq_false, false_and]
    exact hpy
  · rw [ht] at a; cases a

/-- C20: exactly what a plain transfer of `v` coins does: it runs the `fallback` if that is marked payable; otherwise
it is refused, except that old revisions accept a transfer of nothing without running anything. -/
theorem C20_transfer_exact (ms : List Member) (c : Class) (hl : load ms = some c) (ho : Ordinary ms)
    (legacy funds ro : Bool) (v : ℤ) (hv : 0 ≤ v) :
    handle c legacy funds ro (.transfer v) =
      if funds = false then .rejected .transferFailed
      else if (∃ m ∈ ms, m.key = "fallback" ∧ m.MarkedPayable) then .runs "fallback" false v
      else if legacy = true ∧ v = 0 then .nothing
      else .rejected (if legacy then .notPayable else .notFound) := by
  simp only [handle, transferAndCall]
  rw [if_neg (by simp), if_neg (by omega)]
  cases hf : funds
  · simp
  simp only [Bool.not_true, Bool.false_eq_true, if_false, Bool.true_eq_false, if_true]
  by_cases hx : ∃ m ∈ ms, m.key = "fallback" ∧ m.MarkedPayable
  · rw [if_pos hx]
    obtain ⟨m, hm, hk, hp⟩ := hx
    obtain ⟨g, hg, ht, hpay, hc⟩ := fallback_entry hl ho hm hk hp
    have hip : g.isPayable = true := by simp [Method.isPayable, ht, hpay]
    rw [fallback_call hl ho hm hk hp]
    simp [hg, hip]
  · rw [if_neg hx, no_fallback hl ho hx]
    cases legacy
    · simp
    · by_cases h0 : v = 0
      · simp [h0]
      · have : v > 0 := by omega
        simp [h0, this]

/-- C20: accepting a deployment runs `on_install` or `on_update` of the class, if it has one of its own. -/
theorem C20_deploy (ms : List Member) (c : Class) (hl : load ms = some c) (legacy funds ro ro' : Bool) (u : Bool)
    (k : String) (v : ℤ) (h : handle c legacy funds ro (.deploy u) = .runs k ro' v) :
    k = (if u then "on_update" else "on_install") ∧ ro' = false ∧ v = 0 := by
  rcases C20_only_external ms c hl legacy funds ro ro' _ k v h with ⟨_, ⟨_, hq⟩ | ⟨_, hq⟩ | hq⟩ | ⟨_, _, hq⟩ | ⟨u', hu, hk⟩
  · cases hq
  · cases hq
  · cases hq
  · exact absurd hq (by simp [Req.Plain])
  · cases hu
    refine ⟨hk, ?_⟩
    rcases handle_runs h with ⟨v0, hr, _⟩ | ⟨n', v0, hr, _⟩ | ⟨n', v0, hr, _⟩ |
      ⟨n', hr, _⟩ | ⟨u', hr, h⟩ <;> cases hr
    obtain ⟨m, _, _, hv, _, _, hd⟩ := callHandler_runs hl h
    rcases hd with ⟨_, hd⟩ | ⟨hd, _⟩
    · exact ⟨hd, hv⟩
    · cases hd

/-! ### Findings and examples -/

def member (n : String) (ds : List Deco) : Member := ⟨n, n, ds, false, true, ""⟩

/-- C20: `@isolated` makes every class fail to load, with any other decorators. -/
theorem C20_isolated_unusable (ms : List Member) (m : Member) (hm : m ∈ ms) (hi : Deco.isolated ∈ m.decos)
    (hs : m.key.startsWith "__" = false) (ha : m.abstract = false) : load ms = none := by
  by_contra hl
  obtain ⟨c, hl⟩ := Option.ne_none_iff_exists'.mp hl
  obtain ⟨es, h, hc⟩ := Option.map_eq_some_iff.mp hl
  have hd := elements_defined h m hm
  apply hd
  rw [elementOf]
  rcases hf : m.flags with _ | f
  · rfl
  simp only []
  have hfi : f.isolated = true := (flags_spec hf).2.2.2.2.1.mpr hi
  have hcol : f.collected = true := by simp [Flags.collected, hfi]
  rw [if_neg (by simp [hs])]
  by_cases hk : m.key = "on_install" ∨ m.key = "on_update"
  · rw [if_pos hk, if_neg (by simp [ha]), if_pos (by simp [Flags.any, hcol])]
  · rw [if_neg hk, if_pos hcol, if_neg]
    intro hv
    rcases verify_cases hv with hz | hz | hz | hz | hz | hz | hz <;> rw [hz] at hfi <;> cases hfi

/-- C20: a contract that names a method can give it a negative value: the function runs, marked payable or not, sees the
negative value, and no coins move. -/
theorem C20_negative_value_passed (ms : List Member) (c : Class) (hl : load ms = some c) (ho : Ordinary ms)
    (legacy funds : Bool) (m : Member) (hm : m ∈ ms) (hn : m.key ≠ "on_install" ∧ m.key ≠ "on_update")
    (hs : m.key.startsWith "__" = false) (hx : m.MarkedExternal) (hr : ¬ m.MarkedReadonly) (v : ℤ) (hv : v < 0) :
    handle c legacy funds false (.contractCall m.key v) = .runs m.key false v :=
  (C20_contract_call_exact ms c hl ho legacy funds false false m.key m.key (ho.nonempty m hm) v v).mpr
    ⟨rfl, rfl, fun h => by omega, hn.1, hn.2, hs, m, hm, rfl, hx, by simp [hr], by simp, fun h => by omega⟩

def demo : List Member :=
  [member "get" [.external true], member "set" [.external false], member "buy" [.payable, .external false],
   member "fallback" [.payable], member "on_install" [], member "helper" [], member "tip" [.payable],
   ⟨"Paid", "Paid", [.eventlog], false, true, "Paid(int)"⟩]

def demoClass : Class := (load demo).getD ⟨[], []⟩

example : load demo = some demoClass ∧ Ordinary demo := by
  refine ⟨by decide +kernel, ?_, ?_, ?_, ?_, ?_⟩ <;> decide +kernel
example : handle demoClass false true false (.userCall "buy" 5) = .runs "buy" false 5 ∧
    handle demoClass false true false (.userCall "set" 5) = .rejected .notPayable ∧
    handle demoClass false true false (.userCall "helper" 0) = .rejected .notFound ∧
    handle demoClass false true false (.userCall "tip" 5) = .rejected .notFound ∧
    handle demoClass false true false (.userCall "fallback" 5) = .rejected .notFound ∧
    handle demoClass false true false (.userCall "on_install" 0) = .rejected .notFound ∧
    handle demoClass false true false (.userCall "get" 0) = .runs "get" true 0 ∧
    handle demoClass false true false (.query "set") = .rejected .accessDenied ∧
    handle demoClass false true true (.contractCall "set" 0) = .rejected .accessDenied ∧
    handle demoClass false true false (.contractCall "set" (-5)) = .runs "set" false (-5) ∧
    handle demoClass false true false (.transfer 5) = .runs "fallback" false 5 ∧
    handle demoClass false true false (.deploy false) = .runs "on_install" false 0 := by decide +kernel

/-- `f` writable, aliased as `g`, then redefined as readonly. -/
def aliased : List Member := [⟨"f", "f", [.external true], false, true, ""⟩, ⟨"g", "f", [.external false], false, true, ""⟩]
def aliasedClass : Class := (load aliased).getD ⟨[], []⟩

/-- C20: with an alias of an older definition under a later name, the service takes the flags of the older
one: the readonly function `f` is run in writable mode by transactions and cannot be queried. -/
theorem C20_alias_confuses_flags : load aliased = some aliasedClass ∧
    handle aliasedClass false true false (.userCall "f" 0) = .runs "f" false 0 ∧
    handle aliasedClass false true false (.query "f") = .rejected .accessDenied := by decide +kernel

end Verif.Api.Dispatch
