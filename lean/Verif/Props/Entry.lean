import Verif.Model.Entry
import Mathlib.Data.List.Basic

/-!
# The function that is run: C78
-/

namespace Tket.Entry

/-! ## Specification -/

/-- The node is a definition of a function with the name. -/
def Named (h : Hugr) (name : String) (n : Nat) : Prop := ∃ p i, h.op n = .funcDefn name p i

/-- The first definition of a function with the name in the module. -/
def FirstDef (h : Hugr) (name : String) (n : Nat) : Prop :=
  ∃ pre post, h.children h.root = pre ++ n :: post ∧ Named h name n ∧ ∀ m ∈ pre, ¬ Named h name m

/-- The module has no definition of a function with the name. -/
def Lacks (h : Hugr) (name : String) : Prop := ∀ m ∈ h.children h.root, ¬ Named h name m

/-- The first module that defines the function, and its first definition there. -/
def Found (hs : List Hugr) (name : String) (i : Nat) (h : Hugr) (n : Nat) : Prop :=
  hs[i]? = some h ∧ FirstDef h name n ∧ ∀ j g, j < i → hs[j]? = some g → Lacks g name

/-! ## Lemmas -/

theorem funcName_iff {h : Hugr} {name : String} (hn : name ≠ "") (n : Nat) :
    (funcName (h.op n) == name) = true ↔ Named h name n := by
  unfold Named
  cases ho : h.op n with
  | funcDefn nm p i => simp [funcName]
  | _ => simp [funcName, Ne.symm hn]

theorem find_first {l : List Nat} {p : Nat → Bool} {n : Nat} :
    l.find? p = some n ↔ ∃ pre post, l = pre ++ n :: post ∧ p n = true ∧ ∀ m ∈ pre, p m ≠ true := by
  rw [List.find?_eq_some_iff_append]
  constructor
  · rintro ⟨h1, pre, post, h2, h3⟩
    exact ⟨pre, post, h2, h1, fun m hm => by simpa using h3 m hm⟩
  · rintro ⟨pre, post, h2, h1, h3⟩
    exact ⟨h1, pre, post, h2, fun m hm => by simpa using h3 m hm⟩

theorem first_unique {h : Hugr} {name : String} {n m : Nat} (hn : FirstDef h name n)
    (hm : FirstDef h name m) : n = m := by
  classical
  have key : ∀ k, FirstDef h name k →
      (h.children h.root).find? (fun x => decide (Named h name x)) = some k := by
    rintro k ⟨pre, post, h1, h2, h3⟩
    exact find_first.2 ⟨pre, post, h1, by simpa using h2, fun m hm => by simpa using h3 m hm⟩
  have := (key n hn).symm.trans (key m hm)
  cases this
  rfl

/-- What `find_function` does. -/
theorem findFunction_cases {h : Hugr} {name : String} (hn : name ≠ "") (hr : h.op h.root = .module) :
    (Lacks h name ∧ findFunction h name =
      .error (.functionNotFound name ((h.children h.root).map fun n => funcName (h.op n)))) ∨
    ∃ n i, FirstDef h name n ∧ h.op n = .funcDefn name 0 i ∧ findFunction h name = .ok (h.setEntry n) ∨
    ∃ n p i, FirstDef h name n ∧ h.op n = .funcDefn name (p + 1) i ∧
      findFunction h name = .error (.parametric n) := by
  unfold findFunction
  rw [if_neg (by simp [hr])]
  cases hf : (h.children h.root).find? fun n => funcName (h.op n) == name with
  | none =>
    refine .inl ⟨?_, rfl⟩
    intro m hm hN
    have := List.find?_eq_none.1 hf m hm
    exact this ((funcName_iff hn m).2 hN)
  | some n =>
    right
    obtain ⟨pre, post, h1, h2, h3⟩ := find_first.1 hf
    have hN := (funcName_iff hn n).1 h2
    have hF : FirstDef h name n :=
      ⟨pre, post, h1, hN, fun m hm hN => h3 m hm ((funcName_iff hn m).2 hN)⟩
    obtain ⟨p, i, ho⟩ := hN
    refine ⟨n, ?_⟩
    have hs : (h.setEntry n).op (h.setEntry n).entry = .funcDefn name p i := ho
    unfold checkHugr
    simp only [hs]
    cases p with
    | zero => exact ⟨i, .inl ⟨hF, ho, rfl⟩⟩
    | succ p => exact ⟨i, .inr ⟨n, p, i, hF, ho, rfl⟩⟩

theorem findFrom_spec {hs : List Hugr} {name : String} (hn : name ≠ "")
    (hr : ∀ h ∈ hs, h.op h.root = .module) (i : Nat) (av : List String) :
    ((∀ h ∈ hs, Lacks h name) ∧ findFrom i av hs name =
      .error (.functionNotFound name
        (av ++ hs.flatMap fun h => (h.children h.root).map fun n => funcName (h.op n)))) ∨
    (∃ k h n a, Found hs name k h n ∧ h.op n = .funcDefn name 0 a ∧
      findFrom i av hs name = .ok (i + k, h.setEntry n)) ∨
    ∃ k h n p a, Found hs name k h n ∧ h.op n = .funcDefn name (p + 1) a ∧
      findFrom i av hs name = .error (.parametric n) := by
  induction hs generalizing i av with
  | nil => exact .inl ⟨fun h hm => (by cases hm), by simp [findFrom]⟩
  | cons h hs ih =>
    unfold findFrom
    have here : ∀ n, FirstDef h name n → Found (h :: hs) name 0 h n :=
      fun n hF => ⟨rfl, hF, fun j g hj => absurd hj (Nat.not_lt_zero _)⟩
    rcases findFunction_cases hn (hr h List.mem_cons_self) with ⟨h1, h2⟩ | ⟨n, a, h1⟩
    · simp only [h2]
      have lift : ∀ k g n, Found hs name k g n → Found (h :: hs) name (k + 1) g n := by
        rintro k g n ⟨f1, f2, f3⟩
        refine ⟨f1, f2, ?_⟩
        intro j g' hj hg
        cases j with
        | zero => cases hg; exact h1
        | succ j => exact f3 j g' (by omega) hg
      rcases ih (fun h hm => hr h (List.mem_cons_of_mem _ hm)) (i + 1)
        (av ++ (h.children h.root).map fun n => funcName (h.op n)) with
        ⟨h3, h4⟩ | ⟨k, g, n, a, h3, h4, h5⟩ | ⟨k, g, n, p, a, h3, h4, h5⟩
      · refine .inl ⟨?_, ?_⟩
        · intro g hg
          cases hg with
          | head => exact h1
          | tail _ hg => exact h3 g hg
        · rw [h4]
          simp
      · refine .inr (.inl ⟨k + 1, g, n, a, lift k g n h3, h4, ?_⟩)
        rw [h5]
        congr 2
        omega
      · exact .inr (.inr ⟨k + 1, g, n, p, a, lift k g n h3, h4, h5⟩)
    · rcases h1 with ⟨h1, h2, h3⟩ | ⟨n, p, a, h1, h2, h3⟩
      · simp only [h3]
        exact .inr (.inl ⟨0, h, n, a, here n h1, h2, rfl⟩)
      · simp only [h3]
        exact .inr (.inr ⟨0, h, n, p, a, here n h1, h2, rfl⟩)

theorem found_unique {hs : List Hugr} {name : String} {i j : Nat} {g h : Hugr} {m n : Nat}
    (h1 : Found hs name i g m) (h2 : Found hs name j h n) : i = j ∧ g = h ∧ m = n := by
  have aux : ∀ {i j : Nat} {g h : Hugr} {m n : Nat}, Found hs name i g m → Found hs name j h n →
      ¬ i < j := by
    rintro i j g h m n ⟨a1, a2, -⟩ ⟨-, -, b3⟩ hlt
    obtain ⟨pre, post, e, hN, -⟩ := a2
    exact b3 i g hlt a1 m (by rw [e]; simp) hN
  have hij : i = j := by
    have := aux h1 h2
    have := aux h2 h1
    omega
  subst hij
  have : g = h := by
    have := h1.1.symm.trans h2.1
    cases this
    rfl
  subst this
  exact ⟨rfl, rfl, first_unique h1.2.1 h2.2.1⟩

theorem found_not_lacks {hs : List Hugr} {name : String} {i : Nat} {g : Hugr} {m : Nat}
    (h1 : Found hs name i g m) : ¬ ∀ h ∈ hs, Lacks h name := by
  intro h
  obtain ⟨a1, ⟨pre, post, e, hN, -⟩, -⟩ := h1
  exact h g (List.mem_of_getElem? a1) m (by rw [e]; simp) hN

/-! ## Loading functions -/

/-- **C78** (part): for a name that is not empty, the loaded circuit is the first definition of the
function in the first module that has one, with the module unchanged but for the entrypoint. -/
theorem C78_loaded_partial {hs : List Hugr} {name : String} (hn : name ≠ "")
    (hr : ∀ h ∈ hs, h.op h.root = .module) (i : Nat) (c : Hugr) :
    findInModules hs name = .ok (i, c) ↔
      ∃ h n a, Found hs name i h n ∧ h.op n = .funcDefn name 0 a ∧ c = h.setEntry n := by
  unfold findInModules
  rcases findFrom_spec hn hr 0 [] with ⟨h1, h2⟩ | ⟨k, h, n, a, h1, h2, h3⟩ | ⟨k, h, n, p, a, h1, h2, h3⟩
  · rw [h2]
    constructor
    · intro h; cases h
    · rintro ⟨h, n, a, hF, -⟩
      exact absurd h1 (found_not_lacks hF)
  · rw [h3, Nat.zero_add]
    constructor
    · intro e
      cases e
      exact ⟨h, n, a, h1, h2, rfl⟩
    · rintro ⟨h', n', a', hF, -, rfl⟩
      obtain ⟨rfl, rfl, rfl⟩ := found_unique h1 hF
      rfl
  · rw [h3]
    constructor
    · intro h; cases h
    · rintro ⟨h', n', a', hF, ho, rfl⟩
      obtain ⟨rfl, rfl, rfl⟩ := found_unique h1 hF
      rw [h2] at ho
      cases ho

/-- **C78**: the function is reported as not found exactly if no module defines it; otherwise the only
error is that its first definition has type parameters. -/
theorem C78_errors {hs : List Hugr} {name : String} (hn : name ≠ "")
    (hr : ∀ h ∈ hs, h.op h.root = .module) (e : LoadError) :
    findInModules hs name = .error e ↔
      ((∀ h ∈ hs, Lacks h name) ∧ e = .functionNotFound name
        (hs.flatMap fun h => (h.children h.root).map fun n => funcName (h.op n))) ∨
      ∃ i h n p a, Found hs name i h n ∧ h.op n = .funcDefn name (p + 1) a ∧ e = .parametric n := by
  unfold findInModules
  rcases findFrom_spec hn hr 0 [] with ⟨h1, h2⟩ | ⟨k, h, n, a, h1, h2, h3⟩ | ⟨k, h, n, p, a, h1, h2, h3⟩
  · rw [h2]
    constructor
    · intro h
      cases h
      exact .inl ⟨h1, by simp⟩
    · rintro (⟨-, rfl⟩ | ⟨i, h, n, p, a, hF, -⟩)
      · simp
      · exact absurd h1 (found_not_lacks hF)
  · rw [h3]
    constructor
    · intro h; cases h
    · rintro (⟨hL, -⟩ | ⟨i, h', n', p, a, hF, ho, -⟩)
      · exact absurd hL (found_not_lacks h1)
      · obtain ⟨rfl, rfl, rfl⟩ := found_unique h1 hF
        rw [h2] at ho
        cases ho
  · rw [h3]
    constructor
    · intro h'
      cases h'
      exact .inr ⟨k, h, n, p, a, h1, h2, rfl⟩
    · rintro (⟨hL, -⟩ | ⟨i, h', n', p, a, hF, ho, rfl⟩)
      · exact absurd hL (found_not_lacks h1)
      · obtain ⟨rfl, rfl, rfl⟩ := found_unique h1 hF
        rfl

/-- A module with the given children of the root, which is node 0; the entrypoint is the root. -/
def moduleOf (ops : List Op) : Hugr where
  op n := match n with
    | 0 => .module
    | n + 1 => ops.getD n .other
  nodes := List.range (ops.length + 1)
  root := 0
  children n := if n = 0 then (List.range ops.length).map (· + 1) else []
  entry := 0

/-- **C78** (finding): children that are no function definitions are listed among the available
functions, with an empty name, and a function with the empty name is not found behind them. -/
theorem C78_empty_names :
    (∃ i, findInModules [moduleOf [.const, .funcDefn "f" 0 0]] "g" =
      .error (.functionNotFound "g" i) ∧ i = ["", "f"]) ∧
    FirstDef (moduleOf [.const, .funcDefn "" 0 0]) "" 2 ∧
    (match findInModules [moduleOf [.const, .funcDefn "" 0 0]] "" with
      | .error e => e = .invalidParent 1
      | .ok _ => False) := by
  refine ⟨⟨_, rfl, rfl⟩, ⟨[1], [], rfl, ⟨0, 0, rfl⟩, ?_⟩, rfl⟩
  intro m hm
  simp only [List.mem_singleton] at hm
  subst hm
  rintro ⟨p, i, h⟩
  cases h

/-- **C78** (finding): a generic function hides the function with the same name in a later module. -/
theorem C78_generic_hides :
    Found [moduleOf [.funcDefn "f" 0 0]] "f" 0 (moduleOf [.funcDefn "f" 0 0]) 1 ∧
    (match findInModules [moduleOf [.funcDefn "f" 1 0], moduleOf [.funcDefn "f" 0 0]] "f" with
      | .error e => e = .parametric 1
      | .ok _ => False) := by
  refine ⟨⟨rfl, ⟨[], [], rfl, ⟨0, 0, rfl⟩, fun m hm => by cases hm⟩, ?_⟩, rfl⟩
  intro j g hj
  omega

/-! ## `QSystemPass` -/

/-- Every component pass keeps the entrypoint. -/
structure KeepEntry (p : Passes) : Prop where
  monomorphize : ∀ h, (p.monomorphize h).entry = h.entry
  removeDead : ∀ n h h', p.removeDead n h = .ok h' → h'.entry = h.entry
  lower : ∀ h h', p.lower h = .ok h' → h'.entry = h.entry
  replaceBools : ∀ h h', p.replaceBools h = .ok h' → h'.entry = h.entry
  lowerDrops : ∀ h h', p.lowerDrops h = .ok h' → h'.entry = h.entry
  linearize : ∀ h h', p.linearize h = .ok h' → h'.entry = h.entry
  inlineConst : ∀ h h', p.inlineConst h = .ok h' → h'.entry = h.entry
  constFold : ∀ h h', p.constFold h = .ok h' → h'.entry = h.entry
  forceOrder : ∀ h h', p.forceOrder h = .ok h' → h'.entry = h.entry

theorem step_entry {p : Pass} (hp : ∀ h h', p h = .ok h' → h'.entry = h.entry) (on : Bool)
    (s : Hugr × Option PassError) : (step p on s).1.entry = s.1.entry := by
  obtain ⟨h, e⟩ := s
  cases e with
  | some e => rfl
  | none =>
    unfold step
    cases on with
    | false => rfl
    | true =>
      simp only [if_true]
      cases hh : p h with
      | ok h' => exact hp h h' hh
      | error e => rfl

theorem steps_entry {c : Config} {p : Passes} (hp : KeepEntry p) (n : Nat) (h : Hugr) :
    (steps c p n h).1.entry = h.entry := by
  unfold steps
  simp only
  rw [step_entry hp.forceOrder, step_entry hp.constFold, step_entry hp.inlineConst,
    step_entry hp.linearize, step_entry hp.lowerDrops, step_entry hp.replaceBools, step_entry hp.lower,
    step_entry (hp.removeDead n), step_entry]
  intro h h' e
  cases e
  exact hp.monomorphize h

/-- The passes that the configuration turns on, in order. -/
def enabled (c : Config) (p : Passes) (n : Nat) : List Pass :=
  (if c.monomorphize then [fun h => .ok (p.monomorphize h), p.removeDead n] else []) ++ [p.lower] ++
  (if c.lazify then [p.replaceBools] else []) ++ [p.lowerDrops, p.linearize, p.inlineConst] ++
  (if c.constantFold then [p.constFold] else []) ++ (if c.forceOrder then [p.forceOrder] else [])

/-- One pass after the other. -/
def chain : List Pass → Hugr → Except PassError Hugr
  | [], h => .ok h
  | q :: qs, h =>
    match q h with
    | .ok h' => chain qs h'
    | .error e => .error e

theorem chain_append (a b : List Pass) (h : Hugr) :
    chain (a ++ b) h = match chain a h with
      | .ok h' => chain b h'
      | .error e => .error e := by
  induction a generalizing h with
  | nil => rfl
  | cons q qs ih =>
    rw [List.cons_append]
    simp only [chain]
    cases q h with
    | ok h' => exact ih h'
    | error e => rfl

/-- What a state says about a chain of passes. -/
def Tracks (s : Hugr × Option PassError) (r : Except PassError Hugr) : Prop :=
  match s.2 with
  | none => r = .ok s.1
  | some e => r = .error e

theorem tracks_step {s : Hugr × Option PassError} {qs : List Pass} {h : Hugr}
    (ht : Tracks s (chain qs h)) (p : Pass) (on : Bool) :
    Tracks (step p on s) (chain (qs ++ if on then [p] else []) h) := by
  obtain ⟨g, e⟩ := s
  rw [chain_append]
  cases e with
  | some e =>
    unfold Tracks at ht ⊢
    simp only at ht
    rw [ht]
    rfl
  | none =>
    unfold Tracks at ht
    simp only at ht
    rw [ht]
    cases on with
    | false => rfl
    | true =>
      unfold step
      simp only [if_true, chain]
      cases p g with
      | ok g' => rfl
      | error e => rfl

/-- **C78**: with a module as entrypoint that has no function `main` the pass fails and changes nothing.
Otherwise the enabled passes are run in order on the whole module, and if none fails the entrypoint is
the first `main` or the former entrypoint. -/
theorem C78_pass (c : Config) (p : Passes) (h : Hugr) :
    (h.op h.entry = .module → (∀ n ∈ h.children h.entry, ¬ Named h "main" n) →
      runPass c p h = (h, some .noMain)) ∧
    (∀ n, (h.op h.entry ≠ .module ∧ n = h.entry ∨ h.op h.entry = .module ∧ ∃ pre post,
        h.children h.entry = pre ++ n :: post ∧ Named h "main" n ∧ ∀ m ∈ pre, ¬ Named h "main" m) →
      match chain (enabled c p n) (h.setEntry h.root) with
      | .ok h' => runPass c p h = (h'.setEntry n, none)
      | .error e => (runPass c p h).2 = some e) := by
  have hmain : ∀ n, isMain h n = true ↔ Named h "main" n := by
    intro n
    unfold isMain Named
    cases ho : h.op n <;> simp
  constructor
  · intro h1 h2
    have : passEntry h = none := by
      unfold passEntry
      rw [if_pos h1, List.find?_eq_none]
      intro n hn hm
      exact h2 n hn ((hmain n).1 hm)
    unfold runPass
    simp only [this]
  · intro n hn
    have hpe : passEntry h = some n := by
      unfold passEntry
      rcases hn with ⟨h1, rfl⟩ | ⟨h1, pre, post, h2, h3, h4⟩
      · rw [if_neg h1]
      · rw [if_pos h1, find_first]
        exact ⟨pre, post, h2, (hmain n).2 h3, fun m hm hc => h4 m hm ((hmain m).1 hc)⟩
    have ht : Tracks (steps c p n (h.setEntry h.root))
        (chain (enabled c p n) (h.setEntry h.root)) := by
      have t0 : Tracks (h.setEntry h.root, none) (chain [] (h.setEntry h.root)) := rfl
      have t := tracks_step (tracks_step (tracks_step (tracks_step (tracks_step (tracks_step
        (tracks_step (tracks_step (tracks_step t0 (fun h => .ok (p.monomorphize h)) c.monomorphize)
        (p.removeDead n) c.monomorphize) p.lower true) p.replaceBools c.lazify) p.lowerDrops true)
        p.linearize true) p.inlineConst true) p.constFold c.constantFold) p.forceOrder c.forceOrder
      have : enabled c p n = [] ++ (if c.monomorphize then [fun h => .ok (p.monomorphize h)] else []) ++
          (if c.monomorphize then [p.removeDead n] else []) ++ (if true then [p.lower] else []) ++
          (if c.lazify then [p.replaceBools] else []) ++ (if true then [p.lowerDrops] else []) ++
          (if true then [p.linearize] else []) ++ (if true then [p.inlineConst] else []) ++
          (if c.constantFold then [p.constFold] else []) ++
          (if c.forceOrder then [p.forceOrder] else []) := by
        unfold enabled
        cases c.monomorphize <;> simp
      rw [this]
      exact t
    unfold runPass
    simp only [hpe]
    generalize steps c p n (h.setEntry h.root) = s at ht
    obtain ⟨g, e⟩ := s
    unfold Tracks at ht
    cases e with
    | none =>
      simp only at ht
      rw [ht]
    | some e =>
      simp only at ht
      rw [ht]

/-- **C78** (finding): if a component pass fails, the entrypoint has been moved to the module root. -/
theorem C78_entry_lost {c : Config} {p : Passes} (hp : KeepEntry p) {h h' : Hugr} {e : PassError}
    (hr : runPass c p h = (h', some e)) (he : (passEntry h).isSome) : h'.entry = h.root := by
  unfold runPass at hr
  cases hpe : passEntry h with
  | none => rw [hpe] at he; cases he
  | some n =>
    simp only [hpe] at hr
    have hk := steps_entry (c := c) hp n (h.setEntry h.root)
    generalize steps c p n (h.setEntry h.root) = s at hr hk
    obtain ⟨g, e'⟩ := s
    cases e' with
    | none => cases hr
    | some e' =>
      cases hr
      exact hk

/-- Passes that do nothing, except that lowering fails. -/
def failing : Passes where
  monomorphize := id
  removeDead _ := .ok
  lower _ := .error (.component 2)
  replaceBools := .ok
  lowerDrops := .ok
  linearize := .ok
  inlineConst := .ok
  constFold := .ok
  forceOrder := .ok

theorem failing_keep : KeepEntry failing where
  monomorphize _ := rfl
  removeDead _ _ _ h := by cases h; rfl
  lower _ _ h := by cases h
  replaceBools _ _ h := by cases h; rfl
  lowerDrops _ _ h := by cases h; rfl
  linearize _ _ h := by cases h; rfl
  inlineConst _ _ h := by cases h; rfl
  constFold _ _ h := by cases h; rfl
  forceOrder _ _ h := by cases h; rfl

example : ∃ h', runPass {} failing ((moduleOf [.funcDefn "f" 0 0]).setEntry 1) =
    (h', some (.component 2)) ∧ (passEntry ((moduleOf [.funcDefn "f" 0 0]).setEntry 1)).isSome :=
  ⟨_, rfl, rfl⟩

/-! ## The compiler -/

/-- Passes that do nothing. -/
def idle : Passes := { failing with lower := .ok }

/-- A valid HUGR: the root is the module, which is a module node. -/
def WellFormed (h : Hugr) : Prop := ∀ n, h.op n = .module ↔ n = h.root

/-- **C78**: a package is accepted exactly if it has one module, without opaque pytket operations. -/
theorem C78_read (ms : List Hugr) (h : Hugr) :
    readEnvelope ms = .ok h ↔ ms = [h] ∧ ∀ n ∈ h.nodes, ∀ nm, h.op n ≠ .tk1 nm := by
  have hop : ∀ o : Op, opaqueName o = none ↔ ∀ nm, o ≠ .tk1 nm := by
    intro o
    cases o <;> simp [opaqueName]
  match ms with
  | [] => simp [readEnvelope]
  | [g] =>
    unfold readEnvelope
    cases hf : g.nodes.findSome? (fun n => opaqueName (g.op n)) with
    | some nm =>
      simp only [hf, reduceCtorEq, List.cons.injEq, and_true, false_iff, not_and]
      rintro rfl h2
      obtain ⟨n, hn, h3⟩ := List.exists_of_findSome?_eq_some hf
      rw [(hop _).2 (h2 n hn)] at h3
      cases h3
    | none =>
      simp only [hf, Except.ok.injEq, List.cons.injEq, and_true]
      rw [List.findSome?_eq_none_iff] at hf
      constructor
      · rintro rfl
        exact ⟨rfl, fun n hn => (hop _).1 (hf n hn)⟩
      · exact fun h => h.1
  | _ :: _ :: _ => simp [readEnvelope]

/-- **C78**: if the compiler succeeds, the generated entry function calls the function that the passes
worked with: the only `main` of a module, or the entrypoint, which then has no inputs. -/
theorem C78_compiled {p : Passes} {h h' : Hugr} {n : Nat} (hw : WellFormed h)
    (hc : compile p h = .ok (n, h')) :
    h'.entry = n ∧
      (h.entry = h.root ∧ (∀ m ∈ h.children h.root, Named h "main" m ↔ m = n) ∧
        n ∈ h.children h.root ∨
      h.entry ≠ h.root ∧ n = h.entry ∧ ∃ nm k, h.op n = .funcDefn nm k 0) ∧
      (∃ nm k a, h'.op n = .funcDefn nm k a) ∧ n ∈ h'.children h'.root := by
  have hmain : ∀ n, isMain h n = true ↔ Named h "main" n := by
    intro n
    unfold isMain Named
    cases ho : h.op n <;> simp
  unfold compile at hc
  cases he : entryPoint h with
  | error e => rw [he] at hc; cases hc
  | ok k =>
    simp only [he] at hc
    cases hr : runPass {} p h with
    | mk g e =>
      cases e with
      | some e => simp only [hr] at hc; cases hc
      | none =>
        simp only [hr] at hc
        split at hc
        · rename_i hf
          simp only [Except.ok.injEq, Prod.mk.injEq] at hc
          obtain ⟨rfl, rfl⟩ := hc
          have hentry : ∀ x, passEntry h = some x → g.entry = x := by
            intro x hx
            unfold runPass at hr
            simp only [hx] at hr
            generalize steps {} p x (h.setEntry h.root) = s at hr
            obtain ⟨a, e⟩ := s
            cases e with
            | none => cases hr; rfl
            | some e => cases hr
          have hlast : (∃ nm j a, g.op k = .funcDefn nm j a) ∧ k ∈ g.children g.root := by
            unfold hasFunction at hf
            cases ho : g.op k <;> simp [ho] at hf
            exact ⟨⟨_, _, _, rfl⟩, hf⟩
          unfold entryPoint at he
          by_cases hm : h.op h.entry = .module
          · rw [if_pos hm] at he
            have hroot := (hw _).1 hm
            have hfil : (h.children h.root).filter (isMain h) = [k] := by
              revert he
              split
              · rename_i x hx
                intro he
                cases he
                exact hx
              · intro he; cases he
            have hmem : ∀ m ∈ h.children h.root, Named h "main" m ↔ m = k := by
              intro m hm'
              rw [← hmain]
              have : m ∈ (h.children h.root).filter (isMain h) ↔ m = k := by rw [hfil]; simp
              rw [List.mem_filter] at this
              constructor
              · intro hx
                exact this.1 ⟨hm', hx⟩
              · intro hx
                exact (this.2 hx).2
            have hk : k ∈ h.children h.root := by
              have : k ∈ (h.children h.root).filter (isMain h) := by rw [hfil]; simp
              exact (List.mem_filter.1 this).1
            refine ⟨?_, .inl ⟨hroot, hmem, hk⟩, hlast⟩
            apply hentry
            unfold passEntry
            rw [if_pos hm, hroot, ← List.head?_filter, hfil]
            rfl
          · rw [if_neg hm] at he
            have hroot : h.entry ≠ h.root := fun e => hm ((hw _).2 e)
            have hk : k = h.entry ∧ ∃ nm j, h.op h.entry = .funcDefn nm j 0 := by
              revert he
              split
              · rename_i nm j a ho
                split
                · intro he; cases he
                · rename_i ha
                  intro he
                  cases he
                  have : a = 0 := Classical.byContradiction ha
                  subst this
                  exact ⟨rfl, nm, j, ho⟩
              · intro he; cases he
            obtain ⟨rfl, hd⟩ := hk
            refine ⟨?_, .inr ⟨hroot, rfl, hd⟩, hlast⟩
            apply hentry
            unfold passEntry
            rw [if_neg hm]
        · cases hc

/-- **C78** (finding): a `main` with inputs is accepted if the entrypoint is the module, and rejected if
it is the entrypoint itself. -/
theorem C78_main_with_inputs :
    (∃ h', compile idle (moduleOf [.funcDefn "main" 0 2]) = .ok (1, h')) ∧
    (match compile idle ((moduleOf [.funcDefn "main" 0 2]).setEntry 1) with
      | .error e => e = .hasInputs 2
      | .ok _ => False) := ⟨⟨_, rfl⟩, rfl⟩

/-- **C78** (finding): levels above 3 panic, though the function returns a `Result`. -/
theorem C78_opt_level (n : Nat) : optLevel n = none ↔ 3 < n := by
  unfold optLevel
  split <;> simp <;> omega

/-! ## Examples -/

example : ∃ h', compile idle (moduleOf [.const, .funcDefn "f" 0 1, .funcDefn "main" 0 0]) =
    .ok (3, h') := ⟨_, rfl⟩

example : WellFormed (moduleOf [.const, .funcDefn "f" 0 1, .funcDefn "main" 0 0]) := by
  intro n
  match n with
  | 0 => simp [moduleOf]
  | 1 => simp [moduleOf]
  | 2 => simp [moduleOf]
  | 3 => simp [moduleOf]
  | n + 4 => simp [moduleOf]

example : "f" ≠ "" ∧ ∀ h ∈ [moduleOf [.const], moduleOf [.funcDefn "f" 0 3]], h.op h.root = .module := by
  simp [moduleOf]

end Tket.Entry
