import Verif.Model.PyStubs

/-!
# C106: calls that fit the type stubs
-/
namespace Tket.PyStubs

/-- Declared in the stubs, but not there. -/
def missing : List String := ["Tk2Circuit.to_hugr_json", "Tk2Circuit.from_hugr_json", "Tk2Circuit.to_package_json",
  "Tk2Circuit.from_package_json", "CustomOp", "HugrType"]

/-- Parameters have other names: the function, the name in the stub. -/
def renamed : List (String × String) := [("Tk2Circuit.from_bytes", "envelope"), ("Node", "idx"),
  ("render_circuit_dot", "hugr"), ("render_circuit_mermaid", "hugr"), ("validate_circuit", "hugr"), ("Pauli", "pauli"),
  ("CircuitChunks.update_circuit", "circ"), ("BadgerOptimiser.load_precompiled", "filename"),
  ("BadgerOptimiser.compile_eccs", "filename"), ("RuleMatcher.find_match", "circ"),
  ("RuleMatcher.find_matches", "circ"), ("ECCRewriter.load_precompiled", "filename"),
  ("ECCRewriter.compile_eccs", "filename")]

/-- The number or order of the parameters is different. -/
def different : List String := ["Tk2Circuit.__deepcopy__", "BadgerOptimiser.optimise"]

/-- The same parameters, but for names. -/
def sameShape (s t : Sig) : Bool := s.map (fun p => (p.kwOnly, p.dflt)) == t.map (fun p => (p.kwOnly, p.dflt))

theorem stub_same : ∀ e ∈ stub, e.1 ∉ missing → e.1 ∉ renamed.map (·.1) → e.1 ∉ different →
    rust.lookup e.1 = stub.lookup e.1 := by
  decide +kernel

/-- Every call of every other function that is declared in the stubs binds its arguments as declared, or is refused
as declared.  Missing: the functions in the three lists, see the theorems below. -/
theorem C106_calls_partial : ∀ e ∈ stub, e.1 ∉ missing → e.1 ∉ renamed.map (·.1) → e.1 ∉ different →
    ∀ c, call rust e.1 c = call stub e.1 c := by
  intro e he h1 h2 h3 c
  simp only [call, stub_same e he h1 h2 h3]

theorem slots_pos {s t : Sig} (n : Nat) (h : s.map (fun p => (p.kwOnly, p.dflt)) = t.map (fun p => (p.kwOnly, p.dflt))) :
    ∀ k, (s.zipIdx k).map (fun x => if byPos ⟨n, []⟩ x.1 x.2 then some (Src.pos x.2)
        else if ([] : List String).contains x.1.name then some (.kw x.1.name) else none) =
      (t.zipIdx k).map (fun x => if byPos ⟨n, []⟩ x.1 x.2 then some (Src.pos x.2)
        else if ([] : List String).contains x.1.name then some (.kw x.1.name) else none) := by
  induction s generalizing t with
  | nil => intro k; cases t <;> simp_all
  | cons p s ih =>
    intro k
    cases t with
    | nil => simp at h
    | cons q t =>
      simp only [List.map_cons, List.cons.injEq, Prod.mk.injEq] at h
      simp only [List.zipIdx_cons, List.map_cons, byPos, h.1.1, List.contains_nil, Bool.false_eq_true, if_false,
        List.cons.injEq, true_and]
      have := ih h.2 (k + 1)
      simpa only [byPos, List.contains_nil, Bool.false_eq_true, if_false] using this

theorem filter_length {s t : Sig} (h : s.map (fun p => (p.kwOnly, p.dflt)) = t.map (fun p => (p.kwOnly, p.dflt))) :
    (s.filter fun p => !p.kwOnly).length = (t.filter fun p => !p.kwOnly).length := by
  induction s generalizing t with
  | nil => cases t <;> simp_all
  | cons p s ih =>
    cases t with
    | nil => simp at h
    | cons q t =>
      simp only [List.map_cons, List.cons.injEq, Prod.mk.injEq] at h
      simp only [List.filter_cons, h.1.1]
      split <;> simp [ih h.2]

theorem zip_all {s t : Sig} (h : s.map (fun p => (p.kwOnly, p.dflt)) = t.map (fun p => (p.kwOnly, p.dflt)))
    (l : List (Option Src)) : ((s.zip l).all fun x => x.1.dflt || x.2.isSome) =
      ((t.zip l).all fun x => x.1.dflt || x.2.isSome) := by
  induction s generalizing t l with
  | nil => cases t <;> simp_all
  | cons p s ih =>
    cases t with
    | nil => simp at h
    | cons q t =>
      cases l with
      | nil => rfl
      | cons x l =>
        simp only [List.map_cons, List.cons.injEq, Prod.mk.injEq] at h
        simp only [List.zip_cons_cons, List.all_cons, h.1.2, ih h.2]

/-- Without keywords only the number of parameters, their kinds and defaults matter. -/
theorem bind_pos {s t : Sig} (h : sameShape s t = true) (n : Nat) : bind s ⟨n, []⟩ = bind t ⟨n, []⟩ := by
  have h' := eq_of_beq h
  have hs : slots s ⟨n, []⟩ = slots t ⟨n, []⟩ := slots_pos n h' 0
  have ha : accepts s ⟨n, []⟩ = accepts t ⟨n, []⟩ := by
    simp only [accepts, hs, zip_all h', List.all_nil]
    rw [filter_length h']
  simp only [bind, ha, hs]

/-- Functions whose parameters have other names take positional arguments as declared in the stubs. -/
theorem C106_positional_partial : ∀ f ∈ renamed.map (·.1), ∀ n, call rust f ⟨n, []⟩ = call stub f ⟨n, []⟩ := by
  have key : ∀ f ∈ renamed.map (·.1), (match rust.lookup f, stub.lookup f with
      | some s, some t => sameShape s t
      | _, _ => false) = true := by decide +kernel
  intro f hf n
  have := key f hf
  revert this
  cases hr : rust.lookup f <;> cases hs : stub.lookup f <;> simp only [Bool.false_eq_true, false_implies]
  intro h
  simp only [call, hr, hs, Option.bind_some, bind_pos h n]

/-- A keyword that is not the name of a parameter is refused. -/
theorem bind_unknown (s : Sig) (c : Call) (k : String) (hk : k ∈ c.kws) (hs : ∀ p ∈ s, p.name ≠ k) :
    bind s c = none := by
  have : (s.zipIdx.any fun x => x.1.name == k && !byPos c x.1 x.2) = false := by
    rw [Bool.eq_false_iff]
    intro h
    obtain ⟨x, hx, hx2⟩ := List.any_eq_true.1 h
    simp only [Bool.and_eq_true, beq_iff_eq] at hx2
    exact hs x.1 (List.fst_mem_of_mem_zipIdx hx) hx2.1
  have hall : (c.kws.all fun k => s.zipIdx.any fun x => x.1.name == k && !byPos c x.1 x.2) = false := by
    rw [Bool.eq_false_iff]
    intro h
    rw [List.all_eq_true.1 h k hk] at this
    exact nomatch this
  simp only [bind, accepts, hall, Bool.and_false, Bool.false_and, Bool.false_eq_true, if_false]

/-- The names in the stubs can not be used as keywords: every call with one of them is refused, though the stubs
accept one. -/
theorem C106_keyword_wrong : ∀ x ∈ renamed, (∀ c, x.2 ∈ c.kws → call rust x.1 c = none) ∧
    ∃ c, x.2 ∈ c.kws ∧ (call stub x.1 c).isSome = true := by
  have key : ∀ x ∈ renamed, ((rust.lookup x.1).getD []).all (fun p => p.name != x.2) = true := by decide +kernel
  have key2 : ∀ x ∈ renamed, (call stub x.1
      ⟨(((stub.lookup x.1).getD []).map (·.name)).idxOf x.2, [x.2]⟩).isSome = true := by decide +kernel
  intro x hx
  refine ⟨fun c hc => ?_, ⟨_, [x.2]⟩, List.mem_singleton.2 rfl, key2 x hx⟩
  have h := key x hx
  simp only [call]
  cases hr : rust.lookup x.1 with
  | none => rfl
  | some s =>
    rw [hr, Option.getD_some] at h
    refine bind_unknown s c x.2 hc fun p hp => ?_
    have := List.all_eq_true.1 h p hp
    simpa using this

/-- Four methods and two constructors of the stubs do not exist: every call is refused, though the stubs accept one. -/
theorem C106_missing : ∀ f ∈ missing, (∀ c, call rust f c = none) ∧
    ∃ n, (call stub f ⟨n, []⟩).isSome = true := by
  have key : ∀ f ∈ missing, rust.lookup f = none := by decide +kernel
  have key2 : ∀ f ∈ missing, (call stub f ⟨((stub.lookup f).getD []).length, []⟩).isSome = true := by decide +kernel
  intro f hf
  exact ⟨fun c => by simp only [call, key f hf, Option.bind_none], _, key2 f hf⟩

/-- `__deepcopy__` has to be called with a table, as `copy.deepcopy` does; in the stub it has no parameter. -/
theorem C106_deepcopy : call rust "Tk2Circuit.__deepcopy__" ⟨0, []⟩ = none ∧
    (call stub "Tk2Circuit.__deepcopy__" ⟨0, []⟩).isSome = true ∧
    call rust "Tk2Circuit.__deepcopy__" ⟨1, []⟩ = some [some (.pos 0)] ∧
    call stub "Tk2Circuit.__deepcopy__" ⟨1, []⟩ = none := by
  decide +kernel

/-- Everything in the module but two methods is declared in the stubs. -/
theorem C106_complete_partial : ∀ e ∈ rust,
    e.1 ≠ "Tk2Circuit.to_tket1_json_bytes" → e.1 ≠ "Tk2Circuit.from_tket1_json_bytes" →
    (stub.lookup e.1).isSome = true := by
  decide +kernel

/-- The two methods are not declared. -/
theorem C106_undeclared : rust.lookup "Tk2Circuit.to_tket1_json_bytes" = some [] ∧
    stub.lookup "Tk2Circuit.to_tket1_json_bytes" = none ∧
    rust.lookup "Tk2Circuit.from_tket1_json_bytes" = some [req "json"] ∧
    stub.lookup "Tk2Circuit.from_tket1_json_bytes" = none := by
  decide +kernel

/-- Of the members of `TypeBound` in the stub only `Copyable` exists, with its value; the other member is not
declared. -/
theorem C106_bounds : (∀ x ∈ stubBounds, (rustBounds.lookup x.1).isSome = true ↔ x.1 = "Copyable") ∧
    rustBounds.lookup "Copyable" = stubBounds.lookup "Copyable" ∧ stubBounds.lookup "Linear" = none := by
  decide +kernel

/-! Examples: calls with keywords, in any order, and wrong calls. -/

example : call rust "badger_optimise" ⟨2, ["rebase", "timeout"]⟩ =
    some [some (.pos 0), some (.pos 1), none, some (.kw "timeout"), none, none, none, some (.kw "rebase")] := by
  decide +kernel
example : call rust "badger_optimise" ⟨2, ["optimiser"]⟩ = none := by decide +kernel
example : call rust "badger_optimise" ⟨1, ["timeout"]⟩ = none := by decide +kernel
example : call rust "normalize_guppy" ⟨2, []⟩ = none := by decide +kernel
example : call rust "normalize_guppy" ⟨1, ["inline_dfgs"]⟩ =
    some [some (.pos 0), none, none, none, none, some (.kw "inline_dfgs")] := by decide +kernel
example : call rust "Tk2Circuit.from_bytes" ⟨1, ["function_name"]⟩ =
    some [some (.pos 0), some (.kw "function_name")] := by decide +kernel
example : ("badger_optimise" ∈ stub.map (·.1)) ∧ "badger_optimise" ∉ missing ++ renamed.map (·.1) ++ different := by
  decide +kernel

end Tket.PyStubs
