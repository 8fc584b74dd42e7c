import Verif.Model.PyCost
import Mathlib.Algebra.BigOperators.Group.List.Basic
import Mathlib.Algebra.Order.Group.Int
import Mathlib.Algebra.Group.Int.Defs

/-!
# C88: costs given by Python functions
-/

namespace Tket.PyCost

variable {V E Op : Type}

/-- Objects `v` with `ok v` behave as elements of an ordered group with value `val v` (what the
documentation of `circuit_cost` asks for). -/
structure Lawful {A : Type} [LinearOrder A] [AddCommGroup A] (py : Py V) (ok : V → Prop) (val : V → A) :
    Prop where
  add : ∀ a b, ok a → ok b → ∃ c, py.add a b = some c ∧ ok c ∧ val c = val a + val b
  sub : ∀ a b, ok a → ok b → ∃ c, py.sub a b = some c ∧ ok c ∧ val c = val a - val b
  lt : ∀ a b, ok a → ok b → ∃ c, py.lt a b = some c ∧ py.truthy c = some (decide (val a < val b))
  eq : ∀ a b, ok a → ok b → ∃ c, py.eq a b = some c ∧ py.truthy c = some (decide (val a = val b))

/-- The cost of one command, if it is a `TketOp` and the cost function does not raise an exception. -/
def Costs (f : Op → Except E V) (c : Cmd Op) (v : V) : Prop := ∃ o, c = .tket o ∧ f o = .ok v

/-- The error of one command. -/
def Fails (f : Op → Except E V) (c : Cmd Op) (e : CostErr E) : Prop :=
  (∃ n, c = .other n ∧ e = .notTket n) ∨ ∃ o x, c = .tket o ∧ f o = .error x ∧ e = .fn x

theorem opCost_ok {f : Op → Except E V} {c : Cmd Op} {v : V} (h : Costs f c v) : opCost f c = .ok v := by
  obtain ⟨o, rfl, h⟩ := h
  simp [opCost, h]

theorem opCost_error {f : Op → Except E V} {c : Cmd Op} {e : CostErr E} (h : Fails f c e) :
    opCost f c = .error e := by
  rcases h with ⟨n, rfl, rfl⟩ | ⟨o, x, rfl, h, rfl⟩
  · rfl
  · simp [opCost, h]

theorem sumFrom_lawful {A : Type} [LinearOrder A] [AddCommGroup A] {py : Py V} {ok : V → Prop}
    {val : V → A} (hl : Lawful py ok val) (f : Op → Except E V) :
    ∀ (cs : List (Cmd Op)) (vs : List V) (w : V), List.Forall₂ (Costs f) cs vs → (∀ v ∈ vs, ok v) →
      ok w → ∃ r, ok r ∧ val r = val w + (vs.map val).sum ∧
        ∀ rest, sumFrom py f (some w) (cs ++ rest) = sumFrom py f (some r) rest := by
  intro cs
  induction cs with
  | nil =>
    intro vs w h _ hw
    cases h
    exact ⟨w, hw, by simp, fun _ => rfl⟩
  | cons c cs ih =>
    intro vs w h hv hw
    cases h with
    | cons h1 h2 =>
      rename_i v vs
      rw [List.forall_mem_cons] at hv
      obtain ⟨x, hx, hok, hval⟩ := hl.add w v hw hv.1
      obtain ⟨r, hr, hr2, hr3⟩ := ih vs x h2 hv.2 hok
      refine ⟨r, hr, ?_, ?_⟩
      · rw [hr2, hval, List.map_cons, List.sum_cons, add_assoc]
      · intro rest
        rw [List.cons_append, sumFrom, opCost_ok h1]
        simp only [hx]
        exact hr3 rest

/-- **C88 (sum).** For every circuit with at least one command, all of them `TketOp`s, and every cost
function whose objects add up as the documentation asks for, the cost of the circuit is the sum of the
costs of its commands. -/
theorem C88_sum_partial {A : Type} [LinearOrder A] [AddCommGroup A] {py : Py V} {ok : V → Prop}
    {val : V → A} (hl : Lawful py ok val) (f : Op → Except E V) (cs : List (Cmd Op)) (vs : List V)
    (h : List.Forall₂ (Costs f) cs vs) (hv : ∀ v ∈ vs, ok v) (hne : cs ≠ []) :
    ∃ r, circuitCost py f cs = .ok r ∧ ok r ∧ val r = (vs.map val).sum := by
  cases h with
  | nil => exact absurd rfl hne
  | cons h1 h2 =>
    rename_i c v cs vs
    rw [List.forall_mem_cons] at hv
    obtain ⟨r, hr, hr2, hr3⟩ := sumFrom_lawful hl f cs vs v h2 hv.2 hv.1
    refine ⟨r, ?_, hr, by rw [hr2, List.map_cons, List.sum_cons]⟩
    rw [circuitCost, sumFrom, opCost_ok h1]
    have := hr3 []
    rw [List.append_nil] at this
    simp only [this]
    rfl

/-- **C88 (errors).** The first command that is not a `TketOp`, or on which the cost function raises an
exception, decides the outcome: its error is raised, whatever comes after it. -/
theorem C88_first_error {A : Type} [LinearOrder A] [AddCommGroup A] {py : Py V} {ok : V → Prop}
    {val : V → A} (hl : Lawful py ok val) (f : Op → Except E V) (cs : List (Cmd Op)) (vs : List V)
    (h : List.Forall₂ (Costs f) cs vs) (hv : ∀ v ∈ vs, ok v) (c : Cmd Op) (e : CostErr E)
    (hc : Fails f c e) (rest : List (Cmd Op)) :
    circuitCost py f (cs ++ c :: rest) = .raised e := by
  cases h with
  | nil =>
    rw [List.nil_append, circuitCost, sumFrom, opCost_error hc]
  | cons h1 h2 =>
    rename_i c1 v cs vs
    rw [List.forall_mem_cons] at hv
    obtain ⟨r, _, _, hr3⟩ := sumFrom_lawful hl f cs vs v h2 hv.2 hv.1
    rw [List.cons_append, circuitCost, sumFrom, opCost_ok h1]
    simp only [hr3]
    rw [sumFrom, opCost_error hc]

/-- **C88 (order).** Such costs are compared as their values: the comparison is a total order. -/
theorem C88_compare {A : Type} [LinearOrder A] [AddCommGroup A] {py : Py V} {ok : V → Prop}
    {val : V → A} (hl : Lawful py ok val) (a b : V) (ha : ok a) (hb : ok b) :
    (cmp py a b = some .lt ↔ val a < val b) ∧ (cmp py a b = some .eq ↔ val a = val b) ∧
      (cmp py a b = some .gt ↔ val b < val a) := by
  obtain ⟨x, h1, h2⟩ := hl.lt a b ha hb
  obtain ⟨y, h3, h4⟩ := hl.eq a b ha hb
  have : cmp py a b = some (if val a < val b then .lt else if val a = val b then .eq else .gt) := by
    simp only [cmp, h1, h2, h3, h4, Option.bind_eq_bind, Option.bind_some, Option.pure_def]
    by_cases c1 : val a < val b
    · simp [c1]
    · by_cases c2 : val a = val b
      · simp [c2]
      · simp [c1, c2]
  rw [this]
  rcases lt_trichotomy (val a) (val b) with h | h | h
  · simp [h, h.ne, h.not_gt]
  · simp [h]
  · simp [h, h.ne', h.not_gt]

/-- **C88 (differences).** Adding the difference of two costs gives the first one back. -/
theorem C88_delta {A : Type} [LinearOrder A] [AddCommGroup A] {py : Py V} {ok : V → Prop}
    {val : V → A} (hl : Lawful py ok val) (a b : V) (ha : ok a) (hb : ok b) :
    ∃ d r, subCost py a b = some d ∧ addDelta py b d = some r ∧ val r = val a := by
  obtain ⟨d, h1, h2, h3⟩ := hl.sub a b ha hb
  obtain ⟨r, h4, _, h5⟩ := hl.add b d hb h2
  exact ⟨d, r, h1, h4, by rw [h5, h3, add_comm, sub_add_cancel]⟩

/-! ## Numbers of Python -/

/-- Integers and booleans are lawful costs. -/
theorem C88_integers (ni : Option Bool) :
    Lawful (builtin ni) (fun v => v.asInt.isSome) (fun v => v.asInt.getD 0) where
  add a b ha hb := by
    obtain ⟨x, hx⟩ := Option.isSome_iff_exists.1 ha
    obtain ⟨y, hy⟩ := Option.isSome_iff_exists.1 hb
    refine ⟨.int (x + y), ?_, rfl, by rw [hx, hy]; rfl⟩
    cases a <;> simp_all [builtin, arith, Val.asInt]
  sub a b ha hb := by
    obtain ⟨x, hx⟩ := Option.isSome_iff_exists.1 ha
    obtain ⟨y, hy⟩ := Option.isSome_iff_exists.1 hb
    refine ⟨.int (x - y), ?_, rfl, by rw [hx, hy]; rfl⟩
    cases a <;> simp_all [builtin, arith, Val.asInt]
  lt a b ha hb := by
    obtain ⟨x, hx⟩ := Option.isSome_iff_exists.1 ha
    obtain ⟨y, hy⟩ := Option.isSome_iff_exists.1 hb
    refine ⟨.bool (decide (x < y)), ?_, by simp [builtin, hx, hy]⟩
    cases a <;> simp_all [builtin, compareWith, Val.asInt]
  eq a b ha hb := by
    obtain ⟨x, hx⟩ := Option.isSome_iff_exists.1 ha
    obtain ⟨y, hy⟩ := Option.isSome_iff_exists.1 hb
    refine ⟨.bool (decide (x = y)), ?_, by simp [builtin, hx, hy]⟩
    cases a <;> simp_all [builtin, compareWith, Val.asInt]

/-- So are floats (that are added without rounding), if all costs are floats. -/
theorem C88_floats (ni : Option Bool) :
    Lawful (builtin ni) (fun v => ∃ n, v = .float n) (fun v => v.asNum.getD 0) where
  add a b ha hb := by obtain ⟨x, rfl⟩ := ha; obtain ⟨y, rfl⟩ := hb; exact ⟨.float (x + y), rfl, ⟨_, rfl⟩, rfl⟩
  sub a b ha hb := by obtain ⟨x, rfl⟩ := ha; obtain ⟨y, rfl⟩ := hb; exact ⟨.float (x - y), rfl, ⟨_, rfl⟩, rfl⟩
  lt a b ha hb := by obtain ⟨x, rfl⟩ := ha; obtain ⟨y, rfl⟩ := hb; exact ⟨_, rfl, rfl⟩
  eq a b ha hb := by obtain ⟨x, rfl⟩ := ha; obtain ⟨y, rfl⟩ := hb; exact ⟨_, rfl, rfl⟩

/-- A cost function on gates with numbers. -/
def exCost (o : Nat) : Except Unit Val := if o = 9 then .error () else .ok (.int o)

example : circuitCost (builtin none) exCost [.tket 1, .tket 0, .tket 5] = .ok (.int 6) := by decide
example : List.Forall₂ (Costs exCost) [.tket 1, .tket 5] [.int 1, .int 5] :=
  .cons ⟨1, rfl, rfl⟩ (.cons ⟨5, rfl, rfl⟩ .nil)
example : circuitCost (builtin none) exCost [.tket 1, .tket 9, .other "x"] = .raised (.fn ()) := by decide

/-- **C88 (false: empty circuits).** The cost of a circuit without commands is `None`, not zero, for every
cost function. -/
theorem C88_empty_wrong (py : Py V) (f : Op → Except E V) : circuitCost py f [] = .ok py.none := rfl

/-- **C88 (false: other operations).** One command that is no `TketOp`, such as the load of a constant
angle, makes the call raise an exception, for all cost functions on integers. -/
theorem C88_other_operations_wrong (ni : Option Bool) (f : Op → Except E Val) (cs : List (Cmd Op))
    (vs : List Val) (h : List.Forall₂ (Costs f) cs vs) (hv : ∀ v ∈ vs, v.asInt.isSome) (n : String)
    (rest : List (Cmd Op)) :
    circuitCost (builtin ni) f (cs ++ .other n :: rest) = .raised (.notTket n) :=
  C88_first_error (C88_integers ni) f cs vs h hv _ _ (.inl ⟨n, rfl, rfl⟩) rest

/-- A cost function with a float for gate 1. -/
def mixed (o : Nat) : Except Unit Val := .ok (if o = 1 then .float 1 else .int o)

/-- **C88 (false: mixed numbers).** With integers and floats the outcome depends on the order of the
commands: the sum, the object `NotImplemented`, or a panic. -/
theorem C88_mixed_wrong :
    circuitCost (builtin (some true)) mixed [.tket 1, .tket 2, .tket 2] = .ok (.float 5) ∧
    circuitCost (builtin (some true)) mixed [.tket 2, .tket 2, .tket 1] = .ok .notImplemented ∧
    circuitCost (builtin (some true)) mixed [.tket 2, .tket 1, .tket 2] = .panic := by decide

/-- **C88 (false: comparison of mixed numbers).** An integer is less than every float, or the comparison
panics (from Python 3.14). -/
theorem C88_mixed_compare_wrong (x y : Int) :
    cmp (builtin (some true)) (.int x) (.float y) = some .lt ∧
      cmp (builtin none) (.int x) (.float y) = none := by
  constructor <;> rfl

/-- **C88 (false: division).** The division of a cost does not depend on the divisor, and panics for all
numbers: `__div__` does not exist in Python 3 and is called without argument. -/
theorem C88_division_wrong (py : Py V) (a : V) (n m : Nat) (ni : Option Bool) (x : Val) :
    divCost py a n = divCost py a m ∧ divCost (builtin ni) x n = none := ⟨rfl, rfl⟩

/-- **C88 (conversion).** Costs from 0 to 2⁶³ - 1 convert to themselves; negative ones to huge numbers. -/
theorem C88_as_usize (ni : Option Bool) (n : Int) :
    (0 ≤ n → n < 9223372036854775808 → asUsize (builtin ni) (.int n) = some n.toNat) ∧
    (n < 0 → -9223372036854775808 ≤ n →
      asUsize (builtin ni) (.int n) = some (n + 18446744073709551616).toNat) := by
  constructor
  · intro h1 h2
    have h : -9223372036854775808 ≤ n ∧ n < 9223372036854775808 := ⟨by omega, h2⟩
    simp only [asUsize, builtin, Val.asNum, Val.asInt, Option.bind_some, if_pos h, Option.map_some]
    congr 2; omega
  · intro h1 h2
    have h : -9223372036854775808 ≤ n ∧ n < 9223372036854775808 := ⟨h2, by omega⟩
    simp only [asUsize, builtin, Val.asNum, Val.asInt, Option.bind_some, if_pos h, Option.map_some]
    congr 2; omega

end Tket.PyCost
