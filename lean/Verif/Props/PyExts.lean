import Verif.Model.PyExtsSpec
import Verif.Props.ExtOps
import Mathlib.Data.List.Nodup
import Mathlib.Data.List.Perm.Basic

/-
Properties of the Python package of extensions: see C101 in properties.jsonl.
-/
namespace Verif.PyExts

open Verif.ExtOps (TArg Elem LElem ofTypes ofRow)
open Verif.Results (Str ROp)

/-! ### Lemmas -/

theorem fits_ofTypes (copyable : Nat → Prop) (r : List Nat) :
    (PParam.row .linear).fits copyable (ofTypes r) := by
  intro e he
  simp only [List.mem_map, exists_exists_and_eq_and] at he
  obtain ⟨t, _, rfl⟩ := he
  exact ⟨t, rfl, by simp⟩

theorem fits_str (copyable : Nat → Prop) (n : Str) : PParam.str.fits copyable (.str n) := trivial

theorem fits_nat (copyable : Nat → Prop) (n : Nat) :
    (PParam.nat none).fits copyable (.nat n) := trivial

theorem fits_bounded (copyable : Nat → Prop) (b n : Nat) :
    (PParam.nat (some b)).fits copyable (.nat n) ↔ n < b := Iff.rfl

theorem fits_ty (copyable : Nat → Prop) (t : Nat) :
    (PParam.ty .linear).fits copyable (.ty t) := trivial

theorem rFrom_name (d : Results.Def) (as : List TArg) :
    ExtOps.rFrom ⟨.result, ExtOps.rName d, as⟩ = ExtOps.rInst d as := by
  simp only [ExtOps.rFrom, if_true]
  rw [ExtOps.rFind]
  rfl

/-- Attributes of one extension and the definitions behind them. -/
theorem attr_eq {x : PExt} {a n : String} {ps : List PParam}
    (h : decide (attr x a = some (n, ps)) = true) : attr x a = some (n, ps) :=
  of_decide_eq_true h

theorem inst_eq {x : PExt} {a n : String} {ps : List PParam} (as : List TArg)
    (h : decide (attr x a = some (n, ps)) = true) : inst x a as = some ⟨x, n, as⟩ := by
  rw [inst, attr_eq h]
  rfl

/-! ### Property theorems -/

/-- The files of the package list the operations that the Rust extensions declare, each once, with
the same parameters. -/
theorem C101_data (x : PExt) : (data x).Perm (rust x) ∧ ((data x).map (·.1)).Nodup := by
  cases x <;> decide +kernel

/-- Except in the extension of global phases, each attribute gives an operation, and this has the
attribute's name. -/
theorem C101_attribute (x : PExt) (hx : x ≠ .globalPhase) :
    ∀ p ∈ attrs x, ∃ d, attr x p.1 = some d ∧ sameName p.1 d.1 = true ∧ d ∈ rust x := by
  have h : ((attrs x).all fun p => match attr x p.1 with
    | some d => sameName p.1 d.1 && decide (d ∈ rust x)
    | none => false) = true := by
    cases x <;> first | exact absurd rfl hx | decide +kernel
  intro p hp
  have := List.all_eq_true.mp h p hp
  cases ha : attr x p.1 with
  | none => simp [ha] at this
  | some d =>
    simp only [ha, Bool.and_eq_true, decide_eq_true_eq] at this
    exact ⟨d, rfl, this⟩

/-- Except for global phases, `OPS` lists every operation of the extension once. -/
theorem C101_ops (x : PExt) (hx : x ≠ .globalPhase) : ∃ l, ops x = some l ∧ l.Perm (rust x) := by
  have h : (match ops x with
    | some l => decide (l.Perm (rust x))
    | none => false) = true := by
    cases x <;> first | exact absurd rfl hx | decide +kernel
  cases ho : ops x with
  | none => simp [ho] at h
  | some l => exact ⟨l, rfl, by simpa [ho] using h⟩

/-- The attribute for global phases always raises, and so does `OPS`: it asks for `GlobalPhase`,
and the operation is called `global_phase`. -/
theorem C101_global_phase :
    run (.plain .globalPhase "global_phase") = none ∧ ops .globalPhase = none ∧
      ("global_phase", "GlobalPhase") ∈ attrs .globalPhase ∧
      ("global_phase", []) ∈ data .globalPhase ∧ ("global_phase", []) ∈ rust .globalPhase := by
  decide +kernel

/-- Operations of an extension have different names. -/
theorem declared_iff (copyable : Nat → Prop) {x : PExt} {n : String} {ps : List PParam}
    (as : List TArg) (h : decide ((n, ps) ∈ rust x) = true) :
    Declared copyable ⟨x, n, as⟩ ↔ List.Forall₂ (fun p a => p.fits copyable a) ps as := by
  have h := of_decide_eq_true h
  constructor
  · rintro ⟨ps', h', hf⟩
    have hn : ((rust x).map (·.1)).Nodup :=
      ((C101_data x).1.map (·.1)).nodup_iff.mp (C101_data x).2
    have := List.inj_on_of_nodup_map hn h' h rfl
    rw [(Prod.mk.injEq ..).mp this |>.2] at hf
    exact hf
  · intro hf
    exact ⟨ps, h, hf⟩

/-- The extension, name, parameters and arguments of the operation of a method. -/
def shape : Call → PExt × String × List PParam × List TArg
  | .plain x a => (x, a, [], [])
  | .stateResult n k => (.debug, "StateResult", [.str, .nat none], [.str n, .nat k])
  | .dup t => (.futures, "Dup", [.ty .linear], [.ty t])
  | .free t => (.futures, "Free", [.ty .linear], [.ty t])
  | .read t => (.futures, "Read", [.ty .linear], [.ty t])
  | .call g i o =>
    (computeExt g, "call", [.row .linear, .row .linear], [ofTypes i, ofTypes o])
  | .lookupById g k i o =>
    (computeExt g, "lookup_by_id", [.nat none, .row .linear, .row .linear],
      [.nat k, ofTypes i, ofTypes o])
  | .lookupByName g n i o =>
    (computeExt g, "lookup_by_name", [.str, .row .linear, .row .linear],
      [.str n, ofTypes i, ofTypes o])
  | .readResult g o => (computeExt g, "read_result", [.row .linear], [ofTypes o])
  | .drop t => (.guppy, "drop", [.ty .linear], [.ty t])
  | .runtimeBarrier k => (.qsystem, "RuntimeBarrier", [.nat none], [.nat k])
  | .symbolicAngle e => (.quantum, "symbolic_angle", [.str], [.str e])
  | .resultArrayBool l k => (.result, "result_array_bool", [.str, .nat none], [.str l, .nat k])
  | .resultArrayF64 l k => (.result, "result_array_f64", [.str, .nat none], [.str l, .nat k])
  | .resultArrayInt l k w =>
    (.result, "result_array_int", [.str, .nat none, .nat (some 7)], [.str l, .nat k, .nat w])
  | .resultArrayUInt l k w =>
    (.result, "result_array_uint", [.str, .nat none, .nat (some 7)], [.str l, .nat k, .nat w])
  | .resultBool l => (.result, "result_bool", [.str], [.str l])
  | .resultF64 l => (.result, "result_f64", [.str], [.str l])
  | .resultInt l w => (.result, "result_int", [.str, .nat (some 7)], [.str l, .nat w])
  | .resultUInt l w => (.result, "result_uint", [.str, .nat (some 7)], [.str l, .nat w])

theorem run_shape (c : Call) (hc : ∀ x a, c ≠ .plain x a) :
    run c = some ⟨(shape c).1, (shape c).2.1, (shape c).2.2.2⟩ ∧
      decide (((shape c).2.1, (shape c).2.2.1) ∈ rust (shape c).1) = true := by
  cases c with
  | plain x a => exact absurd rfl (hc x a)
  | call g i o => cases g <;> exact ⟨inst_eq _ (ps := [.row .linear, .row .linear])
      (decide_eq_true (by dsimp only [shape]; decide +kernel)), decide_eq_true (by dsimp only [shape]; decide +kernel)⟩
  | lookupById g k i o =>
    cases g <;> exact ⟨inst_eq _ (ps := [.nat none, .row .linear, .row .linear])
      (decide_eq_true (by dsimp only [shape]; decide +kernel)), decide_eq_true (by dsimp only [shape]; decide +kernel)⟩
  | lookupByName g k i o =>
    cases g <;> exact ⟨inst_eq _ (ps := [.str, .row .linear, .row .linear])
      (decide_eq_true (by dsimp only [shape]; decide +kernel)), decide_eq_true (by dsimp only [shape]; decide +kernel)⟩
  | readResult g o => cases g <;> exact ⟨inst_eq _ (ps := [.row .linear])
      (decide_eq_true (by dsimp only [shape]; decide +kernel)), decide_eq_true (by dsimp only [shape]; decide +kernel)⟩
  | _ =>
    refine ⟨?_, decide_eq_true (by dsimp only [shape]; decide +kernel)⟩
    simp only [shape, run]
    first
      | exact inst_eq _ (ps := [.str]) (by decide +kernel)
      | exact inst_eq _ (ps := [.nat none]) (by decide +kernel)
      | exact inst_eq _ (ps := [.ty .linear]) (by decide +kernel)
      | exact inst_eq _ (ps := [.str, .nat none]) (by decide +kernel)
      | exact inst_eq _ (ps := [.str, .nat (some 7)]) (by decide +kernel)
      | exact inst_eq _ (ps := [.str, .nat none, .nat (some 7)]) (by decide +kernel)

/-- Except for global phases, attributes that give operations without arguments do so for operations
without parameters, and these are declared in Rust; the others are for operations with
parameters. -/
theorem C101_plain (copyable : Nat → Prop) (x : PExt) (hx : x ≠ .globalPhase) :
    ∀ p ∈ attrs x,
      if givesDef x p.1 then ∃ d, attr x p.1 = some d ∧ d.2 ≠ []
      else ∃ o, run (.plain x p.1) = some o ∧ o.ext = x ∧ sameName p.1 o.name = true ∧
        Declared copyable o := by
  have h : ((attrs x).all fun p => match attr x p.1 with
    | some d => (if givesDef x p.1 then !d.2.isEmpty else decide (d.2 = [])) &&
        (sameName p.1 d.1 && decide (d ∈ rust x))
    | none => false) = true := by
    cases x <;> first | exact absurd rfl hx | decide +kernel
  intro p hp
  have hp := List.all_eq_true.mp h p hp
  cases ha : attr x p.1 with
  | none => simp [ha] at hp
  | some d =>
    simp only [ha, Bool.and_eq_true, decide_eq_true_eq] at hp
    split
    · rename_i hg
      rw [if_pos hg] at hp
      exact ⟨d, rfl, by simpa using hp.1⟩
    · rename_i hg
      rw [if_neg hg] at hp
      refine ⟨⟨x, d.1, []⟩, by simp [run, hg, inst, ha], rfl, hp.2.1, [], ?_, .nil⟩
      have := hp.2.2
      rwa [show d = (d.1, []) from Prod.ext rfl (by simpa using hp.1)] at this

/-- Methods with arguments always give an operation, for all arguments: it is declared in Rust, and
its arguments are of the kinds of the parameters exactly if widths of integers are below 7. -/
theorem C101_method (copyable : Nat → Prop) (c : Call) (hc : ∀ x a, c ≠ .plain x a) :
    ∃ o, run c = some o ∧ (Declared copyable o ↔ ∀ w ∈ c.width, w < 7) := by
  obtain ⟨hr, hd⟩ := run_shape c hc
  refine ⟨_, hr, (declared_iff copyable _ hd).trans ?_⟩
  cases c with
  | plain x a => exact absurd rfl (hc x a)
  | _ => simp [shape, Call.width, fits_ofTypes, fits_str, fits_nat, fits_bounded, fits_ty]

/-- Rust loads the result operations made in Python as those asked for; widths are kept below 256.
-/
theorem C101_result (c : Call) (op : ROp) (h : c.asked = some op) (hw : ∀ w ∈ c.width, w < 256) :
    ∃ o e, run c = some o ∧ stored o = some e ∧ ExtOps.rFrom e = some op := by
  cases c <;> simp only [Call.asked, Option.some.injEq, reduceCtorEq] at h <;> subst h
  all_goals
    refine ⟨_, _, (run_shape _ (by simp)).1, rfl, ?_⟩
    first
      | exact rFrom_name .bool _
      | exact rFrom_name .f64 _
      | exact rFrom_name .arrBool _
      | exact rFrom_name .arrF64 _
      | refine (rFrom_name .int _).trans ?_
      | refine (rFrom_name .uint _).trans ?_
      | refine (rFrom_name .arrInt _).trans ?_
      | refine (rFrom_name .arrUInt _).trans ?_
  all_goals
    simp [shape, ExtOps.rInst, ExtOps.inst3, ExtOps.inst2, ExtOps.simpleOp, ExtOps.arrayOp,
      ExtOps.arrayType, Nat.mod_eq_of_lt (hw _ rfl)]

/-- The width is documented as the number of bits, but it is the logarithm: with any width, the
integers reported do not have this many bits.  From 7 on, the arguments do not even fit. -/
theorem C101_width_is_logarithm (c : Call) (w : Nat) (h : c.width = some w) :
    ∃ o e op bits, run c = some o ∧ stored o = some e ∧ ExtOps.rFrom e = some op ∧
      bitsOf op = some bits ∧ (w < 256 → bits = 2 ^ w ∧ bits ≠ w) ∧
      (7 ≤ w → ∀ copyable, ¬ Declared copyable o) := by
  have hm := C101_method (fun _ => True) c (by rintro x a rfl; simp [Call.width] at h)
  obtain ⟨o, ho, _⟩ := hm
  have hd : 7 ≤ w → ∀ copyable, ¬ Declared copyable o := by
    intro hw copyable hd
    obtain ⟨o', ho', hi⟩ := C101_method copyable c (by rintro x a rfl; simp [Call.width] at h)
    rw [ho] at ho'
    cases ho'
    have := hi.mp hd w h
    omega
  have hb : w < 256 → 2 ^ (w % 256) = 2 ^ w ∧ 2 ^ (w % 256) ≠ w := by
    intro hw
    rw [Nat.mod_eq_of_lt hw]
    exact ⟨rfl, Nat.ne_of_gt Nat.lt_two_pow_self⟩
  cases c <;> simp only [Call.width, Option.some.injEq, reduceCtorEq] at h <;> subst h
  all_goals
    have he := ho
    rw [(run_shape _ (by simp)).1] at he
    cases he
  · exact ⟨_, _, ⟨_, .arrInt, .array (.int (_ % 256)) _⟩, _, ho, rfl, rFrom_name .arrInt _, rfl, hb, hd⟩
  · exact ⟨_, _, ⟨_, .arrUInt, .array (.int (_ % 256)) _⟩, _, ho, rfl, rFrom_name .arrUInt _, rfl,
      hb, hd⟩
  · exact ⟨_, _, ⟨_, .int, .simple (.int (_ % 256))⟩, _, ho, rfl, rFrom_name .int _, rfl, hb, hd⟩
  · exact ⟨_, _, ⟨_, .uint, .simple (.int (_ % 256))⟩, _, ho, rfl, rFrom_name .uint _, rfl, hb, hd⟩

/-- Rust loads operations on futures made in Python as those on futures of the type. -/
theorem C101_futures (t : Nat) :
    ((run (.dup t)).bind stored).bind ExtOps.fFrom = some ⟨.dup, t⟩ ∧
    ((run (.free t)).bind stored).bind ExtOps.fFrom = some ⟨.free, t⟩ ∧
    ((run (.read t)).bind stored).bind ExtOps.fFrom = some ⟨.read, t⟩ := by
  rw [(run_shape (.dup t) (by simp)).1, (run_shape (.free t) (by simp)).1,
    (run_shape (.read t) (by simp)).1]
  exact ⟨(ExtOps.C67_future_stored _ _).mpr rfl, (ExtOps.C67_future_stored _ _).mpr rfl,
    (ExtOps.C67_future_stored _ _).mpr rfl⟩

/-- Rust loads state results made in Python with their tag and number of qubits. -/
theorem C101_state (n : Str) (k : Nat) :
    ((run (.stateResult n k)).bind stored).bind ExtOps.sFrom = some ⟨n, k⟩ := by
  rw [(run_shape (.stateResult n k) (by simp)).1]
  exact (ExtOps.C67_state_stored _ _).mpr rfl

/-- Rust loads calls, lookups and results of classical computing made in Python with their
functions, inputs and outputs, in the extension used and not in the other. -/
theorem C101_compute (g : Bool) (k : Nat) (n : Str) (i o : List Nat) :
    let x : ExtOps.Ext := if g then .gpu else .wasm
    let y : ExtOps.Ext := if g then .wasm else .gpu
    (∀ c, c ∈ [Call.call g i o, .lookupById g k i o, .lookupByName g n i o, .readResult g o] →
      ((run c).bind stored).bind (ExtOps.cFrom y) = none) ∧
    ((run (.call g i o)).bind stored).bind (ExtOps.cFrom x) = some (.call i o) ∧
    ((run (.lookupById g k i o)).bind stored).bind (ExtOps.cFrom x) =
      some (.lookupById k (i.map .ty) (o.map .ty)) ∧
    ((run (.lookupByName g n i o)).bind stored).bind (ExtOps.cFrom x) =
      some (.lookupByName n (i.map .ty) (o.map .ty)) ∧
    ((run (.readResult g o)).bind stored).bind (ExtOps.cFrom x) = some (.readResult o) := by
  intro x y
  rw [(run_shape (.call g i o) (by simp)).1, (run_shape (.lookupById g k i o) (by simp)).1,
    (run_shape (.lookupByName g n i o) (by simp)).1, (run_shape (.readResult g o) (by simp)).1]
  refine ⟨?_, ?_⟩
  · intro c hc
    rw [(run_shape c (by rintro x a rfl; simp at hc)).1]
    simp only [List.mem_cons, List.not_mem_nil, or_false] at hc
    cases g <;> rcases hc with rfl | rfl | rfl | rfl <;> rfl
  · cases g <;> exact ⟨(ExtOps.C67_compute_stored _ _ _).mpr rfl,
      (ExtOps.C67_compute_stored _ _ _).mpr rfl, (ExtOps.C67_compute_stored _ _ _).mpr rfl,
      (ExtOps.C67_compute_stored _ _ _).mpr rfl⟩

/-- Drops, barriers and symbolic angles made in Python have their type, size and expression. -/
theorem C101_others (t k : Nat) (e : Str) :
    run (.drop t) = some ⟨.guppy, "drop", [.ty t]⟩ ∧
    run (.runtimeBarrier k) = some ⟨.qsystem, "RuntimeBarrier", [.nat k]⟩ ∧
    run (.symbolicAngle e) = some ⟨.quantum, "symbolic_angle", [.str e]⟩ :=
  ⟨(run_shape (.drop t) (by simp)).1, (run_shape (.runtimeBarrier k) (by simp)).1,
    (run_shape (.symbolicAngle e) (by simp)).1⟩

/-- Rust loads the types of classical computing made in Python with their rows. -/
theorem C101_compute_types (x : ExtOps.Ext) (i o : List Nat) :
    ExtOps.tyFrom x (tyRun x .context) = some .context ∧
    ExtOps.tyFrom x (tyRun x .module) = some .module ∧
    ExtOps.tyFrom x (tyRun x (.func i o)) = some (.func (i.map .ty) (o.map .ty)) ∧
    ExtOps.tyFrom x (tyRun x (.result o)) = some (.result (o.map .ty)) := by
  have hne : ∀ a b : String, decide (a = b) = false → a ≠ b := fun a b h => of_decide_eq_false h
  simp [ExtOps.tyFrom, tyRun, hne "context" "module" (by decide +kernel), ExtOps.toRow_ofTypes,
    hne "func" "module" (by decide +kernel), hne "func" "context" (by decide +kernel),
    hne "result" "module" (by decide +kernel), hne "result" "context" (by decide +kernel),
    hne "result" "func" (by decide +kernel)]

/-! ### Examples -/

/-- Attributes: a gate, a Boolean operation, and a definition. -/
example : run (.plain .quantum "toffoli") = some ⟨.quantum, "Toffoli", []⟩ ∧
    run (.plain .bool "and_op") = some ⟨.bool, "and", []⟩ ∧
    attr .modifier "power" = some ("PowerModifier", [.row .linear, .row .copyable]) ∧
    givesDef .qsystem "runtime_barrier_def" = true ∧ givesDef .qsystem "measure" = false := by
  decide +kernel

/-- Names: attributes of other operations are told apart. -/
example : sameName "lazy_measure" "LazyMeasure" = true ∧ sameName "control" "ControlModifier" = true ∧
    sameName "lazy_measure" "LazyMeasureReset" = false ∧ sameName "V" "Vdg" = false := by
  decide +kernel

/-- Arrays of 3 integers of 64 bits need the width 6; with the width 64 the arguments do not fit. -/
example : (run (.resultArrayInt ['a'] 3 6)).isSome = true ∧
    (∃ o, run (.resultArrayInt ['a'] 3 64) = some o ∧ ¬ Declared (fun _ => True) o) := by
  refine ⟨by rw [(run_shape _ (by simp)).1]; rfl, ?_⟩
  obtain ⟨o, _, _, _, ho, _, _, _, _, h⟩ :=
    C101_width_is_logarithm (.resultArrayInt ['a'] 3 64) 64 rfl
  exact ⟨o, ho, h (by decide) _⟩

end Verif.PyExts
