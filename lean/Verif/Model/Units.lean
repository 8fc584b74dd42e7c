import Verif.Model.Commands

/-!
# Units of circuits and commands

Model of the iterator `Units` (`tket/src/circuit/units.rs`), its filters
(`tket/src/circuit/units/filter.rs`), the queries of circuits that use them (`tket/src/circuit.rs` 213-257)
and the units of commands (`tket/src/circuit/command.rs` 78-124, 167-192).

The iterator yields the ports of a node on one side, with a unit for each: a number for linear values such as
qubits, a wire for the others. `none` is a panic. The direction of the ports is part of the labeller.
-/

namespace Tket.Units

/-- Types, as far as they matter: `type_is_linear` (utils.rs 14-16) and `qb_t`. -/
structure Ty where
  linear : Bool
  qubit : Bool
  id : Nat
  deriving DecidableEq

/-- `CircuitUnit` of `hugr`. -/
inductive CUnit where
  | wire (node port : Nat)
  | linear (i : Nat)
  deriving DecidableEq

/-- What the iterator yields. -/
structure Item where
  unit : CUnit
  port : Nat
  ty : Ty
  deriving DecidableEq

/-- `UnitLabeller` (units.rs 253-270), for the ports of one node on one side. `linear` gets the port and the
number of linear units yielded before it. -/
structure Labeller where
  linear : Nat → Nat → Option Nat
  wire : Nat → Option (Nat × Nat)

/-- `Units` (units.rs 63-80): the types not yet visited, `pos`, `linear_count`. -/
structure Iter where
  rest : List Ty
  pos : Nat
  count : Nat

/-- `new_with_dir` (units.rs 129-144). The types (`init_types`, 154-174) are those of the signature followed by
the types of the static and the other port, if any; here they are any list. -/
def Iter.new (types : List Ty) : Iter := ⟨types, 0, 0⟩

/-- Subtraction of `usize`. -/
def checkedSub (a b : Nat) : Option Nat := if b ≤ a then some (a - b) else none

/-- `make_value` (units.rs 180-191). The inner `none` is the value `None`. -/
def makeValue (L : Labeller) (count : Nat) (t : Ty) (port : Nat) : Option (Option Item) :=
  if t.linear then
    match checkedSub count 1 with
    | none => none
    | some c =>
      match L.linear port c with
      | none => none
      | some u => some (some ⟨.linear u, port, t⟩)
  else
    match L.wire port with
    | none => some none
    | some (n, p) => some (some ⟨.wire n p, port, t⟩)

/-- `next_generic` (units.rs 194-211). -/
def next (L : Labeller) : List Ty → Nat → Nat → Option (Option (Item × Iter))
  | [], _, _ => some none
  | t :: rest, pos, count =>
    let count := if t.linear then count + 1 else count
    match makeValue L count t pos with
    | none => none
    | some (some v) => some (some (v, ⟨rest, pos + 1, count⟩))
    | some none => next L rest (pos + 1) count

/-- At most `k` calls of `next`. -/
def take (L : Labeller) : Nat → Iter → Option (List Item)
  | 0, _ => some []
  | k + 1, s =>
    match next L s.rest s.pos s.count with
    | none => none
    | some none => some []
    | some (some (v, s')) => (take L k s').map (v :: ·)

/-- All items. -/
def collect (L : Labeller) (s : Iter) : Option (List Item) := take L (s.rest.length + 1) s

/-- `size_hint` for outputs (units.rs 223-226). -/
def sizeHintOut (s : Iter) : Nat × Nat := (s.rest.length, s.rest.length)

/-- `size_hint` for inputs (units.rs 240-246). -/
def sizeHintIn (s : Iter) : Nat × Nat := (0, s.rest.length)

/-- `DefaultUnitLabeller` for outputs of `node` (units.rs 276-287). -/
def defaultOut (node : Nat) : Labeller := ⟨fun _ c => some c, fun p => some (node, p)⟩

/-- `DefaultUnitLabeller` for inputs. -/
def defaultIn : Labeller := ⟨fun _ c => some c, fun _ => none⟩

/-- `Command` as a labeller, for inputs (command.rs 167-192): `units` is `input_linear_units`, `linked` the
output linked to an input. -/
def commandIn (units : List Nat) (linked : Nat → Option (Nat × Nat)) : Labeller := ⟨fun p _ => units[p]?, linked⟩

/-- `Command` as a labeller, for outputs. -/
def commandOut (units : List Nat) (node : Nat) : Labeller := ⟨fun p _ => units[p]?, fun p => some (node, p)⟩

/-- `filter_linear` (filter.rs 16-21). -/
def filterLinear (x : Item) : Option (Nat × Nat × Ty) :=
  match x.unit with
  | .linear u => some (u, x.port, x.ty)
  | .wire _ _ => none

/-- `filter_qubit` (filter.rs 24-31). -/
def filterQubit (x : Item) : Option (Nat × Nat × Ty) :=
  match x.unit with
  | .linear u => if x.ty.qubit then some (u, x.port, x.ty) else none
  | .wire _ _ => none

/-- `filter_non_linear` (filter.rs 34-39). -/
def filterNonLinear (x : Item) : Option ((Nat × Nat) × Nat × Ty) :=
  match x.unit with
  | .wire n p => some ((n, p), x.port, x.ty)
  | .linear _ => none

/-- `Circuit::units` (circuit.rs 224-229) for the types of the inputs of the circuit. -/
def circuitUnits (node : Nat) (inputs : List Ty) : Option (List Item) := collect (defaultOut node) (Iter.new inputs)

/-- `Circuit::linear_units`, `nonlinear_units`, `qubits` (circuit.rs 233-257). -/
def linearUnits (node : Nat) (inputs : List Ty) := (circuitUnits node inputs).map (·.filterMap filterLinear)

def nonlinearUnits (node : Nat) (inputs : List Ty) := (circuitUnits node inputs).map (·.filterMap filterNonLinear)

def qubits (node : Nat) (inputs : List Ty) := (circuitUnits node inputs).map (·.filterMap filterQubit)

/-- `Circuit::qubit_count` (circuit.rs 215-220). -/
def qubitCount (node : Nat) (inputs : List Ty) : Option Nat := (qubits node inputs).map List.length

/-- `Command::inputs` (command.rs 113-115) of a node whose linear ports are `n`, after the units `m` of wires
have been assigned. -/
def commandInputs (m : List (Commands.Wire × Nat)) (n : Commands.LNode) (types : List Ty)
    (linked : Nat → Option (Nat × Nat)) : Option (List Item) :=
  collect (commandIn (Commands.process n.ins n.outs m).2.1 linked) (Iter.new types)

/-- `Command::outputs` (command.rs 92-94). -/
def commandOutputs (m : List (Commands.Wire × Nat)) (n : Commands.LNode) (types : List Ty) (node : Nat) :
    Option (List Item) :=
  collect (commandOut (Commands.process n.ins n.outs m).2.2 node) (Iter.new types)

end Tket.Units
