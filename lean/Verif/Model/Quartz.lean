import Verif.Model.Ops

/-
Model of `/repo/tket/src/optimiser/badger/qtz_circuit.rs`: loading circuits and classes of circuits written by
Quartz. `CircuitBuilder::append_with_outputs`, `CircuitBuilder::finish` and the validation of `finish_hugr` are
functions of the crate `hugr`; they are modelled by `append`, `St.outs` and `Graph.Valid`.
-/
namespace Verif.Quartz

open Tket

/-- The identifiers of a file: `Q{i}`, `P{i}` (lines 79-84), and all other strings. -/
inductive Name where
  | q (i : Nat)
  | p (i : Nat)
  | other (s : String)
deriving DecidableEq, Repr

/-- `RepCircOp` (lines 16-21). -/
structure Cmd where
  op : String
  outputs : List Name
  inputs : List Name
deriving DecidableEq

/-- `RepCircData` (lines 26-40), without the entries that are not read. -/
structure Data where
  nQb : Nat
  nParam : Nat
  ids : List String
  cmds : List Cmd
deriving DecidableEq

/-- The operations of the loaded circuits. -/
inductive GOp where
  | gate (g : TketOp)
  | radd
deriving DecidableEq, Repr

/-- `map_op` (lines 42-63). `none`: panic. -/
def mapOp : String → Option GOp
  | "add" => some .radd
  | "h" => some (.gate .H)
  | "cx" => some (.gate .CX)
  | "t" => some (.gate .T)
  | "s" => some (.gate .S)
  | "v" => some (.gate .V)
  | "x" => some (.gate .X)
  | "y" => some (.gate .Y)
  | "z" => some (.gate .Z)
  | "tdg" => some (.gate .Tdg)
  | "sdg" => some (.gate .Sdg)
  | "vdg" => some (.gate .Vdg)
  | "rz" => some (.gate .Rz)
  | _ => none

/-- Types of wires. -/
inductive Ty where
  | qubit | rot
deriving DecidableEq, Repr

/-- Inputs and outputs of the operations in the range of `mapOp` (`init_signature`, ops.rs 108-125, and
`RotationOp::radd`, extension/rotation.rs). -/
def GOp.ins : GOp → List Ty
  | .gate g => List.replicate g.qubits .qubit ++ (if g = .Rz then [.rot] else [])
  | .radd => [.rot, .rot]

def GOp.outs : GOp → List Ty
  | .gate g => List.replicate g.qubits .qubit
  | .radd => [.rot]

/-- Wires: an input of the circuit, or an output port of a node. -/
inductive Wire where
  | inp (i : Nat)
  | out (n k : Nat)
deriving DecidableEq, Repr

/-- `CircuitUnit` of `hugr`. -/
inductive CUnit where
  | linear (i : Nat)
  | wire (w : Wire)
deriving DecidableEq

/-- A circuit: the operations with the sources of their inputs, in the order of their creation. -/
structure Graph where
  nQb : Nat
  nParam : Nat
  nodes : List (GOp × List Wire)
  outs : List Wire
deriving DecidableEq

/-- State of the loop (lines 74-108): the map `input_units`, and the wires of the `CircuitBuilder` and the nodes
added to its parent. -/
structure St where
  units : Name → Option CUnit
  wires : List (Option Wire)
  nodes : List (GOp × List Wire)

/-- The state before the loop (lines 74-88). -/
def init (d : Data) : St where
  units
    | .q i => if i < d.nQb then some (.linear i) else none
    | .p i => if i < d.nParam then some (.wire (.inp (d.nQb + i))) else none
    | .other _ => none
  wires := (List.range d.nQb).map (fun i => some (.inp i))
  nodes := []

/-- The wire of a unit. `none`: the index is invalid, or the wire was consumed. -/
def resolve (ws : List (Option Wire)) : CUnit → Option Wire
  | .linear i => ws[i]?.join
  | .wire w => some w

/-- Linear inputs without an output are forgotten. -/
def drop (ws : List (Option Wire)) : CUnit → List (Option Wire)
  | .linear i => ws.set i none
  | .wire _ => ws

/-- The outputs `k, k + 1, …` of the node `n`: an output at the port of a linear input is the new wire of that
unit; the others are returned. -/
def assign (n : Nat) : Nat → Nat → List CUnit → List (Option Wire) → List (Option Wire) × List Wire
  | _, 0, us, ws => (us.foldl drop ws, [])
  | k, m + 1, [], ws =>
    let r := assign n (k + 1) m [] ws
    (r.1, .out n k :: r.2)
  | k, m + 1, .linear i :: us, ws => assign n (k + 1) m us (ws.set i (some (.out n k)))
  | k, m + 1, .wire _ :: us, ws =>
    let r := assign n (k + 1) m us ws
    (r.1, .out n k :: r.2)

/-- `CircuitBuilder::append_with_outputs`. `none`: error. Errors of the wiring are found by the validation in the
model; both panic (lines 102, 113). -/
def append (st : St) (op : GOp) (us : List CUnit) : Option (St × List Wire) := do
  let ins ← us.mapM (resolve st.wires)
  let r := assign st.nodes.length 0 op.outs.length us st.wires
  some (⟨st.units, r.1, st.nodes ++ [(op, ins)]⟩, r.2)

/-- `HashMap::insert`. -/
def insert {α : Type} (f : Name → Option α) (x : Name) (v : α) : Name → Option α :=
  fun y => if y = x then some v else f y

/-- One turn of the loop (lines 91-108). -/
def step (st : St) (c : Cmd) : Option St := do
  let op ← mapOp c.op
  let us ← c.inputs.mapM st.units
  let (st', new) ← append st op us
  some { st' with units := (c.outputs.zip new).foldl (fun f e => insert f e.1 (.wire e.2)) st'.units }

/-- The type of a wire. `none`: there is no such port. -/
def wireTy (nQb nParam : Nat) (nodes : List (GOp × List Wire)) : Wire → Option Ty
  | .inp i => if i < nQb then some .qubit else if i < nQb + nParam then some .rot else none
  | .out n k => nodes[n]?.bind (fun e => e.1.outs[k]?)

/-- How often a wire is used. -/
def Graph.uses (g : Graph) (w : Wire) : Nat := ((g.nodes.flatMap (·.2)) ++ g.outs).count w

/-- The wires of the qubits. -/
def Graph.qubitWires (g : Graph) : List Wire :=
  (List.range g.nQb).map .inp ++
    (List.range g.nodes.length).flatMap (fun n => match g.nodes[n]? with
      | some e => (List.range e.1.outs.length).filterMap (fun k => if e.1.outs[k]? = some .qubit then some (.out n k) else none)
      | none => [])

/-- The validation of `hugr` for these circuits: ports are connected to ports of the same type, and qubits are
used once. -/
def Graph.Valid (g : Graph) : Prop :=
  (∀ e ∈ g.nodes, e.2.map (wireTy g.nQb g.nParam g.nodes) = e.1.ins.map some) ∧
    g.outs.map (wireTy g.nQb g.nParam g.nodes) = List.replicate g.nQb (some .qubit) ∧
    ∀ w ∈ g.qubitWires, g.uses w = 1

instance (g : Graph) : Decidable g.Valid := inferInstanceAs (Decidable (_ ∧ _ ∧ _))

/-- The graph of the state; `CircuitBuilder::finish` (line 110) returns the wires that are left. -/
def St.graph (d : Data) (st : St) : Graph := ⟨d.nQb, d.nParam, st.nodes, st.wires.filterMap id⟩

/-- `Circuit::from(RepCircData)` (lines 66-115). `none`: panic. -/
def load (d : Data) : Option Graph := do
  let st ← d.cmds.foldlM step (init d)
  if (st.graph d).Valid then some (st.graph d) else none

/-- `HashMap::insert` on the classes. -/
def insertClass (m : List (String × List Graph)) (e : String × List Graph) : List (String × List Graph) :=
  m.filter (fun x => x.1 ≠ e.1) ++ [e]

/-- The entry of a class (lines 127-131). `none`: panic. -/
def loadClass (c : List Data) : Option (String × List Graph) := do
  let d ← c.head?
  let id ← d.ids.head?
  let gs ← c.mapM load
  some (id, gs)

/-- `load_ecc_set` (lines 117-134) on the values of the map in the file, in the order of iteration. -/
def loadSet (cs : List (List Data)) : Option (List (String × List Graph)) := do
  let es ← cs.mapM loadClass
  some (es.foldl insertClass [])

end Verif.Quartz
