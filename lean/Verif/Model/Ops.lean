/-!
# Model of the quantum operations

Models `/repo/tket/src/ops.rs`.
-/

namespace Tket

/-- `TketOp` (ops.rs 43-68). -/
inductive TketOp where
  | H | CX | CY | CZ | CRz | T | Tdg | S | Sdg | X | Y | Z | Rx | Ry | Rz | Toffoli
  | Measure | MeasureFree | QAlloc | TryQAlloc | QFree | Reset | V | Vdg
deriving DecidableEq, Repr

/-- `Pauli` (ops.rs 89-95). -/
inductive Pauli where
  | I | X | Y | Z
deriving DecidableEq, Repr

/-- `Pauli::commutes_with` (ops.rs 97-102). -/
def Pauli.commutesWith (a b : Pauli) : Bool := a == .I || b == .I || a == b

/-- The number of qubit inputs in `init_signature` (ops.rs 108-125); they come first. -/
def TketOp.qubits : TketOp → Nat
  | .H | .T | .S | .V | .X | .Y | .Z | .Tdg | .Sdg | .Vdg | .Reset => 1
  | .CX | .CZ | .CY => 2
  | .Toffoli => 3
  | .Measure | .MeasureFree => 1
  | .Rz | .Rx | .Ry => 1
  | .CRz => 2
  | .QAlloc | .TryQAlloc => 0
  | .QFree => 1

/-- `qubit_commutation` (ops.rs 160-172). -/
def TketOp.qubitCommutation : TketOp → List (Nat × Pauli)
  | .X | .V | .Vdg | .Rx => [(0, .X)]
  | .Y => [(0, .Y)]
  | .T | .Z | .S | .Tdg | .Sdg | .Rz | .Measure => [(0, .Z)]
  | .CX => [(0, .Z), (1, .X)]
  | .CZ => [(0, .Z), (1, .Z)]
  | _ => []

/-- `commutation_on_port` (commutation.rs 180-184). -/
def commutationOnPort (c : List (Nat × Pauli)) (port : Nat) : Option Pauli :=
  c.findSome? (fun e => if e.1 = port then some e.2 else none)

/-- `is_quantum` (ops.rs 175-182). -/
def TketOp.isQuantum : TketOp → Bool
  | .H | .CX | .T | .S | .V | .X | .Y | .Z | .Tdg | .Sdg | .Vdg | .Rz | .Rx | .Toffoli | .Ry | .CZ
  | .CY | .CRz => true
  | .Measure | .MeasureFree | .QAlloc | .TryQAlloc | .QFree | .Reset => false

end Tket
