import Verif.Model.Ops

/-
The tables that translate gates between programs and pytket circuits.

Modelled code: `encode_tket_op`, `op_types` and `op_to_hugr` of
`tket/src/serialize/pytket/extension/tket.rs`, and the same functions of
`tket-qsystem/src/pytket/qsystem.rs`.  Parameters are real numbers here; their texts and unit
conversions are in `Model/Params`.
-/
namespace Verif.GateTable

open Tket

/-- The gates of pytket that occur in the tables; the rest is numbered. -/
inductive PytketOp
  | H | CX | CY | CZ | CRz | T | Tdg | S | Sdg | V | Vdg | X | Y | Z | Rx | Ry | Rz | CCX
  | Reset | Measure | PhasedX | ZZPhase | ZZMax
  | other (n : Nat)
  deriving DecidableEq, Repr

/-- What an emitter does with an operation: a command, no command, or leave it to the handling of
unsupported operations. -/
inductive Emit
  | command (p : PytketOp)
  | silent
  | unsupported
  deriving DecidableEq, Repr

/-- `encode_tket_op`, `tket.rs:55-98`. -/
def emit : TketOp → Emit
  | .H => .command .H
  | .CX => .command .CX
  | .CY => .command .CY
  | .CZ => .command .CZ
  | .CRz => .command .CRz
  | .T => .command .T
  | .Tdg => .command .Tdg
  | .S => .command .S
  | .Sdg => .command .Sdg
  | .V => .command .V
  | .Vdg => .command .Vdg
  | .X => .command .X
  | .Y => .command .Y
  | .Z => .command .Z
  | .Rx => .command .Rx
  | .Rz => .command .Rz
  | .Ry => .command .Ry
  | .Toffoli => .command .CCX
  | .Reset => .command .Reset
  | .Measure => .command .Measure
  | .MeasureFree => .command .Measure
  | .QAlloc => .silent
  | .QFree => .silent
  | .TryQAlloc => .unsupported

/-- `op_types`, `tket.rs:120-143`. -/
def opTypes : List PytketOp :=
  [.H, .CX, .CY, .CZ, .CRz, .T, .Tdg, .S, .Sdg, .V, .Vdg, .X, .Y, .Z, .Rx, .Rz, .Ry, .CCX, .Reset,
    .Measure]

/-- The table of `op_to_hugr`, `tket.rs:155-182`. -/
def decode : PytketOp → Option TketOp
  | .H => some .H
  | .CX => some .CX
  | .CY => some .CY
  | .CZ => some .CZ
  | .CRz => some .CRz
  | .T => some .T
  | .Tdg => some .Tdg
  | .S => some .S
  | .Sdg => some .Sdg
  | .V => some .V
  | .Vdg => some .Vdg
  | .X => some .X
  | .Y => some .Y
  | .Z => some .Z
  | .Rx => some .Rx
  | .Ry => some .Ry
  | .Rz => some .Rz
  | .CCX => some .Toffoli
  | .Reset => some .Reset
  | .Measure => some .Measure
  | _ => none

/-- `QSystemOp` (`tket-qsystem/src/extension/qsystem.rs`). -/
inductive QOp
  | Measure | LazyMeasure | LazyMeasureLeaked | LazyMeasureReset | MeasureReset
  | Rz | PhasedX | ZZPhase | Reset | QFree | TryQAlloc
  deriving DecidableEq, Repr

/-- `encode_qsystem_op`, `qsystem.rs:56-87`. -/
def emitQ : QOp → Emit
  | .Measure => .command .Measure
  | .LazyMeasure => .command .Measure
  | .Rz => .command .Rz
  | .PhasedX => .command .PhasedX
  | .ZZPhase => .command .ZZPhase
  | .Reset => .command .Reset
  | .QFree => .silent
  | .LazyMeasureReset | .MeasureReset => .unsupported
  | .LazyMeasureLeaked => .unsupported
  | .TryQAlloc => .unsupported

/-- `op_types`, `qsystem.rs:119-126`. -/
def opTypesQ : List PytketOp := [.PhasedX, .ZZPhase, .ZZMax]

/-- `op_to_hugr`, `qsystem.rs:137-165`: the operation and its parameters in half-turns, given those of
the command. -/
def decodeQ {R : Type} (half : R) (p : PytketOp) (params : List R) : Option (QOp × List R) :=
  match p with
  | .PhasedX => some (.PhasedX, params)
  | .ZZPhase => some (.ZZPhase, params)
  | .ZZMax => some (.ZZPhase, [half])
  | _ => none

end Verif.GateTable
