import Verif.Model.PyOps

/-
What objects for operations stand for.
-/
namespace Tket.PyOps

/-- The operation that a member of the enumeration of Python stands for. -/
def PyOp.Means : PyOp → TketOp
  | .H => .H | .CX => .CX | .CY => .CY | .CZ => .CZ | .CRz => .CRz | .T => .T | .Tdg => .Tdg | .S => .S
  | .Sdg => .Sdg | .X => .X | .Y => .Y | .Z => .Z | .Rz => .Rz | .Rx => .Rx | .Ry => .Ry
  | .Toffoli => .Toffoli | .Measure => .Measure | .MeasureFree => .MeasureFree | .QAlloc => .QAlloc
  | .TryQAlloc => .TryQAlloc | .QFree => .QFree | .Reset => .Reset | .V => .V | .Vdg => .Vdg

/-- The matrix that a member of the enumeration of Python stands for. -/
def PyPauli.Means : PyPauli → Pauli
  | .I => .I | .X => .X | .Y => .Y | .Z => .Z

/-- The operation that an object stands for, of either class. -/
def Obj.Op : Obj → Option TketOp
  | .op p => some p.Means
  | .rsOp o => some o
  | _ => none

end Tket.PyOps
