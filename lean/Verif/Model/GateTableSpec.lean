import Verif.Model.GateTable
import Verif.Quantum.Native

/-
The meaning of pytket's gates, as matrices from its documentation.
-/
noncomputable section

namespace Verif.GateTable

open Tket Tket.Quantum Complex

variable {Q : Type} [DecidableEq Q]

/-- A controlled gate. -/
def controlled (c : Q) (U : Op Q) : Op Q := mat c 1 0 0 0 + mat c 0 0 0 1 * U

/-- The meaning of a pytket gate with parameters `α`, `β` in half-turns.  `out` is the outcome of a
measurement, or of the measurement behind a reset. -/
def pytket (p : PytketOp) (α β : ℝ) (out : Bool) (q : Nat → Q) : Option (Op Q) :=
  match p with
  | .H => some (mat (q 0) (1 / Real.sqrt 2) (1 / Real.sqrt 2) (1 / Real.sqrt 2) (-(1 / Real.sqrt 2)))
  | .X => some (mat (q 0) 0 1 1 0)
  | .Y => some (mat (q 0) 0 (-I) I 0)
  | .Z => some (mat (q 0) 1 0 0 (-1))
  | .S => some (mat (q 0) 1 0 0 I)
  | .Sdg => some (mat (q 0) 1 0 0 (-I))
  | .T => some (mat (q 0) 1 0 0 (exp (I * Real.pi / 4)))
  | .Tdg => some (mat (q 0) 1 0 0 (exp (-(I * Real.pi / 4))))
  | .V => some (mat (q 0) (1 / Real.sqrt 2) (-I / Real.sqrt 2) (-I / Real.sqrt 2) (1 / Real.sqrt 2))
  | .Vdg => some (mat (q 0) (1 / Real.sqrt 2) (I / Real.sqrt 2) (I / Real.sqrt 2) (1 / Real.sqrt 2))
  | .Rx => some (mat (q 0) (cos (Real.pi * α / 2)) (-I * sin (Real.pi * α / 2))
      (-I * sin (Real.pi * α / 2)) (cos (Real.pi * α / 2)))
  | .Ry => some (mat (q 0) (cos (Real.pi * α / 2)) (-sin (Real.pi * α / 2))
      (sin (Real.pi * α / 2)) (cos (Real.pi * α / 2)))
  | .Rz => some (mat (q 0) (exp (-(I * Real.pi * α / 2))) 0 0 (exp (I * Real.pi * α / 2)))
  | .CX => some (controlled (q 0) (mat (q 1) 0 1 1 0))
  | .CY => some (controlled (q 0) (mat (q 1) 0 (-I) I 0))
  | .CZ => some (controlled (q 0) (mat (q 1) 1 0 0 (-1)))
  | .CRz => some (controlled (q 0)
      (mat (q 1) (exp (-(I * Real.pi * α / 2))) 0 0 (exp (I * Real.pi * α / 2))))
  | .CCX => some (controlled (q 0) (controlled (q 1) (mat (q 2) 0 1 1 0)))
  | .Measure => some (if out then mat (q 0) 0 0 0 1 else mat (q 0) 1 0 0 0)
  | .Reset => some (if out then mat (q 0) 0 1 0 0 else mat (q 0) 1 0 0 0)
  | .PhasedX => some (mat (q 0) (cos (Real.pi * α / 2))
      (-I * exp (-(I * Real.pi * β)) * sin (Real.pi * α / 2))
      (-I * exp (I * Real.pi * β) * sin (Real.pi * α / 2)) (cos (Real.pi * α / 2)))
  | .ZZPhase => some (zz (Real.pi * α) (q 0) (q 1))
  | .ZZMax => some (zz (Real.pi / 2) (q 0) (q 1))
  | .other _ => none
where
  /-- The diagonal matrix with entries `e^{-iθ/2}, e^{iθ/2}, e^{iθ/2}, e^{-iθ/2}`. -/
  zz (θ : ℂ) (a b : Q) : Op Q :=
    mat a 1 0 0 0 * mat b (exp (-(I * θ / 2))) 0 0 (exp (I * θ / 2)) +
    mat a 0 0 0 1 * mat b (exp (I * θ / 2)) 0 0 (exp (-(I * θ / 2)))

/-- The meaning of the operations of Q-System with angles in radians. -/
def native (op : QOp) (θ φ : ℝ) (out : Bool) (q : Nat → Q) : Option (Op Q) :=
  match op with
  | .Rz => some (Rz θ (q 0))
  | .PhasedX => some (PhasedX θ φ (q 0))
  | .ZZPhase => some (ZZPhase θ (q 0) (q 1))
  | .Measure | .LazyMeasure => some (if out then P1 (q 0) else P0 (q 0))
  | .Reset => some (if out then X (q 0) * P1 (q 0) else P0 (q 0))
  | _ => none

end Verif.GateTable
