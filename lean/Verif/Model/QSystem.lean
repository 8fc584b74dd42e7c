import Verif.Model.Ops
import Mathlib.Analysis.Real.Pi.Bounds

/-!
# Model of the lowering to Q-System operations

Models the builders of `/repo/tket-qsystem/src/extension/qsystem.rs` (lines 227-511) and
`build_func`, `direct_map`, `build_to_radians` of `/repo/tket-qsystem/src/extension/qsystem/lower.rs`
(lines 34-40, 153-214).

A builder is a state that collects the operations added, in order. The output wires of an operation on
qubits are labelled by those qubits. Angles are exact real numbers instead of floats.
-/

noncomputable section

namespace Tket.QSystem

/-- The native gates. -/
inductive Gate (Q : Type) where
  | rz (q : Q) (θ : ℝ)
  | phasedX (q : Q) (θ φ : ℝ)
  | zzPhase (a b : Q) (θ : ℝ)

/-- Operations of a lowered function. `cond` is the conditional on the bit of the last `measureReset`. -/
inductive Instr (Q : Type) where
  | gate (g : Gate Q)
  | measureReset (q : Q)
  | tryQAlloc (q : Q)
  | expectSome
  | cond (case0 case1 : List (Gate Q))

/-- Wires returned by a lowered function. -/
inductive Wire (Q : Type) where
  | qubit (q : Q)
  | bit
deriving DecidableEq

abbrev B (Q α : Type) := StateM (List (Gate Q)) α

variable {Q : Type}

/-- `pi_mul_f64` (lower.rs 34-36). -/
def piMul (m : ℝ) : ℝ := m * Real.pi

/-- `add_rz` (qsystem.rs 281-285). -/
def addRz (q : Q) (θ : ℝ) : B Q Q := do modify (· ++ [.rz q θ]); return q
/-- `add_phased_x` (qsystem.rs 274-278). -/
def addPhasedX (q : Q) (θ φ : ℝ) : B Q Q := do modify (· ++ [.phasedX q θ φ]); return q
/-- `add_zz_phase` (qsystem.rs 267-271). -/
def addZZPhase (a b : Q) (θ : ℝ) : B Q (Q × Q) := do modify (· ++ [.zzPhase a b θ]); return (a, b)
/-- `build_zz_max` (qsystem.rs 261-264). -/
def buildZZMax (a b : Q) : B Q (Q × Q) := addZZPhase a b (piMul 0.5)

/-- qsystem.rs 313-320. -/
def buildH (q : Q) : B Q Q := do
  let q ← addPhasedX q (piMul 0.5) (piMul (-0.5))
  addRz q (piMul 1)
/-- qsystem.rs 323-327. -/
def buildX (q : Q) : B Q Q := addPhasedX q (piMul 1) (piMul 0)
/-- qsystem.rs 330-334. -/
def buildY (q : Q) : B Q Q := addPhasedX q (piMul 1) (piMul 0.5)
/-- qsystem.rs 337-340. -/
def buildZ (q : Q) : B Q Q := addRz q (piMul 1)
/-- qsystem.rs 343-346. -/
def buildS (q : Q) : B Q Q := addRz q (piMul 0.5)
/-- qsystem.rs 349-352. -/
def buildSdg (q : Q) : B Q Q := addRz q (piMul (-0.5))
/-- qsystem.rs 355-359. -/
def buildV (q : Q) : B Q Q := addPhasedX q (piMul 0.5) (piMul 0)
/-- qsystem.rs 362-366. -/
def buildVdg (q : Q) : B Q Q := addPhasedX q (piMul (-0.5)) (piMul 0)
/-- qsystem.rs 369-372. -/
def buildT (q : Q) : B Q Q := addRz q (piMul 0.25)
/-- qsystem.rs 375-378. -/
def buildTdg (q : Q) : B Q Q := addRz q (piMul (-0.25))

/-- qsystem.rs 381-393. -/
def buildCX (c t : Q) : B Q (Q × Q) := do
  let t ← addPhasedX t (piMul (-0.5)) (piMul 0.5)
  let (c, t) ← buildZZMax c t
  let c ← addRz c (piMul (-0.5))
  let t ← addPhasedX t (piMul 0.5) (piMul 1)
  let t ← addRz t (piMul (-0.5))
  return (c, t)

/-- qsystem.rs 396-409. -/
def buildCY (a b : Q) : B Q (Q × Q) := do
  let a ← addPhasedX a (piMul 1) (piMul 1)
  let b ← addPhasedX b (piMul (-0.5)) (piMul 1)
  let (a, b) ← buildZZMax a b
  let a ← addPhasedX a (piMul 1) (piMul 0.5)
  let b ← addPhasedX b (piMul (-0.5)) (piMul (-0.5))
  let a ← addRz a (piMul (-0.5))
  let b ← addRz b (piMul 0.5)
  return (a, b)

/-- qsystem.rs 412-420. -/
def buildCZ (a b : Q) : B Q (Q × Q) := do
  let (a, b) ← buildZZMax a b
  let b ← addRz b (piMul (-0.5))
  let a ← addRz a (piMul (-0.5))
  return (a, b)

/-- qsystem.rs 423-426. -/
def buildRx (q : Q) (θ : ℝ) : B Q Q := addPhasedX q θ (piMul 0)
/-- qsystem.rs 429-432. -/
def buildRy (q : Q) (θ : ℝ) : B Q Q := addPhasedX q θ (piMul 0.5)

/-- qsystem.rs 435-447. -/
def buildCRz (a b : Q) (lam : ℝ) : B Q (Q × Q) := do
  let lam2 := lam / 2
  let (a, b) ← addZZPhase a b (-lam2)
  let b ← addRz b lam2
  return (a, b)

/-- qsystem.rs 450-476. -/
def buildToffoli (a b c : Q) : B Q (Q × Q × Q) := do
  let c ← addPhasedX c (piMul 1) (piMul (-0.5))
  let (b, c) ← buildZZMax b c
  let c ← addPhasedX c (piMul 0.25) (piMul 0.5)
  let (a, c) ← buildZZMax a c
  let c ← addPhasedX c (piMul 0.25) (piMul 0)
  let (b, c) ← buildZZMax b c
  let c ← addPhasedX c (piMul 0.25) (piMul (-0.5))
  let (a, c) ← buildZZMax a c
  let a ← addPhasedX a (piMul 1) (piMul 0.25)
  let c ← addPhasedX c (piMul (-0.75)) (piMul 1)
  let (a, b) ← addZZPhase a b (piMul 0.25)
  let c ← addRz c (piMul 1)
  let a ← addPhasedX a (piMul 1) (piMul (-0.25))
  let b ← addRz b (piMul (-0.75))
  let a ← addRz a (piMul 0.25)
  return (a, b, c)

/-- `build_to_radians` (lower.rs 199-204). -/
def toRadians (halfturns : ℝ) : ℝ := halfturns * piMul 1

/-- Run a builder of gates. -/
def gates {α : Type} (b : B Q α) (out : α → List (Wire Q)) : List (Instr Q) × List (Wire Q) :=
  let r := b.run []
  (r.2.map .gate, out r.1)

/-- `build_measure_flip` (qsystem.rs 479-501). -/
def buildMeasureFlip (q : Q) : List (Instr Q) × List (Wire Q) :=
  ([.measureReset q, .cond [] ((buildX q).run []).2], [.qubit q, .bit])

/-- `build_qalloc` (qsystem.rs 504-510), the new qubit being `q`. -/
def buildQAlloc (q : Q) : List (Instr Q) × List (Wire Q) := ([.tryQAlloc q, .expectSome], [.qubit q])

/-- `build_func` (lower.rs 153-197), with the qubit wires of the inputs and the rotation, if any. `none` is
the error `UnknownOp`; `new` is the qubit allocated by `QAlloc`. -/
def buildFunc (op : TketOp) (new : Q) (qs : List Q) (angle : List ℝ) :
    Option (List (Instr Q) × List (Wire Q)) :=
  let one (b : B Q Q) := some (gates b (fun q => [.qubit q]))
  let two (b : B Q (Q × Q)) := some (gates b (fun r => [.qubit r.1, .qubit r.2]))
  match op, qs, angle with
  | .H, [q], [] => one (buildH q)
  | .X, [q], [] => one (buildX q)
  | .Y, [q], [] => one (buildY q)
  | .Z, [q], [] => one (buildZ q)
  | .S, [q], [] => one (buildS q)
  | .Sdg, [q], [] => one (buildSdg q)
  | .V, [q], [] => one (buildV q)
  | .Vdg, [q], [] => one (buildVdg q)
  | .T, [q], [] => one (buildT q)
  | .Tdg, [q], [] => one (buildTdg q)
  | .Measure, [q], [] => some (buildMeasureFlip q)
  | .QAlloc, [], [] => some (buildQAlloc new)
  | .CX, [c, t], [] => two (buildCX c t)
  | .CY, [c, t], [] => two (buildCY c t)
  | .CZ, [c, t], [] => two (buildCZ c t)
  | .Rx, [q], [h] => one (buildRx q (toRadians h))
  | .Ry, [q], [h] => one (buildRy q (toRadians h))
  | .Rz, [q], [h] => one (addRz q (toRadians h))
  | .CRz, [c, t], [h] => two (buildCRz c t (toRadians h))
  | .Toffoli, [a, b, c], [] =>
    some (gates (buildToffoli a b c) (fun r => [.qubit r.1, .qubit r.2.1, .qubit r.2.2]))
  | _, _, _ => none

/-- The Q-System operations a `TketOp` may be replaced by directly. -/
inductive Direct where
  | tryQAlloc | qFree | reset | measure
deriving DecidableEq

/-- `direct_map` (lower.rs 206-214). -/
def directMap : TketOp → Option Direct
  | .TryQAlloc => some .tryQAlloc
  | .QFree => some .qFree
  | .Reset => some .reset
  | .MeasureFree => some .measure
  | _ => none

end Tket.QSystem
