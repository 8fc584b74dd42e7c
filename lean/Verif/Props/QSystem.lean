import Verif.Lemmas.QSystem

/-!
# Properties of the lowering to Q-System operations
-/

noncomputable section

namespace Tket.QSystem

open Tket.Quantum Complex

variable {Q : Type} [DecidableEq Q]

/-- Gates executed in order. -/
def denGates : List (Gate Q) → Op Q
  | [] => 1
  | g :: gs => denGates gs * g.sem

/-- The effect of one operation when the measurement gives `out`. Allocation has none on a fixed set of
qubits. -/
def Instr.sem (out : Bool) : Instr Q → Option (Op Q)
  | .gate g => some g.sem
  | .measureReset q => some (if out then X q * P1 q else P0 q)
  | .cond c0 c1 => some (denGates (if out then c1 else c0))
  | .tryQAlloc _ | .expectSome => none

/-- Operations executed in order. -/
def den (out : Bool) : List (Instr Q) → Option (Op Q)
  | [] => some 1
  | i :: is => (i.sem out).bind (fun A => (den out is).map (fun B => B * A))

/-- The rotation inputs of an operation. -/
def angles (op : TketOp) (θ : ℝ) : List ℝ := if op ∈ [.Rx, .Ry, .Rz, .CRz] then [θ] else []

/-- Distinct qubits. -/
def Distinct (op : TketOp) (q : Nat → Q) : Prop :=
  ∀ i < op.qubits, ∀ j < op.qubits, q i = q j → i = j

/-- The qubits of an operation, as wires. -/
def wires (op : TketOp) (q : Nat → Q) : List (Wire Q) := ((List.range op.qubits).map q).map .qubit

theorem norm_ζ : ‖ζ‖ = 1 := by
  unfold ζ
  have : I * (Real.pi / 8) = ((Real.pi / 8 : ℝ) : ℂ) * I := by push_cast; ring
  rw [this, norm_exp_ofReal_mul_I]

theorem norm_ζi : ‖ζi‖ = 1 := by
  rw [ζi_eq, norm_neg, norm_pow, norm_ζ, one_pow]

theorem norm_half (m : ℝ) : ‖exp (-(I * (((piMul m : ℝ) : ℂ) / 2)))‖ = 1 := by
  have : -(I * (((piMul m : ℝ) : ℂ) / 2)) = ((-(piMul m / 2) : ℝ) : ℂ) * I := by push_cast; ring
  rw [this, norm_exp_ofReal_mul_I]

theorem den_gates (out : Bool) (l : List (Gate Q)) : den out (l.map .gate) = some (denGates l) := by
  induction l with
  | nil => rfl
  | cons g l ih => simp [den, denGates, Instr.sem, ih]

omit [DecidableEq Q] in
theorem toffoli_run (a b c : Q) : (buildToffoli a b c).run [] = ((a, b, c),
    [.phasedX c (piMul 1) (piMul (-0.5)), .zzPhase b c (piMul 0.5), .phasedX c (piMul 0.25) (piMul 0.5),
      .zzPhase a c (piMul 0.5), .phasedX c (piMul 0.25) (piMul 0), .zzPhase b c (piMul 0.5),
      .phasedX c (piMul 0.25) (piMul (-0.5)), .zzPhase a c (piMul 0.5), .phasedX a (piMul 1) (piMul 0.25),
      .phasedX c (piMul (-0.75)) (piMul 1), .zzPhase a b (piMul 0.25), .rz c (piMul 1),
      .phasedX a (piMul 1) (piMul (-0.25)), .rz b (piMul (-0.75)), .rz a (piMul 0.25)]) := rfl

theorem toffoli_lowered : ∃ phase : ℂ, ‖phase‖ = 1 ∧ ∀ (θ : ℝ) (q : Nat → Q) (new : Q) (out : Bool),
    Distinct .Toffoli q →
      ∃ is U, buildFunc .Toffoli new ((List.range TketOp.Toffoli.qubits).map q) (angles .Toffoli θ) =
          some (is, wires .Toffoli q) ∧
        sem .Toffoli θ out q = some U ∧ den out is = some (phase • U) := by
  refine ⟨ζ ^ 7, by simp [norm_ζ], fun θ q new out hd =>
    ⟨((buildToffoli (q 0) (q 1) (q 2)).run []).2.map .gate, ctrl (q 0) (ctrl (q 1) (X (q 2))), ?_, rfl, ?_⟩⟩
  · show some (_, [Wire.qubit ((buildToffoli (q 0) (q 1) (q 2)).run []).1.1, _, _]) = _
    rw [toffoli_run]; rfl
  have h1 : q 0 ≠ q 1 := fun e => by have := hd 0 (by decide) 1 (by decide) e; omega
  have h2 : q 0 ≠ q 2 := fun e => by have := hd 0 (by decide) 2 (by decide) e; omega
  have h3 : q 1 ≠ q 2 := fun e => by have := hd 1 (by decide) 2 (by decide) e; omega
  rw [← toffoli_ok h1 h2 h3, den_gates, toffoli_run]
  simp only [denGates, mul_assoc, one_mul]

/-- **C45.** Every gate is lowered to native gates with the same unitary up to a global phase. The phase only
depends on the kind of gate: not on the angle, the qubits, or the state. The output wires are those of the
qubits, in order. -/
theorem C45_gate_lowered (op : TketOp) (hop : op.isQuantum = true) :
    ∃ phase : ℂ, ‖phase‖ = 1 ∧ ∀ (θ : ℝ) (q : Nat → Q) (new : Q) (out : Bool), Distinct op q →
      ∃ is U, buildFunc op new ((List.range op.qubits).map q) (angles op θ) = some (is, wires op q) ∧
        sem op θ out q = some U ∧ den out is = some (phase • U) := by
  have hrad : ∀ θ : ℝ, ((toRadians θ : ℝ) : ℂ) = Real.pi * θ := by
    intro θ; unfold toRadians piMul; push_cast; ring
  have h01 : ∀ {q : Nat → Q}, (∀ i < 2, ∀ j < 2, q i = q j → i = j) → q 0 ≠ q 1 := by
    intro q h e
    have := h 0 (by omega) 1 (by omega) e
    omega
  cases op <;> simp only [TketOp.isQuantum, Bool.false_eq_true] at hop
  case H =>
    refine ⟨-I, by simp, fun θ q new out _ => ⟨_, _, rfl, rfl, ?_⟩⟩
    rw [← h_ok (q 0)]
    exact congrArg some (by simp only [one_mul])
  case CX =>
    refine ⟨ζ ^ 2, by simp [norm_ζ], fun θ q new out hd => ⟨_, _, rfl, rfl, ?_⟩⟩
    rw [← cx_ok (h01 hd)]
    exact congrArg some (by simp only [mul_assoc, one_mul])
  case CY =>
    refine ⟨ζi ^ 2, by simp [norm_ζi], fun θ q new out hd => ⟨_, _, rfl, rfl, ?_⟩⟩
    rw [← cy_ok (h01 hd)]
    exact congrArg some (by simp only [mul_assoc, one_mul])
  case CZ =>
    refine ⟨ζ ^ 2, by simp [norm_ζ], fun θ q new out hd => ⟨_, _, rfl, rfl, ?_⟩⟩
    rw [← cz_ok (h01 hd)]
    exact congrArg some (by simp only [mul_assoc, one_mul])
  case CRz =>
    refine ⟨1, by simp, fun θ q new out hd => ⟨_, _, rfl, rfl, ?_⟩⟩
    have h := crz_ok (h01 hd) (toRadians θ)
    rw [hrad] at h
    rw [one_smul, ← h]
    exact congrArg some (by simp only [one_mul])
  case T =>
    refine ⟨_, norm_half 0.25, fun θ q new out _ => ⟨_, _, rfl, rfl, ?_⟩⟩
    have e : (((piMul 0.25 : ℝ)) : ℂ) = Real.pi / 4 := by unfold piMul; push_cast; ring
    have h := rz_ph (((piMul 0.25 : ℝ)) : ℂ) (q 0)
    have h2 : Ph (Real.pi / 4) (q 0) = Ph (((piMul 0.25 : ℝ)) : ℂ) (q 0) := by rw [e]
    rw [h2, ← h]
    exact congrArg some (by simp only [one_mul]; rfl)
  case Tdg =>
    refine ⟨_, norm_half (-0.25), fun θ q new out _ => ⟨_, _, rfl, rfl, ?_⟩⟩
    have e : (((piMul (-0.25) : ℝ)) : ℂ) = -(Real.pi / 4) := by unfold piMul; push_cast; ring
    have h := rz_ph (((piMul (-0.25) : ℝ)) : ℂ) (q 0)
    have h2 : Ph (-(Real.pi / 4)) (q 0) = Ph (((piMul (-0.25) : ℝ)) : ℂ) (q 0) := by rw [e]
    rw [h2, ← h]
    exact congrArg some (by simp only [one_mul]; rfl)
  case S =>
    refine ⟨_, norm_half 0.5, fun θ q new out _ => ⟨_, _, rfl, rfl, ?_⟩⟩
    have e : (((piMul 0.5 : ℝ)) : ℂ) = Real.pi / 2 := by unfold piMul; push_cast; ring
    have h := rz_ph (((piMul 0.5 : ℝ)) : ℂ) (q 0)
    have h2 : Ph (Real.pi / 2) (q 0) = Ph (((piMul 0.5 : ℝ)) : ℂ) (q 0) := by rw [e]
    rw [h2, ← h]
    exact congrArg some (by simp only [one_mul]; rfl)
  case Sdg =>
    refine ⟨_, norm_half (-0.5), fun θ q new out _ => ⟨_, _, rfl, rfl, ?_⟩⟩
    have e : (((piMul (-0.5) : ℝ)) : ℂ) = -(Real.pi / 2) := by unfold piMul; push_cast; ring
    have h := rz_ph (((piMul (-0.5) : ℝ)) : ℂ) (q 0)
    have h2 : Ph (-(Real.pi / 2)) (q 0) = Ph (((piMul (-0.5) : ℝ)) : ℂ) (q 0) := by rw [e]
    rw [h2, ← h]
    exact congrArg some (by simp only [one_mul]; rfl)
  case X =>
    refine ⟨-I, by simp, fun θ q new out _ => ⟨_, _, rfl, rfl, ?_⟩⟩
    rw [← x_ok (q 0)]
    exact congrArg some (by simp only [one_mul])
  case Y =>
    refine ⟨-I, by simp, fun θ q new out _ => ⟨_, _, rfl, rfl, ?_⟩⟩
    rw [← y_ok (q 0)]
    exact congrArg some (by simp only [one_mul])
  case Z =>
    refine ⟨-I, by simp, fun θ q new out _ => ⟨_, _, rfl, rfl, ?_⟩⟩
    rw [← z_ok (q 0)]
    exact congrArg some (by simp only [one_mul])
  case Rx =>
    refine ⟨1, by simp, fun θ q new out _ => ⟨_, _, rfl, rfl, ?_⟩⟩
    have h := rx_ok (toRadians θ) (q 0)
    rw [hrad] at h
    rw [one_smul, ← h]
    exact congrArg some (by simp only [one_mul])
  case Ry =>
    refine ⟨1, by simp, fun θ q new out _ => ⟨_, _, rfl, rfl, ?_⟩⟩
    have h := ry_ok (toRadians θ) (q 0)
    rw [hrad] at h
    rw [one_smul, ← h]
    exact congrArg some (by simp only [one_mul])
  case Rz =>
    refine ⟨1, by simp, fun θ q new out _ => ⟨_, _, rfl, rfl, ?_⟩⟩
    rw [one_smul, ← hrad]
    exact congrArg some (by simp only [one_mul]; rfl)
  case Toffoli => exact toffoli_lowered
  case V =>
    refine ⟨ζi ^ 2, by simp [norm_ζi], fun θ q new out _ => ⟨_, _, rfl, rfl, ?_⟩⟩
    rw [← v_ok (q 0)]
    exact congrArg some (by simp only [one_mul])
  case Vdg =>
    refine ⟨ζ ^ 2, by simp [norm_ζ], fun θ q new out _ => ⟨_, _, rfl, rfl, ?_⟩⟩
    rw [← vdg_ok (q 0)]
    exact congrArg some (by simp only [one_mul])

/-- **C46.** The lowering of a non-destructive measurement returns the measured bit and leaves the qubit as
the measurement does, for both outcomes (up to a phase). -/
theorem C46_measurement_lowered (θ : ℝ) (q : Nat → Q) (new : Q) :
    ∃ is, buildFunc .Measure new ((List.range TketOp.Measure.qubits).map q) (angles .Measure θ) =
        some (is, [.qubit (q 0), .bit]) ∧
      ∀ out, ∃ (phase : ℂ) (U : Op Q), ‖phase‖ = 1 ∧ sem .Measure θ out q = some U ∧
        den out is = some (phase • U) := by
  refine ⟨_, rfl, ?_⟩
  intro out
  cases out
  · refine ⟨1, _, by simp, rfl, ?_⟩
    rw [one_smul]
    exact congrArg some (by simp [denGates])
  · refine ⟨-I, _, by simp, rfl, ?_⟩
    have h := x_ok (q 0)
    have e : denGates ((buildX (q 0)).run []).2 = (-I) • X (q 0) := by
      rw [← h]; exact one_mul _
    show some (1 * denGates ((buildX (q 0)).run []).2 * (if true then X (q 0) * P1 (q 0) else P0 (q 0))) = _
    rw [e, one_mul]
    simp only [if_true, smul_mul_assoc, ← mul_assoc, X_sq, one_mul]

omit [DecidableEq Q] in
/-- **C45.** Every operation of the gate set is lowered: directly or by a function. -/
theorem C45_every_operation_lowered (op : TketOp) (θ : ℝ) (q : Nat → Q) (new : Q) :
    (directMap op).isSome = true ∨
      (buildFunc op new ((List.range op.qubits).map q) (angles op θ)).isSome = true := by
  cases op <;> first | exact Or.inl rfl | exact Or.inr rfl

/-! ## Whole circuits -/

/-- A gate, measurement or reset on given qubits, with its angle and the outcome of its measurement. -/
structure Step (Q : Type) where
  op : TketOp
  θ : ℝ
  out : Bool
  q : Nat → Q

/-- The effect of the direct replacements that keep their qubit. -/
def Direct.sem (out : Bool) (q : Q) : Direct → Option (Op Q)
  | .reset => some (if out then X q * P1 q else P0 q)
  | _ => none

/-- The effect of the lowering of one operation (`lower_tk2_op`, lower.rs 112-134). -/
def lowered (new : Q) (s : Step Q) : Option (Op Q) :=
  match directMap s.op with
  | some d => d.sem s.out (s.q 0)
  | none =>
    (buildFunc s.op new ((List.range s.op.qubits).map s.q) (angles s.op s.θ)).bind (fun r => den s.out r.1)

/-- The operations executed in order. -/
def circuit (f : Step Q → Option (Op Q)) : List (Step Q) → Option (Op Q)
  | [] => some 1
  | s :: ss => (f s).bind (fun A => (circuit f ss).map (fun B => B * A))

/-- **C45, C46.** Lowering a whole circuit of gates, measurements and resets gives the same effect on every
state up to a phase, for all angles and measurement outcomes. -/
theorem C45_circuit_lowered (new : Q) (c : List (Step Q))
    (hq : ∀ s ∈ c, Distinct s.op s.q)
    (hop : ∀ s ∈ c, s.op ∉ [TketOp.MeasureFree, .QAlloc, .TryQAlloc, .QFree]) :
    ∃ (phase : ℂ) (U : Op Q), ‖phase‖ = 1 ∧ circuit (fun s => sem s.op s.θ s.out s.q) c = some U ∧
      circuit (lowered new) c = some (phase • U) := by
  induction c with
  | nil => exact ⟨1, 1, by simp, rfl, by simp [circuit]⟩
  | cons s c ih =>
    obtain ⟨p, U, h1, h2, h3⟩ := ih (fun t ht => hq t (by simp [ht])) (fun t ht => hop t (by simp [ht]))
    have hs : ∃ (p' : ℂ) (V : Op Q), ‖p'‖ = 1 ∧ sem s.op s.θ s.out s.q = some V ∧
        lowered new s = some (p' • V) := by
      by_cases hqu : s.op.isQuantum = true
      · obtain ⟨p', g1, g2⟩ := C45_gate_lowered (Q := Q) s.op hqu
        obtain ⟨is, V, e1, e2, e3⟩ := g2 s.θ s.q new s.out (hq s (by simp))
        refine ⟨p', V, g1, e2, ?_⟩
        unfold lowered
        have : directMap s.op = none := by
          cases hop' : s.op <;> rw [hop'] at hqu <;> first | rfl | simp [TketOp.isQuantum] at hqu
        rw [this]
        simp only [e1, Option.bind_some, e3]
      · have hm := hop s (by simp)
        obtain ⟨op, θ, out, q⟩ := s
        cases op <;> simp [TketOp.isQuantum] at hqu hm
        case Measure =>
          obtain ⟨is, e1, e2⟩ := C46_measurement_lowered θ q new
          obtain ⟨p', V, g1, g2, g3⟩ := e2 out
          refine ⟨p', V, g1, g2, ?_⟩
          unfold lowered
          simp only [directMap, e1, Option.bind_some, g3]
        case Reset => exact ⟨1, _, by simp, rfl, by rw [one_smul]; rfl⟩
    obtain ⟨p', V, g1, g2, g3⟩ := hs
    refine ⟨p * p', U * V, by rw [norm_mul, h1, g1, one_mul], ?_, ?_⟩
    · show (sem s.op s.θ s.out s.q).bind _ = _
      rw [g2, Option.bind_some, h2]; rfl
    · show (lowered new s).bind _ = _
      rw [g3, Option.bind_some, h3]
      simp only [Option.map_some, smul_mul_assoc, mul_smul_comm, smul_smul, mul_comm p' p]

/-- Hypotheses are met: CX on qubits 0 and 1, a rotation, a measurement. -/
example : ∃ c : List (Step Nat), c.length = 3 ∧ (∀ s ∈ c, Distinct s.op s.q) ∧
    (∀ s ∈ c, s.op ∉ [TketOp.MeasureFree, .QAlloc, .TryQAlloc, .QFree]) := by
  refine ⟨[⟨.CX, 0, false, id⟩, ⟨.CRz, 1 / 3, false, fun j => 2 - j⟩, ⟨.Measure, 0, true, id⟩], rfl, ?_, ?_⟩
  · intro s hs
    simp only [List.mem_cons, List.not_mem_nil, or_false] at hs
    rcases hs with rfl | rfl | rfl <;> intro i hi j hj e <;> simp [TketOp.qubits] at hi hj e <;> omega
  · intro s hs
    simp only [List.mem_cons, List.not_mem_nil, or_false] at hs
    rcases hs with rfl | rfl | rfl <;> decide

end Tket.QSystem
