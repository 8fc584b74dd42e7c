import Verif.Lemmas.GateTable

/-
C63: gates mean the same in a program and in its pytket circuit.
-/
namespace Verif.GateTable

open Tket Tket.Quantum Complex

variable {Q : Type} [DecidableEq Q]

/-- Decoding an emitted gate gives the gate back; only a measurement that frees its qubit becomes one
that does not. -/
theorem C63_roundtrip (op : TketOp) (p : PytketOp) (h : emit op = .command p) :
    decode p = some (if op = .MeasureFree then .Measure else op) := by
  cases op <;> cases h <;> rfl

/-- Encoding a decoded gate gives the command back. -/
theorem C63_decode_encode (p : PytketOp) (op : TketOp) (h : decode p = some op) :
    emit op = .command p := by
  cases p <;> cases h <;> rfl

/-- The decoders register exactly the gates they decode, and do not compete. -/
theorem C63_registered {R : Type} (half : R) (params : List R) (p : PytketOp) :
    (p ∈ opTypes ↔ (decode p).isSome) ∧ (p ∈ opTypesQ ↔ (decodeQ half p params).isSome) ∧
      ¬ (p ∈ opTypes ∧ p ∈ opTypesQ) := by
  cases p <;> simp [opTypes, decode, opTypesQ, decodeQ]

/-- The emitted command is the same gate, up to a phase that depends on the kind of the gate only. -/
theorem C63_same_gate (op : TketOp) (p : PytketOp) (h : emit op = .command p) :
    ∃ c : ℂ, ‖c‖ = 1 ∧ ∀ (α β : ℝ) (out : Bool) (q : Nat → Q) (U : Op Q),
      sem op α out q = some U → ∃ W, pytket p α β out q = some W ∧ U = c • W := by
  have hs : (Real.sqrt 2 : ℂ) * Real.sqrt 2 = 2 := by
    rw [← ofReal_mul, Real.mul_self_sqrt (by norm_num)]; norm_num
  have hs0 : (Real.sqrt 2 : ℂ) ≠ 0 := fun h0 => by rw [h0] at hs; norm_num at hs
  have hn : ‖(Real.sqrt 2 : ℂ)‖ = Real.sqrt 2 := by
    rw [norm_real, Real.norm_of_nonneg (Real.sqrt_nonneg 2)]
  have hV : ∀ z : ℂ, Complex.normSq z = 2 → ‖z / (Real.sqrt 2 : ℂ)‖ = 1 := by
    intro z hz
    rw [norm_div, hn, Complex.norm_def, hz]
    exact div_self (by positivity)
  cases op <;> cases h
  case V =>
    refine ⟨(1 + I) / (Real.sqrt 2 : ℂ), hV _ (by norm_num [normSq_apply]), fun α β out q U hU => ?_⟩
    cases hU
    refine ⟨_, rfl, ?_⟩
    rw [V_mat, mat_smul]
    congr 1 <;> field_simp <;> rw [← hs] <;> ring_nf <;> simp
  case Vdg =>
    refine ⟨(1 - I) / (Real.sqrt 2 : ℂ), hV _ (by norm_num [normSq_apply]), fun α β out q U hU => ?_⟩
    cases hU
    refine ⟨_, rfl, ?_⟩
    rw [Vdg_mat, mat_smul]
    congr 1 <;> field_simp <;> rw [← hs] <;> ring_nf <;> simp
  case MeasureFree => exact ⟨1, norm_one, fun α β out q U hU => by cases hU⟩
  all_goals
    refine ⟨1, norm_one, fun α β out q U hU => ?_⟩
    cases hU
    refine ⟨_, rfl, ?_⟩
    rw [one_smul]
  case H => rw [H_mat]
  case CX => rw [ctrl, P0_mat, P1_mat, X_mat]; rfl
  case CY => rw [ctrl, P0_mat, P1_mat, Y_mat]; rfl
  case CZ => rw [ctrl, P0_mat, P1_mat, Z_mat]; rfl
  case CRz =>
    rw [ctrl, P0_mat, P1_mat, Rz_mat, controlled]
    congr 3 <;> ring_nf
  case T => rw [Ph_mat]; congr 2; ring
  case Tdg => rw [Ph_mat]; congr 2; ring
  case S =>
    rw [Ph_mat]; congr 1
    rw [exp_I_mul, ← ofReal_ofNat, ← ofReal_div, ← ofReal_cos, ← ofReal_sin]
    simp
  case Sdg =>
    rw [Ph_mat]; congr 1
    rw [exp_I_mul, ← ofReal_ofNat, ← ofReal_div, ← ofReal_neg, ← ofReal_cos, ← ofReal_sin]
    simp
  case X => rw [X_mat]
  case Y => rw [Y_mat]
  case Z => rw [Z_mat]
  case Rx => rw [Rx_mat]; congr 1 <;> ring
  case Ry => rw [Ry_mat]
  case Rz => rw [Rz_mat]; congr 2 <;> ring
  case Toffoli => rw [ctrl, ctrl, P0_mat, P1_mat, P0_mat, P1_mat, X_mat]; rfl
  case Measure => rw [P0_mat, P1_mat]
  case Reset =>
    rw [P0_mat, P1_mat, X_mat, mat_mul]
    split <;> congr 1 <;> ring

/-- The commands emitted for the operations of Q-System are the same gates, the angles being divided
by π. -/
theorem C63_native_gate (op : QOp) (p : PytketOp) (h : emitQ op = .command p) (θ φ : ℝ) (out : Bool)
    (q : Nat → Q) : native op θ φ out q = pytket p (θ / Real.pi) (φ / Real.pi) out q := by
  have hp : (Real.pi : ℂ) ≠ 0 := by exact_mod_cast Real.pi_ne_zero
  have ht : ∀ x : ℝ, (Real.pi : ℂ) * ((x / Real.pi : ℝ) : ℂ) = x := by
    intro x; rw [ofReal_div]; field_simp
  have hi : ∀ x : ℝ, I * (Real.pi : ℂ) * ((x / Real.pi : ℝ) : ℂ) = I * x := by
    intro x; rw [mul_assoc, ht]
  cases op <;> cases h
  case Measure => rw [native, pytket, P0_mat, P1_mat]
  case LazyMeasure => rw [native, pytket, P0_mat, P1_mat]
  case Rz => rw [native, pytket, Rz_mat, hi, mul_div_assoc]
  case PhasedX => rw [native, pytket, phasedX_mat, ht, hi]
  case ZZPhase => rw [native, pytket, zz_eq, ht]
  case Reset =>
    rw [native, pytket, P0_mat, P1_mat, X_mat, mat_mul]
    congr 1
    split <;> congr 1 <;> ring

/-- Gates decoded to operations of Q-System keep their meaning, the angles being multiplied by π. -/
theorem C63_native_decode (p : PytketOp) (op : QOp) (α β : ℝ) (rest ps : List ℝ)
    (h : decodeQ (1 / 2 : ℝ) p (α :: β :: rest) = some (op, ps)) (out : Bool) (q : Nat → Q) :
    native op (Real.pi * ps.getD 0 0) (Real.pi * ps.getD 1 0) out q = pytket p α β out q := by
  cases p <;> cases h
  case PhasedX =>
    show some (PhasedX _ _ _) = _
    rw [phasedX_mat, pytket]
    simp only [List.getD_cons_zero, List.getD_cons_succ, ofReal_mul, mul_assoc]
  case ZZPhase =>
    show some (ZZPhase _ _ _) = _
    rw [zz_eq, pytket]
    simp
  case ZZMax =>
    show some (ZZPhase _ _ _) = _
    rw [zz_eq, pytket]
    congr 2
    simp
    ring

/-! ### The hypotheses are met -/

example : emit .Toffoli = .command .CCX ∧ emitQ .LazyMeasure = .command .Measure := ⟨rfl, rfl⟩

example : decodeQ (1 / 2 : ℚ) .ZZMax [] = some (.ZZPhase, [1 / 2]) := rfl

end Verif.GateTable
