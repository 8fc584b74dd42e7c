import Verif.Quantum.Basic
import Verif.Model.Ops

/-!
# Meaning of the operations

Specification. `θ` is the rotation angle in half-turns, `out` the measurement outcome: a measurement is the
projector on the observed outcome, a reset the projector followed by a flip if the outcome was 1.
Operations that add or remove qubits have no meaning on a fixed set of qubits.
-/

noncomputable section

namespace Tket.Quantum

open Complex

set_option linter.unusedSectionVars false

variable {Q : Type} [DecidableEq Q]

/-- The meaning of `op` with its `j`-th qubit being `q j`. -/
def sem (op : TketOp) (θ : ℝ) (out : Bool) (q : Nat → Q) : Option (Op Q) :=
  match op with
  | .H => some (H (q 0))
  | .CX => some (ctrl (q 0) (X (q 1)))
  | .CY => some (ctrl (q 0) (Y (q 1)))
  | .CZ => some (ctrl (q 0) (Z (q 1)))
  | .CRz => some (ctrl (q 0) (Rz (Real.pi * θ) (q 1)))
  | .T => some (Ph (Real.pi / 4) (q 0))
  | .Tdg => some (Ph (-(Real.pi / 4)) (q 0))
  | .S => some (Ph (Real.pi / 2) (q 0))
  | .Sdg => some (Ph (-(Real.pi / 2)) (q 0))
  | .X => some (X (q 0))
  | .Y => some (Y (q 0))
  | .Z => some (Z (q 0))
  | .Rx => some (Rx (Real.pi * θ) (q 0))
  | .Ry => some (Ry (Real.pi * θ) (q 0))
  | .Rz => some (Rz (Real.pi * θ) (q 0))
  | .Toffoli => some (ctrl (q 0) (ctrl (q 1) (X (q 2))))
  | .V => some (V (q 0))
  | .Vdg => some (Vdg (q 0))
  | .Measure => some (if out then P1 (q 0) else P0 (q 0))
  | .Reset => some (if out then X (q 0) * P1 (q 0) else P0 (q 0))
  | .MeasureFree | .QAlloc | .TryQAlloc | .QFree => none

/-- A Pauli operator on a qubit. -/
def pauli (p : Pauli) (q : Q) : Op Q :=
  match p with
  | .I => 1
  | .X => X q
  | .Y => Y q
  | .Z => Z q

/-! ## Supports -/

/-- Operators generated by the Pauli operators on some qubits. -/
def local' (S : Set Q) : Subalgebra ℂ (Op Q) :=
  Algebra.adjoin ℂ ({A | ∃ q ∈ S, A = X q} ∪ {A | ∃ q ∈ S, A = Z q})

theorem X_mem {S : Set Q} {q : Q} (h : q ∈ S) : X q ∈ local' S :=
  Algebra.subset_adjoin (Or.inl ⟨q, h, rfl⟩)
theorem Z_mem {S : Set Q} {q : Q} (h : q ∈ S) : Z q ∈ local' S :=
  Algebra.subset_adjoin (Or.inr ⟨q, h, rfl⟩)

section subalg
variable {A : Subalgebra ℂ (Op Q)}

theorem Y_mem_of {q : Q} (hx : X q ∈ A) (hz : Z q ∈ A) : Y q ∈ A := A.smul_mem (A.mul_mem hx hz) _
theorem P0_mem_of {q : Q} (hz : Z q ∈ A) : P0 q ∈ A := A.smul_mem (A.add_mem A.one_mem hz) _
theorem P1_mem_of {q : Q} (hz : Z q ∈ A) : P1 q ∈ A := A.smul_mem (A.sub_mem A.one_mem hz) _
theorem ctrl_mem_of {q : Q} {U : Op Q} (hz : Z q ∈ A) (hu : U ∈ A) : ctrl q U ∈ A :=
  A.add_mem (P0_mem_of hz) (A.mul_mem (P1_mem_of hz) hu)
theorem Rx_mem_of {q : Q} {θ : ℂ} (hx : X q ∈ A) : Rx θ q ∈ A :=
  A.sub_mem (A.smul_mem A.one_mem _) (A.smul_mem hx _)
theorem Ry_mem_of {q : Q} {θ : ℂ} (hy : Y q ∈ A) : Ry θ q ∈ A :=
  A.sub_mem (A.smul_mem A.one_mem _) (A.smul_mem hy _)
theorem Rz_mem_of {q : Q} {θ : ℂ} (hz : Z q ∈ A) : Rz θ q ∈ A :=
  A.sub_mem (A.smul_mem A.one_mem _) (A.smul_mem hz _)
theorem Ph_mem_of {q : Q} {θ : ℂ} (hz : Z q ∈ A) : Ph θ q ∈ A :=
  A.add_mem (P0_mem_of hz) (A.smul_mem (P1_mem_of hz) _)
theorem H_mem_of {q : Q} (hx : X q ∈ A) (hz : Z q ∈ A) : H q ∈ A := A.smul_mem (A.add_mem hx hz) _
theorem V_mem_of {q : Q} (hx : X q ∈ A) : V q ∈ A :=
  A.add_mem (A.smul_mem A.one_mem _) (A.smul_mem hx _)
theorem Vdg_mem_of {q : Q} (hx : X q ∈ A) : Vdg q ∈ A :=
  A.add_mem (A.smul_mem A.one_mem _) (A.smul_mem hx _)
end subalg

/-- An operation acts only on its own qubits. -/
theorem sem_local {op : TketOp} {θ : ℝ} {out : Bool} {q : Nat → Q} {U : Op Q}
    (h : sem op θ out q = some U) : U ∈ local' {x | ∃ j < op.qubits, x = q j} := by
  have hx : ∀ j, j < op.qubits → X (q j) ∈ local' {x | ∃ j < op.qubits, x = q j} :=
    fun j hj => X_mem ⟨j, hj, rfl⟩
  have hz : ∀ j, j < op.qubits → Z (q j) ∈ local' {x | ∃ j < op.qubits, x = q j} :=
    fun j hj => Z_mem ⟨j, hj, rfl⟩
  cases op <;> simp only [sem, Option.some.injEq, reduceCtorEq] at h <;> subst h
  case H => exact H_mem_of (hx 0 (by decide)) (hz 0 (by decide))
  case CX => exact ctrl_mem_of (hz 0 (by decide)) (hx 1 (by decide))
  case CY => exact ctrl_mem_of (hz 0 (by decide)) (Y_mem_of (hx 1 (by decide)) (hz 1 (by decide)))
  case CZ => exact ctrl_mem_of (hz 0 (by decide)) (hz 1 (by decide))
  case CRz => exact ctrl_mem_of (hz 0 (by decide)) (Rz_mem_of (hz 1 (by decide)))
  case T => exact Ph_mem_of (hz 0 (by decide))
  case Tdg => exact Ph_mem_of (hz 0 (by decide))
  case S => exact Ph_mem_of (hz 0 (by decide))
  case Sdg => exact Ph_mem_of (hz 0 (by decide))
  case X => exact hx 0 (by decide)
  case Y => exact Y_mem_of (hx 0 (by decide)) (hz 0 (by decide))
  case Z => exact hz 0 (by decide)
  case Rx => exact Rx_mem_of (hx 0 (by decide))
  case Ry => exact Ry_mem_of (Y_mem_of (hx 0 (by decide)) (hz 0 (by decide)))
  case Rz => exact Rz_mem_of (hz 0 (by decide))
  case Toffoli =>
    exact ctrl_mem_of (hz 0 (by decide)) (ctrl_mem_of (hz 1 (by decide)) (hx 2 (by decide)))
  case Measure =>
    split
    · exact P1_mem_of (hz 0 (by decide))
    · exact P0_mem_of (hz 0 (by decide))
  case Reset =>
    split
    · exact Subalgebra.mul_mem _ (hx 0 (by decide)) (P1_mem_of (hz 0 (by decide)))
    · exact P0_mem_of (hz 0 (by decide))
  case V => exact V_mem_of (hx 0 (by decide))
  case Vdg => exact Vdg_mem_of (hx 0 (by decide))

theorem commute_of_gens {s t : Set (Op Q)} (h : ∀ a ∈ s, ∀ b ∈ t, Commute a b) {A B : Op Q}
    (hA : A ∈ Algebra.adjoin ℂ s) (hB : B ∈ Algebra.adjoin ℂ t) : Commute A B := by
  refine Algebra.commute_of_mem_adjoin_of_forall_mem_commute hB (fun b hb => ?_)
  refine (Algebra.commute_of_mem_adjoin_of_forall_mem_commute hA (fun a ha => ?_)).symm
  exact (h a ha b hb).symm

/-- Operators on disjoint sets of qubits commute. -/
theorem local_commute {S T : Set Q} (h : ∀ q ∈ S, q ∉ T) {A B : Op Q} (hA : A ∈ local' S)
    (hB : B ∈ local' T) : Commute A B := by
  refine commute_of_gens ?_ hA hB
  rintro a (⟨p, hp, rfl⟩ | ⟨p, hp, rfl⟩) b (⟨q, hq, rfl⟩ | ⟨q, hq, rfl⟩)
  all_goals have hne : p ≠ q := by rintro rfl; exact h p hp hq
  · exact XX_comm _ _
  · exact XZ_comm hne
  · exact (XZ_comm hne.symm).symm
  · exact ZZ_comm _ _

theorem Y_mem (q : Q) : Y q ∈ local' {q} := Y_mem_of (X_mem rfl) (Z_mem rfl)

theorem pauli_mem (p : Pauli) (q : Q) : pauli p q ∈ local' {q} := by
  cases p
  · exact Subalgebra.one_mem _
  · exact X_mem rfl
  · exact Y_mem q
  · exact Z_mem rfl

theorem pauli_commute {p p' : Pauli} {q q' : Q} (h : q ≠ q' ∨ p = p') :
    Commute (pauli p q) (pauli p' q') := by
  by_cases hq : q = q'
  · subst hq
    rcases h with h | rfl
    · exact absurd rfl h
    · exact Commute.refl _
  · exact local_commute (by rintro x rfl hx; exact hq hx) (pauli_mem p q) (pauli_mem p' q')

end Tket.Quantum
