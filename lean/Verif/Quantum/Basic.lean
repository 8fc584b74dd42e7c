import Mathlib.Analysis.SpecialFunctions.Complex.Circle
import Mathlib.Algebra.Module.LinearMap.End
import Mathlib.LinearAlgebra.Pi
import Mathlib.Tactic.Ring
import Mathlib.Tactic.LinearCombination
import Mathlib.Tactic.NoncommRing

/-!
# States, Pauli operators and gates

Specification: what the gates of the library mean. A state of qubits labelled by `Q` gives an amplitude to
every assignment of bits to qubits; a gate is a linear map on states.
-/

noncomputable section

namespace Tket.Quantum

open Complex

set_option linter.unusedSectionVars false

variable {Q : Type} [DecidableEq Q]

/-- Amplitudes of the computational basis states. -/
abbrev State (Q : Type) := (Q → Bool) → ℂ

/-- Linear maps on states. Products are compositions: `A * B` means first `B`, then `A`. -/
def Op (Q : Type) := Module.End ℂ (State Q)

instance : Ring (Op Q) := inferInstanceAs (Ring (Module.End ℂ (State Q)))
instance : Algebra ℂ (Op Q) := inferInstanceAs (Algebra ℂ (Module.End ℂ (State Q)))

/-- The action on a state. -/
def Op.app (A : Op Q) (ψ : State Q) : State Q :=
  (show State Q →ₗ[ℂ] State Q from A) ψ

theorem Op.ext {A B : Op Q} (h : ∀ ψ x, A.app ψ x = B.app ψ x) : A = B :=
  LinearMap.ext (fun ψ => funext (fun x => h ψ x))

theorem one_app (ψ : State Q) : (1 : Op Q).app ψ = ψ := rfl
theorem zero_app (ψ : State Q) : (0 : Op Q).app ψ = 0 := rfl
theorem mul_app (A B : Op Q) (ψ : State Q) : (A * B).app ψ = A.app (B.app ψ) := rfl
theorem add_app (A B : Op Q) (ψ : State Q) (x : Q → Bool) :
    (A + B).app ψ x = A.app ψ x + B.app ψ x := rfl
theorem neg_app (A : Op Q) (ψ : State Q) (x : Q → Bool) : (-A).app ψ x = -(A.app ψ x) := rfl
theorem sub_app (A B : Op Q) (ψ : State Q) (x : Q → Bool) :
    (A - B).app ψ x = A.app ψ x - B.app ψ x := rfl
theorem smul_app (c : ℂ) (A : Op Q) (ψ : State Q) (x : Q → Bool) :
    (c • A).app ψ x = c * A.app ψ x := rfl

/-- The bit flip. -/
def X (q : Q) : Op Q :=
  LinearMap.mk (σ := RingHom.id ℂ)
    ⟨fun (ψ : State Q) => fun x => ψ (Function.update x q (!x q)), fun _ _ => rfl⟩ (fun _ _ => rfl)

/-- The phase flip. -/
def Z (q : Q) : Op Q :=
  LinearMap.mk (σ := RingHom.id ℂ)
    ⟨fun (ψ : State Q) => fun x => (if x q then -1 else 1) * ψ x,
      fun a b => by funext x; simp [mul_add]⟩ (fun c a => by funext x; simp)

def Y (q : Q) : Op Q := (I : ℂ) • (X q * Z q)

theorem X_app (q : Q) (ψ : State Q) (x : Q → Bool) :
    (X q).app ψ x = ψ (Function.update x q (!x q)) := rfl
theorem Z_app (q : Q) (ψ : State Q) (x : Q → Bool) :
    (Z q).app ψ x = (if x q then -1 else 1) * ψ x := rfl

@[simp] theorem X_sq (q : Q) : X q * X q = 1 := by
  apply Op.ext; intro ψ x
  simp [X_app, mul_app, one_app]

@[simp] theorem Z_sq (q : Q) : Z q * Z q = 1 := by
  apply Op.ext; intro ψ x
  simp only [mul_app, Z_app, one_app]
  split <;> ring

theorem ZX (q : Q) : Z q * X q = -(X q * Z q) := by
  apply Op.ext; intro ψ x
  simp only [mul_app, Z_app, X_app, neg_app]
  by_cases h : x q <;> simp [h]

theorem XX_comm (p q : Q) : Commute (X p) (X q) := by
  by_cases h : p = q
  · subst h; exact Commute.refl _
  · show X p * X q = X q * X p
    apply Op.ext; intro ψ x
    simp only [mul_app, X_app]
    rw [Function.update_of_ne (Ne.symm h), Function.update_of_ne h, Function.update_comm h]

theorem ZZ_comm (p q : Q) : Commute (Z p) (Z q) := by
  show Z p * Z q = Z q * Z p
  apply Op.ext; intro ψ x
  simp only [mul_app, Z_app]
  ring

theorem XZ_comm {p q : Q} (h : p ≠ q) : Commute (X p) (Z q) := by
  show X p * Z q = Z q * X p
  apply Op.ext; intro ψ x
  simp only [mul_app, Z_app, X_app]
  rw [Function.update_of_ne (Ne.symm h)]

/-! ## Gates -/

/-- Projectors on the bit being 0 and 1. -/
def P0 (q : Q) : Op Q := (1 / 2 : ℂ) • (1 + Z q)
def P1 (q : Q) : Op Q := (1 / 2 : ℂ) • (1 - Z q)

theorem P0_app (q : Q) (ψ : State Q) (x : Q → Bool) :
    (P0 q).app ψ x = if x q then 0 else ψ x := by
  simp only [P0, smul_app, add_app, one_app, Z_app]
  split <;> ring

theorem P1_app (q : Q) (ψ : State Q) (x : Q → Bool) :
    (P1 q).app ψ x = if x q then ψ x else 0 := by
  simp only [P1, smul_app, sub_app, one_app, Z_app]
  split <;> ring

/-- `U` controlled by qubit `c`. -/
def ctrl (c : Q) (U : Op Q) : Op Q := P0 c + P1 c * U

/-- Rotations by an angle in radians: exp(-iθ/2 P). -/
def Rx (θ : ℂ) (q : Q) : Op Q := cos (θ / 2) • 1 - (I * sin (θ / 2)) • X q
def Ry (θ : ℂ) (q : Q) : Op Q := cos (θ / 2) • 1 - (I * sin (θ / 2)) • Y q
def Rz (θ : ℂ) (q : Q) : Op Q := cos (θ / 2) • 1 - (I * sin (θ / 2)) • Z q

/-- diag(1, e^{iθ}). -/
def Ph (θ : ℂ) (q : Q) : Op Q := P0 q + exp (I * θ) • P1 q

def H (q : Q) : Op Q := (1 / (Real.sqrt 2 : ℂ)) • (X q + Z q)

/-- √X = ½((1+i) + (1-i)X), and its inverse. -/
def V (q : Q) : Op Q := ((1 + I) / 2) • 1 + ((1 - I) / 2) • X q
def Vdg (q : Q) : Op Q := ((1 - I) / 2) • 1 + ((1 + I) / 2) • X q

end Tket.Quantum
