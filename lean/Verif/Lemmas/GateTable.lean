import Verif.Model.GateTableSpec

/- Helper lemmas. -/
namespace Verif.GateTable

open Tket Tket.Quantum Complex

variable {Q : Type} [DecidableEq Q]

theorem zz_eq (θ : ℂ) (a b : Q) : ZZPhase θ a b = pytket.zz θ a b := by
  have h1 := exp_I_mul (θ / 2)
  have h2 : exp (-(I * (θ / 2))) = cos (θ / 2) - sin (θ / 2) * I := by
    rw [← mul_neg, exp_I_mul, cos_neg, sin_neg]; ring
  apply Op.ext; intro ψ x
  rw [ZZPhase, pytket.zz]
  simp only [sub_app, add_app, smul_app, mul_app, one_app, Z_app, mat_app, mul_div_assoc, h1, h2]
  by_cases ha : x a <;> by_cases hb : x b <;> simp [ha, hb] <;> ring

theorem phasedX_mat (θ φ : ℂ) (q : Q) : PhasedX θ φ q = mat q (cos (θ / 2))
      (-I * exp (-(I * φ)) * sin (θ / 2)) (-I * exp (I * φ) * sin (θ / 2)) (cos (θ / 2)) := by
  have e1 : exp (-(I * (φ / 2))) * exp (I * (φ / 2)) = 1 := by rw [← exp_add]; simp
  have e2 : exp (-(I * (φ / 2))) * exp (-(I * (φ / 2))) = exp (-(I * φ)) := by
    rw [← exp_add]; congr 1; ring
  have e3 : exp (I * (φ / 2)) * exp (I * (φ / 2)) = exp (I * φ) := by
    rw [← exp_add]; congr 1; ring
  have e4 : exp (-(I * (-φ / 2))) = exp (I * (φ / 2)) := by congr 1; ring
  have e5 : exp (I * (-φ / 2)) = exp (-(I * (φ / 2))) := by congr 1; ring
  rw [PhasedX, Rz_mat, Rx_mat, Rz_mat, mat_mul, mat_mul, e4, e5, ← e2, ← e3]
  congr 1
  · linear_combination (cos (θ / 2)) * e1
  · ring
  · ring
  · linear_combination (cos (θ / 2)) * e1

end Verif.GateTable
