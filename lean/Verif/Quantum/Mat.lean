import Verif.Quantum.Gates

/-!
# Operators on one qubit as two by two matrices
-/

noncomputable section

namespace Tket.Quantum

open Complex

set_option linter.unusedSectionVars false

variable {Q : Type} [DecidableEq Q]

/-- The operator with the given matrix on qubit `q`. -/
def mat (q : Q) (a b c d : ℂ) : Op Q := a • P0 q + b • (P0 q * X q) + c • (P1 q * X q) + d • P1 q

theorem mat_app (q : Q) (a b c d : ℂ) (ψ : State Q) (x : Q → Bool) :
    (mat q a b c d).app ψ x =
      if x q then c * ψ (Function.update x q false) + d * ψ x
      else a * ψ x + b * ψ (Function.update x q true) := by
  simp only [mat, add_app, smul_app, mul_app, P0_app, P1_app, X_app]
  by_cases h : x q <;> simp [h]

theorem mat_mul (q : Q) (a b c d a' b' c' d' : ℂ) :
    mat q a b c d * mat q a' b' c' d' =
      mat q (a * a' + b * c') (a * b' + b * d') (c * a' + d * c') (c * b' + d * d') := by
  apply Op.ext; intro ψ x
  rw [mul_app, mat_app, mat_app, mat_app]
  by_cases h : x q
  · have hx : Function.update x q true = x := by rw [← h]; exact Function.update_eq_self _ _
    simp only [h, if_true, mat_app, Function.update_self, Function.update_idem, hx]
    simp
    ring
  · have hf : x q = false := by simpa using h
    have hx : Function.update x q false = x := by rw [← hf]; exact Function.update_eq_self _ _
    simp only [hf, mat_app, Function.update_self, Function.update_idem, hx]
    simp
    ring

theorem mat_smul (q : Q) (k a b c d : ℂ) : k • mat q a b c d = mat q (k * a) (k * b) (k * c) (k * d) := by
  apply Op.ext; intro ψ x
  rw [smul_app, mat_app, mat_app]
  split <;> ring

theorem mat_add (q : Q) (a b c d a' b' c' d' : ℂ) :
    mat q a b c d + mat q a' b' c' d' = mat q (a + a') (b + b') (c + c') (d + d') := by
  apply Op.ext; intro ψ x
  rw [add_app, mat_app, mat_app, mat_app]
  split <;> ring

theorem mat_sub (q : Q) (a b c d a' b' c' d' : ℂ) :
    mat q a b c d - mat q a' b' c' d' = mat q (a - a') (b - b') (c - c') (d - d') := by
  apply Op.ext; intro ψ x
  rw [sub_app, mat_app, mat_app, mat_app]
  split <;> ring

theorem one_mat (q : Q) : (1 : Op Q) = mat q 1 0 0 1 := by
  apply Op.ext; intro ψ x
  rw [one_app, mat_app]
  split <;> ring

theorem X_mat (q : Q) : X q = mat q 0 1 1 0 := by
  apply Op.ext; intro ψ x
  rw [X_app, mat_app]
  by_cases h : x q <;> simp [h]

theorem Z_mat (q : Q) : Z q = mat q 1 0 0 (-1) := by
  apply Op.ext; intro ψ x
  rw [Z_app, mat_app]
  split <;> ring

theorem Y_mat (q : Q) : Y q = mat q 0 (-I) I 0 := by
  unfold Y
  rw [X_mat, Z_mat, mat_mul, mat_smul]
  congr 1 <;> ring

theorem P0_mat (q : Q) : P0 q = mat q 1 0 0 0 := by
  unfold P0
  rw [one_mat q, Z_mat, mat_add, mat_smul]
  congr 1 <;> ring

theorem P1_mat (q : Q) : P1 q = mat q 0 0 0 1 := by
  unfold P1
  rw [one_mat q, Z_mat, mat_sub, mat_smul]
  congr 1 <;> ring

theorem H_mat (q : Q) : H q = mat q (1 / (Real.sqrt 2 : ℂ)) (1 / (Real.sqrt 2 : ℂ))
    (1 / (Real.sqrt 2 : ℂ)) (-(1 / (Real.sqrt 2 : ℂ))) := by
  unfold H
  rw [X_mat, Z_mat, mat_add, mat_smul]
  congr 1 <;> ring

theorem V_mat (q : Q) : V q = mat q ((1 + I) / 2) ((1 - I) / 2) ((1 - I) / 2) ((1 + I) / 2) := by
  unfold V
  rw [one_mat q, X_mat, mat_smul, mat_smul, mat_add]
  congr 1 <;> ring

theorem Vdg_mat (q : Q) : Vdg q = mat q ((1 - I) / 2) ((1 + I) / 2) ((1 + I) / 2) ((1 - I) / 2) := by
  unfold Vdg
  rw [one_mat q, X_mat, mat_smul, mat_smul, mat_add]
  congr 1 <;> ring

theorem exp_I_mul (θ : ℂ) : exp (I * θ) = cos θ + sin θ * I := by
  rw [mul_comm, exp_mul_I]

theorem Rz_mat (θ : ℂ) (q : Q) : Rz θ q = mat q (exp (-(I * (θ / 2)))) 0 0 (exp (I * (θ / 2))) := by
  unfold Rz
  rw [one_mat q, Z_mat, mat_smul, mat_smul, mat_sub]
  have h1 := exp_I_mul (θ / 2)
  have h2 : exp (-(I * (θ / 2))) = cos (θ / 2) - sin (θ / 2) * I := by
    rw [← mul_neg, exp_I_mul, cos_neg, sin_neg]; ring
  rw [h1, h2]
  congr 1 <;> ring

theorem Rx_mat (θ : ℂ) (q : Q) :
    Rx θ q = mat q (cos (θ / 2)) (-(I * sin (θ / 2))) (-(I * sin (θ / 2))) (cos (θ / 2)) := by
  unfold Rx
  rw [one_mat q, X_mat, mat_smul, mat_smul, mat_sub]
  congr 1 <;> ring

theorem Ry_mat (θ : ℂ) (q : Q) :
    Ry θ q = mat q (cos (θ / 2)) (-sin (θ / 2)) (sin (θ / 2)) (cos (θ / 2)) := by
  unfold Ry
  rw [one_mat q, Y_mat, mat_smul, mat_smul, mat_sub]
  congr 1 <;> ring_nf <;> simp

theorem Ph_mat (θ : ℂ) (q : Q) : Ph θ q = mat q 1 0 0 (exp (I * θ)) := by
  unfold Ph
  rw [P0_mat, P1_mat, mat_smul, mat_add]
  congr 1 <;> ring

theorem mat_mem {S : Set Q} {q : Q} (h : q ∈ S) (a b c d : ℂ) : mat q a b c d ∈ local' S :=
  Subalgebra.add_mem _ (Subalgebra.add_mem _ (Subalgebra.add_mem _
    (Subalgebra.smul_mem _ (P0_mem_of (Z_mem h)) _)
    (Subalgebra.smul_mem _ (Subalgebra.mul_mem _ (P0_mem_of (Z_mem h)) (X_mem h)) _))
    (Subalgebra.smul_mem _ (Subalgebra.mul_mem _ (P1_mem_of (Z_mem h)) (X_mem h)) _))
    (Subalgebra.smul_mem _ (P1_mem_of (Z_mem h)) _)

theorem mat_comm {p q : Q} (h : p ≠ q) (a b c d a' b' c' d' : ℂ) :
    Commute (mat p a b c d) (mat q a' b' c' d') := by
  refine local_commute (S := {p}) (T := {q}) ?_ ?_ ?_
  · intro x hx hq
    rw [Set.mem_singleton_iff] at hx hq
    exact h (hx.symm.trans hq)
  · exact mat_mem (Set.mem_singleton _) a b c d
  · exact mat_mem (Set.mem_singleton _) a' b' c' d'

/-! ## Sectors of a control qubit -/

/-- The projector on the bit `i`. -/
def Pr (i : Bool) (q : Q) : Op Q := if i then P1 q else P0 q

theorem Pr_mat (i : Bool) (q : Q) : Pr i q = if i then mat q 0 0 0 1 else mat q 1 0 0 0 := by
  unfold Pr; rw [P0_mat, P1_mat]

theorem Pr_sum (q : Q) : Pr false q + Pr true q = 1 := by
  simp only [Pr_mat, if_true, Bool.false_eq_true, if_false, mat_add]
  rw [one_mat q]
  congr 1 <;> ring

theorem Pr_comm {p q : Q} (h : p ≠ q) (i : Bool) (a b c d : ℂ) : Commute (Pr i p) (mat q a b c d) := by
  rw [Pr_mat]
  split <;> exact mat_comm h _ _ _ _ _ _ _ _

theorem Pr_comm' {p q : Q} (h : p ≠ q) (i j : Bool) : Commute (Pr i p) (Pr j q) := by
  rw [Pr_mat j]
  split <;> exact Pr_comm h _ _ _ _ _

theorem ext_sector {A B : Op Q} (q : Q) (h : ∀ i, A * Pr i q = B * Pr i q) : A = B := by
  have := congrArg₂ (· + ·) (h false) (h true)
  simp only [← mul_add, Pr_sum, mul_one] at this
  exact this

/-- Sign of a bit under `Z`. -/
def sgn (i : Bool) : ℂ := if i then -1 else 1

theorem Z_sector (i : Bool) (q : Q) : Z q * Pr i q = sgn i • Pr i q := by
  cases i
  · simp only [Pr_mat, sgn, Bool.false_eq_true, if_false, Z_mat, mat_mul, mat_smul]
    congr 1 <;> ring
  · simp only [Pr_mat, sgn, if_true, Z_mat, mat_mul, mat_smul]
    congr 1 <;> ring

theorem diag_sector (i : Bool) (q : Q) (a d : ℂ) :
    mat q a 0 0 d * Pr i q = (if i then d else a) • Pr i q := by
  cases i
  · simp only [Pr_mat, Bool.false_eq_true, if_false, mat_mul, mat_smul]
    congr 1 <;> ring
  · simp only [Pr_mat, if_true, mat_mul, mat_smul]
    congr 1 <;> ring

theorem Pr_Pr (i j : Bool) (q : Q) : Pr i q * Pr j q = if i = j then Pr j q else 0 := by
  have hz : mat q 0 0 0 0 = (0 : Op Q) := by simp [mat]
  cases i <;> cases j <;> simp [Pr_mat, mat_mul, hz]

theorem ctrl_sector (i : Bool) (q : Q) {U : Op Q} (h : ∀ i, Commute (Pr i q) U) :
    ctrl q U * Pr i q = (if i then U else 1) * Pr i q := by
  have e : ctrl q U = Pr false q + Pr true q * U := rfl
  rw [e, add_mul, Pr_Pr, mul_assoc, ← (h i).eq, ← mul_assoc, Pr_Pr]
  cases i <;> simp [(h true).eq]

end Tket.Quantum
