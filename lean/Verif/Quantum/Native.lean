import Verif.Quantum.Mat

/-!
# The native gates of Q-System

Specification: `Rz(θ) = exp(-iθ/2 Z)`, `PhasedX(θ, φ) = Rz(φ) Rx(θ) Rz(-φ)` and
`ZZPhase(θ) = exp(-iθ/2 Z⊗Z)`, the gates of the documentation of Quantinuum's machines and of TKET.
-/

noncomputable section

namespace Tket.Quantum

open Complex

set_option linter.unusedSectionVars false

variable {Q : Type} [DecidableEq Q]

def PhasedX (θ φ : ℂ) (q : Q) : Op Q := Rz φ q * Rx θ q * Rz (-φ) q

def ZZPhase (θ : ℂ) (a b : Q) : Op Q := cos (θ / 2) • 1 - (I * sin (θ / 2)) • (Z a * Z b)

theorem ZZ_sector (θ : ℂ) {a b : Q} (h : a ≠ b) (i : Bool) :
    ZZPhase θ a b * Pr i a = Pr i a * Rz (sgn i * θ) b := by
  have hz : Z a * Z b * Pr i a = sgn i • (Pr i a * Z b) := by
    rw [(ZZ_comm a b).eq, mul_assoc, Z_sector, mul_smul_comm, Z_mat b, (Pr_comm h i _ _ _ _).eq]
  have hs : cos (sgn i * θ / 2) = cos (θ / 2) ∧ sin (sgn i * θ / 2) = sgn i * sin (θ / 2) := by
    cases i
    · simp [sgn]
    · simp only [sgn, if_true, neg_mul, one_mul, neg_div, cos_neg, sin_neg, and_self]
  unfold ZZPhase Rz
  rw [sub_mul, mul_sub, hs.1, hs.2, smul_mul_assoc, smul_mul_assoc, hz, one_mul, mul_smul_comm, mul_one,
    mul_smul_comm, smul_smul]
  congr 2
  ring

theorem ZZ_symm (θ : ℂ) (a b : Q) : ZZPhase θ a b = ZZPhase θ b a := by
  unfold ZZPhase; rw [(ZZ_comm a b).eq]

theorem ZZ_mem {S : Set Q} {a b : Q} (ha : a ∈ S) (hb : b ∈ S) (θ : ℂ) : ZZPhase θ a b ∈ local' S :=
  Subalgebra.sub_mem _ (Subalgebra.smul_mem _ (Subalgebra.one_mem _) _)
    (Subalgebra.smul_mem _ (Subalgebra.mul_mem _ (Z_mem ha) (Z_mem hb)) _)

theorem ZZ_comm_mat (θ : ℂ) {a b c : Q} (h1 : c ≠ a) (h2 : c ≠ b) (x y z w : ℂ) :
    Commute (ZZPhase θ a b) (mat c x y z w) := by
  refine local_commute (S := {a, b}) (T := {c}) ?_ (ZZ_mem (Set.mem_insert _ _) (Set.mem_insert_of_mem _ (Set.mem_singleton _)) θ)
    (mat_mem (Set.mem_singleton _) _ _ _ _)
  intro p hp hc
  rw [Set.mem_singleton_iff] at hc
  subst hc
  rcases hp with h | h
  · exact h1 h
  · exact h2 h

/-- Flipping the first qubit reverses the phase. -/
theorem flip_ZZ (θ : ℂ) {a b : Q} (h : a ≠ b) (β γ : ℂ) :
    mat a 0 β γ 0 * ZZPhase θ a b = ZZPhase (-θ) a b * mat a 0 β γ 0 := by
  have h1 : mat a 0 β γ 0 * Z a = -(Z a * mat a 0 β γ 0) := by
    rw [Z_mat, mat_mul, mat_mul, ← neg_one_smul ℂ (mat _ _ _ _ _), mat_smul]
    congr 1 <;> ring
  have h2 : Commute (mat a 0 β γ 0) (Z b) := by rw [Z_mat]; exact mat_comm h _ _ _ _ _ _ _ _
  unfold ZZPhase
  rw [mul_sub, sub_mul, neg_div, cos_neg, sin_neg]
  have h3 : mat a 0 β γ 0 * (Z a * Z b) = -(Z a * Z b * mat a 0 β γ 0) := by
    rw [← mul_assoc, h1, neg_mul, mul_assoc, h2.eq, mul_assoc]
  rw [mul_smul_comm, mul_smul_comm, h3, smul_mul_assoc, smul_mul_assoc, mul_one, one_mul, mul_neg,
    neg_smul, smul_neg]

/-! ## Multiples of π/4 -/

/-- `e^{iπ/8}`. -/
def ζ : ℂ := exp (I * (Real.pi / 8))
def ζi : ℂ := exp (-(I * (Real.pi / 8)))

theorem ζ_inv : ζ * ζi = 1 := by
  unfold ζ ζi; rw [← exp_add, add_neg_cancel, exp_zero]

theorem ζ_pow (n : ℕ) : exp (I * (n * (Real.pi / 8))) = ζ ^ n := by
  unfold ζ; rw [← exp_nat_mul]; ring_nf

theorem ζi_pow (n : ℕ) : exp (-(I * (n * (Real.pi / 8)))) = ζi ^ n := by
  unfold ζi; rw [← exp_nat_mul]; ring_nf

theorem ζ_four : ζ ^ 4 = I := by
  rw [← ζ_pow]
  have : I * (((4 : ℕ) : ℂ) * (Real.pi / 8)) = Real.pi / 2 * I := by push_cast; ring
  rw [this, exp_pi_div_two_mul_I]

theorem ζ_eight : ζ ^ 8 = -1 := by
  have : ζ ^ 8 = ζ ^ 4 * ζ ^ 4 := by ring
  rw [this, ζ_four, I_mul_I]

theorem ζi_eq : ζi = -ζ ^ 7 := by
  have h1 := ζ_inv
  have h2 := ζ_eight
  linear_combination (-ζ ^ 7) * h1 + ζi * h2

/-- `e^{iπk/8}` for an integer `k` given as a difference. -/
theorem exp_diff (k l : ℕ) : exp (I * (((k : ℂ) - l) * (Real.pi / 8))) = ζ ^ k * ζi ^ l := by
  rw [← ζ_pow, ← ζi_pow, ← exp_add]; ring_nf

theorem exp_diff' (k l : ℕ) : exp (-(I * (((k : ℂ) - l) * (Real.pi / 8)))) = ζ ^ l * ζi ^ k := by
  rw [← exp_diff]; ring_nf

theorem Rz_quarter (k l : ℕ) (θ : ℂ) (h : θ = ((k : ℂ) - l) * (Real.pi / 4)) (q : Q) :
    Rz θ q = mat q (ζ ^ l * ζi ^ k) 0 0 (ζ ^ k * ζi ^ l) := by
  rw [Rz_mat, h]
  have : ((k : ℂ) - l) * (Real.pi / 4) / 2 = ((k : ℂ) - l) * (Real.pi / 8) := by ring
  rw [this, exp_diff, exp_diff']

theorem cos_diff (k l : ℕ) :
    cos (((k : ℂ) - l) * (Real.pi / 8)) = (ζ ^ k * ζi ^ l + ζ ^ l * ζi ^ k) / 2 := by
  rw [← exp_diff, ← exp_diff', cos]; ring_nf

theorem sin_diff (k l : ℕ) :
    I * sin (((k : ℂ) - l) * (Real.pi / 8)) = (ζ ^ k * ζi ^ l - ζ ^ l * ζi ^ k) / 2 := by
  rw [← exp_diff, ← exp_diff', sin]
  ring_nf
  rw [I_sq]
  ring

theorem PX_mat (θ φ : ℂ) (q : Q) : PhasedX θ φ q =
    mat q (cos (θ / 2)) (-(I * sin (θ / 2)) * exp (-(I * φ))) (-(I * sin (θ / 2)) * exp (I * φ))
      (cos (θ / 2)) := by
  unfold PhasedX
  rw [Rz_mat, Rz_mat, Rx_mat, mat_mul, mat_mul]
  have e1 : exp (-(I * (φ / 2))) * exp (I * (φ / 2)) = 1 := by rw [← exp_add]; simp
  have e2 : exp (I * (φ / 2)) * exp (I * (φ / 2)) = exp (I * φ) := by rw [← exp_add]; ring_nf
  have e3 : exp (-(I * (φ / 2))) * exp (-(I * (φ / 2))) = exp (-(I * φ)) := by rw [← exp_add]; ring_nf
  have e4 : exp (-(I * (-φ / 2))) = exp (I * (φ / 2)) := by ring_nf
  have e5 : exp (I * (-φ / 2)) = exp (-(I * (φ / 2))) := by ring_nf
  rw [e4, e5]
  congr 1
  · linear_combination cos (θ / 2) * e1
  · linear_combination (-(I * sin (θ / 2))) * e3
  · linear_combination (-(I * sin (θ / 2))) * e2
  · linear_combination cos (θ / 2) * e1

theorem PX_quarter (k l k' l' : ℕ) (θ φ : ℂ) (h : θ = ((k : ℂ) - l) * (Real.pi / 4))
    (h' : φ = ((k' : ℂ) - l') * (Real.pi / 4)) (q : Q) :
    PhasedX θ φ q = mat q ((ζ ^ k * ζi ^ l + ζ ^ l * ζi ^ k) / 2)
      (-((ζ ^ k * ζi ^ l - ζ ^ l * ζi ^ k) / 2) * (ζ ^ (2 * l') * ζi ^ (2 * k')))
      (-((ζ ^ k * ζi ^ l - ζ ^ l * ζi ^ k) / 2) * (ζ ^ (2 * k') * ζi ^ (2 * l')))
      ((ζ ^ k * ζi ^ l + ζ ^ l * ζi ^ k) / 2) := by
  have e1 : θ / 2 = ((k : ℂ) - l) * (Real.pi / 8) := by rw [h]; ring
  have e2 : φ = (((2 * k' : ℕ) : ℂ) - ((2 * l' : ℕ) : ℂ)) * (Real.pi / 8) := by
    rw [h']; push_cast; ring
  rw [PX_mat, e1, cos_diff, sin_diff, e2, exp_diff, exp_diff']

end Tket.Quantum
