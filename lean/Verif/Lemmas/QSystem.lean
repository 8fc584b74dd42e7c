import Verif.Quantum.Native
import Verif.Model.QSystem

/-!
# The decompositions into native gates, as operators
-/

noncomputable section

namespace Tket.QSystem

open Tket.Quantum Complex

variable {Q : Type} [DecidableEq Q]

/-- The operator of a native gate. -/
def Gate.sem : Gate Q → Op Q
  | .rz q θ => Rz θ q
  | .phasedX q θ φ => PhasedX θ φ q
  | .zzPhase a b θ => ZZPhase θ a b

theorem ang {m : ℝ} {k l : ℕ} (h : m = ((k : ℝ) - l) / 4) :
    ((piMul m : ℝ) : ℂ) = ((k : ℂ) - l) * (Real.pi / 4) := by
  unfold piMul; rw [h]; push_cast; ring

theorem rz_sem {m : ℝ} (k l : ℕ) (h : m = ((k : ℝ) - l) / 4) (q : Q) :
    (Gate.rz q (piMul m)).sem = mat q (ζ ^ l * ζi ^ k) 0 0 (ζ ^ k * ζi ^ l) :=
  Rz_quarter k l _ (ang h) q

theorem px_sem {m m' : ℝ} (k l k' l' : ℕ) (h : m = ((k : ℝ) - l) / 4) (h' : m' = ((k' : ℝ) - l') / 4) (q : Q) :
    (Gate.phasedX q (piMul m) (piMul m')).sem = mat q ((ζ ^ k * ζi ^ l + ζ ^ l * ζi ^ k) / 2)
      (-((ζ ^ k * ζi ^ l - ζ ^ l * ζi ^ k) / 2) * (ζ ^ (2 * l') * ζi ^ (2 * k')))
      (-((ζ ^ k * ζi ^ l - ζ ^ l * ζi ^ k) / 2) * (ζ ^ (2 * k') * ζi ^ (2 * l')))
      ((ζ ^ k * ζi ^ l + ζ ^ l * ζi ^ k) / 2) :=
  PX_quarter k l k' l' _ _ (ang h) (ang h') q

theorem inv_sqrt2 : (1 / (Real.sqrt 2 : ℂ)) = (ζ ^ 2 + ζi ^ 2) / 2 := by
  have h := cos_diff 2 0
  have e : (((2 : ℕ) : ℂ) - ((0 : ℕ) : ℂ)) * (Real.pi / 8) = ((Real.pi / 4 : ℝ) : ℂ) := by
    push_cast; ring
  rw [e, ← ofReal_cos, Real.cos_pi_div_four] at h
  have h2 : (Real.sqrt 2 : ℂ) * Real.sqrt 2 = 2 := by
    rw [← ofReal_mul, Real.mul_self_sqrt (by norm_num)]; norm_num
  have hne : (Real.sqrt 2 : ℂ) ≠ 0 := by
    intro hc; rw [hc] at h2; norm_num at h2
  have : (1 / (Real.sqrt 2 : ℂ)) = (Real.sqrt 2 : ℂ) / 2 := by
    field_simp; rw [pow_two, h2]
  rw [this]
  push_cast at h
  rw [h]; ring

/-- Exponentials of multiples of π/8. -/
theorem expPi (k : ℕ) (θ : ℂ) (h : θ = k * (Real.pi / 8)) : exp (I * θ) = ζ ^ k := by
  rw [h, ζ_pow]

theorem mat_congr {q : Q} {a b c d a' b' c' d' : ℂ} (h1 : a = a') (h2 : b = b') (h3 : c = c') (h4 : d = d') :
    mat q a b c d = mat q a' b' c' d' := by rw [h1, h2, h3, h4]

theorem h_ok (q : Q) : (Gate.rz q (piMul 1)).sem * (Gate.phasedX q (piMul 0.5) (piMul (-0.5))).sem =
    (-I) • H q := by
  rw [rz_sem 4 0 (by norm_num), px_sem 2 0 0 2 (by norm_num) (by norm_num), H_mat, mat_mul, mat_smul,
    inv_sqrt2]
  have h8 := ζ_eight
  rw [ζi_eq, ← ζ_four]
  apply mat_congr <;> grind

theorem x_ok (q : Q) : (Gate.phasedX q (piMul 1) (piMul 0)).sem = (-I) • X q := by
  rw [px_sem 4 0 0 0 (by norm_num) (by norm_num), X_mat, mat_smul]
  have h8 := ζ_eight
  rw [ζi_eq, ← ζ_four]
  apply mat_congr <;> grind

theorem y_ok (q : Q) : (Gate.phasedX q (piMul 1) (piMul 0.5)).sem = (-I) • Y q := by
  rw [px_sem 4 0 2 0 (by norm_num) (by norm_num), Y_mat, mat_smul]
  have h8 := ζ_eight
  rw [ζi_eq, ← ζ_four]
  apply mat_congr <;> grind

theorem z_ok (q : Q) : (Gate.rz q (piMul 1)).sem = (-I) • Z q := by
  rw [rz_sem 4 0 (by norm_num), Z_mat, mat_smul]
  have h8 := ζ_eight
  rw [ζi_eq, ← ζ_four]
  apply mat_congr <;> grind

theorem rz_ph (θ : ℂ) (q : Q) : Rz θ q = exp (-(I * (θ / 2))) • Ph θ q := by
  rw [Rz_mat, Ph_mat, mat_smul]
  apply mat_congr
  · ring
  · ring
  · ring
  · rw [← exp_add]; ring_nf

theorem v_ok (q : Q) : (Gate.phasedX q (piMul 0.5) (piMul 0)).sem = ζi ^ 2 • V q := by
  rw [px_sem 2 0 0 0 (by norm_num) (by norm_num), V_mat, mat_smul]
  have h8 := ζ_eight
  rw [ζi_eq, ← ζ_four]
  apply mat_congr <;> grind

theorem vdg_ok (q : Q) : (Gate.phasedX q (piMul (-0.5)) (piMul 0)).sem = ζ ^ 2 • Vdg q := by
  rw [px_sem 0 2 0 0 (by norm_num) (by norm_num), Vdg_mat, mat_smul]
  have h8 := ζ_eight
  rw [ζi_eq, ← ζ_four]
  apply mat_congr <;> grind

theorem rx_ok (θ : ℝ) (q : Q) : (Gate.phasedX q θ (piMul 0)).sem = Rx θ q := by
  show PhasedX θ ((piMul 0 : ℝ) : ℂ) q = _
  rw [PX_mat, Rx_mat]
  simp [piMul]

theorem ry_ok (θ : ℝ) (q : Q) : (Gate.phasedX q θ (piMul 0.5)).sem = Ry θ q := by
  show PhasedX θ ((piMul 0.5 : ℝ) : ℂ) q = _
  have e := ang (m := 0.5) (k := 2) (l := 0) (by norm_num)
  have e2 : (((2 : ℕ) : ℂ) - ((0 : ℕ) : ℂ)) * (Real.pi / 4) = Real.pi / 2 := by push_cast; ring
  rw [PX_mat, Ry_mat, e, e2]
  have h1 : exp (I * (Real.pi / 2)) = I := by rw [mul_comm, exp_pi_div_two_mul_I]
  have h2 : exp (-(I * (Real.pi / 2))) = -I := by
    rw [exp_neg, h1]; simp
  rw [h1, h2]
  apply mat_congr
  · rfl
  · linear_combination (sin (θ / 2)) * I_mul_I
  · linear_combination (-sin (θ / 2)) * I_mul_I
  · rfl

/-! ## Two qubits -/

theorem zz_sector {m : ℝ} (k l : ℕ) (h : m = ((k : ℝ) - l) / 4) {a b : Q} (hab : a ≠ b) (i : Bool) :
    (Gate.zzPhase a b (piMul m)).sem * Pr i a = Pr i a *
      mat b (if i then ζ ^ k * ζi ^ l else ζ ^ l * ζi ^ k) 0 0 (if i then ζ ^ l * ζi ^ k else ζ ^ k * ζi ^ l) := by
  show ZZPhase ((piMul m : ℝ) : ℂ) a b * _ = _
  rw [ZZ_sector _ hab]
  congr 1
  cases i
  · rw [Rz_quarter k l _ (by rw [sgn]; simp [ang h])]
    simp
  · rw [Rz_quarter l k _ (by rw [sgn, if_pos rfl, ang h]; ring)]
    simp

theorem mv {a b : Q} (hab : a ≠ b) (i : Bool) (w x y z : ℂ) (Y : Op Q) :
    mat b w x y z * (Pr i a * Y) = Pr i a * (mat b w x y z * Y) := by
  rw [← mul_assoc, ← (Pr_comm hab i w x y z).eq, mul_assoc]

theorem mv0 {a b : Q} (hab : a ≠ b) (i : Bool) (w x y z : ℂ) :
    mat b w x y z * Pr i a = Pr i a * mat b w x y z := (Pr_comm hab i w x y z).eq.symm

theorem dg (i : Bool) (q : Q) (a d : ℂ) (Y : Op Q) :
    mat q a 0 0 d * (Pr i q * Y) = (if i then d else a) • (Pr i q * Y) := by
  rw [← mul_assoc, diag_sector, smul_mul_assoc]

theorem zz_sector' {m : ℝ} (k l : ℕ) (h : m = ((k : ℝ) - l) / 4) {a b : Q} (hab : a ≠ b) (i : Bool) (Y : Op Q) :
    (Gate.zzPhase a b (piMul m)).sem * (Pr i a * Y) = Pr i a *
      (mat b (if i then ζ ^ k * ζi ^ l else ζ ^ l * ζi ^ k) 0 0
        (if i then ζ ^ l * ζi ^ k else ζ ^ k * ζi ^ l) * Y) := by
  rw [← mul_assoc, zz_sector k l h hab, mul_assoc]

theorem ctrl_mat {a b : Q} (hab : a ≠ b) (i : Bool) (w x y z : ℂ) :
    ctrl a (mat b w x y z) * Pr i a =
      Pr i a * mat b (if i then w else 1) (if i then x else 0) (if i then y else 0) (if i then z else 1) := by
  rw [ctrl_sector i a (fun i => Pr_comm hab i _ _ _ _)]
  cases i
  · simp only [Bool.false_eq_true, if_false, one_mul]
    rw [← one_mat b, mul_one]
  · simp only [if_true]
    exact mv0 hab true w x y z

theorem cz_ok {a b : Q} (hab : a ≠ b) : (Gate.rz a (piMul (-0.5))).sem * (Gate.rz b (piMul (-0.5))).sem *
    (Gate.zzPhase a b (piMul 0.5)).sem = ζ ^ 2 • ctrl a (Z b) := by
  apply ext_sector a
  intro i
  rw [rz_sem 0 2 (by norm_num), rz_sem 0 2 (by norm_num), Z_mat, smul_mul_assoc, ctrl_mat hab, mul_assoc,
    mul_assoc, zz_sector 2 0 (by norm_num) hab, mv hab, dg, mat_mul, ← mul_smul_comm, ← mul_smul_comm,
    mat_smul, mat_smul]
  have h8 := ζ_eight
  rw [ζi_eq]
  congr 1
  cases i <;> simp only [Bool.false_eq_true, if_false, if_true] <;> apply mat_congr <;> grind

theorem cx_ok {c t : Q} (hct : c ≠ t) : (Gate.rz t (piMul (-0.5))).sem *
    ((Gate.phasedX t (piMul 0.5) (piMul 1)).sem * ((Gate.rz c (piMul (-0.5))).sem *
    ((Gate.zzPhase c t (piMul 0.5)).sem * (Gate.phasedX t (piMul (-0.5)) (piMul 0.5)).sem))) =
    ζ ^ 2 • ctrl c (X t) := by
  apply ext_sector c
  intro i
  rw [rz_sem 0 2 (by norm_num), px_sem 2 0 4 0 (by norm_num) (by norm_num), rz_sem 0 2 (by norm_num),
    px_sem 0 2 2 0 (by norm_num) (by norm_num), X_mat, smul_mul_assoc, ctrl_mat hct]
  simp only [mul_assoc]
  rw [mv0 hct, zz_sector' 2 0 (by norm_num) hct, dg, mul_smul_comm, mul_smul_comm, mv hct, mv hct]
  simp only [mat_mul, ← mul_smul_comm, mat_smul]
  have h8 := ζ_eight
  rw [ζi_eq]
  congr 1
  cases i <;> simp only [Bool.false_eq_true, if_false, if_true] <;> apply mat_congr <;> grind

theorem cy_ok {a b : Q} (hab : a ≠ b) : (Gate.rz b (piMul 0.5)).sem *
    ((Gate.rz a (piMul (-0.5))).sem * ((Gate.phasedX b (piMul (-0.5)) (piMul (-0.5))).sem *
    ((Gate.phasedX a (piMul 1) (piMul 0.5)).sem * ((Gate.zzPhase a b (piMul 0.5)).sem *
    ((Gate.phasedX b (piMul (-0.5)) (piMul 1)).sem * (Gate.phasedX a (piMul 1) (piMul 1)).sem))))) =
    ζi ^ 2 • ctrl a (Y b) := by
  have hpi : ∀ (m : ℝ) (k' l' : ℕ), m = ((k' : ℝ) - l') / 4 →
      (Gate.phasedX a (piMul 1) (piMul m)).sem =
        mat a 0 (-I * (ζ ^ (2 * l') * ζi ^ (2 * k'))) (-I * (ζ ^ (2 * k') * ζi ^ (2 * l'))) 0 := by
    intro m k' l' h
    rw [px_sem 4 0 k' l' (by norm_num) h]
    have h8 := ζ_eight
    rw [← ζ_four, show ζ ^ 4 * ζi ^ 0 = ζ ^ 4 by ring, show ζ ^ 0 * ζi ^ 4 = -ζ ^ 4 by rw [ζi_eq]; grind]
    apply mat_congr <;> ring
  have hzz : (Gate.zzPhase a b (piMul 0.5)).sem = ZZPhase (((piMul 0.5 : ℝ)) : ℂ) a b := rfl
  have hzz' : ZZPhase (-(((piMul 0.5 : ℝ)) : ℂ)) a b = (Gate.zzPhase a b (piMul (-0.5))).sem := by
    show _ = ZZPhase (((piMul (-0.5) : ℝ)) : ℂ) a b
    unfold piMul; push_cast; congr 1; ring
  rw [hpi 0.5 2 0 (by norm_num), hpi 1 4 0 (by norm_num), hzz, ← mul_assoc (mat a _ _ _ _) (ZZPhase _ _ _),
    flip_ZZ _ hab, hzz']
  apply ext_sector a
  intro i
  rw [rz_sem 2 0 (by norm_num), px_sem 0 2 0 2 (by norm_num) (by norm_num), rz_sem 0 2 (by norm_num),
    px_sem 0 2 4 0 (by norm_num) (by norm_num), Y_mat, smul_mul_assoc, ctrl_mat hab]
  simp only [mul_assoc]
  rw [← mul_assoc (mat b _ _ _ _) (mat a _ _ _ _) (Pr i a), (mat_comm hab.symm _ _ _ _ _ _ _ _).eq,
    mul_assoc, ← mul_assoc (mat a _ _ _ _) (mat a _ _ _ _), mat_mul]
  simp only [zero_mul, mul_zero, add_zero, zero_add]
  rw [mv0 hab, dg, mul_smul_comm, zz_sector' 0 2 (by norm_num) hab, mul_smul_comm, mul_smul_comm, mul_smul_comm,
    mv hab, dg, mul_smul_comm, mv hab]
  simp only [mat_mul, ← mul_smul_comm, mat_smul]
  have h8 := ζ_eight
  rw [ζi_eq, ← ζ_four]
  congr 1
  cases i <;> simp only [Bool.false_eq_true, if_false, if_true] <;> apply mat_congr <;> grind

theorem crz_ok {a b : Q} (hab : a ≠ b) (θ : ℝ) :
    (Gate.rz b (θ / 2)).sem * (Gate.zzPhase a b (-(θ / 2))).sem = ctrl a (Rz θ b) := by
  show Rz ((θ / 2 : ℝ) : ℂ) b * ZZPhase ((-(θ / 2) : ℝ) : ℂ) a b = _
  apply ext_sector a
  intro i
  rw [mul_assoc, ZZ_sector _ hab, Rz_mat, Rz_mat, Rz_mat, mv hab, mat_mul, ctrl_mat hab]
  congr 1
  cases i
  · simp only [sgn, Bool.false_eq_true, if_false]
    apply mat_congr
    · rw [mul_zero, add_zero, ← exp_add]; push_cast; ring_nf; simp
    · ring
    · ring
    · rw [mul_zero, zero_add, ← exp_add]; push_cast; ring_nf; simp
  · simp only [sgn, if_true]
    apply mat_congr
    · rw [mul_zero, add_zero, ← exp_add]; push_cast; ring_nf
    · ring
    · ring
    · rw [mul_zero, zero_add, ← exp_add]; push_cast; ring_nf

/-! ## Three qubits -/

theorem mvZZ {a b c : Q} (hab : a ≠ b) (hac : a ≠ c) (i : Bool) (θ : ℝ) (Y : Op Q) :
    (Gate.zzPhase b c θ).sem * (Pr i a * Y) = Pr i a * ((Gate.zzPhase b c θ).sem * Y) := by
  have : Commute (ZZPhase (θ : ℂ) b c) (Pr i a) := by
    rw [Pr_mat]
    split <;> exact ZZ_comm_mat _ hab hac _ _ _ _
  show ZZPhase (θ : ℂ) b c * _ = _ * (ZZPhase (θ : ℂ) b c * _)
  rw [← mul_assoc, this.eq, mul_assoc]

theorem px_pi {m : ℝ} (k' l' : ℕ) (h : m = ((k' : ℝ) - l') / 4) (a : Q) :
    (Gate.phasedX a (piMul 1) (piMul m)).sem =
      mat a 0 (-I * (ζ ^ (2 * l') * ζi ^ (2 * k'))) (-I * (ζ ^ (2 * k') * ζi ^ (2 * l'))) 0 := by
  rw [px_sem 4 0 k' l' (by norm_num) h]
  have h8 := ζ_eight
  rw [← ζ_four, show ζ ^ 4 * ζi ^ 0 = ζ ^ 4 by ring, show ζ ^ 0 * ζi ^ 4 = -ζ ^ 4 by rw [ζi_eq]; grind]
  apply mat_congr <;> ring

theorem toffoli_ok {a b c : Q} (hab : a ≠ b) (hac : a ≠ c) (hbc : b ≠ c) :
    (Gate.rz a (piMul 0.25)).sem * ((Gate.rz b (piMul (-0.75))).sem *
    ((Gate.phasedX a (piMul 1) (piMul (-0.25))).sem * ((Gate.rz c (piMul 1)).sem *
    ((Gate.zzPhase a b (piMul 0.25)).sem * ((Gate.phasedX c (piMul (-0.75)) (piMul 1)).sem *
    ((Gate.phasedX a (piMul 1) (piMul 0.25)).sem * ((Gate.zzPhase a c (piMul 0.5)).sem *
    ((Gate.phasedX c (piMul 0.25) (piMul (-0.5))).sem * ((Gate.zzPhase b c (piMul 0.5)).sem *
    ((Gate.phasedX c (piMul 0.25) (piMul 0)).sem * ((Gate.zzPhase a c (piMul 0.5)).sem *
    ((Gate.phasedX c (piMul 0.25) (piMul 0.5)).sem * ((Gate.zzPhase b c (piMul 0.5)).sem *
    (Gate.phasedX c (piMul 1) (piMul (-0.5))).sem))))))))))))) = ζ ^ 7 • ctrl a (ctrl b (X c)) := by
  have hflip : ∀ (β γ : ℂ) (Y : Op Q), mat a 0 β γ 0 * ((Gate.zzPhase a b (piMul 0.25)).sem * Y) =
      (Gate.zzPhase a b (piMul (-0.25))).sem * (mat a 0 β γ 0 * Y) := by
    intro β γ Y
    show mat a 0 β γ 0 * (ZZPhase (((piMul 0.25 : ℝ)) : ℂ) a b * Y) =
      ZZPhase (((piMul (-0.25) : ℝ)) : ℂ) a b * (mat a 0 β γ 0 * Y)
    have : (((piMul (-0.25) : ℝ)) : ℂ) = -(((piMul 0.25 : ℝ)) : ℂ) := by
      unfold piMul; push_cast; ring
    rw [this, ← mul_assoc, flip_ZZ _ hab, mul_assoc]
  have hcc : ∀ (w x y z w' x' y' z' : ℂ) (Y : Op Q), mat c w x y z * (mat a w' x' y' z' * Y) =
      mat a w' x' y' z' * (mat c w x y z * Y) := by
    intro w x y z w' x' y' z' Y
    rw [← mul_assoc, (mat_comm hac.symm _ _ _ _ _ _ _ _).eq, mul_assoc]
  have hcz : ∀ (w x y z : ℂ) (Y : Op Q), mat c w x y z * ((Gate.zzPhase a b (piMul 0.25)).sem * Y) =
      (Gate.zzPhase a b (piMul 0.25)).sem * (mat c w x y z * Y) := by
    intro w x y z Y
    have := (ZZ_comm_mat (((piMul 0.25 : ℝ)) : ℂ) hac.symm hbc.symm w x y z).eq
    show mat c w x y z * (ZZPhase (((piMul 0.25 : ℝ)) : ℂ) a b * Y) =
      ZZPhase (((piMul 0.25 : ℝ)) : ℂ) a b * (mat c w x y z * Y)
    rw [← mul_assoc, ← this, mul_assoc]
  rw [px_pi 0 1 (by norm_num), px_pi 1 0 (by norm_num), rz_sem 1 0 (by norm_num) a, rz_sem 0 3 (by norm_num) b,
    rz_sem 4 0 (by norm_num) c, px_sem 0 3 4 0 (by norm_num) (by norm_num), px_sem 1 0 0 2 (by norm_num)
    (by norm_num), px_sem 1 0 0 0 (by norm_num) (by norm_num), px_sem 1 0 2 0 (by norm_num) (by norm_num),
    px_pi 0 2 (by norm_num), hcc, hcz, hcc, hflip, ← mul_assoc (mat a _ _ _ _) (mat a _ _ _ _), mat_mul]
  simp only [zero_mul, mul_zero, add_zero, zero_add]
  apply ext_sector a
  intro i
  apply ext_sector b
  intro j
  have hR : ctrl a (ctrl b (X c)) * Pr i a * Pr j b = Pr i a * (Pr j b *
      mat c (if i && j then 0 else 1) (if i && j then 1 else 0) (if i && j then 1 else 0)
        (if i && j then 0 else 1)) := by
    have hcomm : ∀ i, Commute (Pr i a) (ctrl b (X c)) := by
      intro i
      have e : ctrl b (X c) = Pr false b + Pr true b * X c := rfl
      rw [e, X_mat]
      exact (Pr_comm' hab _ _).add_right ((Pr_comm' hab _ _).mul_right (Pr_comm hac _ _ _ _ _))
    rw [ctrl_sector i a hcomm, mul_assoc, (Pr_comm' hab i j).eq, ← mul_assoc, X_mat]
    cases i
    · simp only [Bool.false_eq_true, if_false, one_mul, Bool.false_and]
      rw [← one_mat c, mul_one, (Pr_comm' hab _ _).eq]
    · simp only [if_true, Bool.true_and]
      rw [ctrl_mat hbc, mul_assoc, mv0 hac, ← mul_assoc, ← mul_assoc, (Pr_comm' hab _ _).eq]
  rw [smul_mul_assoc, smul_mul_assoc, hR]
  simp only [mul_assoc, mv hac, mv hbc, mv hab, mv0 hac, mv0 hbc, mvZZ hab hac,
    zz_sector' 2 0 (by norm_num : (0.5 : ℝ) = (((2 : ℕ) : ℝ) - ((0 : ℕ) : ℝ)) / 4) hac,
    zz_sector' 2 0 (by norm_num : (0.5 : ℝ) = (((2 : ℕ) : ℝ) - ((0 : ℕ) : ℝ)) / 4) hbc,
    zz_sector' 0 1 (by norm_num : (-0.25 : ℝ) = (((0 : ℕ) : ℝ) - ((1 : ℕ) : ℝ)) / 4) hab,
    dg, mul_smul_comm, smul_mul_assoc, smul_smul]
  simp only [mat_mul, ← mul_smul_comm, mat_smul]
  have h8 := ζ_eight
  congr 2
  rw [ζi_eq, ← ζ_four]
  cases i <;> cases j <;> simp only [Bool.false_eq_true, if_false, if_true, Bool.and_true, Bool.and_false] <;>
    apply mat_congr <;> grind

end Tket.QSystem
