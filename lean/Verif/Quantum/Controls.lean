import Verif.Quantum.Mat
import Verif.Quantum.Native
import Mathlib.Tactic.NoncommRing

/-!
# Operators with many controls
-/

noncomputable section

namespace Tket.Quantum

open Complex

set_option linter.unusedSectionVars false

variable {Q : Type} [DecidableEq Q]

/-- `U` controlled on every qubit of `cs`. -/
def ctrls (cs : List Q) (U : Op Q) : Op Q := cs.foldr ctrl U

/-- The projector on all the qubits of `cs` being 1. -/
def PC (cs : List Q) : Op Q := (cs.map P1).prod

theorem P0_P1 (q : Q) : P0 q = 1 - P1 q := by
  have h : P0 q + P1 q = 1 := Pr_sum q
  rw [← h]; noncomm_ring

theorem ctrl_eq (c : Q) (U : Op Q) : ctrl c U = 1 + P1 c * (U - 1) := by
  unfold ctrl; rw [P0_P1]; noncomm_ring

theorem ctrls_eq (cs : List Q) (U : Op Q) : ctrls cs U = 1 + PC cs * (U - 1) := by
  induction cs with
  | nil => simp [ctrls, PC]
  | cons c cs ih =>
    have : ctrls (c :: cs) U = ctrl c (ctrls cs U) := rfl
    rw [this, ctrl_eq, ih]
    simp only [PC, List.map_cons, List.prod_cons]
    noncomm_ring

theorem ctrls_append (cs ds : List Q) (U : Op Q) : ctrls (cs ++ ds) U = ctrls cs (ctrls ds U) := by
  simp [ctrls]

theorem P1_comm (p q : Q) : Commute (P1 p) (P1 q) := by
  have h : ∀ r : Q, P1 r = (1 / 2 : ℂ) • (1 - Z r) := fun _ => rfl
  rw [h, h]
  exact ((((Commute.one_left _).sub_left ((Commute.one_right _).sub_right (ZZ_comm p q)))).smul_left _).smul_right _

theorem P1_sq (q : Q) : P1 q * P1 q = P1 q := by
  have h := Pr_Pr true true q
  simpa [Pr] using h

theorem PC_perm {cs ds : List Q} (h : cs.Perm ds) : PC cs = PC ds := by
  unfold PC
  refine (h.map P1).prod_eq' ?_
  rw [List.pairwise_map]
  exact List.pairwise_of_forall (fun p q => P1_comm p q)

theorem ctrls_perm {cs ds : List Q} (h : cs.Perm ds) (U : Op Q) : ctrls cs U = ctrls ds U := by
  rw [ctrls_eq, ctrls_eq, PC_perm h]

theorem P1_PC (p : Q) (cs : List Q) : Commute (P1 p) (PC cs) := by
  induction cs with
  | nil => exact Commute.one_right _
  | cons c cs ih =>
    have : PC (c :: cs) = P1 c * PC cs := by simp [PC]
    rw [this]; exact (P1_comm p c).mul_right ih

theorem PC_PC (cs ds : List Q) : Commute (PC cs) (PC ds) := by
  induction cs with
  | nil => exact Commute.one_left _
  | cons c cs ih =>
    have : PC (c :: cs) = P1 c * PC cs := by simp [PC]
    rw [this]; exact (P1_PC c ds).mul_left ih

theorem PC_sq (cs : List Q) : PC cs * PC cs = PC cs := by
  induction cs with
  | nil => simp [PC]
  | cons c cs ih =>
    have : PC (c :: cs) = P1 c * PC cs := by simp [PC]
    rw [this, mul_assoc, ← mul_assoc (PC cs), ← (P1_PC c cs).eq, mul_assoc (P1 c) (PC cs), ih, ← mul_assoc,
      P1_sq]

theorem PC_append (cs ds : List Q) : PC (cs ++ ds) = PC cs * PC ds := by simp [PC]

theorem P1_mat_comm {p q : Q} (h : p ≠ q) (a b c d : ℂ) : Commute (P1 p) (mat q a b c d) :=
  Pr_comm h true a b c d

/-- An operator unaffected by the value of the qubits of `cs`. -/
def Away (cs : List Q) (U : Op Q) : Prop := ∀ c ∈ cs, Commute (P1 c) U

theorem Away.pc {cs : List Q} {U : Op Q} (h : Away cs U) : Commute (PC cs) U := by
  induction cs with
  | nil => exact Commute.one_left _
  | cons c cs ih =>
    have : PC (c :: cs) = P1 c * PC cs := by simp [PC]
    rw [this]
    exact (h c (by simp)).mul_left (ih (fun d hd => h d (by simp [hd])))

theorem Away.mat {cs : List Q} {t : Q} (h : t ∉ cs) (a b c d : ℂ) : Away cs (mat t a b c d) :=
  fun x hx => P1_mat_comm (fun e : x = t => h (e ▸ hx)) a b c d

theorem Away.mul {cs : List Q} {U V : Op Q} (h : Away cs U) (k : Away cs V) : Away cs (U * V) :=
  fun c hc => (h c hc).mul_right (k c hc)

theorem Away.one (cs : List Q) : Away cs (1 : Op Q) := fun _ _ => Commute.one_right _

theorem Away.smul {cs : List Q} {U : Op Q} (k : ℂ) (h : Away cs U) : Away cs (k • U) :=
  fun c hc => (h c hc).smul_right k

theorem Away.sub {cs : List Q} {U V : Op Q} (h : Away cs U) (k : Away cs V) : Away cs (U - V) :=
  fun c hc => (h c hc).sub_right (k c hc)

theorem Away.add {cs : List Q} {U V : Op Q} (h : Away cs U) (k : Away cs V) : Away cs (U + V) :=
  fun c hc => (h c hc).add_right (k c hc)

theorem Away.ctrls {cs ds : List Q} {U : Op Q} (h : Away cs U) : Away cs (ctrls ds U) := by
  rw [ctrls_eq]
  exact (Away.one _).add (Away.mul (fun c _ => P1_PC c ds) (h.sub (Away.one _)))

theorem Away.mono {cs ds : List Q} {U : Op Q} (h : Away cs U) (k : ∀ c ∈ ds, c ∈ cs) : Away ds U :=
  fun c hc => h c (k c hc)

/-! ## Sectors -/

theorem ctrls_on {cs : List Q} {U : Op Q} (h : Away cs U) : ctrls cs U * PC cs = U * PC cs := by
  rw [ctrls_eq, add_mul, one_mul, mul_assoc, sub_mul, one_mul, ← h.pc.eq, mul_sub, ← mul_assoc, PC_sq, h.pc.eq]
  noncomm_ring

theorem ctrls_off {cs : List Q} {U : Op Q} (h : Away cs U) : ctrls cs U * (1 - PC cs) = 1 - PC cs := by
  rw [mul_sub, ctrls_on h, ctrls_eq, h.pc.symm.eq]
  noncomm_ring

theorem ext_PC (cs : List Q) {A B : Op Q} (h1 : A * PC cs = B * PC cs)
    (h2 : A * (1 - PC cs) = B * (1 - PC cs)) : A = B := by
  have := congrArg₂ (· + ·) h1 h2
  simp only [← mul_add] at this
  simpa using this

theorem ctrls_mul {cs : List Q} {A B : Op Q} (hA : Away cs A) (hB : Away cs B) :
    ctrls cs A * ctrls cs B = ctrls cs (A * B) := by
  apply ext_PC cs
  · rw [mul_assoc, ctrls_on hB, ← hB.pc.eq, ← mul_assoc, ctrls_on hA, ctrls_on (hA.mul hB), mul_assoc,
      hB.pc.eq, mul_assoc]
  · rw [mul_assoc, ctrls_off hB, ctrls_off hA, ctrls_off (hA.mul hB)]

theorem ctrls_one (cs : List Q) : ctrls cs (1 : Op Q) = 1 := by rw [ctrls_eq]; simp

/-- Conjugation only needs to be applied under the controls. -/
theorem ctrls_conj {cs : List Q} {A B U : Op Q} (hA : Away cs A) (_ : Away cs B) (hAB : A * B = 1) :
    A * ctrls cs U * B = ctrls cs (A * U * B) := by
  rw [ctrls_eq, ctrls_eq, mul_add, add_mul, mul_one, hAB, ← mul_assoc A, ← hA.pc.eq]
  have : A * U * B - 1 = A * (U - 1) * B := by rw [mul_sub, sub_mul, mul_one, hAB]
  rw [this]
  simp only [mul_assoc]

/-! ## Identities for the synthesis -/

theorem X_sq' (q : Q) : X q * X q = 1 := by
  rw [X_mat, mat_mul, one_mat q]; congr 1 <;> ring

theorem X_away {cs : List Q} {t : Q} (h : t ∉ cs) : Away cs (X t) := by
  rw [X_mat]; exact Away.mat h _ _ _ _

theorem ctrls_X_sq {cs : List Q} {t : Q} (h : t ∉ cs) : ctrls cs (X t) * ctrls cs (X t) = 1 := by
  rw [ctrls_mul (X_away h) (X_away h), X_sq', ctrls_one]

theorem X_P1_X (q : Q) : X q * P1 q * X q = P0 q := by
  rw [X_mat, P1_mat, P0_mat, mat_mul, mat_mul]; congr 1 <;> ring

theorem X_P0_X (q : Q) : X q * P0 q * X q = P1 q := by
  rw [X_mat, P1_mat, P0_mat, mat_mul, mat_mul]; congr 1 <;> ring

theorem P1_P0 (q : Q) : P1 q * P0 q = 0 := by
  have h := Pr_Pr true false q
  simpa [Pr] using h

theorem P0_P1' (q : Q) : P0 q * P1 q = 0 := by
  have h := Pr_Pr false true q
  simpa [Pr] using h

theorem P0_sq (q : Q) : P0 q * P0 q = P0 q := by
  have h := Pr_Pr false false q
  simpa [Pr] using h

/-- A controlled gate with the control flipped before and after. -/
theorem flip_ctrl {c : Q} {U : Op Q} (hX : Commute (X c) U) :
    X c * ctrl c U * X c = P1 c + P0 c * U := by
  unfold ctrl
  rw [mul_add, add_mul, X_P0_X, ← mul_assoc, mul_assoc (X c * P1 c), ← hX.eq, ← mul_assoc, X_P1_X]

/-- The gate of a dirty ancilla: flipping the control between two controlled gates applies the gate. -/
theorem anc_core {a : Q} {U : Op Q} (hX : Commute (X a) U) (hP : Commute (P1 a) U) :
    ctrl a U * X a * ctrl a U * X a = U := by
  have h0 : Commute (P0 a) U := by rw [P0_P1]; exact (Commute.one_left _).sub_left hP
  rw [mul_assoc, mul_assoc, ← mul_assoc (X a), flip_ctrl hX]
  unfold ctrl
  rw [add_mul, mul_add, mul_add, P0_P1', ← mul_assoc (P0 a), P0_sq, mul_assoc (P1 a) U (P1 a), ← hP.eq,
    ← mul_assoc (P1 a), P1_sq, mul_assoc (P1 a) U, ← mul_assoc U (P0 a), ← h0.eq, mul_assoc (P0 a) U U,
    ← mul_assoc (P1 a), P1_P0]
  rw [P0_P1]; noncomm_ring

/-- The target of two flips under controls: `C^{K1 ++ cs2} X(t)` from a dirty ancilla `a`. -/
theorem toffoli_split {k cs : List Q} {a t : Q} (hak : a ∉ k) (hac : a ∉ cs) (htk : t ∉ k) (htc : t ∉ cs)
    (hat : a ≠ t) :
    ctrls (cs ++ [a]) (X t) * (ctrls k (X a) * (ctrls (cs ++ [a]) (X t) * ctrls k (X a))) =
      ctrls (k ++ cs) (X t) := by
  set B := ctrls (cs ++ [a]) (X t) with hB
  have hBk : Away k B := (X_away htk).ctrls
  have hXa : Away k (X a) := X_away hak
  have hBB : B * B = 1 := by
    rw [hB]; exact ctrls_X_sq (by simp [htc]; exact fun e => hat e.symm)
  have hXt : Commute (X a) (X t) := XX_comm a t
  have hP : Commute (P1 a) (X t) := X_away (cs := [a]) (by simp; exact fun e => hat e.symm) a (by simp)
  have core : B * (X a * (B * X a)) = ctrls cs (X t) := by
    have hBc : B = ctrls cs (ctrl a (X t)) := by rw [hB, ctrls_append]; rfl
    have hca : Away cs (ctrl a (X t)) := (X_away htc).ctrls (ds := [a])
    have hXac : Away cs (X a) := X_away hac
    have h1 : X a * ctrls cs (ctrl a (X t)) * X a = ctrls cs (X a * ctrl a (X t) * X a) :=
      ctrls_conj hXac hXac (X_sq' a)
    rw [hBc, ← mul_assoc (X a), h1, ctrls_mul hca ((hXac.mul hca).mul hXac)]
    congr 1
    have := anc_core hXt hP
    simpa only [mul_assoc] using this
  rw [ctrls_append]
  apply ext_PC k
  · rw [ctrls_on ((X_away htk).ctrls), ← core]
    have e : ctrls k (X a) * PC k = X a * PC k := ctrls_on hXa
    calc B * (ctrls k (X a) * (B * ctrls k (X a))) * PC k
        = B * (ctrls k (X a) * (B * (ctrls k (X a) * PC k))) := by simp only [mul_assoc]
      _ = B * (ctrls k (X a) * (B * (X a * PC k))) := by rw [e]
      _ = B * (ctrls k (X a) * (PC k * (B * X a))) := by
          rw [← mul_assoc B (X a), ← (hBk.mul hXa).pc.eq]
      _ = B * ((ctrls k (X a) * PC k) * (B * X a)) := by simp only [mul_assoc]
      _ = B * (X a * (PC k * (B * X a))) := by rw [e]; simp only [mul_assoc]
      _ = B * (X a * (B * X a)) * PC k := by rw [(hBk.mul hXa).pc.eq]; simp only [mul_assoc]
  · rw [ctrls_off ((X_away htk).ctrls)]
    have e : ctrls k (X a) * (1 - PC k) = 1 - PC k := ctrls_off hXa
    have hc : B * (1 - PC k) = (1 - PC k) * B := by
      rw [mul_sub, sub_mul, hBk.pc.eq, one_mul, mul_one]
    calc B * (ctrls k (X a) * (B * ctrls k (X a))) * (1 - PC k)
        = B * (ctrls k (X a) * (B * (ctrls k (X a) * (1 - PC k)))) := by simp only [mul_assoc]
      _ = B * (ctrls k (X a) * ((1 - PC k) * B)) := by rw [e, hc]
      _ = B * (B * (1 - PC k)) := by rw [← mul_assoc (ctrls k (X a)), e, hc]
      _ = 1 - PC k := by rw [← mul_assoc, hBB, one_mul]

theorem V_sq (q : Q) : V q * V q = X q := by
  rw [V_mat, mat_mul, X_mat]
  congr 1 <;> grind [I_sq]

theorem V_Vdg (q : Q) : V q * Vdg q = 1 := by
  rw [V_mat, Vdg_mat, mat_mul, one_mat q]
  congr 1 <;> grind [I_sq]

theorem Vdg_V (q : Q) : Vdg q * V q = 1 := by
  rw [V_mat, Vdg_mat, mat_mul, one_mat q]
  congr 1 <;> grind [I_sq]

theorem V_away {cs : List Q} {t : Q} (h : t ∉ cs) : Away cs (V t) := by
  rw [V_mat]; exact Away.mat h _ _ _ _
theorem Vdg_away {cs : List Q} {t : Q} (h : t ∉ cs) : Away cs (Vdg t) := by
  rw [Vdg_mat]; exact Away.mat h _ _ _ _

/-- `C^{cs,c} X(t) = CV(c,t); C^{cs}X(c); CVdg(c,t); C^{cs}X(c); C^{cs}V(t)`. -/
theorem x_split {cs : List Q} {c t : Q} (hc : c ∉ cs) (ht : t ∉ cs) (hct : c ≠ t) :
    ctrls cs (V t) * (ctrls cs (X c) * (ctrl c (Vdg t) * (ctrls cs (X c) * ctrl c (V t)))) =
      ctrls (cs ++ [c]) (X t) := by
  have hV := V_away ht
  have hVd := Vdg_away ht
  have htc : t ∉ [c] := by simp; exact fun e => hct e.symm
  have hcV : Away cs (ctrl c (V t)) := hV.ctrls (ds := [c])
  have hcVd : Away cs (ctrl c (Vdg t)) := hVd.ctrls (ds := [c])
  have hXc : Away cs (X c) := X_away hc
  have hXV : Commute (X c) (Vdg t) := by
    rw [X_mat, Vdg_mat]; exact mat_comm hct _ _ _ _ _ _ _ _
  have hPVd : Commute (P1 c) (Vdg t) := Vdg_away htc c (by simp)
  have hPV : Commute (P1 c) (V t) := V_away htc c (by simp)
  have hP0V : Commute (P0 c) (V t) := by rw [P0_P1]; exact (Commute.one_left _).sub_left hPV
  -- the conjugated middle part
  have mid : ctrls cs (X c) * (ctrl c (Vdg t) * ctrls cs (X c)) =
      ctrls cs (X c * ctrl c (Vdg t) * X c * ctrl c (V t)) * ctrl c (Vdg t) := by
    have hinv : ctrl c (V t) * ctrl c (Vdg t) = 1 := by
      have := ctrls_mul (V_away htc) (Vdg_away htc)
      rw [V_Vdg, ctrls_one] at this; exact this
    apply ext_PC cs
    · have e := ctrls_on hXc
      have e2 := ctrls_on (((hXc.mul hcVd).mul hXc).mul hcV)
      calc ctrls cs (X c) * (ctrl c (Vdg t) * ctrls cs (X c)) * PC cs
          = ctrls cs (X c) * (ctrl c (Vdg t) * (ctrls cs (X c) * PC cs)) := by simp only [mul_assoc]
        _ = ctrls cs (X c) * (ctrl c (Vdg t) * (X c * PC cs)) := by rw [e]
        _ = ctrls cs (X c) * (PC cs * (ctrl c (Vdg t) * X c)) := by
            rw [← mul_assoc _ (X c), ← (hcVd.mul hXc).pc.eq]
        _ = X c * (PC cs * (ctrl c (Vdg t) * X c)) := by
            rw [← mul_assoc, e, mul_assoc]
        _ = X c * (ctrl c (Vdg t) * X c) * PC cs := by
            rw [(hcVd.mul hXc).pc.eq]; simp only [mul_assoc]
        _ = X c * (ctrl c (Vdg t) * X c) * (ctrl c (V t) * ctrl c (Vdg t)) * PC cs := by rw [hinv, mul_one]
        _ = X c * ctrl c (Vdg t) * X c * ctrl c (V t) * (ctrl c (Vdg t) * PC cs) := by simp only [mul_assoc]
        _ = X c * ctrl c (Vdg t) * X c * ctrl c (V t) * (PC cs * ctrl c (Vdg t)) := by rw [hcVd.pc.eq]
        _ = ctrls cs (X c * ctrl c (Vdg t) * X c * ctrl c (V t)) * PC cs * ctrl c (Vdg t) := by
            rw [e2]; simp only [mul_assoc]
        _ = _ := by rw [mul_assoc _ (PC cs), hcVd.pc.eq, ← mul_assoc]
    · have e := ctrls_off hXc
      have e2 := ctrls_off (((hXc.mul hcVd).mul hXc).mul hcV)
      have hc' : ctrl c (Vdg t) * (1 - PC cs) = (1 - PC cs) * ctrl c (Vdg t) := by
        rw [mul_sub, sub_mul, hcVd.pc.eq, one_mul, mul_one]
      rw [mul_assoc, mul_assoc, e, hc', ← mul_assoc, e, mul_assoc, hc', ← mul_assoc, e2]
  have hinv2 : ctrl c (Vdg t) * ctrl c (V t) = 1 := by
    have := ctrls_mul (Vdg_away htc) (V_away htc)
    rw [Vdg_V, ctrls_one] at this; exact this
  have hcore : V t * (X c * ctrl c (Vdg t) * X c * ctrl c (V t)) = ctrl c (X t) := by
    have h0 : Commute (P0 c) (Vdg t) := by rw [P0_P1]; exact (Commute.one_left _).sub_left hPVd
    have key : (P1 c + P0 c * Vdg t) * ctrl c (V t) = P1 c * V t + P0 c * Vdg t := by
      unfold ctrl
      rw [add_mul, mul_add, mul_add, P1_P0, ← mul_assoc (P1 c) (P1 c), P1_sq, mul_assoc (P0 c) (Vdg t) (P0 c),
        ← h0.eq, ← mul_assoc (P0 c), P0_sq, mul_assoc (P0 c) (Vdg t), ← mul_assoc (Vdg t), ← hPVd.eq,
        mul_assoc (P1 c) (Vdg t), Vdg_V, mul_one, P0_P1', zero_add, add_zero]
    rw [flip_ctrl hXV, key, mul_add, ← mul_assoc, ← mul_assoc, ← hPV.eq, ← hP0V.eq, mul_assoc, mul_assoc, V_sq,
      V_Vdg, mul_one, add_comm]
    rfl
  calc ctrls cs (V t) * (ctrls cs (X c) * (ctrl c (Vdg t) * (ctrls cs (X c) * ctrl c (V t))))
      = ctrls cs (V t) * ((ctrls cs (X c) * (ctrl c (Vdg t) * ctrls cs (X c))) * ctrl c (V t)) := by
        simp only [mul_assoc]
    _ = ctrls cs (V t) * ctrls cs (X c * ctrl c (Vdg t) * X c * ctrl c (V t)) := by
        rw [mid, mul_assoc, hinv2, mul_one]
    _ = ctrls cs (V t * (X c * ctrl c (Vdg t) * X c * ctrl c (V t))) :=
        ctrls_mul hV (((hXc.mul hcVd).mul hXc).mul hcV)
    _ = ctrls (cs ++ [c]) (X t) := by rw [hcore, ctrls_append]; rfl

theorem Rz_away {cs : List Q} {t : Q} (θ : ℂ) (h : t ∉ cs) : Away cs (Rz θ t) := by
  rw [Rz_mat]; exact Away.mat h _ _ _ _

theorem Rz_add (θ φ : ℂ) (t : Q) : Rz θ t * Rz φ t = Rz (θ + φ) t := by
  rw [Rz_mat, Rz_mat, Rz_mat, mat_mul]
  congr 1
  · rw [mul_zero, add_zero, ← exp_add]; congr 1; ring
  · ring
  · ring
  · rw [mul_zero, zero_add, ← exp_add]; congr 1; ring

theorem Rz_zero (t : Q) : Rz 0 t = 1 := by
  rw [Rz_mat, one_mat t]; simp

theorem X_Rz_X (θ : ℂ) (t : Q) : X t * Rz θ t * X t = Rz (-θ) t := by
  rw [X_mat, Rz_mat, Rz_mat, mat_mul, mat_mul]
  congr 1
  · simp; ring_nf
  · ring
  · ring
  · simp; ring_nf

/-- `C^k Rz(θ) = Rz(θ/2); C^k X; Rz(-θ/2); C^k X`. -/
theorem rz_split {k : List Q} {t : Q} (h : t ∉ k) (θ : ℂ) :
    ctrls k (X t) * (Rz (-(θ / 2)) t * (ctrls k (X t) * Rz (θ / 2) t)) = ctrls k (Rz θ t) := by
  have hX := X_away h
  have h1 : Rz (-(θ / 2)) t * (Rz (θ / 2) t) = 1 := by
    rw [Rz_add, neg_add_cancel, Rz_zero]
  have hn := Rz_away (-(θ / 2)) h
  have hp := Rz_away (θ / 2) h
  have e1 : Rz (-(θ / 2)) t * (ctrls k (X t) * Rz (θ / 2) t) =
      ctrls k (Rz (-(θ / 2)) t * X t * Rz (θ / 2) t) := by
    rw [← mul_assoc]; exact ctrls_conj hn hp h1
  rw [e1, ctrls_mul hX ((hn.mul hX).mul hp)]
  congr 1
  rw [← mul_assoc, ← mul_assoc, X_Rz_X, neg_neg, Rz_add, add_halves]

end Tket.Quantum
