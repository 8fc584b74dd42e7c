import Verif.Model.ControlSynth
import Verif.Quantum.Controls
import Mathlib.Data.List.Perm.Basic
import Mathlib.Data.List.Nodup

/-!
# The synthesis of controlled gates, step by step
-/

noncomputable section

namespace Tket.ControlSynth

open Tket.Quantum Complex

set_option linter.unusedSectionVars false

variable {Q : Type} [DecidableEq Q]

/-- The operator of a gate on a list of qubits. -/
def gateSem (op : TketOp) (θ : ℝ) : List Q → Option (Op Q)
  | [] => none
  | q :: qs =>
    if (q :: qs).length = op.qubits then sem op θ false (fun j => (q :: qs).getD j q) else none

/-- The operator of a node. `GlobalPhase(θ)` multiplies by `e^{iπθ}`. -/
def Node.sem : Node Q → Option (Op Q)
  | .gate op qs θ => gateSem op θ qs
  | .phase θ => some (exp (I * (Real.pi * θ)) • 1)

/-- The nodes executed in order. -/
def den : List (Node Q) → Option (Op Q)
  | [] => some 1
  | n :: ns => n.sem.bind (fun A => (den ns).map (fun B => B * A))

theorem den_append {gs hs : List (Node Q)} {A B : Op Q} (h1 : den gs = some A) (h2 : den hs = some B) :
    den (gs ++ hs) = some (B * A) := by
  induction gs generalizing A with
  | nil => simp only [den, Option.some.injEq] at h1; subst h1; simpa using h2
  | cons g gs ih =>
    simp only [den, Option.bind_eq_some_iff, Option.map_eq_some_iff] at h1
    obtain ⟨C, h3, D, h4, rfl⟩ := h1
    simp only [List.cons_append, den, h3, Option.bind_some, ih h4, Option.map_some, mul_assoc]

theorem den_one {n : Node Q} {A : Op Q} (h : n.sem = some A) : den [n] = some A := by
  simp [den, h]

/-- The run `r` from `s` adds nodes with meaning `U` and changes nothing else. -/
def Runs (r : Except Err (List Q × St Q)) (s : St Q) (outs : List Q) (U : Op Q) : Prop :=
  ∃ gs, r = .ok (outs, { s with out := s.out ++ gs }) ∧ den gs = some U

/-- The number of controls is consistent and all lines are different. -/
structure WF (s : St Q) (qs : List Q) : Prop where
  len : s.control = s.controls.length
  nodup : (s.controls ++ qs ++ s.ancilla).Nodup

/-- The angle after the dagger. -/
def sg (s : St Q) (θ : ℝ) : ℝ := if s.dagger then -θ else θ

/-- The inverse gate. -/
def dag (s : St Q) : TketOp → TketOp
  | .T => if s.dagger then .Tdg else .T
  | .Tdg => if s.dagger then .T else .Tdg
  | .S => if s.dagger then .Sdg else .S
  | .Sdg => if s.dagger then .S else .Sdg
  | .V => if s.dagger then .Vdg else .V
  | .Vdg => if s.dagger then .V else .Vdg
  | op => op

/-- What the calls with fuel `f` do. -/
structure Good (Q : Type) [DecidableEq Q] (f : Nat) : Prop where
  x : ∀ (s : St Q) (t : Q) (θ : ℝ), WF s [t] → 10 * s.control + 1 < f →
    Runs (modify f .X [t] θ s) s [t] (ctrls s.controls (X t))
  cx : ∀ (s : St Q) (c t : Q) (θ : ℝ), WF s [c, t] → 10 * (s.control + 1) + 1 < f →
    Runs (modify f .CX [c, t] θ s) s [c, t] (ctrls (s.controls ++ [c]) (X t))
  tof : ∀ (s : St Q) (x y t : Q) (θ : ℝ), WF s [x, y, t] → 10 * (s.control + 2) < f →
    Runs (modify f .Toffoli [x, y, t] θ s) s
      (if s.ancilla = [] ∧ s.control ≠ 0 then [y, x, t] else [x, y, t])
      (ctrls (s.controls ++ [x, y]) (X t))
  crz : ∀ (s : St Q) (c t : Q) (θ : ℝ), WF s [c, t] → 10 * (s.control + 1) + 2 < f →
    Runs (modify f .CRz [c, t] θ s) s [c, t] (ctrls (s.controls ++ [c]) (Rz (Real.pi * sg s θ) t))
  cz : ∀ (s : St Q) (c t : Q) (θ : ℝ), WF s [c, t] → 10 * (s.control + 1) + 3 < f →
    Runs (modify f .CZ [c, t] θ s) s [c, t]
      (ctrls (s.controls ++ [c]) (if s.control = 0 then Z t else Rz (Real.pi * sg s 1) t))
  cy : ∀ (s : St Q) (c t : Q) (θ : ℝ), WF s [c, t] → 10 * (s.control + 1) + 2 < f →
    Runs (modify f .CY [c, t] θ s) s [c, t] (ctrls (s.controls ++ [c]) (Y t))
  rz : ∀ (s : St Q) (t : Q) (θ : ℝ), WF s [t] → 10 * s.control + 4 < f →
    Runs (modify f .Rz [t] θ s) s [t] (ctrls s.controls (Rz (Real.pi * sg s θ) t))
  y : ∀ (s : St Q) (t : Q) (θ : ℝ), WF s [t] → 10 * s.control + 4 < f →
    Runs (modify f .Y [t] θ s) s [t] (ctrls s.controls (Y t))
  z : ∀ (s : St Q) (t : Q) (θ : ℝ), WF s [t] → 10 * s.control + 4 < f →
    Runs (modify f .Z [t] θ s) s [t]
      (ctrls s.controls (if s.control ≤ 1 then Z t else Rz (Real.pi * sg s 1) t))
  rx : ∀ (s : St Q) (t : Q) (θ : ℝ), WF s [t] → 10 * s.control + 5 < f →
    Runs (modify f .Rx [t] θ s) s [t] (ctrls s.controls (Rx (Real.pi * sg s θ) t))
  ry : ∀ (s : St Q) (t : Q) (θ : ℝ), WF s [t] → 10 * s.control + 6 < f →
    Runs (modify f .Ry [t] θ s) s [t] (ctrls s.controls (Ry (Real.pi * sg s θ) t))
  h : ∀ (s : St Q) (t : Q) (θ : ℝ), WF s [t] → 10 * s.control + 7 < f →
    Runs (modify f .H [t] θ s) s [t] (ctrls s.controls (H t))
  rot : ∀ (op : TketOp) (s : St Q) (t : Q) (θ : ℝ) (U : Op Q), op ∈ [TketOp.T, .Tdg, .S, .Sdg, .V, .Vdg] →
    WF s [t] → 10 * s.control + 6 < f → gateSem (dag s op) 0 [t] = some U →
    Runs (modify f op [t] θ s) s [t] (ctrls s.controls U)
  phase : ∀ (s : St Q) (θ : ℝ), WF s [] → 10 * s.control < f →
    ∃ gs, phase f θ s = .ok { s with out := s.out ++ gs } ∧
      den gs = some (ctrls s.controls (exp (I * (Real.pi * sg s θ)) • 1))

/-! ## Single steps -/

theorem popLast_append (l : List Q) (c : Q) : popLast (l ++ [c]) = .ok (c, l) := by
  simp [popLast]

theorem ne_of_len {s : St Q} {qs : List Q} (w : WF s qs) (h : s.control ≠ 0) :
    ∃ cs c, s.controls = cs ++ [c] ∧ s.control = cs.length + 1 := by
  have hl := w.len
  rcases List.eq_nil_or_concat s.controls with h' | ⟨cs, c, h'⟩
  · rw [h'] at hl; exact absurd hl h
  · rw [List.concat_eq_append] at h'
    exact ⟨cs, c, h', by rw [hl, h']; simp⟩

/-- Rearrangements keep the lines different. -/
theorem nodup_of {l l' : List Q} (h : l.Nodup) (hc : ∀ a, l'.count a ≤ l.count a) : l'.Nodup := by
  rw [List.nodup_iff_count_le_one] at h ⊢
  exact fun a => Nat.le_trans (hc a) (h a)

theorem popControl_append (cs : List Q) (c : Q) (n : Nat) (d : Bool) (anc : List Q) (out : List (Node Q)) :
    popControl ⟨n, d, cs ++ [c], anc, out⟩ = .ok (c, ⟨n - 1, d, cs, anc, out⟩) := by
  simp [popControl, popLast_append, bind, Except.bind]

theorem modify_direct {f : Nat} {op : TketOp} {qs : List Q} {θ : ℝ} {s : St Q} (hq : op.isQuantum = true)
    (hd : (direct op s.control || directRot op s.control) = true) :
    modify (f + 1) op qs θ s = addControlled op qs θ s := by
  have h1 : ¬((s.control ≠ 0 ∨ s.dagger = true) ∧ op.isQuantum = false) := by
    rw [hq]; simp
  unfold modify
  simp only
  rw [if_neg h1, if_pos hd]

/-- The direct branches. -/
theorem run_direct {f : Nat} {op g : TketOp} {qs : List Q} {θ : ℝ} {s : St Q} {U : Op Q}
    (hq : op.isQuantum = true) (hd : (direct op s.control || directRot op s.control) = true)
    (hm : modified s.control s.dagger op = some g)
    (hs : gateSem g (sg s θ) (s.controls ++ qs) = some U) :
    Runs (modify (f + 1) op qs θ s) s qs U := by
  refine ⟨[.gate g (s.controls ++ qs) (sg s θ)], ?_, den_one hs⟩
  rw [modify_direct hq hd]
  simp only [addControlled, hm, St.emit, sg]

theorem controls_nil {s : St Q} {qs : List Q} (w : WF s qs) (h : s.control = 0) : s.controls = [] := by
  have hl := w.len
  rw [h] at hl
  exact List.length_eq_zero_iff.1 hl.symm

theorem controls_one {s : St Q} {qs : List Q} (w : WF s qs) (h : s.control = 1) : ∃ c, s.controls = [c] := by
  have hl := w.len
  rw [h] at hl
  exact List.length_eq_one_iff.1 hl.symm

theorem controls_two {s : St Q} {qs : List Q} (w : WF s qs) (h : s.control = 2) : ∃ b c, s.controls = [b, c] := by
  have hl := w.len
  rw [h] at hl
  exact List.length_eq_two.1 hl.symm

/-! ## Angles -/

theorem cos_quarter : Complex.cos ((Real.pi : ℂ) / 4) = 1 / (Real.sqrt 2 : ℂ) := by
  have : (Real.pi : ℂ) / 4 = ((Real.pi / 4 : ℝ) : ℂ) := by push_cast; ring
  rw [this, ← ofReal_cos, Real.cos_pi_div_four]
  have h2 : (Real.sqrt 2 : ℂ) * Real.sqrt 2 = 2 := by
    rw [← ofReal_mul, Real.mul_self_sqrt (by norm_num)]; norm_num
  have hne : (Real.sqrt 2 : ℂ) ≠ 0 := by
    intro hc; rw [hc] at h2; norm_num at h2
  push_cast
  field_simp
  rw [pow_two, h2]

theorem sin_quarter : Complex.sin ((Real.pi : ℂ) / 4) = 1 / (Real.sqrt 2 : ℂ) := by
  rw [← cos_quarter, ← Complex.cos_pi_div_two_sub]
  congr 1; ring

theorem H_split (t : Q) : X t * Ry (Real.pi / 2) t = H t := by
  rw [X_mat, Ry_mat, H_mat, mat_mul]
  have : (Real.pi : ℂ) / 2 / 2 = Real.pi / 4 := by ring
  rw [this, cos_quarter, sin_quarter]
  congr 1 <;> ring

theorem H_split' (t : Q) : Ry (-(Real.pi / 2)) t * X t = H t := by
  rw [X_mat, Ry_mat, H_mat, mat_mul]
  have : -((Real.pi : ℂ) / 2) / 2 = -(Real.pi / 4) := by ring
  rw [this, Complex.cos_neg, Complex.sin_neg, cos_quarter, sin_quarter]
  congr 1 <;> ring

theorem Ry_away {cs : List Q} {t : Q} (θ : ℂ) (h : t ∉ cs) : Away cs (Ry θ t) := by
  rw [Ry_mat]; exact Away.mat h _ _ _ _
theorem Rx_away {cs : List Q} {t : Q} (θ : ℂ) (h : t ∉ cs) : Away cs (Rx θ t) := by
  rw [Rx_mat]; exact Away.mat h _ _ _ _
theorem H_away {cs : List Q} {t : Q} (h : t ∉ cs) : Away cs (H t) := by
  rw [H_mat]; exact Away.mat h _ _ _ _
theorem Ph_away {cs : List Q} {t : Q} (θ : ℂ) (h : t ∉ cs) : Away cs (Ph θ t) := by
  rw [Ph_mat]; exact Away.mat h _ _ _ _

theorem WF.notMem {s : St Q} {t : Q} {qs : List Q} (w : WF s qs) (h : t ∈ qs) : t ∉ s.controls := by
  intro ht
  have := w.nodup
  rw [List.append_assoc, List.nodup_append] at this
  exact this.2.2 t ht t (by simp [h]) rfl

theorem step_h {f : Nat} (g : Good Q f) (s : St Q) (t : Q) (θ : ℝ) (w : WF s [t])
    (hf : 10 * s.control + 7 < f + 1) :
    Runs (modify (f + 1) .H [t] θ s) s [t] (ctrls s.controls (H t)) := by
  by_cases hc : s.control = 0
  · refine run_direct (g := .H) rfl (by simp [direct, hc]) (by simp [modified, hc]) ?_
    rw [controls_nil w hc]; rfl
  · have ht := w.notMem (t := t) (by simp)
    have hd : (direct .H s.control || directRot .H s.control) = false := by simp [direct, directRot, hc]
    cases hdg : s.dagger with
    | false =>
      obtain ⟨g1, e1, d1⟩ := g.ry s t 0.5 w (by omega)
      obtain ⟨g2, e2, d2⟩ := g.x { s with out := s.out ++ g1 } t 0 ⟨w.len, w.nodup⟩ (by simp; omega)
      refine ⟨g1 ++ g2, ?_, ?_⟩
      · dsimp only at e1 e2
        rw [hdg] at e1 e2
        simp [modify, hdg, TketOp.isQuantum, hd, e1, e2, bind, Except.bind]
      · rw [den_append d1 d2]
        simp only
        rw [ctrls_mul (X_away ht) (Ry_away _ ht)]
        have : ((Real.pi : ℂ) * (sg s 0.5 : ℝ)) = Real.pi / 2 := by
          simp only [sg, hdg]; push_cast; norm_num; ring
        rw [this, H_split]
    | true =>
      obtain ⟨g1, e1, d1⟩ := g.x s t 0 w (by omega)
      obtain ⟨g2, e2, d2⟩ := g.ry { s with out := s.out ++ g1 } t 0.5 ⟨w.len, w.nodup⟩ (by simp; omega)
      refine ⟨g1 ++ g2, ?_, ?_⟩
      · dsimp only at e1 e2
        rw [hdg] at e1 e2
        simp [modify, hdg, TketOp.isQuantum, hd, e1, e2, bind, Except.bind]
      · rw [den_append d1 d2]
        simp only
        rw [ctrls_mul (Ry_away _ ht) (X_away ht)]
        have : ((Real.pi : ℂ) * (sg { s with out := s.out ++ g1 } 0.5 : ℝ)) = -(Real.pi / 2) := by
          simp only [sg, hdg]; push_cast; norm_num; ring
        rw [this, H_split']

theorem H_sq (t : Q) : H t * H t = 1 := by
  rw [H_mat, mat_mul, one_mat t]
  have h2 : (1 / (Real.sqrt 2 : ℂ)) * (1 / (Real.sqrt 2 : ℂ)) = 1 / 2 := by
    rw [div_mul_div_comm, ← ofReal_mul, Real.mul_self_sqrt (by norm_num)]; norm_num
  congr 1 <;> grind

theorem H_Rz_H (θ : ℂ) (t : Q) : H t * Rz θ t * H t = Rx θ t := by
  rw [H_mat, Rz_mat, Rx_mat, mat_mul, mat_mul]
  have h2 : (1 / (Real.sqrt 2 : ℂ)) * (1 / (Real.sqrt 2 : ℂ)) = 1 / 2 := by
    rw [div_mul_div_comm, ← ofReal_mul, Real.mul_self_sqrt (by norm_num)]; norm_num
  have e1 := exp_I_mul (θ / 2)
  have e2 : exp (-(I * (θ / 2))) = cos (θ / 2) - sin (θ / 2) * I := by
    rw [← mul_neg, exp_I_mul, cos_neg, sin_neg]; ring
  rw [e1, e2]
  congr 1 <;> grind

theorem exp_half : exp (I * ((Real.pi : ℂ) / 2)) = I := by
  rw [exp_I_mul, Complex.cos_pi_div_two, Complex.sin_pi_div_two]; simp

theorem exp_neg_half : exp (I * (-((Real.pi : ℂ) / 2))) = -I := by
  rw [exp_I_mul, Complex.cos_neg, Complex.sin_neg, Complex.cos_pi_div_two, Complex.sin_pi_div_two]; simp

theorem S_mat (t : Q) : Ph (Real.pi / 2) t = mat t 1 0 0 I := by rw [Ph_mat, exp_half]
theorem Sdg_mat (t : Q) : Ph (-(Real.pi / 2)) t = mat t 1 0 0 (-I) := by rw [Ph_mat, exp_neg_half]

theorem S_Sdg (t : Q) : Ph (Real.pi / 2) t * Ph (-(Real.pi / 2)) t = 1 := by
  rw [S_mat, Sdg_mat, mat_mul, one_mat t]
  congr 1 <;> grind [I_sq]

theorem S_Rx_Sdg (θ : ℂ) (t : Q) : Ph (Real.pi / 2) t * Rx θ t * Ph (-(Real.pi / 2)) t = Ry θ t := by
  rw [S_mat, Sdg_mat, Rx_mat, Ry_mat, mat_mul, mat_mul]
  congr 1 <;> grind [I_sq]

theorem S_X_Sdg (t : Q) : Ph (Real.pi / 2) t * X t * Ph (-(Real.pi / 2)) t = Y t := by
  rw [S_mat, Sdg_mat, X_mat, Y_mat, mat_mul, mat_mul]
  congr 1 <;> grind [I_sq]

theorem step_rx {f : Nat} (g : Good Q f) (s : St Q) (t : Q) (θ : ℝ) (w : WF s [t])
    (hf : 10 * s.control + 5 < f + 1) :
    Runs (modify (f + 1) .Rx [t] θ s) s [t] (ctrls s.controls (Rx (Real.pi * sg s θ) t)) := by
  by_cases hc : s.control = 0
  · refine run_direct (g := .Rx) rfl (by simp [directRot, hc]) (by simp [modified, hc]) ?_
    rw [controls_nil w hc]; rfl
  · have ht := w.notMem (t := t) (by simp)
    have hd : (direct .Rx s.control || directRot .Rx s.control) = false := by simp [direct, directRot, hc]
    obtain ⟨g1, e1, d1⟩ := g.rz (s.emit (.gate .H [t] 0)) t θ ⟨w.len, w.nodup⟩ (by simp [St.emit]; omega)
    refine ⟨[.gate .H [t] 0] ++ g1 ++ [.gate .H [t] 0], ?_, ?_⟩
    · simp only [St.emit] at e1
      simp [modify, TketOp.isQuantum, hd, e1, bind, Except.bind, St.emit]
    · rw [den_append (den_append (den_one (n := .gate .H [t] 0) rfl) d1) (den_one (n := .gate .H [t] 0) rfl)]
      have := ctrls_conj (U := Rz (Real.pi * sg s θ) t) (H_away ht) (H_away ht) (H_sq t)
      rw [H_Rz_H, mul_assoc] at this
      exact congrArg some this

theorem step_ry {f : Nat} (g : Good Q f) (s : St Q) (t : Q) (θ : ℝ) (w : WF s [t])
    (hf : 10 * s.control + 6 < f + 1) :
    Runs (modify (f + 1) .Ry [t] θ s) s [t] (ctrls s.controls (Ry (Real.pi * sg s θ) t)) := by
  by_cases hc : s.control = 0
  · refine run_direct (g := .Ry) rfl (by simp [directRot, hc]) (by simp [modified, hc]) ?_
    rw [controls_nil w hc]; rfl
  · have ht := w.notMem (t := t) (by simp)
    have hd : (direct .Ry s.control || directRot .Ry s.control) = false := by simp [direct, directRot, hc]
    obtain ⟨g1, e1, d1⟩ := g.rx (s.emit (.gate .Sdg [t] 0)) t θ ⟨w.len, w.nodup⟩ (by simp [St.emit]; omega)
    refine ⟨[.gate .Sdg [t] 0] ++ g1 ++ [.gate .S [t] 0], ?_, ?_⟩
    · simp only [St.emit] at e1
      simp [modify, TketOp.isQuantum, hd, e1, bind, Except.bind, St.emit]
    · rw [den_append (den_append (den_one (n := .gate .Sdg [t] 0) rfl) d1) (den_one (n := .gate .S [t] 0) rfl)]
      have := ctrls_conj (U := Rx (Real.pi * sg s θ) t) (Ph_away _ ht) (Ph_away _ ht) (S_Sdg t)
      rw [S_Rx_Sdg, mul_assoc] at this
      exact congrArg some this

theorem step_cy {f : Nat} (g : Good Q f) (s : St Q) (c t : Q) (θ : ℝ) (w : WF s [c, t])
    (hf : 10 * (s.control + 1) + 2 < f + 1) :
    Runs (modify (f + 1) .CY [c, t] θ s) s [c, t] (ctrls (s.controls ++ [c]) (Y t)) := by
  by_cases hc : s.control = 0
  · refine run_direct (g := .CY) rfl (by simp [direct, hc]) (by simp [modified, hc]) ?_
    rw [controls_nil w hc]; rfl
  · have ht : t ∉ s.controls ++ [c] := by
      have h1 := w.notMem (t := t) (by simp)
      have h2 := w.nodup
      intro h
      rcases List.mem_append.1 h with h | h
      · exact h1 h
      · simp only [List.mem_singleton] at h
        subst h
        rw [List.append_assoc, List.nodup_append] at h2
        simp at h2
    have hd : (direct .CY s.control || directRot .CY s.control) = false := by simp [direct, directRot, hc]
    obtain ⟨g1, e1, d1⟩ := g.cx (s.emit (.gate .Sdg [t] 0)) c t 0 ⟨w.len, w.nodup⟩ (by simp [St.emit]; omega)
    refine ⟨[.gate .Sdg [t] 0] ++ g1 ++ [.gate .S [t] 0], ?_, ?_⟩
    · simp only [St.emit] at e1
      simp [modify, TketOp.isQuantum, hd, e1, bind, Except.bind, St.emit]
    · rw [den_append (den_append (den_one (n := .gate .Sdg [t] 0) rfl) d1) (den_one (n := .gate .S [t] 0) rfl)]
      have := ctrls_conj (U := X t) (Ph_away _ ht) (Ph_away _ ht) (S_Sdg t)
      rw [S_X_Sdg, mul_assoc] at this
      exact congrArg some this

theorem WF.notMem2 {s : St Q} {c t : Q} (w : WF s [c, t]) : t ∉ s.controls ++ [c] := by
  have h1 := w.notMem (t := t) (by simp)
  have h2 := w.nodup
  intro h
  rcases List.mem_append.1 h with h | h
  · exact h1 h
  · simp only [List.mem_singleton] at h
    subst h
    rw [List.append_assoc, List.nodup_append] at h2
    simp at h2

theorem step_crz {f : Nat} (g : Good Q f) (s : St Q) (c t : Q) (θ : ℝ) (w : WF s [c, t])
    (hf : 10 * (s.control + 1) + 2 < f + 1) :
    Runs (modify (f + 1) .CRz [c, t] θ s) s [c, t]
      (ctrls (s.controls ++ [c]) (Rz (Real.pi * sg s θ) t)) := by
  by_cases hc : s.control = 0
  · refine run_direct (g := .CRz) rfl (by simp [directRot, hc]) (by simp [modified, hc]) ?_
    rw [controls_nil w hc]; rfl
  · have ht := w.notMem2
    have hd : (direct .CRz s.control || directRot .CRz s.control) = false := by simp [direct, directRot, hc]
    let p : Node Q := .gate .Rz [t] (sg s θ * 0.5)
    let n : Node Q := .gate .Rz [t] (-(sg s θ * 0.5))
    obtain ⟨g1, e1, d1⟩ := g.cx { s with dagger := false, out := s.out ++ [p] } c t 0
      ⟨w.len, w.nodup⟩ (by simp; omega)
    obtain ⟨g2, e2, d2⟩ := g.cx { s with dagger := false, out := s.out ++ [p] ++ g1 ++ [n] } c t 0
      ⟨w.len, w.nodup⟩ (by simp; omega)
    refine ⟨[p] ++ g1 ++ [n] ++ g2, ?_, ?_⟩
    · cases hdg : s.dagger <;> simp only [p, n, sg, hdg] at e1 e2 <;>
        simp [modify, TketOp.isQuantum, hd, hdg, bind, Except.bind, St.emit, p, n, sg] at e1 e2 ⊢ <;>
        simp [e1, e2]
    · rw [den_append (den_append (den_append (den_one (n := p) rfl) d1) (den_one (n := n) rfl)) d2]
      have := rz_split ht (Real.pi * sg s θ)
      rw [← this]
      have a1 : ((Real.pi : ℂ) * ((sg s θ * 0.5 : ℝ) : ℂ)) = Real.pi * sg s θ / 2 := by
        push_cast; ring
      have a2 : ((Real.pi : ℂ) * ((-(sg s θ * 0.5) : ℝ) : ℂ)) = -(Real.pi * sg s θ / 2) := by
        push_cast; ring
      rw [a1, a2]
      rfl

theorem step_cz {f : Nat} (g : Good Q f) (s : St Q) (c t : Q) (θ : ℝ) (w : WF s [c, t])
    (hf : 10 * (s.control + 1) + 3 < f + 1) :
    Runs (modify (f + 1) .CZ [c, t] θ s) s [c, t]
      (ctrls (s.controls ++ [c]) (if s.control = 0 then Z t else Rz (Real.pi * sg s 1) t)) := by
  by_cases hc : s.control = 0
  · refine run_direct (g := .CZ) rfl (by simp [direct, hc]) (by simp [modified, hc]) ?_
    rw [controls_nil w hc, if_pos hc]; rfl
  · have hd : (direct .CZ s.control || directRot .CZ s.control) = false := by simp [direct, directRot, hc]
    obtain ⟨g1, e1, d1⟩ := g.crz s c t 1 w (by omega)
    rw [if_neg hc]
    refine ⟨g1, ?_, d1⟩
    simp [modify, TketOp.isQuantum, hd, e1]

/-- Lines moved between the lists stay different. -/
macro "wf_count" w:term : tactic =>
  `(tactic| exact nodup_of (WF.nodup $w) (fun a => by
    simp only [List.count_cons, List.count_append, List.count_nil]; omega))

theorem step_rz {f : Nat} (g : Good Q f) (s : St Q) (t : Q) (θ : ℝ) (w : WF s [t])
    (hf : 10 * s.control + 4 < f + 1) :
    Runs (modify (f + 1) .Rz [t] θ s) s [t] (ctrls s.controls (Rz (Real.pi * sg s θ) t)) := by
  by_cases hc : s.control = 0
  · refine run_direct (g := .Rz) rfl (by simp [directRot, hc]) (by simp [modified, hc]) ?_
    rw [controls_nil w hc]; rfl
  by_cases hc1 : s.control = 1
  · obtain ⟨c, e⟩ := controls_one w hc1
    refine run_direct (g := .CRz) rfl (by simp [directRot, hc1]) (by simp [modified, hc1]) ?_
    rw [e]; rfl
  · obtain ⟨cs, c, e, hn⟩ := ne_of_len w hc
    obtain ⟨n, d, ds, anc, out⟩ := s
    simp only at e hn hc hc1 hf
    subst e
    have hd : (direct .Rz n || directRot .Rz n) = false := by simp [direct, directRot, hc, hc1]
    obtain ⟨g1, e1, d1⟩ := g.crz ⟨n - 1, d, cs, anc, out⟩ c t θ
      ⟨by simp only; omega, by wf_count w⟩ (by simp; omega)
    refine ⟨g1, ?_, d1⟩
    have hnn : n - 1 + 1 = n := by omega
    simp [modify, TketOp.isQuantum, hd, popControl_append, e1, bind, Except.bind, pushControl, hnn]

theorem step_y {f : Nat} (g : Good Q f) (s : St Q) (t : Q) (θ : ℝ) (w : WF s [t])
    (hf : 10 * s.control + 4 < f + 1) :
    Runs (modify (f + 1) .Y [t] θ s) s [t] (ctrls s.controls (Y t)) := by
  by_cases hc : s.control = 0
  · refine run_direct (g := .Y) rfl (by simp [direct, hc]) (by simp [modified, hc]) ?_
    rw [controls_nil w hc]; rfl
  by_cases hc1 : s.control = 1
  · obtain ⟨c, e⟩ := controls_one w hc1
    refine run_direct (g := .CY) rfl (by simp [direct, hc1]) (by simp [modified, hc1]) ?_
    rw [e]; rfl
  · obtain ⟨cs, c, e, hn⟩ := ne_of_len w hc
    obtain ⟨n, d, ds, anc, out⟩ := s
    simp only at e hn hc hc1 hf
    subst e
    have hd : (direct .Y n || directRot .Y n) = false := by simp [direct, directRot, hc, hc1]
    obtain ⟨g1, e1, d1⟩ := g.cy ⟨n - 1, d, cs, anc, out⟩ c t 0
      ⟨by simp only; omega, by wf_count w⟩ (by simp; omega)
    refine ⟨g1, ?_, d1⟩
    have hnn : n - 1 + 1 = n := by omega
    simp [modify, TketOp.isQuantum, hd, popControl_append, e1, bind, Except.bind, pushControl, hnn]

theorem step_z {f : Nat} (g : Good Q f) (s : St Q) (t : Q) (θ : ℝ) (w : WF s [t])
    (hf : 10 * s.control + 4 < f + 1) :
    Runs (modify (f + 1) .Z [t] θ s) s [t]
      (ctrls s.controls (if s.control ≤ 1 then Z t else Rz (Real.pi * sg s 1) t)) := by
  by_cases hc : s.control = 0
  · refine run_direct (g := .Z) rfl (by simp [direct, hc]) (by simp [modified, hc]) ?_
    rw [controls_nil w hc, if_pos (by omega)]; rfl
  by_cases hc1 : s.control = 1
  · obtain ⟨c, e⟩ := controls_one w hc1
    refine run_direct (g := .CZ) rfl (by simp [direct, hc1]) (by simp [modified, hc1]) ?_
    rw [e, if_pos (by omega)]; rfl
  · rw [if_neg (by omega)]
    obtain ⟨cs, c, e, hn⟩ := ne_of_len w hc
    obtain ⟨n, d, ds, anc, out⟩ := s
    simp only at e hn hc hc1 hf
    subst e
    have hd : (direct .Z n || directRot .Z n) = false := by simp [direct, directRot, hc, hc1]
    obtain ⟨g1, e1, d1⟩ := g.cz ⟨n - 1, d, cs, anc, out⟩ c t 0
      ⟨by simp only; omega, by wf_count w⟩ (by simp; omega)
    rw [if_neg (by simp; omega)] at d1
    refine ⟨g1, ?_, d1⟩
    have hnn : n - 1 + 1 = n := by omega
    simp [modify, TketOp.isQuantum, hd, popControl_append, e1, bind, Except.bind, pushControl, hnn]

theorem ph_split (θ : ℂ) (t : Q) : exp (I * (θ / 2)) • Rz θ t = Ph θ t := by
  rw [Rz_mat, Ph_mat, mat_smul]
  congr 1
  · rw [← exp_add]; simp
  · ring
  · ring
  · rw [← exp_add]; congr 1; ring

theorem ctrl_phase (k : ℂ) (c : Q) : ctrl c (k • (1 : Op Q)) = mat c 1 0 0 k := by
  unfold ctrl
  rw [P0_mat, P1_mat, mul_smul_comm, mul_one, mat_smul, mat_add]
  congr 1 <;> ring

theorem withAncilla_ok {α : Type} {w : Q} {s : St Q} {F : St Q → Except Err (α × St Q)} {r : α}
    {gs : List (Node Q)}
    (h : F { s with ancilla := s.ancilla ++ [w] } =
      .ok (r, { s with ancilla := s.ancilla ++ [w], out := s.out ++ gs })) :
    withAncilla w s F = .ok (r, w, { s with out := s.out ++ gs }) := by
  simp [withAncilla, h, bind, Except.bind, popLast_append]

theorem step_phase {f : Nat} (g : Good Q f) (s : St Q) (θ : ℝ) (w : WF s []) (hf : 10 * s.control < f + 1) :
    ∃ gs, phase (f + 1) θ s = .ok { s with out := s.out ++ gs } ∧
      den gs = some (ctrls s.controls (exp (I * (Real.pi * sg s θ)) • 1)) := by
  by_cases hc : s.control = 0
  · refine ⟨[.phase (sg s θ)], ?_, ?_⟩
    · simp [phase, hc, St.emit, sg]
    · rw [controls_nil w hc]; exact den_one rfl
  · obtain ⟨cs, c, e, hn⟩ := ne_of_len w hc
    obtain ⟨n, d, ds, anc, out⟩ := s
    simp only at e hn hc hf
    subst e
    have hcc : c ∉ cs := by
      have := w.nodup
      simp only [List.append_nil] at this
      rw [List.append_assoc, List.nodup_append] at this
      exact fun h => this.2.2 c h c (by simp) rfl
    let half := θ * (if d then -0.5 else 0.5)
    obtain ⟨g1, e1, d1⟩ := g.phase ⟨n - 1, false, cs, anc ++ [c], out⟩ half
      ⟨by simp only; omega, by wf_count w⟩ (by simp only; omega)
    obtain ⟨g2, e2, d2⟩ := g.rz ⟨n - 1, false, cs, anc, out ++ g1⟩ c (if d then -θ else θ)
      ⟨by simp only; omega, by wf_count w⟩ (by simp only; omega)
    have e1' := withAncilla_ok (w := c) (s := (⟨n - 1, false, cs, anc, out⟩ : St Q)) (r := ()) (gs := g1)
      (F := fun s => do let s ← phase f half s; .ok ((), s)) (by simp only [e1, bind, Except.bind])
    refine ⟨g1 ++ g2, ?_, ?_⟩
    · have hnn : n - 1 + 1 = n := by omega
      simp only [bind, Except.bind] at e1'
      simp only [phase, hc, if_false, popControl_append, bind, Except.bind]
      simp only [half] at e1'
      rw [e1']
      simp only [e2, pushControl, hnn, List.append_assoc]
    · rw [den_append d1 d2]
      simp only
      rw [ctrls_append, ctrls_mul (Rz_away _ hcc) ((Away.one _).smul _)]
      congr 2
      have hsg : (if d then -θ else θ) = sg ⟨n, d, cs ++ [c], anc, out⟩ θ := rfl
      have hs2 : sg (⟨n - 1, false, cs, anc, out ++ g1⟩ : St Q) (if d then -θ else θ) =
        sg ⟨n, d, cs ++ [c], anc, out⟩ θ := rfl
      have hs3 : sg (⟨n - 1, false, cs, anc ++ [c], out⟩ : St Q) half =
        sg ⟨n, d, cs ++ [c], anc, out⟩ θ / 2 := by
        simp only [sg, half]
        cases d <;> simp <;> ring
      rw [hs2, hs3, mul_smul_comm, mul_one]
      have : ctrls [c] (exp (I * (Real.pi * (sg ⟨n, d, cs ++ [c], anc, out⟩ θ : ℝ))) • (1 : Op Q)) =
        Ph (Real.pi * (sg ⟨n, d, cs ++ [c], anc, out⟩ θ : ℝ)) c := by
        rw [Ph_mat]; exact ctrl_phase _ c
      rw [this, ← ph_split]
      congr 2
      push_cast; ring

/-- The operators of the six gates that are rotations up to a phase. -/
theorem rot_split {s : St Q} {op gt : TketOp} {angle : ℝ} (h : rotAngle s.dagger op = some (gt, angle))
    {t : Q} {U : Op Q} (hU : gateSem (dag s op) 0 [t] = some U) :
    (gt = .Rz ∧ exp (I * (Real.pi * angle)) • Rz (Real.pi * (angle * 2 : ℝ)) t = U) ∨
      (gt = .Rx ∧ exp (I * (Real.pi * angle)) • Rx (Real.pi * (angle * 2 : ℝ)) t = U) := by
  have hph : ∀ a b : ℂ, b = a / 2 → exp (I * b) • Rz a t = Ph a t := by
    rintro a b rfl; exact ph_split a t
  have hv : ∀ a b : ℂ, a = Real.pi / 2 → b = a / 2 → exp (I * b) • Rx a t = V t := by
    rintro a b rfl rfl
    have e : (Real.pi : ℂ) / 2 / 2 = Real.pi / 4 := by ring
    have h2 : (1 / (Real.sqrt 2 : ℂ)) * (1 / (Real.sqrt 2 : ℂ)) = 1 / 2 := by
      rw [div_mul_div_comm, ← ofReal_mul, Real.mul_self_sqrt (by norm_num)]; norm_num
    rw [Rx_mat, V_mat, mat_smul, e, exp_I_mul, cos_quarter, sin_quarter]
    congr 1 <;> grind [I_sq]
  have hvd : ∀ a b : ℂ, a = -(Real.pi / 2) → b = a / 2 → exp (I * b) • Rx a t = Vdg t := by
    rintro a b rfl rfl
    have e : -((Real.pi : ℂ) / 2) / 2 = -(Real.pi / 4) := by ring
    have h2 : (1 / (Real.sqrt 2 : ℂ)) * (1 / (Real.sqrt 2 : ℂ)) = 1 / 2 := by
      rw [div_mul_div_comm, ← ofReal_mul, Real.mul_self_sqrt (by norm_num)]; norm_num
    rw [Rx_mat, Vdg_mat, mat_smul, e, exp_I_mul, Complex.cos_neg, Complex.sin_neg, cos_quarter, sin_quarter]
    congr 1 <;> grind [I_sq]
  obtain ⟨n, d, cs, anc, out⟩ := s
  cases op <;> cases d <;>
    simp only [rotAngle, Option.map_none, Option.map_some, Option.some.injEq, Prod.mk.injEq, reduceCtorEq,
      if_true, Bool.false_eq_true, if_false] at h <;>
    obtain ⟨rfl, rfl⟩ := h <;>
    obtain rfl := Option.some.inj hU
  all_goals first
    | (left; refine ⟨rfl, ?_⟩
       show _ = Ph (Real.pi / 4) t
       rw [← hph _ _ rfl]
       congr 2 <;> push_cast <;> ring)
    | (left; refine ⟨rfl, ?_⟩
       show _ = Ph (-(Real.pi / 4)) t
       rw [← hph _ _ rfl]
       congr 2 <;> push_cast <;> ring)
    | (left; refine ⟨rfl, ?_⟩
       show _ = Ph (Real.pi / 2) t
       rw [← hph _ _ rfl]
       congr 2 <;> push_cast <;> ring)
    | (left; refine ⟨rfl, ?_⟩
       show _ = Ph (-(Real.pi / 2)) t
       rw [← hph _ _ rfl]
       congr 2 <;> push_cast <;> ring)
    | (right; refine ⟨rfl, ?_⟩
       show _ = V t
       refine hv _ _ ?_ ?_ <;> push_cast <;> ring)
    | (right; refine ⟨rfl, ?_⟩
       show _ = Vdg t
       refine hvd _ _ ?_ ?_ <;> push_cast <;> ring)

end Tket.ControlSynth
