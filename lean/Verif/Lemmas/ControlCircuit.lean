import Verif.Lemmas.ControlSynthX

/-!
# Specification of modified gates, and the resolution of straight-line circuits
-/

noncomputable section

namespace Tket.ControlSynth

open Tket.Quantum Complex

set_option linter.unusedSectionVars false

variable {Q : Type} [DecidableEq Q]

/-! ## Specification -/

/-- `V` is `U` controlled by `cs`: it applies `U` where all controls are set and nothing elsewhere. -/
def IsControlled (cs : List Q) (U V : Op Q) : Prop :=
  ∀ ψ x, V.app ψ x = if (∀ c ∈ cs, x c = true) then U.app ψ x else ψ x

/-- `W` undoes `U`, if asked for, otherwise it is `U`. -/
def Daggered (dagger : Bool) (U W : Op Q) : Prop :=
  if dagger then U * W = 1 ∧ W * U = 1 else W = U

/-- The state in which a gate of the modified function is resolved. -/
def top (cs : List Q) (dagger : Bool) (out : List (Node Q)) : St Q := ⟨cs.length, dagger, cs, [], out⟩

/-- The gates with `n` controls for which the code is right: `CZ` with a control, `Z` with two and the
order of the outputs of `Toffoli` with one are wrong. -/
def Supported (n : Nat) (op : TketOp) : Prop :=
  op.isQuantum = true ∧ ¬(op = .CZ ∧ 1 ≤ n) ∧ ¬(op = .Z ∧ 2 ≤ n) ∧ ¬(op = .Toffoli ∧ 1 ≤ n)

/-! ## Helpers -/

theorem ctrls_app (cs : List Q) (U : Op Q) (ψ : State Q) (x : Q → Bool) :
    (ctrls cs U).app ψ x = if (∀ c ∈ cs, x c = true) then U.app ψ x else ψ x := by
  induction cs with
  | nil => simp [ctrls]
  | cons c cs ih =>
    have : ctrls (c :: cs) U = P0 c + P1 c * ctrls cs U := rfl
    rw [this, add_app, mul_app, P0_app, P1_app, ih]
    cases h : x c <;> simp [h]

theorem isControlled_ctrls (cs : List Q) (U : Op Q) : IsControlled cs U (ctrls cs U) := ctrls_app cs U

theorem isControlled_eq {cs : List Q} {U V : Op Q} (h : IsControlled cs U V) : V = ctrls cs U :=
  Op.ext fun ψ x => by rw [h, ctrls_app]

theorem Rx_add (θ φ : ℂ) (t : Q) : Rx θ t * Rx φ t = Rx (θ + φ) t := by
  rw [← H_Rz_H, ← H_Rz_H, ← H_Rz_H, ← Rz_add]
  calc H t * Rz θ t * H t * (H t * Rz φ t * H t) = H t * Rz θ t * (H t * H t) * Rz φ t * H t := by
        simp only [mul_assoc]
    _ = _ := by rw [H_sq]; simp only [mul_one, mul_assoc]

theorem Ry_add_neg (θ : ℂ) (t : Q) : Ry θ t * Ry (-θ) t = 1 := by
  rw [Ry_mat, Ry_mat, mat_mul, one_mat t]
  have : -θ / 2 = -(θ / 2) := by ring
  rw [this, cos_neg, sin_neg]
  have h := Complex.sin_sq_add_cos_sq (θ / 2)
  congr 1 <;> grind

theorem Ph_add (θ φ : ℂ) (t : Q) : Ph θ t * Ph φ t = Ph (θ + φ) t := by
  rw [Ph_mat, Ph_mat, Ph_mat, mat_mul, mul_add, Complex.exp_add]
  congr 1 <;> ring

theorem Ph_zero (t : Q) : Ph 0 t = 1 := by
  rw [Ph_mat, one_mat t]; simp

theorem Rx_zero (t : Q) : Rx 0 t = 1 := by simp [Rx]

/-- Angle after the dagger. -/
def sgd (d : Bool) (θ : ℝ) : ℝ := if d then -θ else θ

theorem Z_sq2 (t : Q) : Z t * Z t = 1 := Z_sq t

theorem Y_sq2 (t : Q) : Y t * Y t = 1 := by
  rw [Y_mat, mat_mul, one_mat t]
  congr 1 <;> simp

theorem rz_inv (θ : ℝ) (t : Q) : Rz (Real.pi * θ) t * Rz (Real.pi * ((-θ : ℝ) : ℂ)) t = 1 := by
  rw [Rz_add]; push_cast; rw [show (Real.pi : ℂ) * θ + Real.pi * -θ = 0 by ring, Rz_zero]

theorem rz_inv' (θ : ℝ) (t : Q) : Rz (Real.pi * ((-θ : ℝ) : ℂ)) t * Rz (Real.pi * θ) t = 1 := by
  rw [Rz_add]; push_cast; rw [show (Real.pi : ℂ) * -θ + Real.pi * θ = 0 by ring, Rz_zero]

theorem rx_inv (θ : ℝ) (t : Q) : Rx (Real.pi * θ) t * Rx (Real.pi * ((-θ : ℝ) : ℂ)) t = 1 := by
  rw [Rx_add]; push_cast; rw [show (Real.pi : ℂ) * θ + Real.pi * -θ = 0 by ring, Rx_zero]

theorem rx_inv' (θ : ℝ) (t : Q) : Rx (Real.pi * ((-θ : ℝ) : ℂ)) t * Rx (Real.pi * θ) t = 1 := by
  rw [Rx_add]; push_cast; rw [show (Real.pi : ℂ) * -θ + Real.pi * θ = 0 by ring, Rx_zero]

theorem ry_inv (θ : ℝ) (t : Q) : Ry (Real.pi * θ) t * Ry (Real.pi * ((-θ : ℝ) : ℂ)) t = 1 := by
  have := Ry_add_neg (Real.pi * θ : ℂ) t
  push_cast; rw [mul_neg]; exact this

theorem ry_inv' (θ : ℝ) (t : Q) : Ry (Real.pi * ((-θ : ℝ) : ℂ)) t * Ry (Real.pi * θ) t = 1 := by
  have := Ry_add_neg (-(Real.pi * θ : ℂ)) t
  push_cast; rw [mul_neg]; rwa [neg_neg] at this

theorem ph_inv (θ : ℂ) (t : Q) : Ph θ t * Ph (-θ) t = 1 ∧ Ph (-θ) t * Ph θ t = 1 := by
  constructor <;> rw [Ph_add] <;> simp [Ph_zero]

theorem ctrl_inv {c : Q} {U W : Op Q} (hU : Away [c] U) (hW : Away [c] W) (h : U * W = 1 ∧ W * U = 1) :
    ctrl c U * ctrl c W = 1 ∧ ctrl c W * ctrl c U = 1 := by
  have h1 := ctrls_mul hU hW
  have h2 := ctrls_mul hW hU
  rw [h.1, ctrls_one] at h1
  rw [h.2, ctrls_one] at h2
  exact ⟨h1, h2⟩

theorem Z_away {cs : List Q} {t : Q} (h : t ∉ cs) : Away cs (Z t) := by
  rw [Z_mat]; exact Away.mat h _ _ _ _
theorem Y_away {cs : List Q} {t : Q} (h : t ∉ cs) : Away cs (Y t) := by
  rw [Y_mat]; exact Away.mat h _ _ _ _

/-- The operator emitted and its relation to the gate. -/
theorem run_op {f : Nat} {s : St Q} {op : TketOp} {qs : List Q} {θ : ℝ} (w : WF s qs)
    (hl : qs.length = op.qubits) (hs : Supported s.control op) (hf : 10 * (s.control + 2) + 8 < f) :
    ∃ U W, gateSem op θ qs = some U ∧ Daggered s.dagger U W ∧
      Runs (modify f op qs θ s) s qs (ctrls s.controls W) := by
  have g := good (Q := Q) f
  obtain ⟨hq, h1, h2, h3⟩ := hs
  have two : ∀ {a b : Q}, WF s [a, b] → b ∉ [a] := fun {a b} w hb => by
    have := w.nodup
    rw [List.append_assoc, List.nodup_append] at this
    have := this.2.1
    simp only [List.cons_append, List.nil_append, List.nodup_cons, List.mem_cons, not_or] at this
    rw [List.mem_singleton] at hb
    exact this.1.1 hb.symm
  have three : ∀ {a b c : Q}, WF s [a, b, c] → a ≠ b ∧ a ≠ c ∧ b ≠ c := fun {a b c} w => by
    have := w.nodup
    rw [List.append_assoc, List.nodup_append] at this
    have := this.2.1
    simp only [List.cons_append, List.nil_append, List.nodup_cons, List.mem_cons, not_or] at this
    exact ⟨this.1.1, this.1.2.1, this.2.1.1⟩
  have key1 : ∀ t, qs = [t] → ∀ U W : Op Q, gateSem op θ [t] = some U → Daggered s.dagger U W →
      Runs (modify f op [t] θ s) s [t] (ctrls s.controls W) →
      ∃ U W, gateSem op θ qs = some U ∧ Daggered s.dagger U W ∧
        Runs (modify f op qs θ s) s qs (ctrls s.controls W) := by
    rintro t rfl U W h4 h5 h6; exact ⟨U, W, h4, h5, h6⟩
  have key2 : ∀ c t, qs = [c, t] → ∀ U W : Op Q, gateSem op θ [c, t] = some (ctrl c U) →
      Away [c] U → Away [c] W → Daggered s.dagger U W →
      Runs (modify f op [c, t] θ s) s [c, t] (ctrls (s.controls ++ [c]) W) →
      ∃ U W, gateSem op θ qs = some U ∧ Daggered s.dagger U W ∧
        Runs (modify f op qs θ s) s qs (ctrls s.controls W) := by
    rintro c t rfl U W h4 hU hW h5 h6
    refine ⟨ctrl c U, ctrl c W, h4, ?_, ?_⟩
    · unfold Daggered at h5 ⊢
      split at h5
      · rename_i hd; rw [if_pos hd]; exact ctrl_inv hU hW h5
      · rename_i hd; rw [if_neg hd, h5]
    · rw [ctrls_append] at h6; exact h6
  have self : ∀ {U : Op Q}, U * U = 1 → Daggered s.dagger U U := fun h => by
    unfold Daggered; split
    · exact ⟨h, h⟩
    · rfl
  have one : qs.length = 1 → ∃ t, qs = [t] := List.length_eq_one_iff.1
  have twol : qs.length = 2 → ∃ a b, qs = [a, b] := List.length_eq_two.1
  have rotc : ∀ t U W, op ∈ [TketOp.T, .Tdg, .S, .Sdg, .V, .Vdg] → qs = [t] → gateSem op θ [t] = some U →
      gateSem (dag s op) 0 [t] = some W → Daggered s.dagger U W →
      ∃ U W, gateSem op θ qs = some U ∧ Daggered s.dagger U W ∧
        Runs (modify f op qs θ s) s qs (ctrls s.controls W) := by
    rintro t U W hm rfl hU hW hd
    exact ⟨U, W, hU, hd, g.rot op s t θ W hm w (by omega) hW⟩
  cases op <;> simp only [TketOp.isQuantum, Bool.false_eq_true] at hq <;>
    simp only [TketOp.qubits] at hl
  case H =>
    obtain ⟨t, rfl⟩ := one hl
    exact key1 t rfl (H t) (H t) rfl (self (H_sq t)) (g.h s t θ w (by omega))
  case X =>
    obtain ⟨t, rfl⟩ := one hl
    exact key1 t rfl (X t) (X t) rfl (self (X_sq' t)) (g.x s t θ w (by omega))
  case Y =>
    obtain ⟨t, rfl⟩ := one hl
    exact key1 t rfl (Y t) (Y t) rfl (self (Y_sq2 t)) (g.y s t θ w (by omega))
  case Z =>
    obtain ⟨t, rfl⟩ := one hl
    have := g.z s t θ w (by omega)
    rw [if_pos (by simp at h2; omega)] at this
    exact key1 t rfl (Z t) (Z t) rfl (self (Z_sq2 t)) this
  case Rx =>
    obtain ⟨t, rfl⟩ := one hl
    refine key1 t rfl _ _ rfl ?_ (g.rx s t θ w (by omega))
    unfold Daggered; split
    · rename_i hd; rw [sg, if_pos hd]; exact ⟨rx_inv θ t, rx_inv' θ t⟩
    · rename_i hd; rw [sg, if_neg hd]; rfl
  case Ry =>
    obtain ⟨t, rfl⟩ := one hl
    refine key1 t rfl _ _ rfl ?_ (g.ry s t θ w (by omega))
    unfold Daggered; split
    · rename_i hd; rw [sg, if_pos hd]; exact ⟨ry_inv θ t, ry_inv' θ t⟩
    · rename_i hd; rw [sg, if_neg hd]; rfl
  case Rz =>
    obtain ⟨t, rfl⟩ := one hl
    refine key1 t rfl _ _ rfl ?_ (g.rz s t θ w (by omega))
    unfold Daggered; split
    · rename_i hd; rw [sg, if_pos hd]; exact ⟨rz_inv θ t, rz_inv' θ t⟩
    · rename_i hd; rw [sg, if_neg hd]; rfl
  case CX =>
    obtain ⟨c, t, rfl⟩ := twol hl
    have ht := two w
    exact key2 c t rfl (X t) (X t) rfl (X_away ht) (X_away ht) (self (X_sq' t)) (g.cx s c t θ w (by omega))
  case CY =>
    obtain ⟨c, t, rfl⟩ := twol hl
    have ht := two w
    exact key2 c t rfl (Y t) (Y t) rfl (Y_away ht) (Y_away ht) (self (Y_sq2 t)) (g.cy s c t θ w (by omega))
  case CZ =>
    obtain ⟨c, t, rfl⟩ := twol hl
    have ht := two w
    have := g.cz s c t θ w (by omega)
    rw [if_pos (by simp at h1; omega)] at this
    exact key2 c t rfl (Z t) (Z t) rfl (Z_away ht) (Z_away ht) (self (Z_sq2 t)) this
  case CRz =>
    obtain ⟨c, t, rfl⟩ := twol hl
    have ht := two w
    refine key2 c t rfl _ _ rfl (Rz_away _ ht) (Rz_away _ ht) ?_ (g.crz s c t θ w (by omega))
    unfold Daggered; split
    · rename_i hd; rw [sg, if_pos hd]; exact ⟨rz_inv θ t, rz_inv' θ t⟩
    · rename_i hd; rw [sg, if_neg hd]; rfl
  case Toffoli =>
    obtain ⟨x, y, t, rfl⟩ := List.length_eq_three.1 hl
    have := g.tof s x y t θ w (by omega)
    rw [if_neg (by simp at h3; simp [h3]), ctrls_append] at this
    obtain ⟨a, b, c⟩ := three w
    exact ⟨_, _, rfl, self (ctrls_X_sq (cs := [x, y]) (t := t) (by simp [b.symm, c.symm])), this⟩
  case T =>
    obtain ⟨t, rfl⟩ := one hl
    cases hd : s.dagger
    · exact rotc t _ _ (by simp) rfl rfl (by simp only [dag, hd]; rfl) (by rw [hd]; rfl) |> (hd ▸ ·)
    · exact rotc t _ _ (by simp) rfl rfl (by simp only [dag, hd]; rfl) (by rw [hd]; exact ph_inv _ t) |> (hd ▸ ·)
  case S =>
    obtain ⟨t, rfl⟩ := one hl
    cases hd : s.dagger
    · exact rotc t _ _ (by simp) rfl rfl (by simp only [dag, hd]; rfl) (by rw [hd]; rfl) |> (hd ▸ ·)
    · exact rotc t _ _ (by simp) rfl rfl (by simp only [dag, hd]; rfl) (by rw [hd]; exact ph_inv _ t) |> (hd ▸ ·)
  case Tdg =>
    obtain ⟨t, rfl⟩ := one hl
    cases hd : s.dagger
    · exact rotc t _ _ (by simp) rfl rfl (by simp only [dag, hd]; rfl) (by rw [hd]; rfl) |> (hd ▸ ·)
    · exact rotc t _ _ (by simp) rfl rfl (by simp only [dag, hd]; rfl)
        (by rw [hd]; exact (ph_inv _ t).symm) |> (hd ▸ ·)
  case Sdg =>
    obtain ⟨t, rfl⟩ := one hl
    cases hd : s.dagger
    · exact rotc t _ _ (by simp) rfl rfl (by simp only [dag, hd]; rfl) (by rw [hd]; rfl) |> (hd ▸ ·)
    · exact rotc t _ _ (by simp) rfl rfl (by simp only [dag, hd]; rfl)
        (by rw [hd]; exact (ph_inv _ t).symm) |> (hd ▸ ·)
  case V =>
    obtain ⟨t, rfl⟩ := one hl
    cases hd : s.dagger
    · exact rotc t _ _ (by simp) rfl rfl (by simp only [dag, hd]; rfl) (by rw [hd]; rfl) |> (hd ▸ ·)
    · exact rotc t _ _ (by simp) rfl rfl (by simp only [dag, hd]; rfl)
        (by rw [hd]; exact ⟨V_Vdg t, Vdg_V t⟩) |> (hd ▸ ·)
  case Vdg =>
    obtain ⟨t, rfl⟩ := one hl
    cases hd : s.dagger
    · exact rotc t _ _ (by simp) rfl rfl (by simp only [dag, hd]; rfl) (by rw [hd]; rfl) |> (hd ▸ ·)
    · exact rotc t _ _ (by simp) rfl rfl (by simp only [dag, hd]; rfl)
        (by rw [hd]; exact ⟨Vdg_V t, V_Vdg t⟩) |> (hd ▸ ·)

/-! ## Circuits -/

/-- The nodes on which the theorem on circuits speaks: the gate is handled correctly with these controls,
its qubits are different and none is a control. -/
def NodeOk (cs : List Q) : Node Q → Prop
  | .gate op qs _ => Supported cs.length op ∧ qs.length = op.qubits ∧ (cs ++ qs).Nodup
  | .phase _ => cs.Nodup

theorem gateSem_local {op : TketOp} {θ : ℝ} {qs : List Q} {U : Op Q} (h : gateSem op θ qs = some U) :
    U ∈ local' {q | q ∈ qs} := by
  cases qs with
  | nil => simp [gateSem] at h
  | cons q qs =>
    simp only [gateSem] at h
    split at h
    · rename_i hl
      have hm : ∀ x, (∃ j < op.qubits, x = (q :: qs).getD j q) → x ∈ q :: qs := by
        rintro x ⟨j, hj, rfl⟩
        rw [← hl] at hj
        rw [List.getD_eq_getElem?_getD, List.getElem?_eq_getElem hj]
        exact List.getElem_mem hj
      refine Algebra.adjoin_mono ?_ (sem_local h)
      rintro A (⟨x, hx, hA⟩ | ⟨x, hx, hA⟩)
      · exact Or.inl ⟨x, hm x hx, hA⟩
      · exact Or.inr ⟨x, hm x hx, hA⟩
    · exact absurd h (by simp)

theorem away_local {cs qs : List Q} {U : Op Q} (h : U ∈ local' {q | q ∈ qs}) (hd : ∀ c ∈ cs, c ∉ qs) :
    Away cs U := fun c hc =>
  local_commute (S := {c}) (T := {q | q ∈ qs}) (fun q hq => by
    rw [Set.mem_singleton_iff] at hq; subst hq; exact hd q hc)
    (P1_mem_of (Z_mem (by rw [Set.mem_singleton_iff]))) h

theorem away_inv {cs : List Q} {U W : Op Q} (h : Away cs U) (h1 : U * W = 1) (h2 : W * U = 1) : Away cs W :=
  fun c hc => by
    have hu := h c hc
    show P1 c * W = W * P1 c
    calc P1 c * W = (W * U) * P1 c * W := by rw [h2, one_mul]
      _ = W * (U * P1 c) * W := by simp only [mul_assoc]
      _ = W * (P1 c * U) * W := by rw [hu.eq]
      _ = W * P1 c * (U * W) := by simp only [mul_assoc]
      _ = W * P1 c := by rw [h1, mul_one]

theorem Daggered.away {cs : List Q} {d : Bool} {U W : Op Q} (h : Daggered d U W) (hU : Away cs U) : Away cs W := by
  unfold Daggered at h
  split at h
  · exact away_inv hU h.1 h.2
  · rw [h]; exact hU

theorem rename_id (qs : List Q) : rename id qs qs = id := by
  funext q
  simp only [rename]
  split
  · rename_i p hp
    have h1 := List.find?_some hp
    have h2 := List.mem_of_find?_eq_some hp
    simp only [decide_eq_true_eq] at h1
    rw [List.zip_eq_zipWith] at h2
    have : ∀ (l : List Q) (p : Q × Q), p ∈ List.zipWith Prod.mk l l → p.1 = p.2 := by
      intro l; induction l with
      | nil => simp
      | cons a l ih =>
        intro p hp
        simp only [List.zipWith_cons_cons, List.mem_cons] at hp
        rcases hp with rfl | hp
        · rfl
        · exact ih p hp
    rw [← this _ _ h2, h1]; rfl
  · rfl

/-- One node. -/
theorem modifyNode_ok {fuel : Nat} {cs : List Q} {d : Bool} {out : List (Node Q)} {n : Node Q}
    (hn : NodeOk cs n) (hf : 10 * (cs.length + 2) + 8 < fuel) :
    ∃ U W gs, n.sem = some U ∧ Daggered d U W ∧ Away cs U ∧
      modifyNode fuel n (id, top cs d out) = .ok (id, top cs d (out ++ gs)) ∧ den gs = some (ctrls cs W) := by
  cases n with
  | gate op qs θ =>
    obtain ⟨h1, h2, h3⟩ := hn
    obtain ⟨U, W, hU, hW, gs, e, hg⟩ := run_op (f := fuel) (s := top cs d out) (op := op) (qs := qs) (θ := θ)
      ⟨rfl, by simpa [top] using h3⟩ h2 h1 hf
    refine ⟨U, W, gs, hU, hW, away_local (gateSem_local hU) ?_, ?_, hg⟩
    · intro c hc hq
      rw [List.nodup_append] at h3
      exact h3.2.2 c hc c hq rfl
    · have e' : modify fuel op qs θ (top cs d out) = .ok (qs, top cs d (out ++ gs)) := e
      simp only [modifyNode, List.map_id, top, ne_eq, not_true_eq_false, if_false] at e' ⊢
      rw [e']
      simp only [bind, Except.bind, rename_id]
  | phase θ =>
    obtain ⟨gs, e, hg⟩ := (good (Q := Q) fuel).phase (top cs d out) θ ⟨rfl, by
      have hn' : cs.Nodup := hn
      simpa [top] using hn'⟩
      (by simp only [top]; omega)
    refine ⟨_, _, gs, rfl, ?_, Away.smul _ (Away.one _), ?_, hg⟩
    · unfold Daggered
      split
      · rename_i hd
        simp only [sg, top, hd, if_true]
        constructor <;> simp only [smul_mul_smul_comm, one_mul, ← Complex.exp_add] <;> push_cast <;>
          ring_nf <;> simp
      · rename_i hd; cases d with
        | false => rfl
        | true => exact absurd rfl hd
    · have e' : phase fuel θ (top cs d out) = .ok (top cs d (out ++ gs)) := e
      simp only [modifyNode, top, ne_eq, not_true_eq_false, if_false] at e' ⊢
      rw [e']
      rfl

theorem den_cons_some {n : Node Q} {c : List (Node Q)} {U V : Op Q} (h1 : n.sem = some U) (h2 : den c = some V) :
    den (n :: c) = some (V * U) := by simp [den, h1, h2]

/-- Nodes in the given order. -/
theorem fold_ok {fuel : Nat} {cs : List Q} {d : Bool} (hf : 10 * (cs.length + 2) + 8 < fuel) :
    ∀ (c : List (Node Q)) (out : List (Node Q)), (∀ n ∈ c, NodeOk cs n) →
      ∃ Us : List (Op Q × Op Q), ∃ gs, c.map Node.sem = Us.map (fun p => some p.1) ∧
        (∀ p ∈ Us, Daggered d p.1 p.2 ∧ Away cs p.1) ∧
        c.foldlM (fun a n => modifyNode fuel n a) (id, top cs d out) = .ok (id, top cs d (out ++ gs)) ∧
        den gs = some (ctrls cs ((Us.map Prod.snd).reverse.prod))
  | [], out, _ => ⟨[], [], rfl, by simp, by simp only [List.append_nil]; rfl, by simp [den, ctrls_one]⟩
  | n :: c, out, h => by
    obtain ⟨U, W, gs, h1, h2, h3, h4, h5⟩ := modifyNode_ok (d := d) (out := out) (h n (by simp)) hf
    obtain ⟨Us, gs', k1, k2, k3, k4⟩ := fold_ok (d := d) hf c (out ++ gs) (fun m hm => h m (by simp [hm]))
    refine ⟨(U, W) :: Us, gs ++ gs', by simp [h1, k1], ?_, ?_, ?_⟩
    · intro p hp
      rcases List.mem_cons.1 hp with rfl | hp
      · exact ⟨h2, h3⟩
      · exact k2 p hp
    · rw [List.foldlM_cons, h4]
      simp only [bind, Except.bind]
      rw [← List.append_assoc]
      exact k3
    · rw [den_append h5 k4, ctrls_mul]
      · simp
      · have : ∀ l : List (Op Q × Op Q), (∀ p ∈ l, Daggered d p.1 p.2 ∧ Away cs p.1) →
            Away cs ((l.map Prod.snd).reverse.prod) := by
          intro l; induction l with
          | nil => intro _; simpa using Away.one cs
          | cons p l ih =>
            intro hl
            simp only [List.map_cons, List.reverse_cons, List.prod_append, List.prod_singleton]
            exact (ih (fun q hq => hl q (by simp [hq]))).mul
              ((hl p (by simp)).1.away (hl p (by simp)).2)
        exact this Us k2
      · exact h2.away h3

theorem den_of_map {c : List (Node Q)} {Us : List (Op Q × Op Q)}
    (h : c.map Node.sem = Us.map (fun p => some p.1)) : den c = some ((Us.map Prod.fst).reverse.prod) := by
  induction c generalizing Us with
  | nil => cases Us with
    | nil => simp [den]
    | cons => simp at h
  | cons n c ih => cases Us with
    | nil => simp at h
    | cons p Us =>
      simp only [List.map_cons, List.cons.injEq] at h
      rw [den_cons_some h.1 (ih h.2)]
      simp

theorem inv_prod (l : List (Op Q × Op Q)) (h : ∀ p ∈ l, p.1 * p.2 = 1 ∧ p.2 * p.1 = 1) :
    (l.map Prod.fst).prod * (l.map Prod.snd).reverse.prod = 1 ∧
      (l.map Prod.snd).reverse.prod * (l.map Prod.fst).prod = 1 := by
  induction l with
  | nil => simp
  | cons p l ih =>
    obtain ⟨h1, h2⟩ := ih (fun q hq => h q (by simp [hq]))
    obtain ⟨k1, k2⟩ := h p (by simp)
    simp only [List.map_cons, List.prod_cons, List.reverse_cons, List.prod_append]
    constructor
    · calc _ = p.1 * ((l.map Prod.fst).prod * (l.map Prod.snd).reverse.prod) * p.2 := by simp [mul_assoc]
        _ = 1 := by rw [h1, mul_one, k1]
    · calc _ = (l.map Prod.snd).reverse.prod * (p.2 * p.1) * (l.map Prod.fst).prod := by simp [mul_assoc]
        _ = 1 := by rw [k2, mul_one, h2]

end Tket.ControlSynth
