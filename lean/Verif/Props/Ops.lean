import Verif.Quantum.Gates

/-!
# Properties of the commutation table
-/

noncomputable section

namespace Tket.Quantum

set_option linter.unusedSectionVars false

variable {Q : Type} [DecidableEq Q]

/-- The labels of an operation on the given qubits. -/
def labels (op : TketOp) (q : Nat → Q) : Set (Op Q) :=
  {A | ∃ j p, j < op.qubits ∧ commutationOnPort op.qubitCommutation j = some p ∧ A = pauli p (q j)}

/-- An operation with a label on some port has labels on all its qubits, and is generated by them. -/
theorem sem_labels {op : TketOp} {θ : ℝ} {out : Bool} {q : Nat → Q} {U : Op Q}
    (h : sem op θ out q = some U) (hl : op.qubitCommutation ≠ []) :
    U ∈ Algebra.adjoin ℂ (labels op q) := by
  have key : ∀ j p, j < op.qubits → commutationOnPort op.qubitCommutation j = some p →
      pauli p (q j) ∈ Algebra.adjoin ℂ (labels op q) :=
    fun j p hj hp => Algebra.subset_adjoin ⟨j, p, hj, hp, rfl⟩
  cases op <;> simp only [sem, Option.some.injEq, reduceCtorEq] at h <;>
    simp only [TketOp.qubitCommutation, ne_eq, not_true_eq_false, reduceCtorEq,
      not_false_eq_true] at hl <;> subst h
  case CX => exact ctrl_mem_of (key 0 .Z (by decide) rfl) (key 1 .X (by decide) rfl)
  case CZ => exact ctrl_mem_of (key 0 .Z (by decide) rfl) (key 1 .Z (by decide) rfl)
  case T => exact Ph_mem_of (key 0 .Z (by decide) rfl)
  case Tdg => exact Ph_mem_of (key 0 .Z (by decide) rfl)
  case S => exact Ph_mem_of (key 0 .Z (by decide) rfl)
  case Sdg => exact Ph_mem_of (key 0 .Z (by decide) rfl)
  case X => exact key 0 .X (by decide) rfl
  case Y => exact key 0 .Y (by decide) rfl
  case Z => exact key 0 .Z (by decide) rfl
  case Rx => exact Rx_mem_of (key 0 .X (by decide) rfl)
  case Rz => exact Rz_mem_of (key 0 .Z (by decide) rfl)
  case V => exact V_mem_of (key 0 .X (by decide) rfl)
  case Vdg => exact Vdg_mem_of (key 0 .X (by decide) rfl)
  case Measure =>
    split
    · exact P1_mem_of (key 0 .Z (by decide) rfl)
    · exact P0_mem_of (key 0 .Z (by decide) rfl)

theorem label_ne_nil {op : TketOp} {j : Nat} {p : Pauli}
    (h : commutationOnPort op.qubitCommutation j = some p) : op.qubitCommutation ≠ [] := by
  intro hc; rw [hc] at h; simp [commutationOnPort] at h

theorem label_ne_I {op : TketOp} {j : Nat} {p : Pauli}
    (h : commutationOnPort op.qubitCommutation j = some p) : p ≠ .I := by
  rintro rfl
  unfold commutationOnPort at h
  rw [List.findSome?_eq_some_iff] at h
  obtain ⟨l1, a, l2, e, h1, _⟩ := h
  have hm : a ∈ op.qubitCommutation := by rw [e]; simp
  split at h1
  · simp only [Option.some.injEq] at h1
    revert hm h1
    obtain ⟨a1, a2⟩ := a
    rintro hm rfl
    cases op <;> simp [TketOp.qubitCommutation] at hm
  · simp at h1

/-- **C26.** Two operations whose commutation labels agree on every qubit they share commute — for all
angles, measurement outcomes and placements of their qubits. In particular operations on disjoint qubits
commute. -/
theorem C26_qubit_commutation_sound (a b : TketOp) (θa θb : ℝ) (oa ob : Bool) (qa qb : Nat → Q)
    (A B : Op Q) (hA : sem a θa oa qa = some A) (hB : sem b θb ob qb = some B)
    (h : ∀ i < a.qubits, ∀ j < b.qubits, qa i = qb j →
      ∃ p p', commutationOnPort a.qubitCommutation i = some p ∧
        commutationOnPort b.qubitCommutation j = some p' ∧ p.commutesWith p' = true) :
    A * B = B * A := by
  show Commute A B
  by_cases hs : ∃ i, i < a.qubits ∧ ∃ j, j < b.qubits ∧ qa i = qb j
  · obtain ⟨i, hi, j, hj, e⟩ := hs
    obtain ⟨p, p', h1, h2, _⟩ := h i hi j hj e
    refine commute_of_gens ?_ (sem_labels hA (label_ne_nil h1)) (sem_labels hB (label_ne_nil h2))
    rintro x ⟨i', p, hi', hp, rfl⟩ y ⟨j', p', hj', hp', rfl⟩
    apply pauli_commute
    by_cases hq : qa i' = qb j'
    · right
      obtain ⟨r, r', g1, g2, g3⟩ := h i' hi' j' hj' hq
      rw [hp] at g1; rw [hp'] at g2
      simp only [Option.some.injEq] at g1 g2
      subst g1 g2
      have n1 := label_ne_I hp
      have n2 := label_ne_I hp'
      unfold Pauli.commutesWith at g3
      simpa [n1, n2] using g3
    · exact Or.inl hq
  · refine local_commute ?_ (sem_local hA) (sem_local hB)
    rintro x ⟨i, hi, rfl⟩ ⟨j, hj, e⟩
    exact hs ⟨i, hi, j, hj, e⟩

/-- **C26.** Every label is meant literally: the operation commutes with that Pauli operator on the qubit
of that port. -/
theorem C26_labels_commute (op : TketOp) (θ : ℝ) (out : Bool) (q : Nat → Q) (hq : Function.Injective q)
    (U : Op Q) (hU : sem op θ out q = some U) (j : Nat) (p : Pauli)
    (hj : commutationOnPort op.qubitCommutation j = some p) : U * pauli p (q j) = pauli p (q j) * U := by
  refine (commute_of_gens (t := {pauli p (q j)}) ?_ (sem_labels hU (label_ne_nil hj))
    (Algebra.subset_adjoin rfl) : Commute U _)
  rintro x ⟨i, p', hi, hp, rfl⟩ y rfl
  apply pauli_commute
  by_cases e : i = j
  · right
    subst e
    rw [hp] at hj
    simpa using hj
  · exact Or.inl (fun hc => e (hq hc))

theorem one_ne_zero_op : (1 : Op Q) ≠ 0 := by
  intro h
  have : (1 : Op Q).app (fun _ => 1) (fun _ => false) = (0 : Op Q).app (fun _ => 1) (fun _ => false) := by
    rw [h]
  simp [one_app, zero_app] at this

theorem not_commute_of_anti {A B : Op Q} (h : A * B = -(B * A)) (hA : A * A = 1) (hB : B * B = 1) :
    ¬ Commute A B := by
  intro hc
  have hc : A * B = B * A := hc
  rw [hc] at h
  have h2 : (2 : ℂ) • (B * A) = 0 := by
    rw [two_smul]
    nth_rewrite 1 [h]
    simp
  have h3 : B * A = 0 := by
    rcases smul_eq_zero.1 h2 with h' | h'
    · norm_num at h'
    · exact h'
  have : (1 : Op Q) = 0 := by
    calc (1 : Op Q) = B * (B * A) * A := by rw [← mul_assoc, hB, one_mul, hA]
      _ = 0 := by rw [h3]; simp
  exact one_ne_zero_op this

theorem Y_sq (q : Q) : Y q * Y q = 1 := by
  have e : X q * Z q * (X q * Z q) = -1 := by
    calc X q * Z q * (X q * Z q) = X q * (Z q * X q) * Z q := by noncomm_ring
      _ = X q * (-(X q * Z q)) * Z q := by rw [ZX]
      _ = -((X q * X q) * (Z q * Z q)) := by noncomm_ring
      _ = -1 := by simp
  unfold Y
  rw [smul_mul_smul_comm, e, Complex.I_mul_I]
  simp

theorem YX (q : Q) : Y q * X q = -(X q * Y q) := by
  unfold Y
  rw [smul_mul_assoc, mul_smul_comm, ← smul_neg]
  congr 1
  rw [mul_assoc, ZX]; noncomm_ring

theorem YZ (q : Q) : Y q * Z q = -(Z q * Y q) := by
  unfold Y
  rw [smul_mul_assoc, mul_smul_comm, ← smul_neg]
  congr 1
  rw [← mul_assoc, ZX]; noncomm_ring

theorem anti_symm {A B : Op Q} (h : A * B = -(B * A)) : B * A = -(A * B) := by rw [h]; simp

/-- **C26.** `commutes_with` is exactly commutation of the Pauli operators. -/
theorem C26_pauli_commutes_iff (a b : Pauli) (q : Q) :
    a.commutesWith b = true ↔ pauli a q * pauli b q = pauli b q * pauli a q := by
  have no : ∀ {A B : Op Q}, A * B = -(B * A) → A * A = 1 → B * B = 1 →
      (false = true ↔ A * B = B * A) := fun h hA hB =>
    ⟨fun h => absurd h (by simp), fun hc => absurd hc (not_commute_of_anti h hA hB)⟩
  have zx := ZX q
  have yx := YX q
  have yz := YZ q
  cases a <;> cases b
  case X.Y => exact no (anti_symm yx) (X_sq q) (Y_sq q)
  case X.Z => exact no (anti_symm zx) (X_sq q) (Z_sq q)
  case Y.X => exact no yx (Y_sq q) (X_sq q)
  case Y.Z => exact no yz (Y_sq q) (Z_sq q)
  case Z.X => exact no zx (Z_sq q) (X_sq q)
  case Z.Y => exact no (anti_symm yz) (Z_sq q) (Y_sq q)
  all_goals simp [Pauli.commutesWith, pauli]

/-- CX gates sharing their control meet the hypotheses, with a shared and an unshared qubit. -/
example : ∀ i < TketOp.CX.qubits, ∀ j < TketOp.CX.qubits, (fun k => [0, 1].getD k 9) i =
    (fun k => [0, 2].getD k 9) j →
      ∃ p p', commutationOnPort TketOp.CX.qubitCommutation i = some p ∧
        commutationOnPort TketOp.CX.qubitCommutation j = some p' ∧ p.commutesWith p' = true := by
  intro i hi j hj h
  have hi : i = 0 ∨ i = 1 := by change i < 2 at hi; omega
  have hj : j = 0 ∨ j = 1 := by change j < 2 at hj; omega
  rcases hi with rfl | rfl <;> rcases hj with rfl | rfl
  · exact ⟨.Z, .Z, rfl, rfl, rfl⟩
  · exact absurd h (by decide)
  · exact absurd h (by decide)
  · exact absurd h (by decide)

end Tket.Quantum
