import Verif.Model.ClExprSpec

/- Helper lemmas. -/
namespace Verif.ClExpr

theorem regsOk_iff : ∀ (rs : List (Nat × List Nat)) (k : Nat), regsOk k rs = true ↔
    ∀ (i : Nat) (r : Nat × List Nat), rs[i]? = some r → r.1 = k + i ∧ r.2.length = 1
  | [], k => by simp [regsOk]
  | r :: rs, k => by
    rw [regsOk, Bool.and_eq_true, Bool.and_eq_true, regsOk_iff rs (k + 1), beq_iff_eq, beq_iff_eq]
    constructor
    · rintro ⟨⟨h1, h2⟩, h3⟩ i x hx
      cases i with
      | zero => cases hx; exact ⟨h1, h2⟩
      | succ i => have := h3 i x hx; omega
    · intro h
      refine ⟨h 0 r rfl, fun i x hx => ?_⟩
      have := h (i + 1) x hx
      omega

theorem argsOk_iff : ∀ (as : List Arg) (k : Nat), argsOk k as = true ↔
    ∀ i j : Nat, as[i]? = some (Arg.bit j) ∨ as[i]? = some (Arg.reg j) → j = k + i
  | [], k => by simp [argsOk]
  | a :: as, k => by
    rw [argsOk, Bool.and_eq_true, argsOk_iff as (k + 1)]
    constructor
    · rintro ⟨h1, h2⟩ i j hj
      cases i with
      | zero =>
        rcases hj with hj | hj <;> cases hj <;> exact beq_iff_eq.1 h1
      | succ i => have := h2 i j hj; omega
    · intro h
      constructor
      · cases a with
        | bit j => exact beq_iff_eq.2 (h 0 j (.inl rfl))
        | reg j => exact beq_iff_eq.2 (h 0 j (.inr rfl))
        | int n => rfl
        | node op as => rfl
      · intro i j hj
        have := h (i + 1) j hj
        omega

end Verif.ClExpr
