import Verif.Float.Basic
import Mathlib.Tactic.Linarith
import Mathlib.Algebra.Order.Ring.Nat
import Mathlib.Algebra.Order.Ring.Int

/-!
# Lemmas on double precision numbers: rounding
-/

namespace Tket.Dbl

/-! ## Rounding to natural numbers -/

theorem roundDiv_le {n d : Nat} (hd : 0 < d) : 2 * (roundDiv n d * d) ≤ 2 * n + d := by
  have h := Nat.div_add_mod n d
  have hm := Nat.mod_lt n hd
  unfold roundDiv
  rw [Nat.mul_comm d] at h
  split
  · omega
  · split
    · rw [Nat.add_mul]; omega
    · split
      · omega
      · rw [Nat.add_mul]; omega

theorem le_roundDiv {n d : Nat} (hd : 0 < d) : 2 * n ≤ 2 * (roundDiv n d * d) + d := by
  have h := Nat.div_add_mod n d
  have hm := Nat.mod_lt n hd
  unfold roundDiv
  rw [Nat.mul_comm d] at h
  split
  · omega
  · split
    · rw [Nat.add_mul]; omega
    · split
      · omega
      · rw [Nat.add_mul]; omega

theorem div_le_roundDiv (n d : Nat) : n / d ≤ roundDiv n d := by
  unfold roundDiv
  split
  · omega
  · split
    · omega
    · split <;> omega

theorem roundDiv_le_div (n d : Nat) : roundDiv n d ≤ n / d + 1 := by
  unfold roundDiv
  split
  · omega
  · split
    · omega
    · split <;> omega

theorem roundDiv_tie {n d k : Nat} (hd : 0 < d) (h : 2 * n = (2 * k + 1) * d) :
    roundDiv n d = if k % 2 = 0 then k else k + 1 := by
  have hk : n / d = k := by
    refine (Nat.div_eq_iff hd).2 ?_
    have : (2 * k + 1) * d = 2 * (k * d) + d := by ring
    constructor
    · omega
    · omega
  have hr : 2 * (n % d) = d := by
    have h1 := Nat.div_add_mod n d
    rw [hk] at h1
    have : (2 * k + 1) * d = 2 * (d * k) + d := by ring
    omega
  unfold roundDiv
  rw [if_neg (by omega), if_neg (by omega), hk]

theorem roundDiv_mono {n d n' d' : Nat} (hd : 0 < d) (hd' : 0 < d') (h : n * d' ≤ n' * d) :
    roundDiv n d ≤ roundDiv n' d' := by
  refine Nat.le_of_not_lt (fun hlt => ?_)
  have h1 := roundDiv_le (n := n) hd
  have h2 := le_roundDiv (n := n') hd'
  generalize hj : roundDiv n d = j at *
  generalize hj' : roundDiv n' d' = j' at *
  obtain ⟨e, rfl⟩ : ∃ e, j = j' + 1 + e := ⟨j - j' - 1, by omega⟩
  -- (2 j - 1) d ≤ 2 n, 2 n' ≤ (2 j' + 1) d'
  have e1 : (2 * j' + 1 + 2 * e) * d ≤ 2 * n := by
    have : 2 * ((j' + 1 + e) * d) = (2 * j' + 1 + 2 * e) * d + d := by ring
    omega
  have e2 : 2 * n' ≤ (2 * j' + 1) * d' := by
    have : (2 * j' + 1) * d' = 2 * (j' * d') + d' := by ring
    omega
  have e3 : (2 * j' + 1 + 2 * e) * d * d' ≤ (2 * j' + 1) * d' * d := by
    calc (2 * j' + 1 + 2 * e) * d * d' ≤ 2 * n * d' := Nat.mul_le_mul_right _ e1
      _ = 2 * (n * d') := by ring
      _ ≤ 2 * (n' * d) := Nat.mul_le_mul_left _ h
      _ = 2 * n' * d := by ring
      _ ≤ (2 * j' + 1) * d' * d := Nat.mul_le_mul_right _ e2
  have hdd : 0 < d * d' := Nat.mul_pos hd hd'
  have e4 : (2 * j' + 1 + 2 * e) * (d * d') ≤ (2 * j' + 1) * (d * d') := by
    calc _ = (2 * j' + 1 + 2 * e) * d * d' := by ring
      _ ≤ _ := e3
      _ = _ := by ring
  have e5 := Nat.le_of_mul_le_mul_right e4 hdd
  have he : e = 0 := by omega
  subst he
  -- both are ties
  have t1 : 2 * n = (2 * j' + 1) * d := by
    refine Nat.le_antisymm ?_ e1
    have : 2 * n * d' ≤ (2 * j' + 1) * d * d' := by
      calc 2 * n * d' = 2 * (n * d') := by ring
        _ ≤ 2 * (n' * d) := Nat.mul_le_mul_left _ h
        _ = 2 * n' * d := by ring
        _ ≤ (2 * j' + 1) * d' * d := Nat.mul_le_mul_right _ e2
        _ = (2 * j' + 1) * d * d' := by ring
    exact Nat.le_of_mul_le_mul_right this hd'
  have t2 : 2 * n' = (2 * j' + 1) * d' := by
    refine Nat.le_antisymm e2 ?_
    have : (2 * j' + 1) * d' * d ≤ 2 * n' * d := by
      calc (2 * j' + 1) * d' * d = (2 * j' + 1) * d * d' := by ring
        _ = 2 * n * d' := by rw [t1]
        _ = 2 * (n * d') := by ring
        _ ≤ 2 * (n' * d) := Nat.mul_le_mul_left _ h
        _ = 2 * n' * d := by ring
    exact Nat.le_of_mul_le_mul_right this hd
  rw [roundDiv_tie hd t1] at hj
  rw [roundDiv_tie hd' t2] at hj'
  omega

theorem roundDiv_exact {j d : Nat} (hd : 0 < d) : roundDiv (j * d) d = j := by
  unfold roundDiv
  rw [Nat.mul_mod_left, if_pos (by omega), Nat.mul_div_cancel _ hd]

/-! ## Rounding to 53 bits -/

theorem drop_le (q : Nat) : drop q = 0 ∨ 2 ^ drop q * 2 ^ 52 ≤ q := by
  unfold drop
  by_cases h : q.log2 ≤ 52
  · exact Or.inl (by omega)
  · right
    rw [← Nat.pow_add]
    have : q.log2 - 52 + 52 = q.log2 := by omega
    rw [this]
    refine Nat.log2_self_le ?_
    rintro rfl
    simp at h

theorem lt_drop (q : Nat) : q < 2 ^ drop q * 2 ^ 53 := by
  rw [← Nat.pow_add]
  refine Nat.lt_of_lt_of_le Nat.lt_log2_self (Nat.pow_le_pow_right (by omega) ?_)
  unfold drop
  omega

theorem log2_mono {a b : Nat} (h : a ≤ b) : a.log2 ≤ b.log2 := by
  by_cases ha : a = 0
  · subst ha
    simp
  · refine (Nat.le_log2 (by omega)).2 ?_
    exact Nat.le_trans (Nat.log2_self_le ha) h

theorem drop_mono {a b : Nat} (h : a ≤ b) : drop a ≤ drop b := by
  have := log2_mono h
  unfold drop
  omega

theorem rnd_mul (n d : Nat) : rnd n d * d =
    roundDiv n (d * 2 ^ drop (n / d)) * (d * 2 ^ drop (n / d)) := by
  unfold rnd
  ring

theorem scale_le (n d : Nat) : 2 ^ 52 * (d * 2 ^ drop (n / d)) ≤ n + 2 ^ 52 * d := by
  rcases drop_le (n / d) with h | h
  · rw [h]
    omega
  · have h1 : 2 ^ 52 * (d * 2 ^ drop (n / d)) = 2 ^ drop (n / d) * 2 ^ 52 * d := by ring
    have h2 := Nat.mul_le_mul_right d h
    have h3 := Nat.div_mul_le_self n d
    omega

/-- The rounded number is at most half a last place above. -/
theorem rnd_le {n d : Nat} (hd : 0 < d) :
    2 ^ 53 * (rnd n d * d) ≤ 2 ^ 53 * n + n + 2 ^ 52 * d := by
  have h1 := roundDiv_le (n := n) (d := d * 2 ^ drop (n / d))
    (Nat.mul_pos hd (Nat.pow_pos (by omega)))
  have h2 := scale_le n d
  rw [rnd_mul]
  omega

/-- The rounded number is at most half a last place below. -/
theorem le_rnd {n d : Nat} (hd : 0 < d) :
    2 ^ 53 * n ≤ 2 ^ 53 * (rnd n d * d) + n + 2 ^ 52 * d := by
  have h1 := le_roundDiv (n := n) (d := d * 2 ^ drop (n / d))
    (Nat.mul_pos hd (Nat.pow_pos (by omega)))
  have h2 := scale_le n d
  rw [rnd_mul]
  omega

theorem rnd_exact {k d : Nat} (hd : 0 < d) (h : 2 ^ drop k ∣ k) : rnd (k * d) d = k := by
  unfold rnd
  rw [Nat.mul_div_cancel _ hd]
  obtain ⟨j, hj⟩ := h
  have : k * d = j * (d * 2 ^ drop k) := by
    conv => lhs; rw [hj]
    ring
  rw [this, roundDiv_exact (Nat.mul_pos hd (Nat.pow_pos (by omega)))]
  rw [Nat.mul_comm]
  exact hj.symm

theorem factor_le (n d : Nat) : roundDiv n (d * 2 ^ drop (n / d)) ≤ 2 ^ 53 := by
  refine Nat.le_trans (roundDiv_le_div _ _) ?_
  rw [← Nat.div_div_eq_div_mul]
  have := Nat.div_lt_of_lt_mul (lt_drop (n / d))
  omega

theorem dvd_of_factor {j s : Nat} (hj : j ≤ 2 ^ 53) : 2 ^ drop (j * 2 ^ s) ∣ j * 2 ^ s := by
  by_cases h0 : j = 0
  · subst h0
    simp
  by_cases he : j = 2 ^ 53
  · subst he
    rw [← Nat.pow_add]
    refine Nat.pow_dvd_pow 2 ?_
    unfold drop
    rw [Nat.log2_two_pow]
    omega
  · refine Dvd.dvd.mul_left (Nat.pow_dvd_pow 2 ?_) _
    have : (j * 2 ^ s).log2 < 53 + s := by
      refine (Nat.log2_lt (Nat.mul_ne_zero h0 (by have := Nat.pow_pos (n := s) (show 0 < 2 by omega); omega))).2 ?_
      rw [Nat.pow_add]
      exact Nat.mul_lt_mul_of_pos_right (by omega) (Nat.pow_pos (by omega))
    unfold drop
    omega

theorem rnd_dvd (n d : Nat) : 2 ^ drop (rnd n d) ∣ rnd n d :=
  dvd_of_factor (factor_le n d)

theorem rnd_mono {n d n' d' : Nat} (hd : 0 < d) (hd' : 0 < d') (h : n * d' ≤ n' * d) :
    rnd n d ≤ rnd n' d' := by
  have hq : n / d ≤ n' / d' := by
    refine (Nat.le_div_iff_mul_le hd').2 ?_
    refine Nat.le_of_mul_le_mul_right (c := d) ?_ hd
    calc n / d * d' * d = n / d * d * d' := by ring
      _ ≤ n * d' := Nat.mul_le_mul_right _ (Nat.div_mul_le_self n d)
      _ ≤ n' * d := h
  have hs := drop_mono hq
  have p0 : ∀ s, 0 < 2 ^ s := fun s => Nat.pow_pos (by omega)
  rcases Nat.lt_or_eq_of_le hs with hlt | heq
  · -- a power of two lies in between
    have h1 : rnd n d ≤ 2 ^ 53 * 2 ^ drop (n / d) := Nat.mul_le_mul_right _ (factor_le n d)
    have h2 : 2 ^ 52 * 2 ^ drop (n' / d') ≤ rnd n' d' := by
      refine Nat.mul_le_mul_right _ (Nat.le_trans ?_ (div_le_roundDiv _ _))
      rw [← Nat.div_div_eq_div_mul]
      refine (Nat.le_div_iff_mul_le (p0 _)).2 ?_
      rcases drop_le (n' / d') with h0 | h0
      · omega
      · rw [Nat.mul_comm]
        exact h0
    refine Nat.le_trans h1 (Nat.le_trans ?_ h2)
    rw [← Nat.pow_add, ← Nat.pow_add]
    exact Nat.pow_le_pow_right (by omega) (by omega)
  · unfold rnd
    rw [← heq]
    refine Nat.mul_le_mul_right _ (roundDiv_mono (Nat.mul_pos hd (p0 _)) (Nat.mul_pos hd' (p0 _)) ?_)
    calc n * (d' * 2 ^ drop (n / d)) = n * d' * 2 ^ drop (n / d) := by ring
      _ ≤ n' * d * 2 ^ drop (n / d) := Nat.mul_le_mul_right _ h
      _ = n' * (d * 2 ^ drop (n / d)) := by ring

/-! ## Small numbers -/

theorem dvd_small {k s : Nat} (hk : k ≤ 2 ^ 53) : 2 ^ drop (k * 2 ^ s) ∣ k * 2 ^ s :=
  dvd_of_factor hk

theorem unit_pos : 0 < unit := by
  unfold unit
  exact Nat.pow_pos (by decide)

theorem dvd_unit {k : Nat} (hk : k ≤ 2 ^ 53) : 2 ^ drop (k * unit) ∣ k * unit := by
  unfold unit
  exact dvd_of_factor hk

theorem dvd_pow_unit (a : Nat) : 2 ^ drop (2 ^ a * unit) ∣ 2 ^ a * unit := by
  have : 2 ^ a * unit = 1 * 2 ^ (a + 1074) := by
    unfold unit
    rw [Nat.one_mul, Nat.pow_add]
  rw [this]
  exact dvd_of_factor (by decide)

theorem unit_le_top : 2 ^ 65 * unit ≤ top := by
  unfold unit top
  rw [← Nat.pow_add]
  exact Nat.pow_le_pow_right (by decide) (by decide)

theorem ofNat_small {k : Nat} (hk : k ≤ 2 ^ 53) : ofNat k = .fin false (k * unit) := by
  unfold ofNat mk
  have : rnd (k * unit) 1 = k * unit := by
    have := rnd_exact (k := k * unit) (d := 1) (by omega) (dvd_unit hk)
    rwa [Nat.mul_one] at this
  rw [this, if_pos]
  have h1 := unit_le_top
  have h2 := Nat.mul_lt_mul_of_pos_right (show k < 2 ^ 65 by omega) unit_pos
  omega

theorem rnd_int_lt_top {k : Nat} (hk : k < 2 ^ 64) : rnd (k * unit) 1 < top := by
  have h1 : rnd (k * unit) 1 ≤ rnd (2 ^ 64 * unit) 1 :=
    rnd_mono (by omega) (by omega) (Nat.mul_le_mul_right _ (Nat.mul_le_mul_right _ (by omega)))
  have h2 : rnd (2 ^ 64 * unit) 1 = 2 ^ 64 * unit := by
    have := rnd_exact (k := 2 ^ 64 * unit) (d := 1) (by omega) (dvd_pow_unit 64)
    rwa [Nat.mul_one] at this
  have h3 := unit_le_top
  have h4 := Nat.mul_lt_mul_of_pos_right (show 2 ^ 64 < 2 ^ 65 by omega) unit_pos
  omega

theorem ofNat_eq {k : Nat} (hk : k < 2 ^ 64) : ofNat k = .fin false (rnd (k * unit) 1) := by
  unfold ofNat mk
  rw [if_pos (rnd_int_lt_top hk)]

end Tket.Dbl
