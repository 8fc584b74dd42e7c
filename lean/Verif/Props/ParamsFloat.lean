import Verif.Model.ParamsSpec
import Verif.Float.Lemmas
import Mathlib.Algebra.Order.Field.Rat
import Mathlib.Tactic.FieldSimp
import Mathlib.Tactic.Positivity
import Mathlib.Tactic.NormNum

/-!
# Unit conversions of double precision parameters: C37
-/

namespace Verif.Params

open Tket.Dbl

/-- Arithmetics whose product, quotient and `PI` are those of double precision numbers. -/
structure IsF64 (A : Arith F64) : Prop where
  mul : A.mul = Tket.Dbl.mul
  div : A.div = Tket.Dbl.div
  pi : A.pi = Tket.Dbl.pi

/-- One conversion; `from_halfturns_unchecked` panics on NaN and infinities
(`tket/src/extension/rotation.rs:123-125`). -/
def convert (A : Arith F64) (p : Loaded F64) (t : PType) : Option (Loaded F64) :=
  if t = .rotation ∧ p.typ ≠ .rotation ∧ isFin (p.withType A t).val = false then none
  else some (p.withType A t)

/-- A sequence of conversions. -/
def converts (A : Arith F64) : Loaded F64 → List PType → Option (Loaded F64)
  | p, [] => some p
  | p, t :: ts => (convert A p t).bind fun q => converts A q ts

/-- `PI` as a multiple of `2 ^ -1074`. -/
@[irreducible] def pim : Nat := 0x1921fb54442d18 * 2 ^ 1023

theorem pi_eq : Tket.Dbl.pi = .fin false pim := by decide +kernel

theorem unit_le_pim : unit ≤ pim := by decide +kernel

theorem pim_le : pim ≤ 4 * unit := by decide +kernel

theorem pim_pos : 0 < pim := Nat.lt_of_lt_of_le unit_pos unit_le_pim

/-- The number one of a unit: `PI` for radians. -/
def scale : PType → ℚ
  | .radians => (pim : ℚ) / unit
  | _ => 1

/-- The angle of a finite parameter in half-turns, exactly, as a multiple of `2 ^ -1074`. -/
def exact : Loaded F64 → ℚ
  | ⟨t, .fin s m⟩ => (sval s m : ℚ) / scale t
  | _ => 0

theorem one_le_scale (t : PType) : 1 ≤ scale t := by
  have h0 : (0 : ℚ) < unit := by exact_mod_cast unit_pos
  cases t with
  | radians =>
    unfold scale
    rw [le_div_iff₀ h0, one_mul]
    exact_mod_cast unit_le_pim
  | _ => exact le_refl _

theorem scale_le (t : PType) : scale t ≤ 4 := by
  have h0 : (0 : ℚ) < unit := by exact_mod_cast unit_pos
  cases t with
  | radians =>
    unfold scale
    rw [div_le_iff₀ h0]
    exact_mod_cast pim_le
  | _ => unfold scale; norm_num

theorem abs_sval (s : Bool) (m : Nat) : |(sval s m : ℚ)| = m := by
  cases s <;> simp [sval]

theorem sval_sub (s : Bool) (a b : Nat) (x y : ℚ) :
    |(sval s a : ℚ) / x - (sval s b : ℚ) / y| = |(a : ℚ) / x - (b : ℚ) / y| := by
  cases s with
  | false => simp [sval]
  | true =>
    simp only [sval, if_true]
    push_cast
    rw [show -(a : ℚ) / x - -(b : ℚ) / y = -((a : ℚ) / x - (b : ℚ) / y) by ring, abs_neg]

theorem abs_exact (t : PType) (s : Bool) (m : Nat) : |exact ⟨t, .fin s m⟩| = m / scale t := by
  have h1 := one_le_scale t
  change |(sval s m : ℚ) / scale t| = _
  rw [abs_div, abs_sval, abs_of_pos (by linarith)]

/-- Rounding error, in rational numbers. -/
theorem rnd_err {n d : Nat} (hd : 0 < d) :
    |(rnd n d : ℚ) - n / d| ≤ (n / d) / 2 ^ 53 + 1 / 2 := by
  have h1 := rnd_le (n := n) hd
  have h2 := le_rnd (n := n) hd
  have hd' : (0 : ℚ) < d := by exact_mod_cast hd
  have q1 : (2 : ℚ) ^ 53 * (rnd n d * d) ≤ 2 ^ 53 * n + n + 2 ^ 52 * d := by exact_mod_cast h1
  have q2 : (2 : ℚ) ^ 53 * n ≤ 2 ^ 53 * (rnd n d * d) + n + 2 ^ 52 * d := by exact_mod_cast h2
  have e : (n : ℚ) = n / d * d := by field_simp
  generalize (n : ℚ) / d = x at *
  rw [e] at q1 q2
  have r1 : 2 ^ 53 * (rnd n d : ℚ) ≤ 2 ^ 53 * x + x + 2 ^ 52 := by
    refine le_of_mul_le_mul_right ?_ hd'
    linarith
  have r2 : 2 ^ 53 * x ≤ 2 ^ 53 * (rnd n d : ℚ) + x + 2 ^ 52 := by
    refine le_of_mul_le_mul_right ?_ hd'
    linarith
  rw [abs_le]
  constructor <;> linarith

/-- What a conversion does to a finite number that is not too large. -/
theorem withType_fin {A : Arith F64} (hA : IsF64 A) (t t' : PType) (s : Bool) (m : Nat)
    (hm : (m : ℚ) / scale t ≤ (top : ℚ) / 8 + 2 ^ 53) :
    ∃ m', (Loaded.mk t (F64.fin s m)).withType A t' = ⟨t', .fin s m'⟩ ∧
      |(m' : ℚ) / scale t' - m / scale t| ≤ ((m : ℚ) / scale t) / 2 ^ 53 + 1 / 2 := by
  have hu : (0 : ℚ) < unit := by exact_mod_cast unit_pos
  have hp : (0 : ℚ) < pim := by exact_mod_cast pim_pos
  have htop : (2 : ℚ) ^ 60 ≤ top := by
    have : 2 ^ 60 ≤ top := by decide +kernel
    exact_mod_cast this
  have same : ∀ x : ℚ, 0 ≤ x → |x - x| ≤ x / 2 ^ 53 + 1 / 2 := by
    intro x hx
    rw [sub_self, abs_zero]
    positivity
  have hpu : (1 : ℚ) ≤ pim / unit := one_le_scale .radians
  have hpu4 : (pim : ℚ) / unit ≤ 4 := scale_le .radians
  -- radians to half-turns
  have down : t = .radians → ∃ m', Tket.Dbl.div (.fin s m) Tket.Dbl.pi = .fin s m' ∧
      |(m' : ℚ) / 1 - m / scale t| ≤ ((m : ℚ) / scale t) / 2 ^ 53 + 1 / 2 := by
    rintro rfl
    have e : (m : ℚ) / scale .radians = ((m * unit : Nat) : ℚ) / (pim : Nat) := by
      unfold scale
      push_cast
      field_simp
    rw [e] at hm ⊢
    have herr := rnd_err (n := m * unit) pim_pos
    refine ⟨rnd (m * unit) pim, ?_, by rw [div_one]; exact herr⟩
    have hlt : rnd (m * unit) pim < top := by
      rw [abs_le] at herr
      have : ((rnd (m * unit) pim : Nat) : ℚ) < top := by linarith [herr.2]
      exact_mod_cast this
    rw [pi_eq]
    unfold Tket.Dbl.div
    have hne : ¬ pim = 0 := Nat.ne_of_gt pim_pos
    simp only [if_neg hne, Bool.bne_false]
    unfold Tket.Dbl.mk
    rw [if_pos hlt]
  -- half-turns to radians
  have up : scale t = 1 → ∃ m', Tket.Dbl.mul (.fin s m) Tket.Dbl.pi = .fin s m' ∧
      |(m' : ℚ) / (pim / unit) - m / scale t| ≤ ((m : ℚ) / scale t) / 2 ^ 53 + 1 / 2 := by
    intro e
    rw [e, div_one] at hm ⊢
    have herr := rnd_err (n := m * pim) unit_pos
    have e2 : ((m * pim : Nat) : ℚ) / unit = m * (pim / unit) := by
      push_cast
      ring
    rw [e2] at herr
    refine ⟨rnd (m * pim) unit, ?_, ?_⟩
    · have hlt : rnd (m * pim) unit < top := by
        rw [abs_le] at herr
        have hm0 : (0 : ℚ) ≤ m := Nat.cast_nonneg _
        have : (m : ℚ) * (pim / unit) ≤ m * 4 := mul_le_mul_of_nonneg_left hpu4 hm0
        have : ((rnd (m * pim) unit : Nat) : ℚ) < top := by linarith [herr.2]
        exact_mod_cast this
      rw [pi_eq]
      unfold Tket.Dbl.mul
      simp only [Bool.bne_false]
      unfold Tket.Dbl.mk
      rw [if_pos hlt]
    · generalize (pim : ℚ) / unit = c at *
      have hc : 0 < c := by linarith
      have : ((rnd (m * pim) unit : Nat) : ℚ) / c - m = (rnd (m * pim) unit - m * c) / c := by
        field_simp
      rw [this, abs_div, abs_of_pos hc, div_le_iff₀ hc]
      refine le_trans herr ?_
      have : (m * c : ℚ) / 2 ^ 53 = (m / 2 ^ 53) * c := by ring
      rw [this, add_mul]
      linarith
  have hnn : ∀ c : ℚ, 0 ≤ c → 0 ≤ (m : ℚ) / c := fun c hc => div_nonneg (Nat.cast_nonneg _) hc
  cases t <;> cases t'
  · exact ⟨m, rfl, same _ (hnn _ (le_trans zero_le_one (one_le_scale _)))⟩
  · obtain ⟨m', h1, h2⟩ := down rfl
    refine ⟨m', ?_, h2⟩
    change Loaded.mk .halfTurns (A.div (.fin s m) A.pi) = _
    rw [hA.div, hA.pi, h1]
  · obtain ⟨m', h1, h2⟩ := down rfl
    refine ⟨m', ?_, h2⟩
    change Loaded.mk .rotation (A.div (.fin s m) A.pi) = _
    rw [hA.div, hA.pi, h1]
  · obtain ⟨m', h1, h2⟩ := up rfl
    refine ⟨m', ?_, h2⟩
    change Loaded.mk .radians (A.mul (.fin s m) A.pi) = _
    rw [hA.mul, hA.pi, h1]
  · exact ⟨m, rfl, same _ (hnn _ (le_trans zero_le_one (one_le_scale _)))⟩
  · exact ⟨m, rfl, same _ (hnn _ (le_trans zero_le_one (one_le_scale _)))⟩
  · obtain ⟨m', h1, h2⟩ := up rfl
    refine ⟨m', ?_, h2⟩
    change Loaded.mk .radians (A.mul (.fin s m) A.pi) = _
    rw [hA.mul, hA.pi, h1]
  · exact ⟨m, rfl, same _ (hnn _ (le_trans zero_le_one (one_le_scale _)))⟩
  · exact ⟨m, rfl, same _ (hnn _ (le_trans zero_le_one (one_le_scale _)))⟩

/-- The factor by which errors grow stays small. -/
theorem growth (k : Nat) (hk : k ≤ 2 ^ 52) :
    (1 + 1 / (2 : ℚ) ^ 53) ^ k ≤ 1 + 2 * k / 2 ^ 53 := by
  induction k with
  | zero => simp
  | succ k ih =>
    have ih := ih (by omega)
    have hk' : (k : ℚ) ≤ 2 ^ 52 := by
      have : k ≤ 2 ^ 52 := by omega
      exact_mod_cast this
    rw [pow_succ]
    refine le_trans (mul_le_mul_of_nonneg_right ih (by positivity)) ?_
    push_cast
    have : (2 : ℚ) * k / 2 ^ 53 ≤ 1 := by
      rw [div_le_one (by positivity)]
      linarith
    have e : (1 + 2 * (k : ℚ) / 2 ^ 53) * (1 + 1 / 2 ^ 53) =
        1 + 2 * k / 2 ^ 53 + 1 / 2 ^ 53 + (2 * k / 2 ^ 53) * (1 / 2 ^ 53) := by ring
    rw [e]
    have : (2 : ℚ) * k / 2 ^ 53 * (1 / 2 ^ 53) ≤ 1 * (1 / 2 ^ 53) :=
      mul_le_mul_of_nonneg_right this (by positivity)
    have : (2 : ℚ) * (k + 1) / 2 ^ 53 = 2 * k / 2 ^ 53 + 2 * (1 / 2 ^ 53) := by ring
    linarith

theorem converts_error {A : Arith F64} (hA : IsF64 A) (ts : List PType) (t : PType) (s : Bool)
    (m : Nat) (b : ℚ) (hb : (m : ℚ) / scale t + 2 ^ 52 ≤ b)
    (hlim : b * (1 + 1 / (2 : ℚ) ^ 53) ^ ts.length ≤ (top : ℚ) / 8 + 2 ^ 53) :
    ∃ t' m', converts A ⟨t, .fin s m⟩ ts = some ⟨t', .fin s m'⟩ ∧
      t' = (ts.getLast?).getD t ∧
      |(m' : ℚ) / scale t' - m / scale t| ≤ b * ((1 + 1 / (2 : ℚ) ^ 53) ^ ts.length - 1) := by
  induction ts generalizing t m b with
  | nil =>
    exact ⟨t, m, rfl, rfl, by simp⟩
  | cons t1 ts ih =>
    have hg : (1 : ℚ) ≤ 1 + 1 / 2 ^ 53 := by
      have : (0 : ℚ) ≤ 1 / 2 ^ 53 := by positivity
      linarith
    have hpow : (1 : ℚ) ≤ (1 + 1 / (2 : ℚ) ^ 53) ^ ts.length := one_le_pow₀ hg
    have hpow' : (1 : ℚ) ≤ (1 + 1 / (2 : ℚ) ^ 53) ^ (t1 :: ts).length := one_le_pow₀ hg
    have hs1 := one_le_scale t
    have hm0 : 0 ≤ (m : ℚ) / scale t := div_nonneg (Nat.cast_nonneg _) (by linarith)
    have hb0 : 0 ≤ b := by
      have : (0 : ℚ) ≤ 2 ^ 52 := by positivity
      linarith
    have hble : b ≤ b * (1 + 1 / (2 : ℚ) ^ 53) ^ (t1 :: ts).length := le_mul_of_one_le_right hb0 hpow'
    obtain ⟨m1, e1, err1⟩ := withType_fin hA t t1 s m (by
      have : (0 : ℚ) ≤ 2 ^ 52 := by positivity
      linarith)
    have hx : ((m : ℚ) / scale t) / 2 ^ 53 + 1 / 2 ≤ b * (1 / 2 ^ 53) := by
      have : ((m : ℚ) / scale t + 2 ^ 52) * (1 / 2 ^ 53) ≤ b * (1 / 2 ^ 53) :=
        mul_le_mul_of_nonneg_right hb (by positivity)
      have e : ((m : ℚ) / scale t + 2 ^ 52) * (1 / 2 ^ 53) = ((m : ℚ) / scale t) / 2 ^ 53 + 1 / 2 := by
        rw [add_mul]
        norm_num
        ring
      linarith
    have err1' : |(m1 : ℚ) / scale t1 - m / scale t| ≤ b * (1 / 2 ^ 53) := le_trans err1 hx
    obtain ⟨t', m', e2, ht', err2⟩ := ih t1 m1 (b * (1 + 1 / 2 ^ 53)) (by
        rw [abs_le] at err1'
        have := err1'.2
        have e : b * (1 + 1 / (2 : ℚ) ^ 53) = b + b * (1 / 2 ^ 53) := by ring
        linarith) (by
        rw [mul_assoc, ← pow_succ']
        exact hlim)
    refine ⟨t', m', ?_, ?_, ?_⟩
    · rw [converts]
      have : convert A ⟨t, .fin s m⟩ t1 = some ⟨t1, .fin s m1⟩ := by
        unfold convert
        rw [e1]
        simp [isFin]
      rw [this]
      exact e2
    · rw [ht']
      cases ts with
      | nil => rfl
      | cons a l =>
        rw [List.getLast?_cons_cons]
        cases h : (a :: l).getLast? with
        | none => simp at h
        | some _ => rfl
    · have e : b * ((1 + 1 / (2 : ℚ) ^ 53) ^ (t1 :: ts).length - 1) =
          b * (1 / 2 ^ 53) + b * (1 + 1 / 2 ^ 53) * ((1 + 1 / (2 : ℚ) ^ 53) ^ ts.length - 1) := by
        rw [List.length_cons, pow_succ']
        ring
      rw [e]
      have tri : |(m' : ℚ) / scale t' - m / scale t| ≤
          |(m' : ℚ) / scale t' - m1 / scale t1| + |(m1 : ℚ) / scale t1 - m / scale t| := by
        have := abs_add_le ((m' : ℚ) / scale t' - m1 / scale t1) ((m1 : ℚ) / scale t1 - m / scale t)
        rwa [sub_add_sub_cancel] at this
      linarith

/-- **C37**, for double precision numbers: an angle below `2 ^ 1020` half-turns survives every
sequence of up to `2 ^ 52` conversions without a panic, as a finite number of the type asked for
last, and it changes by at most two units of the 53rd bit per conversion (for angles below
`2 ^ -1022`, of that number). -/
theorem C37_float_partial {A : Arith F64} (hA : IsF64 A) (t : PType) (s : Bool) (m : Nat)
    (ts : List PType) (hts : ts.length ≤ 2 ^ 52)
    (hm : |exact ⟨t, .fin s m⟩| ≤ (top : ℚ) / 16) :
    ∃ m', converts A ⟨t, .fin s m⟩ ts = some ⟨(ts.getLast?).getD t, .fin s m'⟩ ∧
      |exact ⟨(ts.getLast?).getD t, .fin s m'⟩ - exact ⟨t, .fin s m⟩| ≤
        (|exact ⟨t, .fin s m⟩| + 2 ^ 52) * (2 * ts.length / 2 ^ 53) := by
  rw [abs_exact] at hm ⊢
  have hs1 := one_le_scale t
  have hm0 : 0 ≤ (m : ℚ) / scale t := div_nonneg (Nat.cast_nonneg _) (by linarith)
  have hg := growth ts.length hts
  have hg2 : (1 + 1 / (2 : ℚ) ^ 53) ^ ts.length ≤ 2 := by
    have hk : (ts.length : ℚ) ≤ 2 ^ 52 := by exact_mod_cast hts
    have : (2 : ℚ) * ts.length / 2 ^ 53 ≤ 1 := by
      rw [div_le_one (by positivity)]
      linarith
    linarith
  have htop : (2 : ℚ) ^ 60 ≤ top := by
    have : 2 ^ 60 ≤ top := by decide +kernel
    exact_mod_cast this
  have hb : (0 : ℚ) ≤ (m : ℚ) / scale t + 2 ^ 52 := by positivity
  have hlim : ((m : ℚ) / scale t + 2 ^ 52) * (1 + 1 / (2 : ℚ) ^ 53) ^ ts.length ≤
      (top : ℚ) / 8 + 2 ^ 53 := by
    refine le_trans (mul_le_mul_of_nonneg_left hg2 hb) ?_
    linarith
  obtain ⟨t', m', h1, ht', h3⟩ := converts_error hA ts t s m _ (le_refl _) hlim
  subst ht'
  refine ⟨m', h1, ?_⟩
  change |(sval s m' : ℚ) / scale _ - (sval s m : ℚ) / scale t| ≤ _
  rw [sval_sub]
  refine le_trans h3 (mul_le_mul_of_nonneg_left ?_ hb)
  linarith

/-- Double precision numbers as an arithmetic (with arbitrary choices for what is not used). -/
def f64Arith : Arith F64 where
  add := Tket.Dbl.add
  sub a b := Tket.Dbl.add a (Tket.Dbl.neg b)
  mul := Tket.Dbl.mul
  div := Tket.Dbl.div
  pow a _ := a
  max a b := if Tket.Dbl.lt a b then b else a
  min a b := if Tket.Dbl.lt a b then a else b
  neg := Tket.Dbl.neg
  abs a := if Tket.Dbl.lt a (.fin false 0) then Tket.Dbl.neg a else a
  floor a := a
  ceil a := a
  round a := a
  pi := Tket.Dbl.pi
  fmt _ := []
  read _ := .nan
  near _ _ := false

theorem f64Arith_is : IsF64 f64Arith := ⟨rfl, rfl, rfl⟩

/-- The hypotheses are met: three quarters of a half-turn. -/
example : ∃ m', converts f64Arith ⟨.rotation, ofBits 0x3fe8000000000000⟩ [.radians, .halfTurns] =
    some ⟨.halfTurns, .fin false m'⟩ := by
  obtain ⟨m', h, _⟩ := C37_float_partial f64Arith_is .rotation false (3 * 2 ^ 1072)
    [.radians, .halfTurns] (by decide) (by
      rw [abs_exact]
      change ((3 * 2 ^ 1072 : Nat) : ℚ) / 1 ≤ _
      rw [div_one, le_div_iff₀ (by norm_num)]
      have : (3 * 2 ^ 1072) * 16 ≤ top := by decide +kernel
      exact_mod_cast this)
  refine ⟨m', ?_⟩
  have e : ofBits 0x3fe8000000000000 = .fin false (3 * 2 ^ 1072) := by decide +kernel
  rw [e]
  exact h

/-- **C37 (finding).** Converting back does not restore the parameter: the rotation of
0.7000000000000001 half-turns becomes 0.7, and 0.1 radians become 0.09999999999999999. -/
theorem C37_not_restored :
    converts f64Arith ⟨.rotation, ofBits 0x3fe6666666666667⟩ [.radians, .rotation] =
      some ⟨.rotation, ofBits 0x3fe6666666666666⟩ ∧
    converts f64Arith ⟨.radians, ofBits 0x3fb999999999999a⟩ [.halfTurns, .radians] =
      some ⟨.radians, ofBits 0x3fb9999999999999⟩ ∧
    ofBits 0x3fe6666666666667 ≠ ofBits 0x3fe6666666666666 ∧
    ofBits 0x3fb999999999999a ≠ ofBits 0x3fb9999999999999 := by
  decide +kernel

/-- **C37 (finding).** A finite rotation of `1e308` half-turns is infinite in radians, and converting
it back panics. -/
theorem C37_large_panics :
    converts f64Arith ⟨.rotation, ofBits 0x7fe1ccf385ebc8a0⟩ [.radians] =
      some ⟨.radians, .inf false⟩ ∧
    converts f64Arith ⟨.rotation, ofBits 0x7fe1ccf385ebc8a0⟩ [.radians, .rotation] = none := by
  decide +kernel

end Verif.Params
