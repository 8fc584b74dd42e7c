import Mathlib.Tactic.Ring

/-!
# Double precision numbers

Model of `f64` (IEEE 754 binary64, rounding to nearest, ties to even), as used by Rust and by LLVM's
`fadd`, `fcmp` and constants. Simplifications: all NaNs are one value; a finite number is its sign and
its absolute value as a multiple of `2 ^ -1074`, the smallest positive number.
-/

namespace Tket.Dbl

/-- Double precision numbers; `fin s m` is `± m * 2 ^ -1074`. -/
inductive F64 where
  | nan
  | inf (neg : Bool)
  | fin (neg : Bool) (m : Nat)
  deriving DecidableEq, Repr

/-- The quotient `n / d` rounded to the nearest natural number, ties to even. -/
def roundDiv (n d : Nat) : Nat :=
  if 2 * (n % d) < d then n / d
  else if d < 2 * (n % d) then n / d + 1
  else if n / d % 2 = 0 then n / d else n / d + 1

/-- Number of bits that have to be dropped so that 53 are left. -/
def drop (q : Nat) : Nat := q.log2 - 52

/-- The quotient `n / d` rounded to 53 significant bits (or to a natural number if it is small). -/
def rnd (n d : Nat) : Nat := roundDiv n (d * 2 ^ drop (n / d)) * 2 ^ drop (n / d)

/-- Overflow threshold, `2 ^ 1024`. -/
def top : Nat := 2 ^ 2098

/-- The number nearest to `± n / d`, in multiples of `2 ^ -1074`. -/
def mk (neg : Bool) (n d : Nat) : F64 :=
  if rnd n d < top then .fin neg (rnd n d) else .inf neg

/-- One, in multiples of `2 ^ -1074`. -/
def unit : Nat := 2 ^ 1074

/-- The number with the given 64 bits. -/
def ofBits (b : Nat) : F64 :=
  let s := decide (2 ^ 63 ≤ b % 2 ^ 64)
  let e := b / 2 ^ 52 % 2 ^ 11
  let f := b % 2 ^ 52
  if e = 2047 then (if f = 0 then .inf s else .nan)
  else if e = 0 then .fin s f
  else .fin s ((2 ^ 52 + f) * 2 ^ (e - 1))

/-- `k as f64` for unsigned integers. -/
def ofNat (k : Nat) : F64 := mk false (k * unit) 1

/-- `is_nan`. -/
def isNan : F64 → Bool
  | .nan => true
  | _ => false

/-- `is_infinite`. -/
def isInf : F64 → Bool
  | .inf _ => true
  | _ => false

/-- `is_finite`. -/
def isFin : F64 → Bool
  | .fin _ _ => true
  | _ => false

/-- Negation. -/
def neg : F64 → F64
  | .nan => .nan
  | .inf s => .inf !s
  | .fin s m => .fin (!s) m

/-- Addition. -/
def add : F64 → F64 → F64
  | .nan, _ => .nan
  | _, .nan => .nan
  | .inf a, .inf b => if a = b then .inf a else .nan
  | .inf a, .fin _ _ => .inf a
  | .fin _ _, .inf b => .inf b
  | .fin a m, .fin b n =>
    if a = b then mk a (m + n) 1
    else if m = n then .fin false 0
    else if n < m then mk a (m - n) 1
    else mk b (n - m) 1

/-- Multiplication. -/
def mul : F64 → F64 → F64
  | .nan, _ => .nan
  | _, .nan => .nan
  | .inf a, .inf b => .inf (a != b)
  | .inf a, .fin b n => if n = 0 then .nan else .inf (a != b)
  | .fin a m, .inf b => if m = 0 then .nan else .inf (a != b)
  | .fin a m, .fin b n => mk (a != b) (m * n) unit

/-- Division. -/
def div : F64 → F64 → F64
  | .nan, _ => .nan
  | _, .nan => .nan
  | .inf _, .inf _ => .nan
  | .inf a, .fin b _ => .inf (a != b)
  | .fin a _, .inf b => .fin (a != b) 0
  | .fin a m, .fin b n =>
    if n = 0 then (if m = 0 then .nan else .inf (a != b))
    else mk (a != b) (m * unit) n

/-- The value of a finite number in multiples of `2 ^ -1074`. -/
def sval (neg : Bool) (m : Nat) : Int := if neg then -(m : Int) else m

/-- `<`. -/
def lt : F64 → F64 → Bool
  | .nan, _ => false
  | _, .nan => false
  | .inf a, .inf b => a && !b
  | .inf a, .fin _ _ => a
  | .fin _ _, .inf b => !b
  | .fin a m, .fin b n => decide (sval a m < sval b n)

/-- `==` (LLVM: `fcmp oeq`). -/
def oeq : F64 → F64 → Bool
  | .nan, _ => false
  | _, .nan => false
  | .inf a, .inf b => a == b
  | .fin a m, .fin b n => decide (sval a m = sval b n)
  | _, _ => false

/-- LLVM: `fcmp uno`. -/
def uno (x y : F64) : Bool := isNan x || isNan y

/-- The constant `PI`. -/
def pi : F64 := ofBits 0x400921fb54442d18

/-- The bits fit: at most 53 significant ones, below the overflow threshold. -/
def Rep (m : Nat) : Prop := m < top ∧ 2 ^ drop m ∣ m

/-- Numbers that exist. -/
def Valid : F64 → Prop
  | .fin _ m => Rep m
  | _ => True

attribute [irreducible] unit top

end Tket.Dbl
