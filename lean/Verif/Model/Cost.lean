import Mathlib.Data.List.Basic
import Mathlib.Order.Basic

/-!
# Model of circuit costs

Models `/repo/tket/src/circuit/cost.rs`.

`LexicographicCost<T, N>` (lines 59-60) is an array of length `N`; it is modelled by a list whose
length is `N`.  `usize`/`isize` are 64-bit; `asIsize` is the wrapping cast, additions of costs are
assumed not to overflow 64 bits (they would panic in debug builds).
-/

namespace Tket.Cost

/-- `2^63`, the bound below which a `usize` fits in an `isize`. -/
def half : Nat := 9223372036854775808
/-- `2^64`. -/
def full : Nat := 18446744073709551616

/-- `a as isize` (wrapping cast of a 64-bit word). -/
def asIsize (a : Nat) : Int := if a < half then (a : Int) else (a : Int) - full

/-- `usize::saturating_add_signed`. -/
def satAddSigned (a : Nat) (b : Int) : Nat :=
  let r := (a : Int) + b
  if r < 0 then 0 else if r.toNat < full then r.toNat else full - 1

/-- Derived `Ord` of `[T; N]` (cost.rs 59): compare components from the first on. -/
def cmp {α : Type} [LT α] [DecidableRel (α := α) (· < ·)] : List α → List α → Ordering
  | [], [] => .eq
  | [], _ :: _ => .lt
  | _ :: _, [] => .gt
  | a :: as, b :: bs => if a < b then .lt else if b < a then .gt else cmp as bs

/-- `impl Add` (cost.rs 85-94) and `AddAssign` (96-102). -/
def add {α : Type} [Add α] (a b : List α) : List α := List.zipWith (· + ·) a b

/-- `impl Sum` (cost.rs 104-108): `reduce` or the default (all zero). -/
def sum {α : Type} [Add α] [OfNat α 0] (n : Nat) : List (List α) → List α
  | [] => List.replicate n 0
  | a :: as => as.foldl add a

/-- `as_isize` / `as_usize` (cost.rs 110-131): the first component, or zero when `N = 0`. -/
def major {α : Type} [OfNat α 0] : List α → α
  | [] => 0
  | a :: _ => a

/-- `sub_cost` (cost.rs 134-140). The subtraction is assumed not to overflow `isize` (it cannot
when both arguments are below `2^63`). -/
def subCost (a b : List Nat) : List Int := List.zipWith (fun x y => asIsize x - asIsize y) a b

/-- `add_delta` (cost.rs 143-149). -/
def addDelta (a : List Nat) (d : List Int) : List Nat := List.zipWith satAddSigned a d

/-- `div_cost` on one component (cost.rs 155, 188); `n` is a `NonZeroUsize`. `saturating_sub(1)` is
truncated subtraction. -/
def divComp (n a : Nat) : Nat := (a - 1) / n + 1

/-- `div_cost` (cost.rs 152-158). -/
def divCost (n : Nat) (a : List Nat) : List Nat := a.map (divComp n)

end Tket.Cost
