import Verif.Model.StaticArray

/-
Vocabulary for the statements about static arrays.
-/
namespace Verif.StaticArray

mutual
/-- `v` is a value of type `t`. -/
def HasTy : Ty → Val → Prop
  | .obool, v => ∃ b, v = .obool b
  | .atom _, v => ∃ k, v = .atom k
  | .sarr t, v => ∃ vs, v = .sarr vs ∧ ∀ w ∈ vs, HasTy t w
  | .app t, v => ∃ vs, v = .app vs ∧ ∀ w ∈ vs, HasTy t w
  | .sum ts, v => ∃ i w, v = .tag i w ∧ HasTyAt ts i w
  | .row ts, v => ∃ vs, v = .row vs ∧ HasTyRow ts vs
  | .func _, v => ∃ k, v = .fn k
/-- The payload of variant `i`. -/
def HasTyAt : List Ty → Nat → Val → Prop
  | [], _, _ => False
  | t :: ts, i, w => match i with
    | 0 => HasTy t w
    | i + 1 => HasTyAt ts i w
/-- The fields of a row. -/
def HasTyRow : List Ty → List Val → Prop
  | [], vs => vs = []
  | t :: ts, vs => ∃ v vs', vs = v :: vs' ∧ HasTy t v ∧ HasTyRow ts vs'
end

mutual
/-- What a value outside static arrays has to become: only the static arrays in it change. -/
def shown : Val → Val
  | .obool b => .obool b
  | .atom k => .atom k
  | .sarr vs => .sarr (stripAll vs)
  | .app vs => .app (shownAll vs)
  | .tag i v => .tag i (shown v)
  | .row vs => .row (shownAll vs)
  | .fn k => .fn k
/-- `shown` on lists. -/
def shownAll : List Val → List Val
  | [] => []
  | v :: vs => shown v :: shownAll vs
end

mutual
/-- A `tket.bool` occurs outside static arrays. -/
def bare : Ty → Bool
  | .obool => true
  | .atom _ => false
  | .sarr _ => false
  | .app t => bare t
  | .sum vs => bareAny vs
  | .row ts => bareAny ts
  | .func _ => false
/-- `bare` for some type of the list. -/
def bareAny : List Ty → Bool
  | [] => false
  | t :: ts => bare t || bareAny ts
end

mutual
/-- No container such as `array<tket.bool>`: no `tket.bool` below another extension type, unless a
static array is in between. -/
def clean : Ty → Bool
  | .obool => true
  | .atom _ => true
  | .sarr _ => true
  | .app t => !bare t
  | .sum vs => cleanAll vs
  | .row ts => cleanAll ts
  | .func _ => true
/-- `clean` for all types of the list. -/
def cleanAll : List Ty → Bool
  | [] => true
  | t :: ts => clean t && cleanAll ts
end

/-- Converting a value of this type meets a function: the type is one, or one of its fields is, inside
sums that mention `tket.bool`. -/
inductive Stuck : Ty → Prop
  | func (m : Bool) : Stuck (.func m)
  | field {ts : List Ty} {t : Ty} : t ∈ ts → Stuck t → Stuck (.row ts)
  | variant {vs : List Ty} {t : Ty} : mentions (.sum vs) = true → t ∈ vs → Stuck t → Stuck (.sum vs)

/-- A static array without any element at the bottom: empty, or made of such arrays. -/
def hollow : Ty → Val → Prop
  | .sarr t, v => ∀ vs, v = .sarr vs → ∀ w ∈ vs, hollow t w
  | _, _ => False

end Verif.StaticArray
