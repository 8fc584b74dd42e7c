import Verif.Model.Params

/-!
# What parameter expressions mean

Specifications used by the properties about parameters; they do not refer to the parser or the
printer.
-/

namespace Verif.Params

variable {F : Type}

/-- The value of an operation on floats. -/
def Op1.apply (A : Arith F) : Op1 → F → F
  | .neg => A.neg
  | .floor => A.floor
  | .ceil => A.ceil
  | .round => A.round
  | .abs => A.abs

def Op2.apply (A : Arith F) : Op2 → F → F → F
  | .add => A.add
  | .sub => A.sub
  | .mul => A.mul
  | .div => A.div
  | .pow => A.pow
  | .max => A.max
  | .min => A.min

/-- The value of an expression of the program, where `ρ` gives the values of its inputs. -/
def Ex.eval (A : Arith F) (ρ : List Char → F) : Ex F → F
  | .const f => f
  | .var n => ρ n
  | .op1 o a => o.apply A (a.eval A ρ)
  | .op2 o a b => o.apply A (a.eval A ρ) (b.eval A ρ)

/-- The constants of an expression. -/
def Ex.consts : Ex F → List F
  | .const f => [f]
  | .var _ => []
  | .op1 _ a => a.consts
  | .op2 _ a b => a.consts ++ b.consts

/-- The inputs of an expression. -/
def Ex.vars : Ex F → List (List Char)
  | .const _ => []
  | .var n => [n]
  | .op1 _ a => a.vars
  | .op2 _ a b => a.vars ++ b.vars

/-- The expression with every constant replaced. -/
def Ex.mapConst (g : F → F) : Ex F → Ex F
  | .const f => .const (g f)
  | .var n => .var n
  | .op1 o a => .op1 o (a.mapConst g)
  | .op2 o a b => .op2 o (a.mapConst g) (b.mapConst g)

/-- A name: a letter followed by letters, digits and underscores. -/
def IsName (s : List Char) : Prop :=
  ∃ c cs, s = c :: cs ∧ isAlpha c = true ∧ ∀ d ∈ cs, isIdent d = true

/-- Decimal notation as printed by `f64::to_string` (which writes no exponents) and by sympy (which
does) for finite floats: an optional sign, digits without a leading zero, an optional fraction, an
optional exponent. -/
def IsNumeral (s : List Char) : Prop :=
  ∃ sg ip fp ep, s = sg ++ ip ++ fp ++ ep ∧ (sg = [] ∨ sg = ['-']) ∧
    (ip = ['0'] ∨ ∃ d ds, ip = d :: ds ∧ d ≠ '0' ∧ isDigit d = true ∧ ∀ x ∈ ds, isDigit x = true) ∧
    (fp = [] ∨ ∃ ds, fp = '.' :: ds ∧ ∀ x ∈ ds, isDigit x = true) ∧
    (ep = [] ∨ ∃ e es d ds, ep = e :: (es ++ (d :: ds)) ∧ (e = 'e' ∨ e = 'E') ∧
      (es = [] ∨ es = ['+'] ∨ es = ['-']) ∧ ∀ x ∈ d :: ds, isDigit x = true)

/-- What is assumed about floats: printing and reading numbers is inverse, and multiplying with one
and dividing by one changes nothing. -/
structure Laws (A : Arith F) : Prop where
  numeral : ∀ f, IsNumeral (A.fmt f)
  read_fmt : ∀ f, A.read (A.fmt f) = f
  one_mul : ∀ x, A.mul (A.read ['1']) x = x
  mul_one : ∀ x, A.mul x (A.read ['1']) = x
  div_one : ∀ x, A.div x (A.read ['1']) = x

/-- The constant which stands in the text for a constant of the program: the multiple of π it is
close to, if any. -/
def snapVal (A : Arith F) (f : F) : F :=
  match snap A f with
  | some n => n.val A
  | none => f

/-- The outermost operation of the text printed for an expression is a sum or a difference
(products with `1` and quotients by `1` are not printed). -/
def Ex.isSum (A : Arith F) : Ex F → Bool
  | .op2 .add _ _ => true
  | .op2 .sub _ _ => true
  | .op2 .mul a b =>
    if a.print A = ['1'] then b.isSum A else if b.print A = ['1'] then a.isSum A else false
  | .op2 .div a b => if b.print A = ['1'] then a.isSum A else false
  | _ => false

/-! ### Python's syntax -/

/-- Expressions of sympy, that is of Python; `sp` and `sp'` are the numbers of blanks around an
operator. -/
inductive Py
  | num (text : List Char)
  | name (text : List Char)
  | par (a : Py)
  | neg (a : Py)
  | bin (o : InOp) (sp sp' : Nat) (a b : Py)
  | call1 (f : Fn) (a : Py)
  | call2 (f : Fn) (a b : Py)

def InOp.text : InOp → List Char
  | .add => ['+']
  | .sub => ['-']
  | .mul => ['*']
  | .div => ['/']
  | .pow => ['*', '*']

def Fn.text : Fn → List Char
  | .max => ['m', 'a', 'x']
  | .min => ['m', 'i', 'n']
  | .abs => ['a', 'b', 's']
  | .floor => ['f', 'l', 'o', 'o', 'r']
  | .ceil => ['c', 'e', 'i', 'l']
  | .round => ['r', 'o', 'u', 'n', 'd']

def Py.text : Py → List Char
  | .num t => t
  | .name t => t
  | .par a => '(' :: a.text ++ [')']
  | .neg a => '-' :: a.text
  | .bin o sp sp' a b =>
    a.text ++ (List.replicate sp ' ' ++ o.text ++ List.replicate sp' ' ') ++ b.text
  | .call1 f a => f.text ++ '(' :: a.text ++ [')']
  | .call2 f a b => f.text ++ '(' :: a.text ++ (',' :: ' ' :: b.text) ++ [')']

/-- The levels of Python's grammar: sums, products, negations, powers, atoms. -/
def Py.level : Py → Nat
  | .bin .add _ _ _ _ => 1
  | .bin .sub _ _ _ _ => 1
  | .bin .mul _ _ _ _ => 2
  | .bin .div _ _ _ _ => 2
  | .neg _ => 3
  | .bin .pow _ _ _ _ => 4
  | _ => 5

/-- The tree is what Python reads from its text: sums and products associate to the left,
powers to the right, and a power binds tighter than a negation on its left, but not on its right
(The Python Language Reference, 6.5-6.7). -/
def Py.Grammar : Py → Prop
  | .num t => IsNumeral t ∧ ∀ c ∈ t.head?, c ≠ '-'
  | .name t => IsName t
  | .par a => a.Grammar
  | .neg a => 3 ≤ a.level ∧ a.Grammar
  | .bin o _ _ a b =>
    (match o with
      | .add | .sub => 1 ≤ a.level ∧ 2 ≤ b.level
      | .mul | .div => 2 ≤ a.level ∧ 3 ≤ b.level
      | .pow => 5 ≤ a.level ∧ 3 ≤ b.level) ∧ a.Grammar ∧ b.Grammar
  | .call1 _ a => a.Grammar
  | .call2 _ a b => a.Grammar ∧ b.Grammar

/-- Neither a negation nor the exponent of a power is itself a power, and functions have the number
of arguments which they have in the float extension. -/
def Py.Tame : Py → Prop
  | .num _ => True
  | .name _ => True
  | .par a => a.Tame
  | .neg a => a.level ≠ 4 ∧ a.Tame
  | .bin o _ _ a b => (o = .pow → b.level ≠ 4) ∧ a.Tame ∧ b.Tame
  | .call1 f a => (f ≠ .max ∧ f ≠ .min) ∧ a.Tame
  | .call2 f a b => (f = .max ∨ f = .min) ∧ a.Tame ∧ b.Tame

/-- The value Python gives to the expression; `ρ` gives the values of variables. -/
def Py.eval (A : Arith F) (ρ : List Char → F) : Py → Option F
  | .num t => some (A.read t)
  | .name t => some (if t = ['p', 'i'] then A.pi else ρ t)
  | .par a => a.eval A ρ
  | .neg a => (a.eval A ρ).map A.neg
  | .bin o _ _ a b =>
    match a.eval A ρ, b.eval A ρ with
    | some x, some y => some (o.apply A x y)
    | _, _ => none
  | .call1 f a =>
    match a.eval A ρ with
    | some x => f.apply A [x]
    | none => none
  | .call2 f a b =>
    match a.eval A ρ, b.eval A ρ with
    | some x, some y => f.apply A [x, y]
    | _, _ => none

/-! ### Units -/

/-- The angle, in half-turns, which a loaded parameter stands for. -/
def angle (A : Arith F) (p : Loaded F) : F :=
  match p.typ with
  | .radians => A.div p.val A.pi
  | .halfTurns => p.val
  | .rotation => p.val

end Verif.Params
