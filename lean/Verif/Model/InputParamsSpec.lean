import Verif.Model.InputParams

/-!
# Which input a variable belongs to
-/

namespace Verif.InputParams

/-- The variables of an expression from left to right, without the constant `pi`. -/
def Exp.vars : Exp → List String
  | .const _ => []
  | .sympy _ => []
  | .var n => if n = "pi" then [] else [n]
  | .op1 _ a => a.vars
  | .op2 _ a b => a.vars ++ b.vars

/-- The names that are given, followed by other variables in the order they are first used. -/
def order (names : List String) : List String → List String
  | [] => names
  | n :: ns => order (if n ∈ names then names else names ++ [n]) ns

/-- The positions of parameters in a signature that starts at `i`. -/
def positions : Nat → List Count → List Nat
  | _, [] => []
  | i, c :: cs => if c.params > 0 then i :: positions (i + 1) cs else positions (i + 1) cs

/-- The input of the `k`-th name: the `k`-th parameter of the signature, and new inputs after all
inputs of the signature when there are no more. -/
def slot (sig : List Count) (k : Nat) : Nat :=
  match (positions 0 sig)[k]? with
  | some i => i
  | none => sig.length + (k - (positions 0 sig).length)

/-- The expression with the variables replaced. -/
def Exp.subst (f : String → Nat) : Exp → Tree
  | .const c => .const c
  | .sympy s => .sympy s
  | .var n => if n = "pi" then .pi else .input (f n)
  | .op1 o a => .op1 o (a.subst f)
  | .op2 o a b => .op2 o (a.subst f) (b.subst f)

/-- A meaning of constants and operations. -/
structure Sem (V : Type) where
  const : Nat → V
  pi : V
  sympy : String → V
  op1 : Nat → V → V
  op2 : Nat → V → V → V

/-- The value of an expression in pytket, where `pi` is a constant. -/
def Exp.value {V : Type} (S : Sem V) (ρ : String → V) : Exp → V
  | .const c => S.const c
  | .sympy s => S.sympy s
  | .var n => if n = "pi" then S.pi else ρ n
  | .op1 o a => S.op1 o (a.value S ρ)
  | .op2 o a b => S.op2 o (a.value S ρ) (b.value S ρ)

/-- The value that is computed in the decoded circuit. -/
def Tree.value {V : Type} (S : Sem V) (σ : Nat → V) : Tree → V
  | .const c => S.const c
  | .pi => S.pi
  | .sympy s => S.sympy s
  | .input i => σ i
  | .op1 o a => S.op1 o (a.value S σ)
  | .op2 o a b => S.op2 o (a.value S σ) (b.value S σ)

/-- The value of a parameter before it is encoded: `σ` gives the values of the inputs and `ρ` those of
the symbols in symbolic expressions. -/
def Src.value {V : Type} (S : Sem V) (parse : String → Exp) (sig : List Count) (ρ : String → V)
    (σ : Nat → V) : Src → V
  | .const c => S.const c
  | .param k => σ (slot sig k)
  | .sympy s => (parse s).value S ρ
  | .op1 o a => S.op1 o (a.value S parse sig ρ σ)
  | .op2 o a b => S.op2 o (a.value S parse sig ρ σ) (b.value S parse sig ρ σ)

/-- The parameters of the region that are used. -/
def Src.params : Src → List Nat
  | .const _ => []
  | .param k => [k]
  | .sympy _ => []
  | .op1 _ a => a.params
  | .op2 _ a b => a.params ++ b.params

/-- The symbols that are used. -/
def Src.symbols (parse : String → Exp) : Src → List String
  | .const _ => []
  | .param _ => []
  | .sympy s => (parse s).vars
  | .op1 _ a => a.symbols parse
  | .op2 _ a b => a.symbols parse ++ b.symbols parse

/-- The types outputs can have. -/
def Out.Typed : Out → OutTy → Prop
  | .param _, ty => ty = .param
  | .through _, ty => ty = .other
  | .subgraph _, _ => True
  | .reg, ty => ty = .register
  | .free, ty => ty = .other

/-- What has to be connected to an output, where `f` gives the values of parameters. -/
def Out.link (f : Src → Tree) : Out → Link
  | .param a => .tree (f a)
  | .through i => .input i
  | .subgraph i => .subgraph i
  | .reg => .register
  | .free => .none

end Verif.InputParams
