import Verif.Model.TogetherSpec
import Mathlib.Algebra.BigOperators.Ring.Finset
import Mathlib.Data.Fintype.BigOperators

/-
What a circuit means by amplitudes: operations are matrices (or tensors) with entries in a semiring, and
the entries of a circuit are sums over all values of the wires inside, of the products of the entries of
its operations.  For complex numbers and values of one qubit these are the amplitudes of quantum
circuits; pairs of values give density matrices, with measurements and discarded qubits.
-/
namespace Verif.Matching

open scoped BigOperators

variable {D R : Type}

/-- Operations as matrices: the number of outputs, and the entry for values of inputs and of outputs. -/
structure Weights (D R : Type) where
  arity : Op → Nat
  weight : Op → Nat → List D → List D → R

/-- The sum over all values of the given ports. -/
def sumOver [Fintype D] [AddCommMonoid R] : List (Nat × Nat) → ((Nat × Nat → D) → R) → (Nat × Nat → D) → R
  | [], F, v => F v
  | s :: ss, F, v => ∑ d : D, sumOver ss F (Function.update v s d)

/-- The operations of a circuit. -/
def Circ.inner (c : Circ) : List Nat := c.members.filter fun n => n ≠ c.inp ∧ n ≠ c.out

/-- The output ports of the operations. -/
def Circ.ports (A : Weights D R) (c : Circ) : List (Nat × Nat) :=
  c.inner.flatMap fun n => (List.range (A.arity (c.op n))).map fun p => (n, p)

/-- The entry of one operation for values of all ports. -/
def entryAt (A : Weights D R) (c : Circ) (v : Nat × Nat → D) (n : Nat) : R :=
  A.weight (c.op n) (c.content n) ((c.ins n).map v) ((List.range (A.arity (c.op n))).map fun p => v (n, p))

/-- The entry of a circuit for values of inputs and of outputs. -/
def amplitude [Fintype D] [DecidableEq D] [CommSemiring R] (A : Weights D R) (c : Circ) (x : Nat → D)
    (y : List D) : R :=
  sumOver (c.ports A) (fun v => (c.inner.map (entryAt A c v)).prod * if (c.ins c.out).map v = y then 1 else 0)
    (fun s => x s.2)

/-- Wires come from outputs that exist. -/
def InRange (A : Weights D R) (c : Circ) : Prop :=
  ∀ n ∈ c.members, ∀ s ∈ c.ins n, s.1 = c.inp ∨ s.2 < A.arity (c.op s.1)

/-- The sides of a rule have the same entries, up to a common factor. -/
structure Rule.Agree [Fintype D] [DecidableEq D] [CommSemiring R] (A : Weights D R) (K : R → Prop) (u : Rule) :
    Prop where
  left : InRange A u.left.toCirc
  right : InRange A u.right.toCirc
  once : u.left.members.Nodup
  same : ∃ k, K k ∧ ∀ x y, amplitude A u.left.toCirc x y = k * amplitude A u.right.toCirc x y

/-- Equal entries, up to a common factor. -/
def SameUpTo [Fintype D] [DecidableEq D] [CommSemiring R] (A : Weights D R) (K : R → Prop) (c d : Circ) : Prop :=
  ∃ k, K k ∧ ∀ x y, amplitude A c x y = k * amplitude A d x y

/-- Factors that can be multiplied, for example the complex numbers of absolute value one. -/
structure Factors [CommSemiring R] (K : R → Prop) : Prop where
  one : K 1
  mul : ∀ a b, K a → K b → K (a * b)

/-- Operations one after the other: each reads its inputs and has every result with its entry as weight. -/
def run [Fintype D] [DecidableEq D] [CommSemiring R] (A : Weights D R) (c : Circ) (y : List D) :
    List Nat → (Nat × Nat → D) → R
  | [], v => if (c.ins c.out).map v = y then 1 else 0
  | n :: l, v => sumOver ((List.range (A.arity (c.op n))).map fun p => (n, p))
      (fun v' => entryAt A c v' n * run A c y l v') v

/-- The matrices of functions. -/
def Weights.ofFun [DecidableEq D] [CommSemiring R] (arity : Op → Nat) (sem : Op → Nat → List D → Nat → D) :
    Weights D R where
  arity := arity
  weight o k ins outs := if outs = (List.range (arity o)).map (sem o k ins) then 1 else 0

end Verif.Matching
