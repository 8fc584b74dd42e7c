import Verif.Model.Containers

/-
Vocabulary for the statements about containers of qubits: well-typed values, the qubits that are
visible in a value, and the types the builder can deal with.  Nothing here refers to the
functions of the model.
-/
namespace Verif.Containers

mutual
/-- `v` is a value of type `t`. -/
def HasTy : Ty → Val → Prop
  | .qubit, v => ∃ q, v = .qb q
  | .atom n, v => ∃ k, v = .«opaque» n k
  | .tuple row, v => ∃ vs, v = .tuple vs ∧ HasTyRow row vs
  | .opt t, v => v = .none ∨ ∃ w, v = .some w ∧ HasTy t w
  | .arr _ n t, v => ∃ vs, v = .arr vs ∧ vs.length = n ∧ ∀ w ∈ vs, HasTy t w

/-- The values `vs` have the types of the row. -/
def HasTyRow : List Ty → List Val → Prop
  | [], vs => vs = []
  | t :: ts, vs => ∃ v vs', vs = v :: vs' ∧ HasTy t v ∧ HasTyRow ts vs'
end

/-- A qubit. -/
def ownQubit : Val → List Nat
  | .qb q => [q]
  | _ => []

mutual
/-- The qubits visible in a value: bare qubits, and qubits in tuples and arrays to any depth.  An
option of a qubit counts when it is an element of an array (`elem = true`). -/
def exposed (elem : Bool) : Val → List Nat
  | .qb q => [q]
  | .tuple vs => exposedAll false vs
  | .arr vs => exposedAll true vs
  | .some v => if elem then ownQubit v else []
  | .none => []
  | .«opaque» _ _ => []

/-- The qubits visible in a list of values. -/
def exposedAll (elem : Bool) : List Val → List Nat
  | [] => []
  | v :: vs => exposed elem v ++ exposedAll elem vs
end

/-- Apply `f` to a qubit. -/
def onQubit (f : Nat → Nat) : Val → Val
  | .qb q => .qb (f q)
  | v => v

mutual
/-- Apply `f` to the visible qubits of a value, in place. -/
def mark (f : Nat → Nat) (elem : Bool) : Val → Val
  | .qb q => .qb (f q)
  | .tuple vs => .tuple (markAll f false vs)
  | .arr vs => .arr (markAll f true vs)
  | .some v => .some (if elem then onQubit f v else v)
  | .none => .none
  | .«opaque» n k => .«opaque» n k

/-- Apply `f` to the visible qubits of a list of values. -/
def markAll (f : Nat → Nat) (elem : Bool) : List Val → List Val
  | [] => []
  | v :: vs => mark f elem v :: markAll f elem vs
end

mutual
/-- Values of the type can contain visible qubits. -/
def holds : Ty → Bool
  | .qubit => true
  | .atom _ => false
  | .tuple row => holdsAny row
  | .opt _ => false
  | .arr _ _ t => decide (t = .opt .qubit) || holds t

/-- Some type of the row can contain visible qubits. -/
def holdsAny : List Ty → Bool
  | [] => false
  | t :: ts => holds t || holdsAny ts
end

mutual
/-- The number of wires a container falls into. -/
def leaves : Ty → Nat
  | .qubit => 1
  | .atom _ => 1
  | .tuple row => if holdsAny row then leavesAll row else 1
  | .opt _ => 1
  | .arr _ n t => if decide (t = .opt .qubit) || holds t then n * leaves t else 1

/-- The number of wires of a row. -/
def leavesAll : List Ty → Nat
  | [] => 0
  | t :: ts => leaves t + leavesAll ts
end

mutual
/-- Types the builder can deal with: no option of a qubit directly inside a tuple that is
unpacked, no array of containers that fall into no wire at all. -/
def Good : Ty → Prop
  | .qubit => True
  | .atom _ => True
  | .tuple row => holdsAny row = true → GoodAll row
  | .opt _ => True
  | .arr _ n t =>
    (decide (t = .opt .qubit) || holds t) = true → leaves t ≠ 0 ∧ (n = 0 ∨ Good t)

/-- All types of a tuple are good, and none is an option of a qubit. -/
def GoodAll : List Ty → Prop
  | [] => True
  | t :: ts => (t ≠ .opt .qubit ∧ Good t) ∧ GoodAll ts
end

mutual
/-- No option that has to be unwrapped is `None`. -/
def Full : Ty → Val → Prop
  | .qubit, _ => True
  | .atom _, _ => True
  | .tuple row, v => ∀ vs, holdsAny row = true → v = .tuple vs → FullRow row vs
  | .opt t, v => t = .qubit → v ≠ .none
  | .arr _ _ t, v => ∀ vs, (decide (t = .opt .qubit) || holds t) = true → v = .arr vs →
      ∀ w ∈ vs, Full t w

/-- `Full` for all values of a row. -/
def FullRow : List Ty → List Val → Prop
  | [], _ => True
  | t :: ts, vs => ∀ v vs', vs = v :: vs' → Full t v ∧ FullRow ts vs'
end

/-- `Full` for the operands of a barrier: only operands with visible qubits matter. -/
def FullOps (types : List Ty) (vs : List Val) : Prop :=
  ∀ p ∈ types.zip vs, holds p.1 = true → Full p.1 p.2

end Verif.Containers
