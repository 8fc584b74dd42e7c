/-!
# Counting operations

Model of `Circuit::num_operations` and `Circuit::operations` (`tket/src/circuit.rs` 66-79, 186-211, 325-334)
on the hierarchy of nodes of a program.
-/

namespace Tket.NumOps

/-- Nodes, as far as they are told apart. `unknown` is `OpType::OpaqueOp`.
`ignored`: the name is in `IGNORED_EXTENSION_OPS` (66-79). -/
inductive Kind where
  | ext (ignored : Bool)
  | unknown (ignored : Bool)
  | other
  deriving DecidableEq

/-- Lists of nodes with their children. -/
inductive Forest where
  | nil
  | node (k : Kind) (children rest : Forest)

/-- The condition of 202-203. -/
def Kind.counts : Kind → Bool
  | .ext i => !i
  | .unknown i => !i
  | .other => false

/-- Number of nodes. -/
def Forest.size : Forest → Nat
  | .nil => 0
  | .node _ c r => 1 + c.size + r.size

/-- The inner loop (200-208): the count and the stack `roots`, last element first; a root is given by its
children. `first_child(node).is_some()` asks about the parent, which has children. -/
def visit : Forest → Nat → List Forest → Nat × List Forest
  | .nil, n, stack => (n, stack)
  | .node k c r, n, stack =>
    if k.counts then visit r (n + 1) stack else visit r n (c :: stack)

/-- The outer loop (199-209); `none` if the fuel does not suffice. -/
def loop : Nat → Nat → List Forest → Option Nat
  | _, n, [] => some n
  | 0, _, _ :: _ => none
  | fuel + 1, n, f :: stack =>
    let r := visit f n stack
    loop fuel r.1 r.2

/-- `num_operations` (190-211) for the children of the module root. -/
def numOperations (module : Forest) : Option Nat := loop (module.size + 1) 0 [module]

/-- `operations` (325-334): the number of commands that are kept, if every node of the region is a command.
`unknownIsExt`: what the external `is_extension_op` says of `OpaqueOp`, taken as a parameter. -/
def operations (unknownIsExt : Bool) : Forest → Nat
  | .nil => 0
  | .node k _ r =>
    (match k with
      | .ext i => if i then 0 else 1
      | .unknown i => if unknownIsExt && !i then 1 else 0
      | .other => 0) + operations unknownIsExt r

/-! ## Specification -/

/-- Operations of extensions, known or not, except those for tuples. -/
def Kind.isOp (k : Kind) : Bool := decide (k = .ext false ∨ k = .unknown false)

/-- The operations in a list of nodes at all levels. -/
def Forest.ops : Forest → Nat
  | .nil => 0
  | .node k c r => (if k.isOp then 1 else 0) + c.ops + r.ops

/-- Operations have no children. -/
def Forest.Valid : Forest → Prop
  | .nil => True
  | .node k c r => (k.isOp = true → c = .nil) ∧ c.Valid ∧ r.Valid

/-- Concatenation. -/
def Forest.append : Forest → Forest → Forest
  | .nil, g => g
  | .node k c r, g => .node k c (r.append g)

end Tket.NumOps
