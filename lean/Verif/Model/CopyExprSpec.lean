import Verif.Model.ResourceSpec

/-!
# What an expression of a copyable value should be

From the documentation of `CopyableExpr` (`/repo/tket/src/subcircuit/expression.rs` 17-66), in terms of
the graph alone.
-/

namespace Verif.CopyExpr

open Verif.Resource

variable {T : Type}

/-- The node may be part of an expression: it is in the circuit, not excluded, and all its values are
copyable. -/
structure Adm (r : Region T) (excl : List Nat) (n : Nat) : Prop where
  mem : n ∈ r.nodes
  allowed : n ∉ excl
  copyable : ∀ d i t, r.type? n d i = some t → r.copyable t = true

/-- The requested port exists, is copyable, and its node may be in an expression. -/
structure Good (r : Region T) (excl : List Nat) (output : Nat × Nat) : Prop where
  typ : ∃ t, r.type? output.1 .out output.2 = some t ∧ r.copyable t = true
  adm : Adm r excl output.1

/-- The traversal continues beyond the port: it is not a boundary, and its value comes from a node
that may be part of an expression. -/
def Inner (r : Region T) (allowed : List (Nat × Nat)) (excl : List Nat) (m q : Nat) : Prop :=
  (m, q) ∉ allowed ∧ ∃ n p, r.source m q = some (n, p) ∧ Adm r excl n

/-- The nodes that the expression for a value of node `o` consists of. -/
inductive Cone (r : Region T) (allowed : List (Nat × Nat)) (excl : List Nat) (o : Nat) : Nat → Prop
  | root : Cone r allowed excl o o
  | step {m q n p} : Cone r allowed excl o m → r.Valid ⟨m, .inc, q⟩ → (m, q) ∉ allowed →
      r.source m q = some (n, p) → Adm r excl n → Cone r allowed excl o n

/-- The inputs of the expression. -/
def IsInput (r : Region T) (allowed : List (Nat × Nat)) (excl : List Nat) (o : Nat) (x : Nat × Nat) :
    Prop :=
  Cone r allowed excl o x.1 ∧ r.Valid ⟨x.1, .inc, x.2⟩ ∧ ¬ Inner r allowed excl x.1 x.2

/-- The outputs of the expression: values used by a port that is not inside the expression. -/
def IsOutput (r : Region T) (allowed : List (Nat × Nat)) (excl : List Nat) (o : Nat) (x : Nat × Nat) :
    Prop :=
  Cone r allowed excl o x.1 ∧ r.Valid ⟨x.1, .out, x.2⟩ ∧
    ∃ y ∈ r.linked x.1 x.2,
      ¬ (Cone r allowed excl o y.1 ∧ r.Valid ⟨y.1, .inc, y.2⟩ ∧ Inner r allowed excl y.1 y.2)

/-- The value at an input port: given, or the value of its source. -/
def argument {V : Type} (r : Region T) (given env : Nat × Nat → Option V) (n q : Nat) : Option V :=
  match given (n, q) with
  | some v => some v
  | none => (r.source n q).bind env

/-- Running nodes one after the other, where the ports in `given` have their values given and the other
ones take the value of their source. -/
def eval {V : Type} (r : Region T) (sem : Nat → List V → List V) (arity : Nat → Nat)
    (given : Nat × Nat → Option V) : List Nat → (Nat × Nat → Option V) → Option (Nat × Nat → Option V)
  | [], env => some env
  | n :: ns, env =>
    match (List.range (arity n)).mapM (argument r given env n) with
    | none => none
    | some vs =>
      eval r sem arity given ns fun x => if x.1 = n then (sem n vs)[x.2]? else env x

/-- `val` gives every wire of the circuit the value it has when the nodes behave as `sem` says. -/
def Consistent {V : Type} (r : Region T) (sem : Nat → List V → List V) (val : Nat × Nat → V) : Prop :=
  ∀ n ins outs vs, n ∈ r.nodes → r.sig n = some (ins, outs) →
    (List.range ins.length).mapM (fun q => (r.source n q).map val) = some vs →
    sem n vs = (List.range outs.length).map fun p => val (n, p)

/-- Where the documentation of `try_new` (lines 55-61) puts an input: first the boundary ports in
their order, then the ones fed by excluded nodes in their order, then the others. -/
def docKey (r : Region T) (allowed : List (Nat × Nat)) (excl : List Nat) (x : Nat × Nat) : Nat × Nat :=
  match allowed.idxOf? x with
  | some i => (0, i)
  | none =>
    match (r.source x.1 x.2).bind fun s => excl.idxOf? s.1 with
    | some i => (1, i)
    | none => (2, 0)

end Verif.CopyExpr
