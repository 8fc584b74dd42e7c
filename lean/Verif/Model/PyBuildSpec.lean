import Verif.Model.PyBuild
import Mathlib.Data.List.Forall2

/-!
# What a sequence of commands means

Commands act one after the other on numbered registers.
-/

namespace Verif.PyBuild

variable {L : Type}

/-- Symbolic values: an input, or an output of an operation applied to values. The number says which
command it was. -/
inductive V (L : Type) where
  | inp (i : Nat)
  | out (com : Nat) (op : L) (port : Nat) (args : List (V L))
  | undefined

/-- The values on the wires of a graph. -/
def eval (n : Nat) : List (Node L) → Wire → V L
  | [], w => if w.node = 0 ∧ w.port < n then .inp w.port else .undefined
  | x :: ns, w =>
    if w.node = ns.length + 1 then
      (if w.port < x.outs.length then .out ns.length x.op w.port (x.ins.map (eval n ns)) else .undefined)
    else eval n ns w

/-- What the operations of a graph receive, in order. -/
def received (n : Nat) : List (Node L) → List (L × List (V L))
  | [] => []
  | x :: ns => received n ns ++ [(x.op, x.ins.map (eval n ns))]

/-- The operations and what the circuit returns. -/
def observe (c : Circ L) : List (L × List (V L)) × List (V L) :=
  (received c.qubits c.nodes, c.outs.map (eval c.qubits c.nodes))

/-- A command on registers. -/
structure Gate (L : Type) where
  op : L
  regs : List Nat

/-- The first register holds the first result, and so on. -/
def store (com : Nat) (op : L) (args : List (V L)) : Nat → List Nat → List (V L) → List (V L)
  | _, [], regs => regs
  | k, r :: rs, regs => store com op args (k + 1) rs (regs.set r (.out com op k args))

/-- Run commands, starting with number `k`. -/
def run : Nat → List (Gate L) → List (V L) → List (L × List (V L)) × List (V L)
  | _, [], regs => ([], regs)
  | k, g :: gs, regs =>
    let args := g.regs.map fun r => regs[r]?.getD .undefined
    let r := run (k + 1) gs (store k g.op args 0 g.regs regs)
    ((g.op, args) :: r.1, r.2)

/-- The meaning of commands on `n` qubits. -/
def meaning (n : Nat) (gs : List (Gate L)) : List (L × List (V L)) × List (V L) :=
  run 0 gs ((List.range n).map .inp)

/-- `c` is the gate `g` on registers of `n` (a negative number counts from the last register). -/
def Denotes (n : Nat) (c : Com L) (g : Gate L) : Prop :=
  g.op = c.op ∧
    List.Forall₂ (fun a (r : Nat) => r < n ∧ (a = .idx (r : Int) ∨ a = .idx ((r : Int) - n)))
      c.args g.regs

/-- How often a wire is used. -/
def uses (c : Circ L) (w : Wire) : Nat := ((c.nodes.map Node.ins).flatten ++ c.outs).count w

end Verif.PyBuild
