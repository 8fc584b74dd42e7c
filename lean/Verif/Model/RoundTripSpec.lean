import Verif.Model.EncoderSpec
import Verif.Model.DecoderSpec

/-!
# What must survive a round trip

A region, seen as a graph, without registers: which symbolic value every operation and the output node
receives on every port.
-/

namespace Verif.RoundTrip

open Verif.Encoder (Srt Circ Item Den Kind)
open Verif.Decoder (V Cfg)

variable {W E T R : Type} [DecidableEq W] [DecidableEq T] [DecidableEq R]

/-- Every wire is a qubit, a boolean or a parameter. -/
def Fits (cfg : Cfg T R) (c : Circ W E) (ty : W → T) : Prop :=
  ∀ w, (ty w = cfg.qb ∧ (c.cnt w).reg .qubit = 1 ∧ (c.cnt w).reg .bit = 0 ∧ (c.cnt w).params = 0) ∨
    ((ty w = cfg.bool ∨ ty w = cfg.tbool) ∧ (c.cnt w).reg .qubit = 0 ∧ (c.cnt w).reg .bit = 1 ∧
      (c.cnt w).params = 0) ∨
    (cfg.param (ty w) = true ∧ (c.cnt w).reg .qubit = 0 ∧ (c.cnt w).reg .bit = 0 ∧ (c.cnt w).params = 1)

/-- Gates that keep their qubits, read no bits and have their parameters last; allocations; `QFree`; and
arithmetic on parameters. -/
def Plain (cfg : Cfg T R) (c : Circ W E) (ty : W → T) (it : Item W E) : Prop :=
  match it.kind with
  | .gate => c.total it.ins .qubit = c.total it.outs .qubit ∧ c.total it.ins .bit = 0 ∧
      c.totalP it.outs = 0 ∧ cfg.paramsLast (it.ins.map ty)
  | .transparent => ∀ s, c.total it.ins s = 0
  | .alloc _ | .free => True
  | .group | .dup => False

/-- A fresh qubit and a constant. -/
def fresh : Srt → V Nat
  | .qubit => .zero
  | .bit => .ff

/-- `val` gives the symbolic value of every wire of the region. -/
structure IsFlow (cfg : Cfg T R) (c : Circ W E) (ty : W → T) (num : E → Nat) (D : W → Den E)
    (val : W → V Nat) : Prop where
  par : ∀ w e, cfg.param (ty w) = true → (D w).params = [e] → val w = .par (num e)
  inp : ∀ i w, c.inputs[i]? = some w → cfg.param (ty w) = false → val w = .inp i
  gate : ∀ it ∈ c.items, it.kind = .gate → ∀ j w, it.outs[j]? = some w →
    val w = .out it.id j (it.ins.map val)
  alloc : ∀ it ∈ c.items, ∀ s, it.kind = .alloc s → ∀ w ∈ it.outs, val w = fresh s

/-- What an operation receives. -/
def receives (val : W → V Nat) (it : Item W E) : Option Nat × List (V Nat) := (some it.id, it.ins.map val)

/-- The operations of a region. -/
def gates (c : Circ W E) : List (Item W E) := c.items.filter fun it => it.kind = .gate

/-- Which qubit line a wire belongs to: a gate passes its `k`-th qubit on to its `k`-th qubit output. -/
structure Lines (c : Circ W E) (line : W → Nat) : Prop where
  inp : (c.inputs.filter fun w => (c.cnt w).reg .qubit = 1).map line =
    List.range (c.total c.inputs .qubit)
  gate : ∀ it ∈ c.items, it.kind = .gate →
    (it.outs.filter fun w => (c.cnt w).reg .qubit = 1).map line =
      (it.ins.filter fun w => (c.cnt w).reg .qubit = 1).map line

end Verif.RoundTrip
