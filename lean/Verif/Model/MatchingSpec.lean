import Verif.Model.Matching

/-
What a match is: a copy of the pattern inside the circuit.
-/
namespace Verif.Matching

/-- Every source of an edge is known when it is followed. -/
def Reached : List NodeID → List Edge → Prop
  | _, [] => True
  | known, e :: es => e.src ∈ known ∧ Reached (e.dst :: known) es

/-- Contract of the external crate for the root and the order of the edges: every edge of the pattern is
followed in one direction, backwards only if the edge can be reversed, each from a node that was
reached before, and all nodes are reached. -/
structure Walk.Valid (w : Walk) (p : Pattern) : Prop where
  edges : ∀ e ∈ w.edges, e ∈ p.edges ∨ ∃ e' ∈ p.edges, e'.reverse = some e
  covers : ∀ e ∈ p.edges, e ∈ w.edges ∨ ∃ r ∈ w.edges, e.reverse = some r
  reached : Reached [.node w.root] w.edges
  root : w.root ∈ p.requires.map Prod.fst
  nodes : ∀ n ∈ p.requires.map Prod.fst, n = w.root ∨ ∃ e ∈ w.edges, e.dst = .node n

/-- A circuit as HUGR guarantees it: as many inputs as the signature says, and linear values have one
consumer. -/
structure Circ.WF (c : Circ) : Prop where
  length : ∀ n ∈ c.members, (c.ins n).length = (c.op n).kinds.length
  cmds : ∀ n ∈ c.cmds, n ∈ c.members ∧ n ≠ c.inp ∧ n ≠ c.out
  out : c.out ∈ c.members ∧ c.out ≠ c.inp
  inp : c.ins c.inp = []
  sources : ∀ n ∈ c.members, ∀ s ∈ c.ins n, s.1 ∈ c.members ∨ s.1 = c.inp
  linear : ∀ n ∈ c.members, ∀ (k : Nat) (s : Nat × Nat), (c.op n).kinds[k]? = some .linear → (c.ins n)[k]? = some s →
    consumers c s.1 s.2 = [(n, k)]

/-- All inputs of commands come from commands or from the input node. -/
def Circ.Closed (c : Circ) : Prop :=
  ∀ n ∈ c.cmds, ∀ s ∈ c.ins n, s.1 ∈ c.cmds ∨ s.1 = c.inp

/-- The circuit contains a copy of the pattern: `f` gives the nodes, `w` the wires that feed the
inputs of the pattern.  Different nodes and different used inputs have different images. -/
structure Copy (P C : Circ) (f : Nat → Nat) (w : Nat → Nat × Nat) : Prop where
  members : ∀ n ∈ P.cmds, f n ∈ C.members ∧ f n ≠ C.inp ∧ f n ≠ C.out
  inj : ∀ n ∈ P.cmds, ∀ n' ∈ P.cmds, f n = f n' → n = n'
  op : ∀ n ∈ P.cmds, C.op (f n) = P.op n
  edge : ∀ n ∈ P.cmds, ∀ (k : Nat) (s : Nat × Nat), (P.ins n)[k]? = some s → s.1 ≠ P.inp →
    (C.ins (f n))[k]? = some (f s.1, s.2)
  input : ∀ n ∈ P.cmds, ∀ (k : Nat) (s : Nat × Nat), (P.ins n)[k]? = some s → s.1 = P.inp →
    (C.ins (f n))[k]? = some (w s.2)
  inputInj : ∀ n ∈ P.cmds, ∀ n' ∈ P.cmds, ∀ i i', (P.inp, i) ∈ P.ins n → (P.inp, i') ∈ P.ins n' →
    w i = w i' → i = i'

/-- The operations of the pattern are not those of the input and the output node of the circuit. -/
def NoIO (P C : Circ) : Prop :=
  ∀ n ∈ P.cmds, P.op n ≠ C.op C.inp ∧ P.op n ≠ C.op C.out

/-- Values on the wires of a circuit agree with a meaning of the operations and their nested regions:
each output of a node is computed from its inputs.  (The values can be anything, for example terms.) -/
def Runs {V : Type} (sem : Op → Nat → List V → Nat → V) (c : Circ) (val : Nat → Nat → V) : Prop :=
  ∀ n ∈ c.members, n ≠ c.inp → n ≠ c.out → ∀ p,
    val n p = sem (c.op n) (c.content n) ((c.ins n).map fun s => val s.1 s.2) p

/-- The commands come after the commands that feed them. -/
def Ordered (c : Circ) : List Nat → List Nat → Prop
  | _, [] => True
  | done, n :: ns => (∀ s ∈ c.ins n, s.1 = c.inp ∨ s.1 ∈ done) ∧ Ordered c (n :: done) ns

end Verif.Matching
