import Verif.Model.Chunks

/-!
# Removing tuples that are packed and unpacked

Model of `tket/src/passes/tuple_unpack.rs`: rewrites that remove a `MakeTuple` together with the
`UnpackTuple`s of its tuple, and of the part of `SimpleReplacement` that they use.

Simplifications: one flat region (as for `Circuit::commands`), no state order edges.  The boundary of
`SiblingSubgraph::try_from_nodes` and the application of a `SimpleReplacement` are those of `hugr`;
they are modelled from its documentation: the inputs are the linked input ports with a source
outside, the outputs are the output ports with some link to the outside, in the order of the given
nodes and of their ports; a builder or replacement whose number of outputs differs from the signature
is an error.
-/

namespace Tket.Untuple

open Tket.Chunks (Src Dst Graph)

/-- Types of wires. -/
inductive Ty where
  | base (n : Nat)
  | tup (ts : List Ty)

/-- Operations: `MakeTuple`, `UnpackTuple` with the types of the elements, and all others. -/
inductive Op (O : Type) where
  | pack (ts : List Ty)
  | unpack (ts : List Ty)
  | other (o : O)

/-- A circuit: links, nodes and their operations, types of its inputs and outputs. -/
structure Circ (O : Type) where
  graph : Graph
  nodes : List Nat
  op : Nat → Op O
  ins : List Ty
  outs : List Ty

variable {O : Type}

/-- Types of the inputs of an operation. -/
def Op.ins (sig : O → List Ty × List Ty) : Op O → List Ty
  | .pack ts => ts
  | .unpack ts => [.tup ts]
  | .other o => (sig o).1

/-- Types of the outputs of an operation. -/
def Op.outs (sig : O → List Ty × List Ty) : Op O → List Ty
  | .pack ts => [.tup ts]
  | .unpack ts => ts
  | .other o => (sig o).2

/-- `is_unpack_tuple` (tuple_unpack.rs 38-40). -/
def Op.isUnpack : Op O → Bool
  | .unpack _ => true
  | _ => false

/-- `linked_inputs(tuple_node, wire.source())` (tuple_unpack.rs 64-68). -/
def targets (c : Circ O) (n : Nat) : List Dst :=
  (c.graph.filter (fun l => l.1 = .node n 0)).map (·.2)

/-- The node if it is an `UnpackTuple` (tuple_unpack.rs 74-78). -/
def asUnpack (c : Circ O) : Dst → Option Nat
  | .node m _ => if (c.op m).isUnpack then some m else none
  | .output _ => none

/-- `unpack_nodes` (tuple_unpack.rs 74-78). -/
def unpacks (c : Circ O) (n : Nat) : List Nat := (targets c n).filterMap (asUnpack c)

/-- Inputs of the boundary of the nodes `R` (`SiblingSubgraph::try_from_nodes`). -/
def subInputs (sig : O → List Ty × List Ty) (c : Circ O) (R : List Nat) : List (Nat × Nat) :=
  R.flatMap (fun m => ((List.range ((c.op m).ins sig).length).filter (fun p =>
    c.graph.any (fun l => l.2 = .node m p && !l.1.inside R))).map (fun p => (m, p)))

/-- Outputs of the boundary of the nodes `R`. -/
def subOutputs (sig : O → List Ty × List Ty) (c : Circ O) (R : List Nat) : List (Nat × Nat) :=
  R.flatMap (fun m => ((List.range ((c.op m).outs sig).length).filter (fun p =>
    c.graph.any (fun l => l.1 = .node m p && !l.2.inside R))).map (fun p => (m, p)))

/-- Where an output of the replacement comes from: one of its inputs or its `MakeTuple`. -/
inductive RSrc where
  | inp (j : Nat)
  | tup

/-- A rewrite: the nodes removed, the boundary, the outputs of the replacement, and whether it
contains a `MakeTuple`. -/
structure Rewrite where
  nodes : List Nat
  ts : List Ty
  inputs : List (Nat × Nat)
  outputs : List (Nat × Nat)
  rep : List RSrc
  pack : Bool

/-- Result of `make_rewrite`. -/
inductive Made where
  | none
  | panic
  | some (r : Rewrite)

/-- The outputs given to the builder of the replacement (tuple_unpack.rs 125-139). `cycle` of no
input gives nothing. -/
def repOutputs (nInputs k u others : Nat) : List RSrc :=
  (if nInputs = 0 then [] else (List.range (k * u)).map (fun i => .inp (i % nInputs))) ++
    List.replicate others .tup

/-- `remove_pack_unpack` (tuple_unpack.rs 94-155). The builder of the replacement fails if the
`MakeTuple` gets a wrong number of inputs or if there is a wrong number of outputs; the
`debug_assert!` (109-123) fails only in the second case (`C76_debug_assert`). -/
def removePackUnpack (sig : O → List Ty × List Ty) (c : Circ O) (ts : List Ty) (n : Nat)
    (us : List Nat) (others : Nat) : Made :=
  let R := us ++ [n]
  let ins := subInputs sig c R
  let outs := subOutputs sig c R
  let rep := repOutputs ins.length ts.length us.length others
  if 0 < others ∧ ins.length ≠ ts.length then .panic
  else if rep.length ≠ outs.length then .panic
  else .some ⟨R, ts, ins, outs, rep, decide (0 < others)⟩

/-- `make_rewrite` (tuple_unpack.rs 42-90). The tests of 70-72 and 80-82 are both that there is no
`UnpackTuple`. -/
def makeRewrite (sig : O → List Ty × List Ty) (c : Circ O) (n : Nat) : Made :=
  match c.op n with
  | .pack ts =>
    let us := unpacks c n
    if us = [] then .none
    else removePackUnpack sig c ts n us ((targets c n).length - us.length)
  | _ => .none

/-- Identifier of the new node. -/
def fresh (c : Circ O) : Nat := c.nodes.foldr max 0 + 1

/-- Source of an input port. -/
def srcOf (c : Circ O) (b : Nat × Nat) : Option Src :=
  (c.graph.find? (fun l => l.2 = .node b.1 b.2)).map (·.1)

/-- Source of an output of the replacement after it was inserted. -/
def resolve (c : Circ O) (r : Rewrite) : RSrc → Option Src
  | .inp j =>
    match r.inputs[j]? with
    | some b => srcOf c b
    | none => none
  | .tup => some (.node (fresh c) 0)

/-- Users outside of an output of the boundary. -/
def users (c : Circ O) (R : List Nat) (b : Nat × Nat) : List Dst :=
  (c.graph.filter (fun l => l.1 = .node b.1 b.2 && !l.2.inside R)).map (·.2)

/-- The links to what used the outputs of the boundary. -/
def outLinks (c : Circ O) (r : Rewrite) : Graph :=
  (r.outputs.zip r.rep).flatMap (fun x =>
    match resolve c r x.2 with
    | some s => (users c r.nodes x.1).map (fun d => (s, d))
    | none => [])

/-- The links to the new `MakeTuple`, whose inputs start with number `j`. -/
def packLinks (c : Circ O) : (j : Nat) → List (Nat × Nat) → Graph
  | _, [] => []
  | j, b :: bs =>
    match srcOf c b with
    | some s => (s, .node (fresh c) j) :: packLinks c (j + 1) bs
    | none => packLinks c (j + 1) bs

/-- `CircuitRewrite::apply` (rewrite.rs 73-80, `SimpleReplacement::apply`). -/
def apply (c : Circ O) (r : Rewrite) : Circ O :=
  { graph := c.graph.filter (fun l => !l.1.inside r.nodes && !l.2.inside r.nodes) ++
      (outLinks c r ++ if r.pack then packLinks c 0 r.inputs else [])
    nodes := c.nodes.filter (fun m => !r.nodes.contains m) ++ if r.pack then [fresh c] else []
    op := fun m => if r.pack ∧ m = fresh c then .pack r.ts else c.op m
    ins := c.ins
    outs := c.outs }

/-- One rewrite found by `find_tuple_unpack_rewrites` (tuple_unpack.rs 21-25) and applied. -/
def Step (sig : O → List Ty × List Ty) (c c' : Circ O) : Prop :=
  ∃ n ∈ c.nodes, ∃ r, makeRewrite sig c n = .some r ∧ c' = apply c r

end Tket.Untuple
