import Verif.Model.Modifier

/-!
# Edges of modified regions

Model of `connect_all`, `connect`, `add_node_no_modification`, `forget_node`
(`tket/src/modifier/modifier_resolver.rs` 193-210, 524-559, 603-632), of the modification of array
operations (`modifier_resolver/array_modify.rs` 63-89) and of the ways in which `modify_op` and
`modify_extension_op` register ports (modifier_resolver.rs 717-787, 944-1005).

When the operations of a region have been modified, `corresp_map` says for each of their ports which ports
of the new region correspond to it, and `connect_all` makes the new edges.

Simplifications: the gates that replace an operation are one node with the same number, and there is one
table for each node instead of one for the region. The input and output nodes are one node: its outputs
are the inputs of the region and its inputs are the outputs of the region (`modify_in_out_node` for
functions and `DFG` nodes, dfg_modify.rs 93-117). Order edges are not in the graph: `connect_all` leaves
them out. The signature of the new node is given.
-/

namespace Tket.RegionWiring

open Tket.Modifier (Ty Sig Dir Port wireInout)

/-- Ways to register the ports of an operation. -/
inductive Kind where
  /-- `add_node_no_modification`: each port is itself. -/
  | copy
  /-- `wire_node_inout` with the given signature and offsets. -/
  | wires (s : Sig) (inOff outOff newOff : Nat)
  /-- `port_vector_dagger` with the quantum ports (561-573): gates. -/
  | gate
  /-- All ports are reversed: array operations under dagger. -/
  | reverse
  /-- `forget_node`: no port corresponds. -/
  | forget
  /-- Nothing is registered (`modify_load_function`). -/
  | nothing

/-- An operation: how its ports are registered, its signature and the signature of the node that replaces
it. -/
structure Op where
  kind : Kind
  sig : Sig
  new : Sig

/-- The other direction (`DirWire::reverse`, 151-158). -/
def flip (p : Port) : Port :=
  { p with dir := match p.dir with | .inc => .out | .out => .inc }

/-- The type of a port. -/
def Op.ty (o : Op) (p : Port) : Option Ty :=
  match p.dir with
  | .inc => o.sig.input[p.idx]?
  | .out => o.sig.output[p.idx]?

/-- The ports registered for an operation. -/
def Op.corresp (dagger : Bool) (o : Op) (p : Port) : Option (List Port) :=
  match o.kind with
  | .copy => (o.ty p).map fun _ => [p]
  | .wires s a b n =>
    match wireInout dagger s a b n with
    | .ok m => (m.find? (fun e => e.1 = p)).map fun e => [e.2]
    | .error _ => none
  | .gate => (o.ty p).map fun t => [if dagger && t.isQ then flip p else p]
  | .reverse => (o.ty p).map fun _ => [flip p]
  | .forget => (o.ty p).map fun _ => []
  | .nothing => none

/-- An edge of the old graph. -/
structure Edge where
  src : Nat
  sport : Nat
  dst : Nat
  dport : Nat
  deriving DecidableEq

/-- A port of a new node. -/
structure End where
  node : Nat
  port : Port
  deriving DecidableEq

/-- Errors: `noCorrespondence` and `sameDirection` are `ModifierResolverErrors::Unreachable`. -/
inductive Err where
  | noCorrespondence (node : Nat) (p : Port)
  | sameDirection
  deriving DecidableEq

/-- A region: its children and their operations. The edges are those of the whole program. -/
structure Region where
  children : List Nat
  op : Nat → Op
  edges : List Edge

/-- `map_get` (524-531): the ports registered for a child of the region. -/
def Region.get (r : Region) (dagger : Bool) (n : Nat) (p : Port) : Option (List End) :=
  if n ∈ r.children then ((r.op n).corresp dagger p).map (fun l => l.map (End.mk n)) else none

/-- `connect` (193-210): the edge, output first. -/
def connect (a b : End) : Except Err (End × End) :=
  match a.port.dir, b.port.dir with
  | .out, .inc => .ok (a, b)
  | .inc, .out => .ok (b, a)
  | _, _ => .error .sameDirection

/-- A loop that stops with the first error. -/
def collect {α β : Type} (f : α → Except Err (List β)) : List α → Except Err (List β)
  | [] => .ok []
  | a :: l =>
    match f a with
    | .error e => .error e
    | .ok x =>
      match collect f l with
      | .error e => .error e
      | .ok y => .ok (x ++ y)

/-- The body of the loop of `connect_all` for one edge (622-628): nothing is looked up for the output if
no port corresponds to the input. -/
def connectEdge (r : Region) (dagger : Bool) (e : Edge) : Except Err (List (End × End)) :=
  match r.get dagger e.dst ⟨.inc, e.dport⟩ with
  | none => .error (.noCorrespondence e.dst ⟨.inc, e.dport⟩)
  | some as =>
    collect (fun a =>
      match r.get dagger e.src ⟨.out, e.sport⟩ with
      | none => .error (.noCorrespondence e.src ⟨.out, e.sport⟩)
      | some bs => collect (fun b =>
          match connect a b with
          | .error e => .error e
          | .ok x => .ok [x]) bs) as

/-- `connect_all` (604-632). -/
def connectAll (r : Region) (dagger : Bool) : Except Err (List (End × End)) :=
  collect (connectEdge r dagger) (r.children.flatMap fun n => r.edges.filter (fun e => e.src = n))

/-- Operations on arrays, as far as they are told apart (`GenericArrayOpDef`). -/
inductive ArrayDef where
  | newArray
  | unpack
  | swap
  | other (s : Sig)

/-- The signatures of array operations, for arrays of type `arr` of `n` elements of type `elem`; `int` is the
type of indices, `res` the type of the result of `swap`, one of two arrays. -/
def ArrayDef.sig (arr elem int res : Ty) (n : Nat) : ArrayDef → Sig
  | .newArray => ⟨List.replicate n elem, [arr]⟩
  | .unpack => ⟨[arr], List.replicate n elem⟩
  | .swap => ⟨[arr, int, int], [res]⟩
  | .other s => s

/-- `generic_modify_array_op` (array_modify.rs 63-89); `none` for `unimplemented!`. -/
def arrayOp (dagger : Bool) (arr elem int res : Ty) (n : Nat) (d : ArrayDef) : Option Op :=
  let sig := ArrayDef.sig arr elem int res n
  if !dagger then some ⟨.copy, sig d, sig d⟩
  else
    match d with
    | .swap => some ⟨.reverse, sig d, sig .swap⟩
    | .newArray => some ⟨.reverse, sig d, sig .unpack⟩
    | .unpack => some ⟨.reverse, sig d, sig .newArray⟩
    | .other _ => none

end Tket.RegionWiring
