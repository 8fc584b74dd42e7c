/-
Patterns and their matches.

Modelled code: `tket/src/portmatching.rs`, `tket/src/portmatching/pattern.rs` and the predicates of
`tket/src/portmatching/matcher.rs`.

A circuit is the dataflow graph of its region: the operation of every node and the ports that feed its
inputs.  All nodes, also the input and the output node and constants outside the region, have a number.
Every input port is connected, as in a valid HUGR, so that the panics `NoLinkedEdge` and
`does not have a single neighbour` do not occur.  The external crate `portmatching` is modelled from
its documentation: it chooses a root and an order of the edges, and follows the edges from the root.
-/
namespace Verif.Matching

/-- Kinds of input ports: linear and copyable values, constants, functions. -/
inductive Kind
  | linear
  | copy
  | const
  | func
deriving DecidableEq

/-- `MatchOp`, `matcher.rs:25-66`: the name and the encoding of an operation without its nested
region.  The encoding determines the signature, in particular the kinds of the input ports (values,
then the static port). -/
structure Op where
  name : Nat
  kinds : List Kind
deriving DecidableEq

/-- Circuits. -/
structure Circ where
  /-- The operation of a node. -/
  op : Nat → Op
  /-- The nested region of a node, or the function that it calls. -/
  content : Nat → Nat
  /-- The output ports that feed the inputs of a node. -/
  ins : Nat → List (Nat × Nat)
  /-- The commands in their order. -/
  cmds : List Nat
  /-- All nodes with inputs: commands, the output node, and others. -/
  members : List Nat
  /-- The input node and the output node. -/
  inp : Nat
  out : Nat
  numInputs : Nat
  /-- `num_operations`, which counts the operations of all functions of the module. -/
  numOps : Nat

/-- Ports. -/
inductive Port
  | inc (k : Nat)
  | outg (p : Nat)
deriving DecidableEq

/-- The inputs of a node that are fed by the output port. -/
def fedPorts (s : Nat × Nat) (m : Nat) : Nat → List (Nat × Nat) → List (Nat × Nat)
  | _, [] => []
  | k, x :: xs => if x = s then (m, k) :: fedPorts s m (k + 1) xs else fedPorts s m (k + 1) xs

/-- Consumers of an output port. -/
def consumers (c : Circ) (n p : Nat) : List (Nat × Nat) :=
  c.members.flatMap fun m => fedPorts (n, p) m 0 (c.ins m)

/-- `linked_ports`. -/
def linked (c : Circ) (n : Nat) : Port → List (Nat × Port)
  | .inc k =>
    match (c.ins n)[k]? with
    | some (m, p) => [(m, .outg p)]
    | none => []
  | .outg p => (consumers c n p).map fun x => (x.1, .inc x.2)

/-- `PEdge`, `portmatching.rs:79-100`. -/
inductive PEdge
  | internal (src dst : Port) (rev : Bool)
  | input (src : Port)
deriving DecidableEq

/-- `PEdge::reverse`, `portmatching.rs:155-168`. -/
def PEdge.reverse : PEdge → Option PEdge
  | .internal src dst rev => if rev then some (.internal dst src rev) else none
  | .input _ => none

/-- `PEdge::try_from_port` for an input port, `portmatching.rs:117-149`; `none` is the panic of
`unwrap_or_else` in `pattern.rs:43-44`. -/
def tryFromPort (c : Circ) (n k : Nat) : Option PEdge :=
  match (c.ins n)[k]? with
  | none => none
  | some (m, p) =>
    if m = c.inp then some (.input (.inc k))
    else match (c.op n).kinds[k]? with
      | some .linear => some (.internal (.inc k) (.outg p) true)
      | some .copy => some (.internal (.inc k) (.outg p) false)
      | some .const => some (.internal (.inc k) (.outg p) false)
      | _ => none

/-- `NodeID`, `portmatching.rs:184-195`. -/
inductive NodeID
  | node (n : Nat)
  | copy (n p : Nat)
deriving DecidableEq

/-- Edges of a pattern. -/
structure Edge where
  src : NodeID
  dst : NodeID
  prop : PEdge
deriving DecidableEq

/-- The edge followed backwards. -/
def Edge.reverse (e : Edge) : Option Edge :=
  e.prop.reverse.map fun p => ⟨e.dst, e.src, p⟩

/-- Patterns: operations that nodes must have, and edges. -/
structure Pattern where
  requires : List (Nat × Op)
  edges : List Edge

/-- The edge of an input port, `pattern.rs:41-58`. -/
def edgeOf (c : Circ) (n k : Nat) : Option Edge :=
  (tryFromPort c n k).bind fun e => ((c.ins n)[k]?).map fun s =>
    match e with
    | .internal .. => ⟨.node n, .node s.1, e⟩
    | .input _ => ⟨.node n, .copy s.1 s.2, e⟩

/-- The edges of several input ports. -/
def edgesOf (c : Circ) (n : Nat) : List Nat → Option (List Edge)
  | [] => some []
  | k :: ks => (edgeOf c n k).bind fun e => (edgesOf c n ks).map (e :: ·)

/-- The loop over the commands, `pattern.rs:38-60`. -/
def addCmds (c : Circ) : List Nat → Option Pattern
  | [] => some ⟨[], []⟩
  | n :: ns =>
    (edgesOf c n (List.range (c.op n).kinds.length)).bind fun es =>
      (addCmds c ns).map fun p => ⟨(n, c.op n) :: p.requires, es ++ p.edges⟩

/-- A root and the edges in the order in which they are followed. -/
structure Walk where
  root : Nat
  edges : List Edge

/-- A pattern with its boundary, `pattern.rs:17-24`. -/
structure CPattern where
  pattern : Pattern
  walk : Walk
  inputs : List (List (Nat × Nat))
  outputs : List (Nat × Nat)

/-- Outcome of `try_from_circuit`. -/
inductive Outcome
  | ok (p : CPattern)
  | emptyCircuit
  | notConnected
  | emptyWire
  | panic

/-- `try_from_circuit`, `pattern.rs:33-100`; `choose` is the choice of a root and an order of the
edges by `set_any_root` and `is_valid`. -/
def tryFromCircuit (choose : Pattern → Option Walk) (c : Circ) : Outcome :=
  if c.numOps = 0 then .emptyCircuit
  else match addCmds c c.cmds with
    | none => .panic
    | some p =>
      match choose p with
      | none => .notConnected
      | some w =>
        let inputs := (List.range c.numInputs).map fun i => consumers c c.inp i
        if inputs.flatten.any fun x => x.1 = c.out then .emptyWire
        else .ok ⟨p, w, inputs, c.ins c.out⟩

/-- `validate_circuit_edge`, `matcher.rs:437-460`. -/
def validateEdge (c : Circ) (s : NodeID) (e : PEdge) : Option NodeID :=
  match s with
  | .copy .. => none
  | .node n =>
    match e with
    | .internal src dst _ =>
      match linked c n src with
      | [(m, q)] => if dst = q then some (.node m) else none
      | _ => none
    | .input src =>
      match linked c n src with
      | [(m, .outg p)] => some (.copy m p)
      | _ => none

/-- `validate_circuit_node`, `matcher.rs:463-472`. -/
def validateNode (c : Circ) (s : NodeID) (o : Op) : Bool :=
  match s with
  | .copy .. => false
  | .node n => c.op n = o

/-- Maps from nodes of the pattern to nodes of the circuit. -/
abbrev Map := List (NodeID × NodeID)

/-- The value of a key. -/
def lookup : Map → NodeID → Option NodeID
  | [], _ => none
  | (k, v) :: m, x => if k = x then some v else lookup m x

/-- Some key has the value. -/
def hasValue (m : Map) (v : NodeID) : Bool := m.any fun x => x.2 = v

/-- Following one edge (external crate): the target must agree with an earlier visit, or be new on
both sides. -/
def follow (c : Circ) (m : Map) (e : Edge) : Option Map :=
  (lookup m e.src).bind fun s => (validateEdge c s e.prop).bind fun v =>
    match lookup m e.dst with
    | some v' => if v' = v then some m else none
    | none => if hasValue m v then none else some ((e.dst, v) :: m)

/-- Following all edges. -/
def followAll (c : Circ) : Map → List Edge → Option Map
  | m, [] => some m
  | m, e :: es => (follow c m e).bind fun m => followAll c m es

/-- `SinglePatternMatcher::get_match_map` (external) with the predicates of
`pattern.rs:103-116`. -/
def matchAll (c : Circ) (p : CPattern) (root : Nat) : Option Map :=
  (followAll c [(.node p.walk.root, .node root)] p.walk.edges).bind fun m =>
    if p.pattern.requires.all fun r =>
        match lookup m (.node r.1) with
        | some v => validateNode c v r.2
        | none => false
    then some m else none

/-- Only the nodes, `pattern.rs:116-126`: copies are left out; a node with a copy is the panic
`Invalid match map`, here `none`. -/
def onlyNodes : Map → Option (List (Nat × Nat))
  | [] => some []
  | (.node n, .node v) :: m => (onlyNodes m).map ((n, v) :: ·)
  | (.copy .., .copy ..) :: m => onlyNodes m
  | _ => none

/-- Outcome of `get_match_map`. -/
inductive MatchRes
  | found (m : List (Nat × Nat))
  | none
  | panic
deriving DecidableEq

/-- `get_match_map`, `pattern.rs:103-128`. -/
def getMatchMap (c : Circ) (p : CPattern) (root : Nat) : MatchRes :=
  match matchAll c p root with
  | Option.none => .none
  | some m =>
    match onlyNodes m with
    | some l => .found l
    | Option.none => .panic

/-- `map[n]`. -/
def nodeAt : List (Nat × Nat) → Nat → Option Nat
  | [], _ => none
  | (k, v) :: m, n => if k = n then some v else nodeAt m n

/-- The ports with their nodes replaced; `none` is the panic of `map[n]`. -/
def mapPorts (m : List (Nat × Nat)) : List (Nat × Nat) → Option (List (Nat × Nat))
  | [] => some []
  | (n, p) :: l => (nodeAt m n).bind fun v => (mapPorts m l).map ((v, p) :: ·)

/-- The same for the ports of all inputs. -/
def mapInputs (m : List (Nat × Nat)) : List (List (Nat × Nat)) → Option (List (List (Nat × Nat)))
  | [] => some []
  | l :: ls => (mapPorts m l).bind fun x => (mapInputs m ls).map (x :: ·)

/-- The boundary of a match, `try_from_root_match_with_checker`, `matcher.rs:141-160`. -/
def boundary (m : List (Nat × Nat)) (p : CPattern) :
    Option (List (List (Nat × Nat)) × List (Nat × Nat)) :=
  (mapInputs m p.inputs).bind fun i => (mapPorts m p.outputs).map fun o => (i, o)

end Verif.Matching
