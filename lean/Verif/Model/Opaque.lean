/-
Opaque subgraphs that are moved back into the program.

Modelled code: `tket/src/serialize/pytket/opaque/subgraph.rs`, `opaque.rs`, the external part of
`decoder/subgraph.rs`, and `reassemble_inplace` of `circuit.rs`.

Only links between value ports are listed; links of other ports matter for the flag of
`try_from_nodes` only.  The wires that the decoder finds for registers and parameters are given
(`find_typed_wire` is modelled in `Model/Decoder`).
-/
namespace Verif.Opaque

abbrev Node := Nat

/-- An output port of a node. -/
abbrev Wire := Node × Nat

/-- A link from an output port to an input port. -/
structure Link where
  src : Wire
  dst : Node × Nat
deriving DecidableEq

/-- The hierarchy and the links. -/
structure Graph where
  parent : Node → Option Node
  links : List Link

/-- What does not change: signatures of nodes, which nodes contain others, links of static and order
ports. -/
structure Ops (τ : Type) where
  ins : Node → Option (List τ)
  outs : Node → List τ
  hasChildren : Node → Bool
  other : List (Node × Node)

/-- `linked_outputs` -/
def Graph.into (g : Graph) (t : Node × Nat) : List Wire :=
  (g.links.filter fun l => l.dst = t).map Link.src

/-- `linked_inputs` -/
def Graph.outOf (g : Graph) (w : Wire) : List (Node × Nat) :=
  (g.links.filter fun l => l.src = w).map Link.dst

/-- `HugrMut::connect`; a port may get a second link. -/
def Graph.connect (g : Graph) (w : Wire) (t : Node × Nat) : Graph :=
  { g with links := g.links ++ [⟨w, t⟩] }

/-- `HugrMut::disconnect` of an output port: all its links are removed. -/
def Graph.disconnectOut (g : Graph) (w : Wire) : Graph :=
  { g with links := g.links.filter fun l => l.src ≠ w }

/-- `HugrMut::disconnect` of an input port. -/
def Graph.disconnectIn (g : Graph) (t : Node × Nat) : Graph :=
  { g with links := g.links.filter fun l => l.dst ≠ t }

/-- `set_parent` -/
def Graph.setParent (g : Graph) (n p : Node) : Graph :=
  { g with parent := fun x => if x = n then some p else g.parent x }

/-! ### Boundaries -/

/-- Neighbours outside the set in the same region, `subgraph.rs:78-90`. -/
def localNb (g : Graph) (nodes : List Node) (region : Node) (nbs : List Node) : Bool :=
  nbs.any fun n => !nodes.contains n && g.parent n == some region

/-- Neighbours outside the set in other regions. -/
def outerNb (g : Graph) (nodes : List Node) (region : Node) (nbs : List Node) : Bool :=
  nbs.any fun n => !nodes.contains n && g.parent n != some region

/-- `OpaqueSubgraph`, with the types of the signature beside the ports. -/
structure Sub (τ : Type) where
  nodes : List Node
  ins : List (τ × (Node × Nat))
  outs : List (τ × Wire)
  region : Node
  compatible : Bool

/-- Incoming ports of one node at the boundary. -/
def nodeIns {τ : Type} (o : Ops τ) (g : Graph) (nodes : List Node) (region n : Node) :
    List (τ × (Node × Nat)) :=
  match o.ins n with
  | none => []
  | some ts =>
    (ts.zipIdx.filter fun x => localNb g nodes region ((g.into (n, x.2)).map Prod.fst)).map
      fun x => (x.1, (n, x.2))

/-- Outgoing ports of one node at the boundary. -/
def nodeOuts {τ : Type} (o : Ops τ) (g : Graph) (nodes : List Node) (region n : Node) : List (τ × Wire) :=
  match o.ins n with
  | none => []
  | some _ =>
    ((o.outs n).zipIdx.filter fun x => localNb g nodes region ((g.outOf (n, x.2)).map Prod.fst)).map
      fun x => (x.1, (n, x.2))

/-- The contribution of one node to the flag, `subgraph.rs:65-117`. -/
def nodeCompatible {τ : Type} (o : Ops τ) (g : Graph) (nodes : List Node) (region n : Node) : Bool :=
  match o.ins n with
  | none => true
  | some ts =>
    !(((List.range ts.length).any fun p => outerNb g nodes region ((g.into (n, p)).map Prod.fst)) ||
      ((List.range (o.outs n).length).any fun p => outerNb g nodes region ((g.outOf (n, p)).map Prod.fst))) &&
    !o.hasChildren n &&
    !(o.other.any fun l => (l.1 == n && !nodes.contains l.2) || (l.2 == n && !nodes.contains l.1))

/-- `OpaqueSubgraph::try_from_nodes`, `subgraph.rs:46-131`; nodes in ascending order. -/
def tryFromNodes {τ : Type} (o : Ops τ) (g : Graph) (entry : Node) (nodes : List Node) : Sub τ :=
  let region := match nodes with
    | [] => entry
    | n :: _ => match g.parent n with
      | some r => r
      | none => entry
  { nodes := nodes
    ins := nodes.flatMap (nodeIns o g nodes region)
    outs := nodes.flatMap (nodeOuts o g nodes region)
    region := region
    compatible := nodes.all (nodeCompatible o g nodes region) }

/-! ### Tables of subgraphs -/

/-- `SubgraphId` -/
abbrev Id := Nat × Nat

/-- `OpaqueSubgraphs`, `opaque.rs:48-64`. -/
structure Table (α : Type) where
  id : Nat
  next : Nat
  entries : List (Id × α)

/-- `BTreeMap::get` -/
def Table.get {α : Type} (t : Table α) (i : Id) : Option α :=
  match t.entries.find? fun e => e.1 = i with
  | some e => some e.2
  | none => none

/-- `BTreeMap::insert`: replaces. -/
def Table.insert {α : Type} (t : Table α) (i : Id) (a : α) : Table α :=
  { t with entries := (i, a) :: t.entries.filter fun e => e.1 ≠ i }

/-- `OpaqueSubgraphs::new`, `opaque.rs:73-79`. -/
def Table.new {α : Type} (id : Nat) : Table α := ⟨id, 0, []⟩

/-- `register_opaque_subgraph`, `opaque.rs:84-92`. -/
def Table.register {α : Type} (t : Table α) (a : α) : Id × Table α :=
  ((t.id, t.next), { t.insert (t.id, t.next) a with next := t.next + 1 })

/-- `merge`, `opaque.rs:114-116`. -/
def Table.merge {α : Type} (t other : Table α) : Table α :=
  other.entries.foldl (fun t e => t.insert e.1 e.2) t

/-- Registration of some subgraphs by one encoder, with their identifiers. -/
def Table.registerAll {α : Type} (t : Table α) : List α → List (Id × α) × Table α
  | [] => ([], t)
  | a :: as =>
    let r := t.register a
    let q := r.2.registerAll as
    ((r.1, a) :: q.1, q.2)

/-- The tables of all regions, `encode_circuits`, `circuit.rs:291-316`: the encoders have different
numbers and are merged one after the other; `count` is `encoder_count`. -/
def encodeAll {α : Type} (t : Table α) (count : Nat) : List (List α) → List (Id × α) × Table α
  | [] => ([], t)
  | r :: rs =>
    let e := (Table.new (count + 1)).registerAll r
    let q := encodeAll (t.merge e.2) (count + 1) rs
    (e.1 ++ q.1, q.2)

/-! ### Insertion -/

/-- Registers of a type (`RegisterCount`). -/
structure Count where
  qubits : Nat
  bits : Nat
  params : Nat

/-- `type_to_pytket(ty).filter(|c| c.params == 0)`, `decoder/subgraph.rs:181`. -/
def regOut {τ : Type} (count : τ → Option Count) (t : τ) : Option Count :=
  match count t with
  | some c => if c.params = 0 then some c else none
  | none => none

/-- One input, `decoder/subgraph.rs:101-140`: `f` is the wire found, `none` for unsupported types. -/
def rewireInput (oldIn newIn : Node) (g : Graph) (t : Node × Nat) (f : Option Wire) : Graph :=
  match f with
  | some w => g.connect w t
  | none =>
    match g.into t with
    | [w] => if w.1 ≠ oldIn then g else g.connect (newIn, w.2) t
    | _ => g

/-- `rewire_external_subgraph_inputs`, `decoder/subgraph.rs:88-144`; `none` is the panic of `zip_eq`. -/
def rewireInputs {τ : Type} (oldIn newIn : Node) : Graph → List (τ × (Node × Nat)) → List (Option Wire) →
    Option Graph
  | g, [], fs => if fs.isEmpty then some g else none
  | g, x :: xs, fs =>
    fs.head?.bind fun f => rewireInputs oldIn newIn (rewireInput oldIn newIn g x.2 f) xs fs.tail

/-- A wire with its registers (`track_wire`). -/
structure Tracked where
  wire : Wire
  qubits : List Nat
  bits : List Nat

/-- Links of an unsupported output, `decoder/subgraph.rs:204-221`. -/
def rewireUses (oldOut newOut : Node) (w : Wire) : Graph → List (Node × Nat) → Graph
  | g, [] => g
  | g, t :: ts =>
    if t.1 = oldOut then
      rewireUses oldOut newOut w ((g.disconnectIn (oldOut, t.2)).connect w (newOut, t.2)) ts
    else rewireUses oldOut newOut w g ts

/-- `rewire_external_subgraph_outputs`, `decoder/subgraph.rs:152-225`; `none` is the error for missing
registers. -/
def rewireOutputs {τ : Type} (count : τ → Option Count) (oldOut newOut : Node) :
    Graph → List (τ × Wire) → List Nat → List Nat → Option (Graph × List Tracked)
  | g, [], _, _ => some (g, [])
  | g, x :: xs, qs, bs =>
    match regOut count x.1 with
    | some c =>
      if c.qubits ≤ qs.length ∧ c.bits ≤ bs.length then
        (rewireOutputs count oldOut newOut (g.disconnectOut x.2) xs (qs.drop c.qubits) (bs.drop c.bits)).map
          fun r => (r.1, ⟨x.2, qs.take c.qubits, bs.take c.bits⟩ :: r.2)
      else none
    | none =>
      rewireOutputs count oldOut newOut (rewireUses oldOut newOut x.2 g (g.outOf x.2)) xs qs bs

/-- Input and output of the old and of the new region, and the regions. -/
structure Regions where
  oldIn : Node
  oldOut : Node
  newIn : Node
  newOut : Node
  old : Node
  new : Node

/-- `set_parent` of all nodes. -/
def reparent (g : Graph) (p : Node) : List Node → Graph
  | [] => g
  | n :: ns => reparent (g.setParent n p) p ns

/-- `insert_external_subgraph`, `decoder/subgraph.rs:54-82`. -/
def insertExternal {τ : Type} (count : τ → Option Count) (r : Regions) (g : Graph) (s : Sub τ)
    (finds : List (Option Wire)) (qs bs : List Nat) : Option (Graph × List Tracked) :=
  (rewireInputs r.oldIn r.newIn (reparent g r.new s.nodes) s.ins finds).bind fun g =>
    rewireOutputs count r.oldOut r.newOut g s.outs qs bs

/-! ### Reassembly -/

/-- Steps of the decoder: links of new operations, or an opaque subgraph. -/
inductive Event (τ : Type)
  | links (ls : List Link)
  | insert (s : Sub τ) (finds : List (Option Wire)) (qs bs : List Nat)

/-- All steps, `run_decoder` and `finish`. -/
def runEvents {τ : Type} (count : τ → Option Count) (r : Regions) : Graph → List (Event τ) → Option Graph
  | g, [] => some g
  | g, .links ls :: es => runEvents count r { g with links := g.links ++ ls } es
  | g, .insert s fs qs bs :: es =>
    (insertExternal count r g s fs qs bs).bind fun x => runEvents count r x.1 es

/-- Links of the old input to nested regions, `circuit.rs:196-217`. -/
def moveInputs (r : Regions) (g : Graph) : Graph :=
  { g with links := g.links ++ ((g.links.filter fun l =>
      l.src.1 = r.oldIn ∧ g.parent l.dst.1 ≠ some r.old ∧ g.parent l.dst.1 ≠ some r.new).map
        fun l => ⟨(r.newIn, l.src.2), l.dst⟩) }

/-- `remove_subtree` of what is left of the old region, `circuit.rs:223-225`; `inside n` are the regions
around `n`, including itself. -/
def removeOld (inside : Node → List Node) (r : Regions) (g : Graph) : Graph :=
  let gone : Node → Bool := fun n => (inside n).any fun x => g.parent x == some r.old
  { g with links := g.links.filter fun l => !gone l.src.1 && !gone l.dst.1 }

/-- One round of `reassemble_inplace`, `circuit.rs:166-231`. -/
def reassemble {τ : Type} (count : τ → Option Count) (inside : Node → List Node) (r : Regions) (g : Graph)
    (es : List (Event τ)) : Option Graph :=
  (runEvents count r g es).map fun g => removeOld inside r (moveInputs r g)

end Verif.Opaque
