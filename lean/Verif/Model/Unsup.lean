/-
Connected components of operations that pytket cannot represent. Modelled after
`tket/src/serialize/pytket/encoder/unsupported_tracker.rs` and the calls of it in
`tket/src/serialize/pytket/encoder.rs:186-245, 300-323, 584-613, 856-942`.
-/
namespace Verif.Unsup

abbrev Node := Nat

/-- A region as the encoder sees it: `order` is the traversal of the nodes of the region
(`petgraph::visit::Topo`), `preds` are the `input_neighbours` (over links of any kind), `values` those of
them on value and static ports, `supported` tells whether some encoder accepts the node, `requests` are
the sources of the wires whose values the encoder of the node asks for, in order, and `constant` is the
first constant of the module loaded by the node that cannot be encoded
(`encode_nonlocal_inputs`, `encoder.rs:961-1006`). -/
structure Region where
  order : List Node
  preds : Node → List Node
  values : Node → List Node
  supported : Node → Bool
  requests : Node → List Node
  constant : Node → Option Node

/-- `UnsupportedTracker`, `unsupported_tracker.rs:19-30`. The union-find of `petgraph` is the function from
a set to its representative. -/
structure Tracker where
  nodes : List (Node × Nat)
  count : Nat
  rep : Nat → Nat

/-- `UnsupportedTracker::new`, `unsupported_tracker.rs:45-51`. -/
def Tracker.new : Tracker := ⟨[], 0, fun i => i⟩

/-- `HashMap::get` -/
def Tracker.get (t : Tracker) (n : Node) : Option Nat := (t.nodes.find? fun x => x.1 = n).map Prod.snd

/-- `UnionFind::union`: afterwards the sets of `a` and `b` are one. -/
def union (rep : Nat → Nat) (a b : Nat) : Nat → Nat := fun i => if rep i = rep b then rep a else rep i

/-- The loop of `record_node`, `unsupported_tracker.rs:67-72`. -/
def unions (nodes : List (Node × Nat)) (comp : Nat) (rep : Nat → Nat) : List Node → Nat → Nat
  | [] => rep
  | p :: ps =>
    match (nodes.find? fun x => x.1 = p).map Prod.snd with
    | some c => unions nodes comp (union rep c comp) ps
    | none => unions nodes comp rep ps

/-- `record_node`, `unsupported_tracker.rs:59-73`; `new_set` is the next number, and inserting a node again
replaces its entry. -/
def Tracker.record (t : Tracker) (preds : List Node) (n : Node) : Tracker :=
  let nodes := (n, t.count) :: t.nodes.filter fun x => x.1 ≠ n
  ⟨nodes, t.count + 1, unions nodes t.count (fun i => if i = t.count then i else t.rep i) preds⟩

/-- `extract_component`, `unsupported_tracker.rs:81-108`: the nodes of the set, which are removed; `none` if
the node is not tracked (a panic). The order of the nodes, a `BTreeSet` in the code, is left open. -/
def Tracker.extract (t : Tracker) (n : Node) : Option (List Node × Tracker) :=
  (t.get n).map fun c =>
    let same := fun x : Node × Nat => x.1 = n ∨ t.rep x.2 = t.rep c
    ((t.nodes.filter fun x => same x).map Prod.fst, { t with nodes := t.nodes.filter fun x => ¬ same x })

/-- What is encoded in one go: an operation, or a subgraph. -/
inductive Item
  | op (n : Node)
  | group (k : List Node)
deriving DecidableEq

/-- The tracker and what was encoded so far. -/
structure State where
  tracker : Tracker
  emitted : List Item

/-- `get_wire_values` for a wire of the node, `encoder.rs:300-323`, with `emit_unsupported`, which asks for the
values of the incoming ports of the subgraph before the command is added, `encoder.rs:600-613`. Each
extraction removes a node from the tracker; `fuel` is the number of nodes in the tracker, and with none
left nothing is to be done. -/
def request (r : Region) : Nat → State → Node → State
  | 0, s, _ => s
  | fuel + 1, s, n =>
    match s.tracker.extract n with
    | none => s
    | some (k, t) =>
      let s' := ((k.flatMap r.values).filter fun a => !k.contains a).foldl (request r fuel) { s with tracker := t }
      { s' with emitted := s'.emitted ++ [.group k] }

/-- `get_wire_values` -/
def ask (r : Region) (s : State) (n : Node) : State := request r s.tracker.nodes.length s n

/-- `try_encode_node`, `encoder.rs:856-942`. An encoder may ask for values before it gives up. -/
def visit (r : Region) (s : State) (n : Node) : State :=
  match r.constant n with
  | some c => { s with tracker := (s.tracker.record (r.preds c) c).record (r.preds n) n }
  | none =>
    let s := (r.requests n).foldl (ask r) s
    if r.supported n then { s with emitted := s.emitted ++ [.op n] }
    else { s with tracker := s.tracker.record (r.preds n) n }

/-- `run_encoder`, `encoder.rs:186-212`. -/
def run (r : Region) : State := r.order.foldl (visit r) ⟨.new, []⟩

/-- The loop of `finish`, `encoder.rs:229-245`; `pick` is the first node of the hash map. -/
def finish (r : Region) (pick : List Node → Node) : Nat → State → State
  | 0, s => s
  | fuel + 1, s =>
    if s.tracker.nodes.isEmpty then s
    else finish r pick fuel (ask r s (pick (s.tracker.nodes.map Prod.fst)))

/-- All that is encoded, in order. -/
def encoded (r : Region) (pick : List Node → Node) : List Item :=
  (finish r pick (run r).tracker.nodes.length (run r)).emitted

end Verif.Unsup
