/-!
# Model of the circuit hash

Models `/repo/tket/src/circuit/hash.rs` and `PartialEq for Circuit` (`/repo/tket/src/circuit.rs` 53-63).

The hash functions are parameters: nothing below depends on which one is used. The outer `none` is a panic,
or the recursion bound being exceeded (the recursion follows the hierarchy of the hugr).
-/

namespace Tket.Hash

abbrev U := BitVec 64

/-- The hashers: `fxhash::hash64` of a (predecessor hash, predecessor port, input port) triple, and the
`FxHasher64` fed with the hash of the children, the operation and the inputs (hash.rs 116-141). -/
structure Hasher where
  link : Option U → Nat → Nat → U
  node : Option U → Nat → List U → U

/-- What the hash reads of a hugr. `op` is `hashable_op` (hash.rs 85-104); `links n` lists, for every input
port of `n`, the linked output ports in the order of `linked_ports`; `walk c` is the order in which
`petgraph::visit::Topo` visits the region of `c`. -/
structure Hugr where
  op : Nat → Nat
  kids : Nat → List Nat
  io : Nat → Option (Nat × Nat)
  links : Nat → List (List (Nat × Nat))
  walk : Nat → List Nat

/-- `HashError` (hash.rs 146-155). -/
inductive HashError where
  | cyclicCircuit
  | notADfg
deriving DecidableEq

abbrev Result (α : Type) := Option (Except HashError α)

/-- The combined hash of the links of one input port (hash.rs 131-138). -/
def portHash (h : Hasher) (st : Nat → Option U) (input : Nat) (ls : List (Nat × Nat)) : U :=
  (ls.map (fun l => h.link (st l.1) l.2 input)).foldl (fun total x => x ^^^ total) 0

/-- The value of `hasher.finish()` (hash.rs 113-141). -/
def nodeValue (h : Hasher) (g : Hugr) (st : Nat → Option U) (child : Option U) (n : Nat) : U :=
  h.node child (g.op n) ((g.links n).mapIdx (fun i ls => portHash h st i ls))

/-- `hash_node` (hash.rs 113-142). -/
def hashNode (h : Hasher) (g : Hugr) (rec : Nat → Result U) (st : Nat → Option U) (n : Nat) : Result U :=
  if (g.kids n).isEmpty then some (.ok (nodeValue h g st none n))
  else
    match rec n with
    | none => none
    | some (.error e) => some (.error e)
    | some (.ok c) => some (.ok (nodeValue h g st (some c) n))

/-- The loop of `circuit_hash` (hash.rs 47-53). -/
def hashAll (h : Hasher) (g : Hugr) (rec : Nat → Result U) :
    List Nat → (Nat → Option U) → Result (Nat → Option U)
  | [], st => some (.ok st)
  | n :: ns, st =>
    match hashNode h g rec st n with
    | none => none
    | some (.error e) => some (.error e)
    | some (.ok v) =>
      if (st n).isSome then none
      else hashAll h g rec ns (fun m => if m = n then some v else st m)

/-- `circuit_hash` (hash.rs 39-60). -/
def circuitHash (h : Hasher) (g : Hugr) : (fuel : Nat) → Nat → Result U
  | 0, _ => none
  | fuel + 1, c =>
    match g.io c with
    | none => some (.error .notADfg)
    | some io =>
      match hashAll h g (circuitHash h g fuel) (g.walk c) (fun _ => none) with
      | none => none
      | some (.error e) => some (.error e)
      | some (.ok st) =>
        match st io.2 with
        | none => some (.error .cyclicCircuit)
        | some v => some (.ok v)

/-- `Circuit::eq` (circuit.rs 53-63). -/
def circuitEq (h : Hasher) (fuel : Nat) (g1 : Hugr) (c1 : Nat) (g2 : Hugr) (c2 : Nat) : Option Bool :=
  match circuitHash h g1 fuel c1, circuitHash h g2 fuel c2 with
  | some (.ok a), some (.ok b) => some (a == b)
  | some _, some _ => some false
  | _, _ => none

end Tket.Hash
