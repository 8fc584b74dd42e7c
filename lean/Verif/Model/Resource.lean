import Mathlib.Data.List.Basic

/-!
# Resource tracking

Model of `/repo/tket/src/resource/{types,flow,scope}.rs`.

A region of a HUGR is given by its nodes, their dataflow signatures and the value links between
their ports.  `none` stands for a panic.

Simplifications:
* Positions are integer valued during the construction of a scope (`Position::increment` adds 1 to
  a default of 0), so natural numbers replace `Rational64`; overflow of `i64` is not modelled.
* The sentinel `Resource(usize::MAX)` (`types.rs:107-114`) is a constructor of its own, i.e. the
  identifier `usize::MAX` is never allocated.
* The topological order computed by `portgraph` (`scope.rs:590-615`) is a parameter.
-/

namespace Verif.Resource

/-- The direction of a port. -/
inductive Dir
  | inc
  | out
  deriving DecidableEq, Repr

/-- `Direction::reverse`. -/
def Dir.reverse : Dir → Dir
  | .inc => .out
  | .out => .inc

/-- A port of a node. -/
structure Port where
  node : Nat
  dir : Dir
  idx : Nat
  deriving DecidableEq, Repr

/-- The part of a HUGR which a `ResourceScope` looks at: the nodes of the subgraph, the dataflow
signatures (`none` for other operations), `HugrView::linked_inputs`,
`HugrView::single_linked_output`, and the flattened incoming ports of the `SiblingSubgraph`. -/
structure Region (T : Type) where
  copyable : T → Bool
  nodes : List Nat
  sig : Nat → Option (List T × List T)
  linked : Nat → Nat → List (Nat × Nat)
  source : Nat → Nat → Option (Nat × Nat)
  incoming : List (Nat × Nat)

/-- `CircuitUnit` (`types.rs:70-79`). A wire is given by its outgoing port. -/
inductive CUnit
  | res (id : Nat)
  | copy (node port : Nat)
  | sentinel
  deriving DecidableEq, Repr

/-- `CircuitUnit::as_resource` (`types.rs:92-97`). -/
def CUnit.asRes : CUnit → Option Nat
  | .res i => some i
  | _ => none

/-- `NodeCircuitUnits` (`scope.rs:45-51`) with its `PortMap` (`types.rs:117-126`): one vector for the
incoming and the outgoing ports. -/
structure NodeUnits where
  vec : List CUnit
  numIn : Nat
  pos : Nat
  deriving DecidableEq, Repr

/-- `PortMap::index` (`types.rs:151-157`); an incoming port is not checked against the number of
inputs. -/
def NodeUnits.index (u : NodeUnits) (d : Dir) (i : Nat) : Nat :=
  match d with
  | .inc => i
  | .out => u.numIn + i

/-- `PortMap::get` (`types.rs:159-163`). -/
def NodeUnits.get (u : NodeUnits) (d : Dir) (i : Nat) : Option CUnit := u.vec[u.index d i]?

/-- `PortMap::get_slice` (`types.rs:165-170`). -/
def NodeUnits.slice (u : NodeUnits) (d : Dir) : List CUnit :=
  match d with
  | .inc => u.vec.take u.numIn
  | .out => u.vec.drop u.numIn

/-- `PortMap::set` (`types.rs:172-176`). -/
def NodeUnits.set (u : NodeUnits) (d : Dir) (i : Nat) (c : CUnit) : Option NodeUnits :=
  if u.index d i < u.vec.length then some { u with vec := u.vec.set (u.index d i) c } else none

/-- The map `circuit_units` and the state of the allocator. -/
structure St where
  units : Nat → Option NodeUnits
  next : Nat

/-- Writing an entry of `circuit_units`. -/
def St.put (st : St) (n : Nat) (u : NodeUnits) : St :=
  { st with units := fun m => if m = n then some u else st.units m }

variable {T : Type}

/-- The type of a port: `Signature::port_type`. -/
def Region.type? (r : Region T) (n : Nat) (d : Dir) (i : Nat) : Option T :=
  match r.sig n with
  | none => none
  | some (ins, outs) =>
    match d with
    | .inc => ins[i]?
    | .out => outs[i]?

/-- `node_circuit_units_mut` (`scope.rs:542-560`): the entry of a node, created if needed. -/
def entry (r : Region T) (st : St) (n : Nat) : Option NodeUnits :=
  match st.units n with
  | some u => some u
  | none =>
    match r.sig n with
    | none => none
    | some (ins, outs) =>
      some ⟨List.replicate (ins.length + outs.length) .sentinel, ins.length, 0⟩

/-- `Wire::from_connected_port` of hugr: the wire at a port. -/
def connectedWire (r : Region T) (n : Nat) (d : Dir) (i : Nat) : Option (Nat × Nat) :=
  match d with
  | .out => some (n, i)
  | .inc => r.source n i

/-- `CircuitUnitAllocator::allocate_circuit_unit` (`scope.rs:571-588`). -/
def allocUnit (r : Region T) (next n : Nat) (d : Dir) (i : Nat) : Option (CUnit × Nat) :=
  match r.type? n d i with
  | none => none
  | some t =>
    if r.copyable t then
      match connectedWire r n d i with
      | none => none
      | some (m, p) => some (.copy m p, next)
    else some (.res next, next + 1)

/-- `assign_circuit_units` (`scope.rs:416-432`). -/
def assignUnits (r : Region T) : List (Nat × Nat) → St → Option St
  | [], st => some st
  | (n, p) :: ps, st =>
    match allocUnit r st.next n .inc p with
    | none => none
    | some (c, next) =>
      match entry r st n with
      | none => assignUnits r ps { st with next := next }
      | some u =>
        match u.set .inc p c with
        | none => none
        | some u' => assignUnits r ps (St.put { st with next := next } n u')

/-- The input ports without a unit (`scope.rs:444-448`). -/
def missing (st : St) (n : Nat) (nIn : Nat) : Option (List Nat) :=
  match st.units n with
  | none => some (List.range nIn)
  | some u =>
    if nIn ≤ u.vec.length then
      some ((List.range nIn).filter fun p => u.get .inc p = some .sentinel)
    else none

/-- `assign_missing_circuit_units` (`scope.rs:434-451`). -/
def assignMissing (r : Region T) (n : Nat) (st : St) : Option St :=
  match r.sig n with
  | none => some st
  | some (ins, _) =>
    match missing st n ins.length with
    | none => none
    | some ps => assignUnits r (ps.map fun p => (n, p)) st

/-- A `ResourceFlow` (`flow.rs:18-66`): `map_resources` for a node and the resources at its inputs;
`none` is `Err(UnsupportedOp)`. -/
abbrev Flow := Nat → List (Option Nat) → Option (List (Option Nat))

/-- `flows.iter().find_map(..)` (`scope.rs:486-489`). -/
def firstFlow : List Flow → Nat → List (Option Nat) → Option (List (Option Nat))
  | [], _, _ => none
  | f :: fs, n, ins =>
    match f n ins with
    | some out => some out
    | none => firstFlow fs n ins

variable [DecidableEq T] in
/-- `DefaultResourceFlow::is_resource_preserving` (`flow.rs:96-125`). -/
def preserving (cp : T → Bool) : List T → List T → Bool
  | [], outs => outs.all cp
  | a :: ins, [] => cp a && preserving cp ins []
  | a :: ins, b :: outs =>
    (if !cp a || !cp b then decide (a = b) else true) && preserving cp ins outs

/-- `retain_linear_types` (`flow.rs:154-165`). -/
def retainLinear (cp : T → Bool) : List (Option Nat) → List T → List (Option Nat)
  | _, [] => []
  | [], _ :: ts => none :: retainLinear cp [] ts
  | x :: xs, t :: ts => (if cp t then none else x) :: retainLinear cp xs ts

variable [DecidableEq T] in
/-- `DefaultResourceFlow::map_resources` (`flow.rs:127-152`). -/
def defaultFlow (r : Region T) : Flow := fun n ins =>
  match r.sig n with
  | none => none
  | some (it, ot) =>
    if preserving r.copyable it ot then some (retainLinear r.copyable ins ot)
    else some (List.replicate ot.length none)

/-- The unit for an output (`scope.rs:499-508`). -/
def outUnit (r : Region T) (n : Nat) (res : List (Option Nat)) (outRes : List (Option Nat))
    (u : NodeUnits) (next o : Nat) : Option (CUnit × Nat) :=
  match (outRes[o]?).join with
  | some id =>
    match res.findIdx? (fun x => x = some id) with
    | none => none
    | some i => (u.get .inc i).map fun c => (c, next)
  | none => allocUnit r next n .out o

/-- The loop over the outputs (`scope.rs:498-510`). -/
def setOutputs (r : Region T) (n : Nat) (res outRes : List (Option Nat)) :
    List Nat → NodeUnits → Nat → Option (NodeUnits × Nat)
  | [], u, next => some (u, next)
  | o :: os, u, next =>
    match outUnit r n res outRes u next o with
    | none => none
    | some (c, next') =>
      match u.set .out o c with
      | none => none
      | some u' => setOutputs r n res outRes os u' next'

/-- `propagate_to_outputs` (`scope.rs:467-511`). -/
def propagateOut (r : Region T) (flows : List Flow) (n : Nat) (st : St) : Option St :=
  match entry r st n with
  | none => some st
  | some u =>
    let res := (u.slice .inc).map CUnit.asRes
    match firstFlow flows n res, r.sig n with
    | some outRes, some (_, outs) =>
      match setOutputs r n res outRes (List.range outs.length) u st.next with
      | none => none
      | some (u', next) => some (St.put { st with next := next } n u')
    | _, _ => none

/-- The inner loop of `propagate_to_next_inputs` (`scope.rs:526-537`). -/
def pushAll (r : Region T) (c : CUnit) (pos : Nat) : List (Nat × Nat) → St → Option St
  | [], st => some st
  | (m, q) :: ls, st =>
    if m ∈ r.nodes then
      match entry r st m with
      | none => pushAll r c pos ls st
      | some u =>
        match u.set .inc q c with
        | none => none
        | some u' => pushAll r c pos ls (st.put m { u' with pos := max u'.pos (pos + 1) })
    else pushAll r c pos ls st

/-- The outer loop of `propagate_to_next_inputs` (`scope.rs:521-538`). -/
def pushOutputs (r : Region T) (n pos : Nat) : List Nat → St → Option St
  | [], st => some st
  | o :: os, st =>
    match (st.units n).bind fun u => u.get .out o with
    | none => none
    | some c =>
      match pushAll r c pos (r.linked n o) st with
      | none => none
      | some st' => pushOutputs r n pos os st'

/-- `propagate_to_next_inputs` (`scope.rs:513-539`). -/
def propagateNext (r : Region T) (n : Nat) (st : St) : Option St :=
  match r.sig n with
  | none => some st
  | some (_, outs) =>
    match st.units n with
    | none => none
    | some u => pushOutputs r n u.pos (List.range outs.length) st

/-- The body of the main loop (`scope.rs:409-413`). -/
def stepNode (r : Region T) (flows : List Flow) (n : Nat) (st : St) : Option St :=
  match assignMissing r n st with
  | none => none
  | some st1 =>
    match propagateOut r flows n st1 with
    | none => none
    | some st2 => propagateNext r n st2

def runNodes (r : Region T) (flows : List Flow) : List Nat → St → Option St
  | [], st => some st
  | n :: ns, st =>
    match stepNode r flows n st with
    | none => none
    | some st' => runNodes r flows ns st'

/-- `compute_circuit_units` (`scope.rs:387-414`), for the topological order `order`. -/
def compute (r : Region T) (flows : List Flow) (order : List Nat) : Option St :=
  match assignUnits r r.incoming ⟨fun _ => none, 0⟩ with
  | none => none
  | some st => runNodes r flows order st

variable [DecidableEq T] in
/-- `ResourceScope::new`: the default flow (`scope.rs:94-98`, `scope.rs:74-80`). -/
def scopeNew (r : Region T) (order : List Nat) : Option St :=
  compute r [defaultFlow r] order

/-! ### Queries -/

/-- `get_circuit_unit` (`scope.rs:153-161`): the outer `none` is a panic. -/
def St.getUnit (st : St) (n : Nat) (d : Dir) (i : Nat) : Option (Option CUnit) :=
  match st.units n with
  | none => some none
  | some u => (u.get d i).map some

/-- `get_resource_id` (`scope.rs:163-169`). -/
def St.getRes (st : St) (n : Nat) (d : Dir) (i : Nat) : Option (Option Nat) :=
  (st.getUnit n d i).map fun c => c.bind CUnit.asRes

/-- `get_port` (`scope.rs:182-191`). -/
def St.getPort (st : St) (n res : Nat) (d : Dir) : Option Nat :=
  match st.units n with
  | none => none
  | some u => (u.slice d).findIdx? fun c => c.asRes = some res

/-- `get_position` (`scope.rs:193-198`). -/
def St.getPos (st : St) (n : Nat) : Option Nat := (st.units n).map NodeUnits.pos

/-- `get_resources` (`scope.rs:205-216`). -/
def St.getResources (st : St) (n : Nat) (d : Dir) : List Nat :=
  match st.units n with
  | none => []
  | some u => (u.slice d).filterMap CUnit.asRes

/-- `HugrView::single_linked_input`. -/
def Region.target (r : Region T) (n o : Nat) : Option (Nat × Nat) :=
  match r.linked n o with
  | [x] => some x
  | _ => none

/-- `HugrView::single_linked_port`. -/
def Region.other (r : Region T) (n : Nat) (d : Dir) (i : Nat) : Option (Nat × Nat) :=
  match d with
  | .inc => r.source n i
  | .out => r.target n i

/-- `resource_path_iter` (`scope.rs:261-277`), cut off after `fuel` nodes. -/
def pathIter (r : Region T) (st : St) (res : Nat) (d : Dir) : Nat → Nat → Option (List Nat)
  | 0, _ => some []
  | fuel + 1, n =>
    match st.getPort n res d with
    | none => some [n]
    | some p =>
      match r.other n d p with
      | none => none
      | some (m, _) =>
        if m ∈ r.nodes then (pathIter r st res d fuel m).map (n :: ·) else some [n]

/-- The breadth first search of `any_reachable_from` (`scope.rs:292-311`): the queue, the visited
nodes, the wanted nodes and their greatest position.  `nbr` is `HugrView::output_neighbours`, which
also follows state order edges.  `none` means that the fuel did not suffice
(`C50_reachability_terminates` excludes this). -/
def search (st : St) (nbr : Nat → List Nat) (ends : List Nat) (maxEnd : Nat) :
    Nat → List Nat → List Nat → Option Bool
  | 0, _, _ => none
  | _ + 1, [], _ => some false
  | fuel + 1, n :: q, visited =>
    match st.getPos n with
    | none => search st nbr ends maxEnd fuel q visited
    | some p =>
      if p > maxEnd ∨ n ∈ visited then search st nbr ends maxEnd fuel q visited
      else if n ∈ ends then some true
      else search st nbr ends maxEnd fuel (q ++ nbr n) (n :: visited)

/-- The greatest position of some nodes. -/
def maxPos (st : St) (ends : List Nat) : Option Nat := (ends.filterMap st.getPos).max?

/-- `any_reachable_from` (`scope.rs:279-312`). -/
def anyReachable (r : Region T) (st : St) (nbr : Nat → List Nat) (fuel : Nat)
    (starts : List (Nat × Nat)) (ends : List (Nat × Nat)) : Option Bool :=
  match maxPos st (ends.map Prod.fst) with
  | none => some false
  | some m =>
    search st nbr (ends.map Prod.fst) m fuel
      (starts.flatMap fun s => (r.linked s.1 s.2).map Prod.fst) []

end Verif.Resource
