/-!
# Model of the command iterator

Models `/repo/tket/src/circuit/command.rs` (`CommandIterator`): the order in which nodes are yielded and
the linear units assigned to their ports. `none` is a panic.
-/

namespace Tket.Commands

/-! ## Linear units -/

/-- A wire: node and output port. -/
abbrev Wire := Nat × Nat

/-- `HashMap::remove` on the map `wire_unit`. -/
def removeWire (w : Wire) (m : List (Wire × Nat)) : Option Nat × List (Wire × Nat) :=
  ((m.find? (fun e => e.1 = w)).map (·.2), m.filter (fun e => e.1 ≠ w))

/-- `HashMap::insert`. -/
def insertWire (w : Wire) (u : Nat) (m : List (Wire × Nat)) : List (Wire × Nat) :=
  (w, u) :: m.filter (fun e => e.1 ≠ w)

/-- The linear ports of a node: the wires linked to its linear inputs (`none` if unlinked) and the wires
of its linear outputs. -/
structure LNode where
  ins : List (Option Wire)
  outs : List Wire

/-- `terminate_input` (command.rs 407-416). -/
def terminate (i : Option Wire) (m : List (Wire × Nat)) : Option Nat × List (Wire × Nat) :=
  match i with
  | none => (none, m)
  | some w => removeWire w m

/-- Output ports without a matching input get a fresh unit (command.rs 427-430). -/
def allocate : List Wire → List (Wire × Nat) → List (Wire × Nat) × List Nat
  | [], m => (m, [])
  | o :: os, m =>
    let u := m.length
    let r := allocate os (insertWire o u m)
    (r.1, u :: r.2)

/-- The loop of `process_node` over `input_units.zip_longest(output_units)` (command.rs 378-443). Returns
the map, the input units and the output units. -/
def process : List (Option Wire) → List Wire → List (Wire × Nat) →
    List (Wire × Nat) × List Nat × List Nat
  | [], os, m =>
    let r := allocate os m
    (r.1, [], r.2)
  | i :: is, [], m =>
    let t := terminate i m
    let r := process is [] t.2
    (r.1, t.1.toList ++ r.2.1, r.2.2)
  | i :: is, o :: os, m =>
    match terminate i m with
    | (none, m') => process is os m'
    | (some u, m') =>
      let r := process is os (insertWire o u m')
      (r.1, u :: r.2.1, u :: r.2.2)

/-- `wire_unit` after processing nodes in order. -/
def unitsAfter (m : List (Wire × Nat)) : List LNode → List (Wire × Nat)
  | [] => m
  | n :: ns => unitsAfter (process n.ins n.outs m).1 ns

/-- Initial map (command.rs 280-287): the linear inputs of the circuit, numbered from 0. -/
def initial (inputs : List Wire) : List (Wire × Nat) := inputs.zipIdx

/-! ## Order of the commands -/

/-- What the iterator sees of the region: the nodes (without the root) in topological order, which ones
are constants or constant loads, and the neighbours. -/
structure Region where
  order : List Nat
  constLike : Nat → Bool
  succ : Nat → List Nat
  pred : Nat → List Nat

/-- `delayed_consts`, `delayed_consumers` (0 = no entry), `delayed_node`, and the nodes the topological
walker has not returned yet (command.rs 241-270). -/
structure St where
  rest : List Nat
  delayed : List Nat
  consumers : Nat → Nat
  pending : Option Nat

def St.init (c : Region) : St := ⟨c.order, [], fun _ => 0, none⟩

/-- Adding one for every output neighbour (command.rs 325-327). -/
def bump (k : Nat → Nat) (l : List Nat) : Nat → Nat := fun m => k m + l.count m

/-- Taking one off for every output neighbour; a missing entry panics (command.rs 336-344). -/
def unbump (k : Nat → Nat) (l : List Nat) : Option (Nat → Nat) :=
  if ∀ m ∈ l, l.count m ≤ k m then some (fun m => k m - l.count m) else none

/-- `next_node`, first part (command.rs 310-329): delay constants. -/
def advance (c : Region) : List Nat → List Nat → (Nat → Nat) → Option (Nat × St)
  | [], _, _ => none
  | n :: r, d, k =>
    if c.constLike n then advance c r (n :: d) (bump k (c.succ n))
    else some (n, ⟨r, d, k, none⟩)

/-- `next_delayed_node` (command.rs 352-368), with a bound on the recursion depth. -/
def nextDelayed (c : Region) (st : St) : (fuel : Nat) → Nat → Option Nat
  | 0, _ => none
  | fuel + 1, m =>
    match (c.pred m).find? (fun p => st.delayed.contains p) with
    | none => none
    | some d => if 0 < st.consumers d then nextDelayed c st fuel d else some d

/-- `next_node`, second part (command.rs 331-348), for the node `n`. -/
def settle (c : Region) (fuel : Nat) (n : Nat) (st : St) : Option (Nat × St) :=
  if 0 < st.consumers n then
    match nextDelayed c st fuel n with
    | none => none
    | some d =>
      match unbump st.consumers (c.succ d) with
      | none => none
      | some k => some (d, { st with delayed := st.delayed.filter (· ≠ d), consumers := k,
                                      pending := some n })
  else some (n, { st with pending := none })

/-- `next_node` (command.rs 306-350). The inner `none` is the end of the iteration. -/
def nextNode (c : Region) (fuel : Nat) (st : St) : Option (Option (Nat × St)) :=
  match st.pending with
  | some n => (settle c fuel n st).map some
  | none =>
    match advance c st.rest st.delayed st.consumers with
    | none => some none
    | some (n, st') => (settle c fuel n st').map some

/-- The nodes yielded by at most `k` calls of `next_node`. -/
def yielded (c : Region) (fuel : Nat) : Nat → St → Option (List Nat)
  | 0, _ => some []
  | k + 1, st =>
    match nextNode c fuel st with
    | none => none
    | some none => some []
    | some (some (n, st')) => (yielded c fuel k st').map (n :: ·)

/-- All nodes yielded, in order. Input and output nodes are then skipped by `process_node`
(command.rs 383-388). -/
def commands (c : Region) : Option (List Nat) :=
  yielded c (c.order.length + 1) (c.order.length + 1) (St.init c)

end Tket.Commands
