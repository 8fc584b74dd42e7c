import Mathlib.Data.List.Nodup

/-!
# Circuits from commands in Python

Model of `from_coms`, `id_circ` and `CircBuild` (`/repo/tket-py/tket/circuit/build.py:18-118`).

`CircBuild` inherits from `TrackedDfg` of the Python package `hugr` (`hugr.build.tracked_dfg`), which is
not part of the repository; `TrackedDfg.add`, `extend` and `set_tracked_outputs` are modelled from that
package: integers in a command are looked up in the list of tracked wires, the operation is added, and
every integer at position `k` is then tracked to the `k`-th output of the new node. Adding an operation
looks up the type of every wire, which raises an exception for a port that does not exist, but does not
compare the types with the inputs of the operation. `untrack_wire` is not modelled, so no entry of the
list is `None`. The serialisation in `finish` (lines 75-84) and reading it back with
`Tk2Circuit.from_str` (`/repo/tket-py/src/circuit/tk2circuit.rs:157-167`), which does not validate, are
taken to return the same circuit.
-/

namespace Verif.PyBuild

/-- Types as far as they matter. -/
inductive Ty where
  | qubit | bool | other
  deriving DecidableEq, Repr

/-- An outgoing port: node 0 is the input of the circuit, node `k + 1` the `k`-th command. -/
structure Wire where
  node : Nat
  port : Nat
  deriving DecidableEq, Repr

/-- `ComWire`: an index of a tracked wire or a wire. -/
inductive Arg where
  | idx (i : Int)
  | wire (w : Wire)
  deriving DecidableEq, Repr

/-- `Command`: an operation, given by a name and the types of its outputs, and what it is applied to. -/
structure Com (L : Type) where
  op : L
  outs : List Ty
  args : List Arg
  deriving Repr

structure Node (L : Type) where
  op : L
  outs : List Ty
  ins : List Wire
  deriving DecidableEq, Repr

inductive Err where
  /-- `max()` of nothing (build.py 95). -/
  | valueError
  /-- The index is not tracked. -/
  | indexError
  /-- The wire starts at a port that the node does not have. -/
  | noPort
  /-- The assertion in `finish_package` (build.py 63). -/
  | assertion
  deriving DecidableEq, Repr

/-- The operation of the entrypoint of the graph under construction. -/
inductive Root where
  | dfg
  | func (name : String)
  deriving DecidableEq, Repr

/-- `CircBuild` (build.py 18-24): the last node comes first. -/
structure St (L : Type) where
  qubits : Nat
  nodes : List (Node L)
  tracked : List Wire
  deriving Repr

variable {L : Type}

/-- The place of an index in a list of Python: negative ones count from the end. -/
def place (n : Nat) (i : Int) : Option Nat :=
  if 0 ≤ i then (if i < n then some i.toNat else none)
  else if 0 ≤ n + i then some (n + i).toNat else none

/-- `CircBuild.with_nqb` (build.py 22-24). -/
def withNqb (n : Nat) : St L := ⟨n, [], (List.range n).map fun i => ⟨0, i⟩⟩

/-- The type of a wire. -/
def wireTy (n : Nat) : List (Node L) → Wire → Option Ty
  | [], w => if w.node = 0 ∧ w.port < n then some .qubit else none
  | x :: ns, w => if w.node = ns.length + 1 then x.outs[w.port]? else wireTy n ns w

/-- `TrackedDfg._to_wires` for one argument. -/
def resolve (tracked : List Wire) : Arg → Except Err Wire
  | .wire w => .ok w
  | .idx i =>
    match place tracked.length i with
    | none => .error .indexError
    | some k =>
      match tracked[k]? with
      | none => .error .indexError
      | some w => .ok w

/-- Looks up the types of wires when they are connected. -/
def connect (st : St L) (ws : List Wire) : Except Err Unit :=
  if ws.all fun w => (wireTy st.qubits st.nodes w).isSome then .ok () else .error .noPort

/-- `TrackedDfg.add`: the loop that tracks the outputs of the new node. -/
def track (node : Nat) : Nat → List Arg → List Wire → List Wire
  | _, [], tracked => tracked
  | k, .wire _ :: as, tracked => track node (k + 1) as tracked
  | k, .idx i :: as, tracked =>
    track node (k + 1) as
      (match place tracked.length i with
      | some p => tracked.set p ⟨node, k⟩
      | none => tracked)

/-- `TrackedDfg.add`. -/
def add (st : St L) (c : Com L) : Except Err (St L) := do
  let ws ← c.args.mapM (resolve st.tracked)
  connect st ws
  pure { st with
    nodes := ⟨c.op, c.outs, ws⟩ :: st.nodes
    tracked := track (st.nodes.length + 1) 0 c.args st.tracked }

/-- `TrackedDfg.extend`. -/
def extend : St L → List (Com L) → Except Err (St L)
  | st, [] => .ok st
  | st, c :: cs => do extend (← add st c) cs

/-- A circuit: nodes as above, and the wires of the output. -/
structure Circ (L : Type) where
  qubits : Nat
  nodes : List (Node L)
  outs : List Wire
  deriving DecidableEq, Repr

/-- `TrackedDfg.set_tracked_outputs`. -/
def setOutputs (st : St L) : Except Err (Circ L) := do
  connect st st.tracked
  pure ⟨st.qubits, st.nodes, st.tracked⟩

/-- The integers in a command. -/
def ints (c : Com L) : List Int := c.args.filterMap fun
  | .idx i => some i
  | .wire _ => none

/-- `max` of a generator. -/
def pyMax : List Int → Except Err Int
  | [] => .error .valueError
  | i :: is => .ok (is.foldl max i)

/-- The loop over the commands (build.py 94-97). -/
def countQubits : Int → List (Com L) → Except Err Int
  | n, [] => .ok n
  | n, c :: cs => do
    let m ← pyMax (ints c)
    countQubits (max n (m + 1)) cs

/-- `from_coms` (build.py 88-102). -/
def fromComs (cs : List (Com L)) : Except Err (Circ L) := do
  let n ← countQubits 0 cs
  let st ← extend (withNqb n.toNat) cs
  setOutputs st

/-- `id_circ` (build.py 114-117). -/
def idCirc (n : Nat) : Except Err (Circ L) := setOutputs (withNqb n)

/-- `finish_package` (build.py 32-73) as far as it changes the builder. -/
def finishPackage (root : Root) (name : String) : Except Err Root :=
  match root with
  | .dfg => .ok (.func name)
  | .func _ => .error .assertion

end Verif.PyBuild
