import Mathlib.Data.List.Basic

/-!
# Model of empty-wire removal

Models `remove_empty_wire`, `shift_ports`, `update_signature` (`/repo/tket/src/circuit.rs` 413-466,
535-640) and `empty_wires` (`/repo/tket/src/rewrite/ecc_rewriter.rs` 286-309).

A dataflow region is given by the types of its Input and Output nodes, the signature stored at its
parent, and the list of links between ports. Only links inside the region are modelled. An Input
(Output) node with `n` values has `n + 1` ports, the last one being the state-order port (contract of
`hugr`: `num_outputs`/`num_inputs` count it).
-/

namespace Tket.EmptyWire

/-- Source of a link: a port of the Input node or of another node. -/
inductive Src where
  | input (i : Nat)
  | node (n p : Nat)
deriving DecidableEq

/-- Target of a link: a port of the Output node or of another node. -/
inductive Dst where
  | output (j : Nat)
  | node (n p : Nat)
deriving DecidableEq

/-- The operation of the region's parent (`FuncDefn` with a concrete signature). -/
inductive Parent where
  | dfg
  | funcDefn
  | case
  | block
  | tailLoop
deriving DecidableEq

structure Region (T : Type) where
  parent : Parent
  inTypes : List T
  outTypes : List T
  /-- signature stored at the parent -/
  sigIn : List T
  sigOut : List T
  links : List (Src × Dst)
deriving DecidableEq

/-- The relevant variants of `CircuitMutError` (circuit.rs 507-533). -/
inductive Err where
  | invalidPortOffset
  | deleteNonEmptyWire
deriving DecidableEq

variable {T : Type}

/-- `hugr.linked_inputs(inp, k)`. -/
def Region.linked (r : Region T) (k : Nat) : List Dst :=
  (r.links.filter (fun l => l.1 = .input k)).map (·.2)

/-- `shift_ports` on the Input node (circuit.rs 536-563), `steps` iterations left, next free port
`free`: the links of port `free + 1` move to `free`. -/
def shiftIn : (free steps : Nat) → List (Src × Dst) → List (Src × Dst)
  | _, 0, l => l
  | free, steps + 1, l =>
    shiftIn (free + 1) steps
      (l.map (fun e => (if e.1 = .input (free + 1) then .input free else e.1, e.2)))

/-- `shift_ports` on the Output node. -/
def shiftOut : (free steps : Nat) → List (Src × Dst) → List (Src × Dst)
  | _, 0, l => l
  | free, steps + 1, l =>
    shiftOut (free + 1) steps
      (l.map (fun e => (e.1, if e.2 = .output (free + 1) then .output free else e.2)))

/-- Removal of the type of the linked output, if any (circuit.rs 588-596); `none` is a panic. -/
def removeOut (l : List T) : Option Nat → Option (List T)
  | none => some l
  | some j => if l.length ≤ j then none else some (l.eraseIdx j)

/-- `update_signature` (circuit.rs 567-640) and the final `set_num_ports` (circuit.rs 459-463; port
counts follow the types). `none` is a panic: `Vec::remove` out of bounds (581, 593) or
`unimplemented!` (625, 632). -/
def updateSignature (r : Region T) (k : Nat) (out : Option Nat) : Option (Region T) :=
  if r.inTypes.length ≤ k then none
  else
    let inTypes := r.inTypes.eraseIdx k
    match removeOut r.outTypes out with
    | none => none
    | some outTypes =>
      match r.parent with
      | .dfg | .funcDefn | .case =>
        some { r with inTypes, outTypes, sigIn := inTypes,
                      sigOut := if out.isSome then outTypes else r.sigOut }
      | .block => if out.isSome then none else some { r with inTypes, outTypes, sigIn := inTypes }
      | .tailLoop => none

/-- `remove_empty_wire` (circuit.rs 413-466). Outer `none` is a panic. -/
def removeEmptyWire (r : Region T) (k : Nat) : Option (Except Err (Region T)) :=
  if r.inTypes.length + 1 ≤ k then some (.error .invalidPortOffset)
  else
    match r.linked k with
    | [] =>
      let links := shiftIn k (r.inTypes.length + 1 - (k + 1)) r.links
      (updateSignature { r with links } k none).map .ok
    | [.output j] =>
      let links := r.links.filter (fun l => l.1 ≠ .input k)
      let links := shiftIn k (r.inTypes.length + 1 - (k + 1)) links
      let links := shiftOut j (r.outTypes.length + 1 - (j + 1)) links
      (updateSignature { r with links } k (some j)).map .ok
    | _ => some (.error .deleteNonEmptyWire)

/-- `empty_wires` (ecc_rewriter.rs 286-309): value ports of the Input node with no link, or exactly one
link, which goes to the Output node. -/
def emptyWires (r : Region T) : List Nat :=
  (List.range r.inTypes.length).filter (fun k =>
    match r.linked k with
    | [] => true
    | [.output _] => true
    | _ => false)

/-- Removing several wires one after the other, each with `unwrap` (ecc_rewriter.rs 206-208, 266-268).
`none` is a panic. -/
def removeAll : Region T → List Nat → Option (Region T)
  | r, [] => some r
  | r, k :: ks =>
    match removeEmptyWire r k with
    | some (.ok r') => removeAll r' ks
    | _ => none

end Tket.EmptyWire
