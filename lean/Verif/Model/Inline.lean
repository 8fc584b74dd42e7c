/-
Standalone circuits: subgraphs written into the barriers that stand for them, and read back. Modelled
after `tket/src/serialize/pytket/opaque.rs:118-151`, `circuit.rs:372-416`,
`decoder/subgraph.rs:232-445` and `decoder/wires.rs:1063-1120`.
-/
namespace Verif.Inline

/-! ### Writing -/

/-- `SubgraphId` -/
abbrev Id := Nat × Nat

/-- The `data` of a pytket operation: a reference to a subgraph, a subgraph written out, or any other
text. `parse_external_id`, `payload.rs:222-238`, accepts exactly the first. -/
inductive Data (π : Type)
  | external (id : Id)
  | inline (p : π)
  | other (text : List Char)
deriving DecidableEq

mutual
/-- Commands of pytket: whether the operation is a barrier, its data, and the commands of a `CircBox`. -/
inductive Cmd (π : Type)
  | plain (barrier : Bool) (data : Option (Data π))
  | box (barrier : Bool) (data : Option (Data π)) (cs : Cmds π)
/-- Lists of commands. -/
inductive Cmds (π : Type)
  | nil
  | cons (c : Cmd π) (cs : Cmds π)
end

/-- The errors: an unknown identifier, or a subgraph that is no program of its own (`new_inline`). -/
inductive Err
  | unknown (id : Id)
  | unsupported (id : Id)
deriving DecidableEq

/-- `inline_if_payload` on the data of one command, `opaque.rs:122-151`: the new data and the error. `write`
is `contains` and `new_inline`. -/
def inlineData {π : Type} (write : Id → Except Err π) (barrier : Bool) (data : Option (Data π)) :
    Option (Data π) × Option Err :=
  if barrier then
    match data with
    | some (.external id) =>
      match write id with
      | .ok p => (some (.inline p), none)
      | .error e => (none, some e)
    | _ => (none, none)
  else (data, none)

mutual
/-- One command of `make_commands_standalone`, `circuit.rs:388-404`. -/
def standaloneCmd {π : Type} (write : Id → Except Err π) : Cmd π → Cmd π × Option Err
  | .plain b d =>
    let r := inlineData write b d
    (.plain b r.1, r.2)
  | .box b d cs =>
    let r := inlineData write b d
    match r.2 with
    | some e => (.box b r.1 cs, some e)
    | none =>
      let q := standaloneCmds write cs
      (.box b r.1 q.1, q.2)
/-- All commands; stops at the first error. -/
def standaloneCmds {π : Type} (write : Id → Except Err π) : Cmds π → Cmds π × Option Err
  | .nil => (.nil, none)
  | .cons c cs =>
    let r := standaloneCmd write c
    match r.2 with
    | some e => (.cons r.1 cs, some e)
    | none =>
      let q := standaloneCmds write cs
      (.cons r.1 q.1, q.2)
end

/-- `EncodedCircuit::ensure_standalone`, `circuit.rs:380-416`; the commands of all circuits. -/
def ensureStandalone {π : Type} (write : Id → Except Err π) : List (Cmds π) → List (Cmds π) × Option Err
  | [] => ([], none)
  | c :: cs =>
    let r := standaloneCmds write c
    match r.2 with
    | some e => (r.1 :: cs, some e)
    | none =>
      let q := ensureStandalone write cs
      (r.1 :: q.1, q.2)

/-! ### Reading -/

abbrev Node := Nat
abbrev Wire := Node × Nat

/-- A link between value ports. -/
structure Link where
  src : Wire
  dst : Node × Nat
deriving DecidableEq

/-- `EncodedEdgeID` -/
abbrev Edge := Nat

/-- `UnsupportedWireState`, `wires.rs:363-375`. -/
inductive Wires
  | associated (w : Wire)
  | pending (ts : List (Node × Nat))

/-- The links of the program and the `unsupported_wires` of the tracker. -/
structure State where
  links : List Link
  table : Edge → Option Wires

/-- Entry of the table. -/
def State.set (s : State) (id : Edge) (x : Wires) : State :=
  { s with table := fun i => if i = id then some x else s.table i }

/-- `connect_unsupported_wire_targets`, `wires.rs:1073-1090`. -/
def connectTargets (s : State) (id : Edge) (ts : List (Node × Nat)) : State :=
  match s.table id with
  | some (.associated w) => { s with links := s.links ++ ts.map fun t => ⟨w, t⟩ }
  | some (.pending old) => s.set id (.pending (old ++ ts))
  | none => s.set id (.pending ts)

/-- `connect_unsupported_wire_source`, `wires.rs:1096-1120`; `none` is the panic. -/
def connectSource (s : State) (id : Edge) (w : Wire) : Option State :=
  match s.table id with
  | none => some (s.set id (.associated w))
  | some (.pending ts) =>
    some { (s.set id (.associated w)) with links := s.links ++ ts.map fun t => ⟨w, t⟩ }
  | some (.associated _) => none

/-- A subgraph to read back: its inner links; for each input the wire that the decoder found (`none` for
types without registers), the identifier and the targets; for each output whether it is tracked as registers,
the identifier and the source. All nodes are those of the envelope. -/
structure Payload where
  links : List Link
  ins : List (Option Wire × Edge × List (Node × Nat))
  outs : List (Bool × Edge × Wire)

/-- `wire_inline_subgraph_inputs`, `subgraph.rs:341-391`; `m` is the `node_map` of the insertion. The targets
of unsupported inputs are passed on as they are in the envelope. -/
def wireInputs (m : Node → Node) : State → List (Option Wire × Edge × List (Node × Nat)) → State
  | s, [] => s
  | s, (some w, _, ts) :: xs =>
    wireInputs m { s with links := s.links ++ ts.map fun t => ⟨w, (m t.1, t.2)⟩ } xs
  | s, (none, id, ts) :: xs => wireInputs m (connectTargets s id ts) xs

/-- `wire_inline_subgraph_outputs`, `subgraph.rs:393-445`. -/
def wireOutputs (m : Node → Node) : State → List (Bool × Edge × Wire) → Option State
  | s, [] => some s
  | s, (true, _, _) :: xs => wireOutputs m s xs
  | s, (false, id, w) :: xs => (connectSource s id (m w.1, w.2)).bind fun s => wireOutputs m s xs

/-- `insert_inline_subgraph`, `subgraph.rs:232-336`: `insert_forest` copies the inner links. -/
def insertInline (m : Node → Node) (s : State) (p : Payload) : Option State :=
  wireOutputs m (wireInputs m
    { s with links := s.links ++ p.links.map fun l => ⟨(m l.src.1, l.src.2), (m l.dst.1, l.dst.2)⟩ } p.ins) p.outs

/-- All subgraphs in the order of their commands, each with its `node_map`. -/
def insertAll : State → List ((Node → Node) × Payload) → Option State
  | s, [] => some s
  | s, x :: xs => (insertInline x.1 s x.2).bind fun s => insertAll s xs

end Verif.Inline
