import Mathlib.Data.Finset.Max
import Mathlib.Data.Finset.Range
import Mathlib.Data.Finset.Basic
import Mathlib.Data.Multiset.Count

/-!
# The pytket encoder: value tracking and command emission

Model of `/repo/tket/src/serialize/pytket/encoder/value_tracker.rs` and of the parts of
`/repo/tket/src/serialize/pytket/encoder.rs` that decide which pytket registers a command acts on.

Simplifications, common to the whole file:
* qubits and bits are treated by literally the same code in the Rust source (once with `qubits`,
  once with `bits`); here the two copies are one definition, indexed by the sort `Srt`;
* a register is its index in the tracker's `qubits`/`bits` list (`TrackedQubit`, `TrackedBit`);
  the names are modelled in `Model/Registers.lean`;
* parameter expressions are an arbitrary type `E` (a `String` in the code);
* a connected component of unsupported nodes is one item of kind `group`, standing at the place
  of its last node in the traversal.  The union-find in `unsupported_tracker.rs` which forms the
  components is modelled in `Model/Unsup.lean`.
-/

namespace Verif.Encoder

/-- The two sorts of registers. -/
inductive Srt
  | qubit
  | bit
  deriving DecidableEq, Repr

/-- `RegisterCount` (`/repo/tket/src/serialize/pytket/extension.rs`): how many registers of each
sort, and how many parameters, a wire of a given type carries. -/
structure Count where
  reg : Srt → Nat
  params : Nat

/-- The registers of one sort: `qubits.len()` and `unused_qubits` of `ValueTracker`
(`value_tracker.rs:36-75`), and the same for bits. -/
structure Pool where
  size : Nat
  unused : Finset Nat

/-- `new_qubit` / `new_bit` (`value_tracker.rs:290-307`): `pop_first` of the unused set, else push
a new register. -/
def Pool.fresh (p : Pool) : Nat × Pool :=
  if h : p.unused.Nonempty then
    (p.unused.min' h, ⟨p.size, p.unused.erase (p.unused.min' h)⟩)
  else (p.size, ⟨p.size + 1, p.unused⟩)

/-- `n` successive calls of `new_qubit` / `new_bit`. -/
def Pool.freshN : Nat → Pool → List Nat × Pool
  | 0, p => ([], p)
  | n + 1, p =>
    let x := p.fresh
    let y := Pool.freshN n x.2
    (x.1 :: y.1, y.2)

/-- Removal from the unused set in `register_wire` (`value_tracker.rs:337-347`). -/
def Pool.claim (p : Pool) (rs : List Nat) : Pool := ⟨p.size, p.unused \ rs.toFinset⟩

/-- Insertion into the unused set in `unregister_wire` (`value_tracker.rs:413-425`). -/
def Pool.release (p : Pool) (rs : List Nat) : Pool := ⟨p.size, p.unused ∪ rs.toFinset⟩

/-- The values of a wire (`TrackedValues`; `TrackedWire.values`, whose elements are always qubits,
then bits, then parameters).  Parameters are indices into the expression list. -/
structure Vals where
  reg : Srt → List Nat
  params : List Nat

def Vals.empty : Vals := ⟨fun _ => [], []⟩

/-- `TrackedValues::extend` / `append` (`value_tracker.rs:531-536`). -/
def Vals.append (a b : Vals) : Vals := ⟨fun s => a.reg s ++ b.reg s, a.params ++ b.params⟩

/-- `TrackedWire` (`value_tracker.rs:95-110`). -/
structure Tracked where
  vals : Vals
  unexplored : Nat

/-- `ValueTracker` (`value_tracker.rs:36-90`). -/
structure Tracker (W E : Type) where
  pool : Srt → Pool
  exprs : List E
  wires : W → Option Tracked

/-- What the encoder does with a node (`try_encode_node`, `encoder.rs:855-945`, and the
`op_to_pytket` of the extensions).

* `gate`: `emit_node`/`emit_node_command` with the default options (all tket gates and measurements
  `extension/tket.rs:47-101`, `tk1.rs`, the classical operations of `bool.rs`, `Barrier`); also
  `ConstBool(true)` (`bool.rs:84-90`), which has no inputs;
* `group`: a connected component of unsupported nodes (`emit_unsupported`);
* `transparent`: `emit_transparent_node` (tuples, `read`/`make_opaque`, `LoadConstant`, rotation and
  float arithmetic);
* `alloc s`: `QAlloc` (`tket.rs:83-88`) and `ConstBool(false)` (`bool.rs:84-90`): take a register
  and emit no command;
* `free`: `QFree` and `Future.Free`, which do not touch the tracker at all (`tket.rs:89-94`);
* `dup`: `Future.Dup` (`/repo/tket-qsystem/src/pytket/futures.rs:48-58`). -/
inductive Kind
  | gate
  | group
  | transparent
  | alloc (s : Srt)
  | free
  | dup
  deriving DecidableEq, Repr

/-- A node of the region, with the wires on its (value) ports in port order.  `id` names the
operation, `pf` computes the output parameter expressions. -/
structure Item (W E : Type) where
  id : Nat
  kind : Kind
  ins : List W
  outs : List W
  pf : List E → List E

/-- A region to encode.  `cnt` is the register count of the type of a wire, `nbrs` the number of
ports linked to it, `declared` the number of register names found in the metadata, `paramVar` the
names of the input parameters. `items` are in traversal order. -/
structure Circ (W E : Type) where
  inputs : List W
  items : List (Item W E)
  outputs : List W
  cnt : W → Count
  nbrs : W → Nat
  declared : Srt → Nat
  paramVar : Nat → E

/-- An emitted command: which operation, its arguments, its parameters
(`emit_command`, `encoder.rs:706-725`). -/
structure Cmd (E : Type) where
  node : Nat
  args : Srt → List Nat
  params : List E

inductive Err
  | wireAlreadyHasValues
  | wireHasNoValues
  | mismatch
  | noRegisters
  | panic
  deriving DecidableEq, Repr

variable {W E : Type} [DecidableEq W]

/-- `register_wire` (`value_tracker.rs:328-371`). -/
def registerWire (c : Circ W E) (w : W) (v : Vals) (t : Tracker W E) : Except Err (Tracker W E) :=
  if (t.wires w).isSome then .error .wireAlreadyHasValues
  else if c.nbrs w = 0 then
    .ok { t with pool := fun s => ((t.pool s).claim (v.reg s)).release (v.reg s) }
  else
    .ok { t with
          pool := fun s => (t.pool s).claim (v.reg s)
          wires := Function.update t.wires w (some ⟨v, c.nbrs w⟩) }

/-- `wire_values` and `unregister_wire` (`value_tracker.rs:381-430`). -/
def wireValues (w : W) (t : Tracker W E) : Option (Vals × Tracker W E) :=
  match t.wires w with
  | none => none
  | some tr =>
    if tr.unexplored ≠ 1 then
      some (tr.vals,
        { t with wires := Function.update t.wires w (some ⟨tr.vals, tr.unexplored - 1⟩) })
    else
      some (tr.vals,
        { t with
          wires := Function.update t.wires w none
          pool := fun s => (t.pool s).release (tr.vals.reg s) })

/-- The loop over the output wires of `register_node_outputs` (`encoder.rs:1075-1117`): first the
registers to reuse, then fresh ones; `ps` are the remaining output parameter expressions.  Returns
the fresh registers.  The same loop registers the ports of an unsupported subgraph
(`register_port_output`, `encoder.rs:1144-1241`, called from `encoder.rs:633-655`), the inputs of
the region (`ValueTracker::new`, `value_tracker.rs:252-282`, nothing to reuse) and the outputs of a
transparent node (`encoder.rs:560-572`, where the numbers agree and nothing fresh is needed). -/
def registerOuts (c : Circ W E) :
    List W → (Srt → List Nat) → List E → Tracker W E →
    Except Err ((Srt → List Nat) × Tracker W E)
  | [], _, _, t => .ok (fun _ => [], t)
  | w :: ws, reuse, ps, t =>
    let taken := fun s => (reuse s).take ((c.cnt w).reg s)
    let got := fun s => (t.pool s).freshN ((c.cnt w).reg s - (taken s).length)
    let es := ps.take (c.cnt w).params
    let t1 : Tracker W E :=
      { t with pool := fun s => (got s).2, exprs := t.exprs ++ es }
    let v : Vals :=
      ⟨fun s => taken s ++ (got s).1, (List.range es.length).map (t.exprs.length + ·)⟩
    match registerWire c w v t1 with
    | .error e => .error e
    | .ok t2 =>
      match registerOuts c ws (fun s => (reuse s).drop ((c.cnt w).reg s))
          (ps.drop (c.cnt w).params) t2 with
      | .error e => .error e
      | .ok (new, t3) => .ok (fun s => (got s).1 ++ new s, t3)

/-- The sum of the register counts of a list of wires. -/
def Circ.total (c : Circ W E) (ws : List W) (s : Srt) : Nat := (ws.map fun w => (c.cnt w).reg s).sum

/-- The sum of the parameter counts of a list of wires. -/
def Circ.totalP (c : Circ W E) (ws : List W) : Nat := (ws.map fun w => (c.cnt w).params).sum

/-- `param_expression` of every index; `none` would be an out-of-bounds panic
(`value_tracker.rs:443-446`). -/
def lookupParams (es : List E) (ps : List Nat) : Option (List E) := ps.mapM (fun i => es[i]?)

/-- `emit_node_command` after its inputs have been collected (`encoder.rs:463-495`), and likewise
`emit_unsupported` (`encoder.rs:617-673`). -/
def emitOp (c : Circ W E) (it : Item W E) (v : Vals) (t : Tracker W E) :
    Except Err (Cmd E × Tracker W E) :=
  match lookupParams t.exprs v.params with
  | none => .error .panic
  | some ps =>
    if (it.pf ps).length ≠ c.totalP it.outs then .error .mismatch
    else match registerOuts c it.outs v.reg (it.pf ps) t with
      | .error e => .error e
      | .ok (new, t') => .ok (⟨it.id, fun s => v.reg s ++ new s, ps⟩, t')

/-- The input values of an unsupported subgraph (`encoder.rs:597-611`); wires without values are
skipped. -/
def collectGroup : List W → Tracker W E → Vals × Tracker W E
  | [], t => (Vals.empty, t)
  | w :: ws, t =>
    match wireValues w t with
    | none => collectGroup ws t
    | some (v, t1) =>
      let r := collectGroup ws t1
      (v.append r.1, r.2)

/-- The state of the encoder: the tracker, the unsupported components not yet emitted, and the
commands. -/
structure Enc (W E : Type) where
  tr : Tracker W E
  pending : List (Item W E)
  cmds : List (Cmd E)

/-- `emit_unsupported` (`encoder.rs:584-675`). -/
def emitGroup (c : Circ W E) (g : Item W E) (e : Enc W E) : Except Err (Enc W E) :=
  let r := collectGroup g.ins e.tr
  match emitOp c g r.1 r.2 with
  | .error x => .error x
  | .ok (cmd, t') =>
    if cmd.args .qubit = [] ∧ cmd.args .bit = [] then .error .noRegisters
    else .ok { e with tr := t', cmds := e.cmds ++ [cmd] }

/-- Does the component have `w` among its outgoing ports (`is_unsupported(wire.node())`,
`encoder.rs:313`)? -/
def owns (w : W) (g : Item W E) : Bool := decide (w ∈ g.outs)

/-- Removal of the extracted component (`extract_component`, `unsupported_tracker.rs:79-104`). -/
def dropOwner (w : W) : List (Item W E) → List (Item W E)
  | [] => []
  | g :: gs => if owns w g then gs else g :: dropOwner w gs

/-- `get_wire_values` (`encoder.rs:300-325`): a wire of an unsupported component which has not been
emitted yet triggers the emission of the component. -/
def getWire (c : Circ W E) (w : W) (e : Enc W E) : Except Err (Vals × Enc W E) :=
  match wireValues w e.tr with
  | some (v, t) => .ok (v, { e with tr := t })
  | none =>
    match e.pending.find? (owns w) with
    | none => .error .wireHasNoValues
    | some g =>
      match emitGroup c g { e with pending := dropOwner w e.pending } with
      | .error x => .error x
      | .ok e1 =>
        match wireValues w e1.tr with
        | none => .error .wireHasNoValues
        | some (v, t) => .ok (v, { e1 with tr := t })

/-- `get_input_values` (`encoder.rs:344-405`). -/
def collect (c : Circ W E) : List W → Enc W E → Except Err (Vals × Enc W E)
  | [], e => .ok (Vals.empty, e)
  | w :: ws, e =>
    match getWire c w e with
    | .error x => .error x
    | .ok (v, e1) =>
      match collect c ws e1 with
      | .error x => .error x
      | .ok (v', e2) => .ok (v.append v', e2)

/-- `emit_transparent_node` (`encoder.rs:513-575`). -/
def emitTransparent (c : Circ W E) (it : Item W E) (v : Vals) (t : Tracker W E) :
    Except Err (Tracker W E) :=
  match lookupParams t.exprs v.params with
  | none => .error .panic
  | some ps =>
    if (v.reg .qubit).length ≠ c.total it.outs .qubit ∨
        (v.reg .bit).length ≠ c.total it.outs .bit ∨
        (it.pf ps).length ≠ c.totalP it.outs then .error .mismatch
    else match registerOuts c it.outs v.reg (it.pf ps) t with
      | .error e => .error e
      | .ok (_, t') => .ok t'

/-- Registration of the same values on every output (`futures.rs:50-57`). -/
def registerAll (c : Circ W E) (v : Vals) : List W → Tracker W E → Except Err (Tracker W E)
  | [], t => .ok t
  | w :: ws, t =>
    match registerWire c w v t with
    | .error e => .error e
    | .ok t' => registerAll c v ws t'

/-- A list with one register of the sort `s`. -/
def single (s : Srt) (r : Nat) : Vals := ⟨fun s' => if s' = s then [r] else [], []⟩

/-- Encoding of one node (`try_encode_node`, `encoder.rs:855-945`). -/
def encItem (c : Circ W E) (it : Item W E) (e : Enc W E) : Except Err (Enc W E) :=
  match it.kind with
  | .group => .ok { e with pending := e.pending ++ [it] }
  | .free => .ok e
  | .alloc s =>
    match it.outs with
    | [w] =>
      let r := (e.tr.pool s).fresh
      match registerWire c w (single s r.1)
          { e.tr with pool := Function.update e.tr.pool s r.2 } with
      | .error x => .error x
      | .ok t => .ok { e with tr := t }
    | _ => .error .panic
  | .gate =>
    match collect c it.ins e with
    | .error x => .error x
    | .ok (v, e1) =>
      match emitOp c it v e1.tr with
      | .error x => .error x
      | .ok (cmd, t) => .ok { e1 with tr := t, cmds := e1.cmds ++ [cmd] }
  | .transparent =>
    match collect c it.ins e with
    | .error x => .error x
    | .ok (v, e1) =>
      match emitTransparent c it v e1.tr with
      | .error x => .error x
      | .ok t => .ok { e1 with tr := t }
  | .dup =>
    match collect c it.ins e with
    | .error x => .error x
    | .ok (v, e1) =>
      match registerAll c v it.outs e1.tr with
      | .error x => .error x
      | .ok t => .ok { e1 with tr := t }

/-- `run_encoder` (`encoder.rs:189-217`). -/
def encItems (c : Circ W E) : List (Item W E) → Enc W E → Except Err (Enc W E)
  | [], e => .ok e
  | it :: its, e =>
    match encItem c it e with
    | .error x => .error x
    | .ok e1 => encItems c its e1

/-- The emission of the leftover components in `finish` (`encoder.rs:232-252`); a component without
registers is stored outside of the circuit instead.  (In that case the values it registered
beforehand are kept, which only concerns parameters.) -/
def flush (c : Circ W E) : List (Item W E) → Enc W E → Except Err (Enc W E)
  | [], e => .ok e
  | g :: gs, e =>
    let r := collectGroup g.ins e.tr
    match emitOp c g r.1 r.2 with
    | .error x => .error x
    | .ok (cmd, t') =>
      if cmd.args .qubit = [] ∧ cmd.args .bit = [] then flush c gs { e with tr := t' }
      else flush c gs { e with tr := t', cmds := e.cmds ++ [cmd] }

/-- `ValueTracker::new` (`value_tracker.rs:211-285`). -/
def initTracker (c : Circ W E) : Except Err (Tracker W E) :=
  match registerOuts c c.inputs (fun _ => []) ((List.range (c.totalP c.inputs)).map c.paramVar)
      ⟨fun s => ⟨c.declared s, Finset.range (c.declared s)⟩, [], fun _ => none⟩ with
  | .error e => .error e
  | .ok (_, t) => .ok t

/-- The whole encoding of a region: `new`, `run_encoder`, and the first half of `finish`.  `order`
is the order in which the leftover components are visited; they are the keys of a `HashMap`
(`unsupported_tracker.rs:107-109`). -/
def encode (c : Circ W E) (order : List (Item W E) → List (Item W E)) : Except Err (Enc W E) :=
  match initTracker c with
  | .error e => .error e
  | .ok t =>
    match encItems c c.items ⟨t, [], []⟩ with
    | .error e => .error e
    | .ok e1 => flush c (order e1.pending) { e1 with pending := [] }

end Verif.Encoder
