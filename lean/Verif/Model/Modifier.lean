/-!
# Model of the combination of modifiers and of the rewiring they cause

Models `CombinedModifier::push`, `ModifierFlags` (`/repo/tket/src/modifier.rs`),
`modify_signature`, `wire_inout`, `wire_node_inout`, `map_insert`
(`/repo/tket/src/modifier/modifier_resolver.rs`), `trace_modifiers_chain`
(`modifier_resolver/call_modify.rs`) and the port arithmetic of `modify_dfg`, `modify_tail_loop`,
`modify_conditional`, `unpack_controls`, `modify_fn_if_needed` (`modifier_resolver/dfg_modify.rs`).
-/

namespace Tket.Modifier

/-- Types, as far as they matter here: the qubit, arrays of qubits, and other types with or without qubits
inside. -/
inductive Ty where
  | qubit
  | qarray (n : Nat)
  | other (quantum : Bool) (id : Nat)
deriving DecidableEq, Repr

/-- `TypeUnpacker::for_qubits().contains_element_type`: does the type contain qubits? -/
def Ty.isQ : Ty → Bool
  | .qubit => true
  | .qarray _ => true
  | .other q _ => q

/-- A function type. -/
structure Sig where
  input : List Ty
  output : List Ty
deriving DecidableEq, Repr

/-- `Modifier` with the argument of the control modifier (extension/modifier.rs 34-41). -/
inductive Modifier where
  | control (n : Nat)
  | dagger
  | power
deriving DecidableEq, Repr

/-- `CombinedModifier` (modifier.rs 27-37). -/
structure Combined where
  control : Nat
  accum : List Nat
  dagger : Bool
  power : Bool
deriving DecidableEq, Repr

/-- `CombinedModifier::default()`. -/
def Combined.empty : Combined := ⟨0, [], false, false⟩

/-- `CombinedModifier::push` (modifier.rs 41-52). -/
def Combined.push (c : Combined) : Modifier → Combined
  | .control n => { c with control := c.control + n, accum := c.accum ++ [n] }
  | .dagger => { c with dagger := !c.dagger }
  | .power => { c with power := !c.power }

/-- `trace_modifiers_chain` (call_modify.rs 109-134): the modifiers are met starting from the one that is
called, ending with the one applied to the loaded function. -/
def traceChain (c : Combined) (chain : List Modifier) : Combined := chain.foldl Combined.push c

/-- `modify_signature` (modifier_resolver.rs 693-715). -/
def modifySignature (c : Combined) (s : Sig) (flatten : Bool) : Sig :=
  if flatten then
    ⟨List.replicate c.control .qubit ++ s.input, List.replicate c.control .qubit ++ s.output⟩
  else
    c.accum.foldl (fun s n => ⟨.qarray n :: s.input, .qarray n :: s.output⟩) s

/-- `unpack_controls` (dfg_modify.rs 207-219), on types: the arrays are taken from the front of the inputs;
`none` if an input is missing (panic) or has another type (ill-typed node). -/
def unpackControls : List Nat → List Ty → Option Nat
  | [], _ => some 0
  | n :: ns, t :: ts => if t = .qarray n then (unpackControls ns ts).map (n + ·) else none
  | _ :: _, [] => none

/-! ## Flags -/

/-- `ModifierFlags` (modifier.rs 55-60). -/
structure Flags where
  control : Bool
  dagger : Bool
  power : Bool
deriving DecidableEq, Repr

/-- `ModifierFlags::from_metadata` on a stored number (modifier.rs 63-71). -/
def Flags.fromMetadata (num : Option Nat) : Option Flags :=
  num.map (fun num => { dagger := num &&& 1 != 0, control := num &&& 2 != 0, power := num &&& 4 != 0 })

/-- `ModifierFlags::set_metadata` (modifier.rs 73-85). -/
def Flags.toMetadata (f : Flags) : Nat :=
  let num := 0
  let num := if f.dagger then num ||| 1 else num
  let num := if f.control then num ||| 2 else num
  if f.power then num ||| 4 else num

/-- `ModifierFlags::satisfies` (modifier.rs 87-91). -/
def Flags.satisfies (f : Flags) (c : Combined) : Bool :=
  (c.control == 0 || f.control) && (!c.dagger || f.dagger) && (!c.power || f.power)

/-- `ModifierFlags::from_combined` (modifier.rs 93-99). -/
def Flags.fromCombined (c : Combined) : Flags := ⟨decide (c.control > 0), c.dagger, c.power⟩

/-- `ModifierFlags::or` (modifier.rs 101-110). -/
def Flags.or (f : Flags) : Option Flags → Flags
  | none => f
  | some g => ⟨f.control || g.control, f.dagger || g.dagger, f.power || g.power⟩

/-- The metadata of the new function (dfg_modify.rs 350-354). -/
def newMetadata (c : Combined) (old : Option Nat) : Nat :=
  ((Flags.fromCombined c).or (Flags.fromMetadata old)).toMetadata

/-- The decision of `modify_fn_if_needed` (dfg_modify.rs 298-316): is the called function modified? If not,
the call is copied as it is (call_modify.rs 33-39). -/
def modifiesCallee (c : Combined) (metadata : Option Nat) (s : Sig) : Bool :=
  let satisfies := match Flags.fromMetadata metadata with
    | some f => f.satisfies c
    | none => false
  !(!satisfies && decide (s.input = s.output))

/-! ## Ports -/

/-- The direction of a port. -/
inductive Dir where
  | inc | out
deriving DecidableEq, Repr

/-- A port: `Port` of a node whose identity is known from the context. -/
structure Port where
  dir : Dir
  idx : Nat
deriving DecidableEq, Repr

/-- `PortExt::shift(1)` (modifier_resolver.rs 234-254). -/
def Port.next (p : Port) : Port := { p with idx := p.idx + 1 }

/-- Errors: `dup` is "Wire already registered". -/
inductive Err where
  | dup | fuel
deriving DecidableEq, Repr

/-- The correspondence map, entries in the order of insertion. -/
abbrev Map := List (Port × Port)

/-- `map_insert` (modifier_resolver.rs 500-515). -/
def mapInsert (m : Map) (old new : Port) : Except Err Map :=
  if m.any (fun e => e.1 = old) then .error .dup else .ok (m ++ [(old, new)])

/-- One of the four `while` loops of `wire_inout`: as long as the next type satisfies `p`, map a port. -/
def wireWhile (p : Ty → Bool) : List Ty → Port → Port → Map → Except Err (List Ty × Port × Port × Map)
  | [], old, new, m => .ok ([], old, new, m)
  | t :: ts, old, new, m =>
    if p t then
      match mapInsert m old new with
      | .ok m => wireWhile p ts old.next new.next m
      | .error e => .error e
    else .ok (t :: ts, old, new, m)

/-- The outer loop of `wire_inout` (modifier_resolver.rs 852-914). -/
def wireLoop (dagger : Bool) : Nat → List Ty → List Ty → Port → Port → Port → Port → Map → Except Err Map
  | 0, _, _, _, _, _, _, _ => .error .fuel
  | f + 1, ins, outs, oldIn, oldOut, newIn, newOut, m =>
    match wireWhile (fun t => !t.isQ) ins oldIn newIn m with
    | .error e => .error e
    | .ok (ins, oldIn, newIn, m) =>
    match wireWhile (fun t => !t.isQ) outs oldOut newOut m with
    | .error e => .error e
    | .ok (outs, oldOut, newOut, m) =>
    match wireWhile (fun t => t.isQ) ins oldIn (if dagger then newOut else newIn) m with
    | .error e => .error e
    | .ok (ins, oldIn, w, m) =>
    let newIn := if dagger then newIn else w
    let newOut := if dagger then w else newOut
    match wireWhile (fun t => t.isQ) outs oldOut (if dagger then newIn else newOut) m with
    | .error e => .error e
    | .ok (outs, oldOut, w, m) =>
    let newIn := if dagger then w else newIn
    let newOut := if dagger then newOut else w
    if ins.isEmpty && outs.isEmpty then .ok m
    else wireLoop dagger f ins outs oldIn oldOut newIn newOut m

/-- `wire_inout` (modifier_resolver.rs 836-917), starting from an empty map. The fuel is large enough, see
`C42_rewiring`. -/
def wireInout (dagger : Bool) (s : Sig) (inOff outOff newOff : Nat) : Except Err Map :=
  wireLoop dagger (s.input.length + s.output.length + 1) s.input s.output ⟨.inc, inOff⟩ ⟨.out, outOff⟩
    ⟨.inc, inOff + newOff⟩ ⟨.out, outOff + newOff⟩ []

/-- The call made by `modify_dfg` (dfg_modify.rs 434-464): the signature passed is the modified one. -/
def modifyDfgWiring (c : Combined) (s : Sig) : Except Err Map :=
  wireInout c.dagger (modifySignature c s true) 0 0 c.control

/-! ## Nested regions -/

/-- The signature of a node as seen from outside, and where its control qubits are connected. -/
structure Nested where
  /-- types of the inputs and outputs of the new node -/
  sig : Sig
  /-- input and output ports of the `i`-th control -/
  ctrlIn : Nat → Nat
  ctrlOut : Nat → Nat
  /-- new port of an old input or output port -/
  oldIn : Nat → Nat
  oldOut : Nat → Nat

/-- `modify_tail_loop` (dfg_modify.rs 466-532) on a loop that is not daggered. -/
def tailLoop (n : Nat) (justInputs justOutputs rest : List Ty) : Nested where
  sig := ⟨justInputs ++ (rest ++ List.replicate n .qubit), justOutputs ++ (rest ++ List.replicate n .qubit)⟩
  ctrlIn i := i + justInputs.length
  ctrlOut i := i + justOutputs.length
  oldIn p := if p < justInputs.length then p else p + n
  oldOut p := if p < justOutputs.length then p else p + n

/-- `modify_conditional` (dfg_modify.rs 534-621) without dagger; `sum` is the type of the tag. -/
def conditional (n : Nat) (sum : Ty) (others outputs : List Ty) : Nested where
  sig := ⟨sum :: (List.replicate n .qubit ++ others), List.replicate n .qubit ++ outputs⟩
  ctrlIn i := i + 1
  ctrlOut i := i
  oldIn p := if p < 1 then p else p + n
  oldOut p := p + n

/-- `modify_dfg` (dfg_modify.rs 434-464) without dagger. -/
def dfg (n : Nat) (s : Sig) : Nested where
  sig := ⟨List.replicate n .qubit ++ s.input, List.replicate n .qubit ++ s.output⟩
  ctrlIn i := i
  ctrlOut i := i
  oldIn p := p + n
  oldOut p := p + n

end Tket.Modifier
