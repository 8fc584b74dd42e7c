/-!
# The wire tracker of the pytket decoder

Model of `tket/src/serialize/pytket/decoder/wires.rs` and of the parts of
`tket/src/serialize/pytket/decoder.rs` that drive it: how the decoder finds the wire that carries a
pytket register, wires up the node of a command, and closes the region.

Simplifications that hold for the whole file:

* The region is a list of nodes, newest first; the identifier of a node is the number of nodes
  before it.  In the code a command's node is created before its inputs are found
  (`add_node_with_wires`, decoder.rs 746-775); here it is created after, which only changes
  identifiers.
* A loaded parameter is a number.  How parameters are loaded, and the conversions between floats and
  rotations (wires.rs 658-673), are not part of this model (see `Params`).
* Registers are compared directly; the code compares 64-bit hashes of them.
* Opaque subgraphs (decoder/subgraph.rs) are not modelled.
-/

namespace Verif.Decoder

/-- What the tracker asks about types and registers: `type_to_pytket`
(config/type_translators.rs 65-125) as counts, where a type with no qubits, bits or parameters is an
unsupported one; the types of qubits, of native and of opaque booleans, and of rotations; and
`check_register` (wires.rs 1160-1170). -/
structure Cfg (T R : Type) where
  qubits : T → Nat
  bits : T → Nat
  /-- `float64` or `rotation`. -/
  param : T → Bool
  qb : T
  bool : T
  tbool : T
  rot : T
  single : R → Bool

/-- The port of a node. -/
structure Wire where
  node : Nat
  port : Nat
  deriving DecidableEq, Repr

/-- `WireData` (wires.rs 32-42), without the wire itself. -/
structure WireData (T : Type) where
  ty : T
  qs : List Nat
  bs : List Nat
  deriving DecidableEq, Repr

/-- What is connected to an input port: a wire, a parameter, or nothing. -/
inductive Src where
  | val (w : Wire)
  | par (p : Nat)
  | gap
  deriving DecidableEq, Repr

/-- The operations the decoder inserts. -/
inductive Op (L : Type) where
  | input
  | alloc
  | ff
  | toTket
  | toNative
  | cmd (l : L)
  | free
  | output
  deriving DecidableEq, Repr

structure Node (T L : Type) where
  op : Op L
  ins : List Src
  sigIn : List T
  sigOut : List T
  deriving DecidableEq, Repr

/-- The errors of the decoder, and `panic` for index panics. -/
inductive Err where
  | multiIndexed
  | unknownRegister
  | notEnoughInput
  | notEnoughOutput
  | unexpectedOutput
  | noParameter
  | unexpectedType
  | noMatchingWire
  | outdatedQubit
  | outdatedBit
  | cannotTranslate
  | inputSignature
  | inputParameters
  | panic
  deriving DecidableEq, Repr

/-- `TrackedQubit` and `TrackedBit` (tracked_elem.rs 20-62): one version of a register. -/
structure Elem (R : Type) where
  reg : R
  outdated : Bool
  deriving DecidableEq, Repr

/-- A clone of a tracked element, together with its identifier. -/
structure Arg (R : Type) where
  id : Nat
  reg : R
  outdated : Bool
  deriving DecidableEq, Repr

/-- The three fields that `WireTracker` (wires.rs 300-362) has once for qubits and once for bits:
all elements, the latest element of each register in insertion order, and the wires of each
element. -/
structure Half (R : Type) where
  elems : List (Elem R)
  latest : List (R × Nat)
  wires : Nat → List Wire

/-- The region being built and its tracker. -/
structure St (T R L : Type) where
  nodes : List (Node T L)
  q : Half R
  b : Half R
  wires : Wire → Option (WireData T)

/-- A command: arguments, parameters, the operation it is decoded to, and how its bits are split
into inputs and outputs. -/
inductive Mode where
  /-- The first `k` bits are inputs and the rest are outputs (extension/bool.rs 160-176;
  extension/tket.rs 180-192 with `k = 0`; extension/prelude.rs 161 with all bits). -/
  | split (k : Nat)
  /-- All bits are inputs and outputs (extension/core.rs 92, boxed circuits). -/
  | both
  /-- `build_opaque_tket_op` (extension/tk1.rs 76-127). -/
  | opaque
  deriving DecidableEq, Repr

structure Cmd (T R L : Type) where
  label : L
  args : List R
  params : List Nat
  sigIn : List T
  sigOut : List T
  mode : Mode
  deriving Repr

section Defs
variable {T R L : Type} [DecidableEq T] [DecidableEq R]

/-- A type is supported if it counts something (`type_to_pytket`, 65-75). -/
def Cfg.supported (c : Cfg T R) (t : T) : Bool := c.qubits t + c.bits t != 0

def Half.empty : Half R := ⟨[], [], fun _ => []⟩

/-- `IndexMap::insert`: keeps the position of a known key and returns its previous value. -/
def insertLatest (r : R) (id : Nat) : List (R × Nat) → List (R × Nat) × Option Nat
  | [] => ([(r, id)], none)
  | (r', old) :: rest =>
    if r' = r then ((r', id) :: rest, some old)
    else
      let (rest', prev) := insertLatest r id rest
      ((r', old) :: rest', prev)

def lookupLatest (r : R) : List (R × Nat) → Option Nat
  | [] => none
  | (r', id) :: rest => if r' = r then some id else lookupLatest r rest

/-- `mark_outdated` on the element with an identifier (wires.rs 528-560). -/
def Half.mark (h : Half R) (id : Nat) : Half R :=
  { h with elems := h.elems.modify id fun e => { e with outdated := true } }

/-- `track_qubit` / `track_bit` (wires.rs 479-527). -/
def Half.track (single : R → Bool) (h : Half R) (r : R) : Except Err (Nat × Half R) :=
  if single r then
    let id := h.elems.length
    let (latest, prev) := insertLatest r id h.latest
    let h1 : Half R := ⟨h.elems ++ [⟨r, false⟩], latest,
      fun i => if i = id then [] else h.wires i⟩
    .ok (id, match prev with
      | some p => h1.mark p
      | none => h1)
  else .error .multiIndexed

/-- The iterators in `track_wire` that collect the new identifiers (wires.rs 1008-1023). -/
def Half.trackAll (single : R → Bool) : Half R → List R → Except Err (List Nat × Half R)
  | h, [] => .ok ([], h)
  | h, r :: rs =>
    match h.track single r with
    | .error e => .error e
    | .ok (id, h1) =>
      match Half.trackAll single h1 rs with
      | .error e => .error e
      | .ok (ids, h2) => .ok (id :: ids, h2)

/-- The loops that add the wire to its elements (wires.rs 1025-1030). -/
def Half.push (h : Half R) (ids : List Nat) (w : Wire) : Half R :=
  { h with wires := fun i => if i ∈ ids then h.wires i ++ [w] else h.wires i }

/-- `track_wire` (wires.rs 1001-1041). -/
def trackWire (c : Cfg T R) (s : St T R L) (w : Wire) (ty : T) (qs bs : List R) :
    Except Err (St T R L) :=
  match s.q.trackAll c.single qs with
  | .error e => .error e
  | .ok (qi, q) =>
    match s.b.trackAll c.single bs with
    | .error e => .error e
    | .ok (bi, b) =>
      .ok { s with
            q := q.push qi w
            b := b.push bi w
            wires := fun w' => if w' = w then some ⟨ty, qi, bi⟩ else s.wires w' }

/-- `mark_wire_outdated` (wires.rs 528-538). -/
def markWire (s : St T R L) (d : WireData T) : St T R L :=
  { s with q := d.qs.foldl Half.mark s.q, b := d.bs.foldl Half.mark s.b }

/-- Adds a node and returns its identifier. -/
def addNode (s : St T R L) (n : Node T L) : Nat × St T R L :=
  (s.nodes.length, { s with nodes := n :: s.nodes })

/-- `types_are_isomorphic` (config/type_translators.rs 146-164). -/
def Cfg.iso (c : Cfg T R) (a b : T) : Bool :=
  a = b || (a = c.bool && b = c.tbool) || (a = c.tbool && b = c.bool)

/-- `transform_typed_value` (config/type_translators.rs 166-212). -/
def transform (c : Cfg T R) (s : St T R L) (w : Wire) (a b : T) : Except Err (Wire × St T R L) :=
  if a = b then .ok (w, s)
  else if a = c.bool ∧ b = c.tbool then
    let (n, s1) := addNode s ⟨.toTket, [.val w], [c.bool], [c.tbool]⟩
    .ok (⟨n, 0⟩, s1)
  else if a = c.tbool ∧ b = c.bool then
    let (n, s1) := addNode s ⟨.toNative, [.val w], [c.tbool], [c.bool]⟩
    .ok (⟨n, 0⟩, s1)
  else .error .cannotTranslate

inductive Found (T : Type) where
  | reg (w : Wire) (d : WireData T)
  | par (p : Nat)
  | unsupported
  deriving DecidableEq, Repr

/-- The arguments that `find_typed_wire` has not consumed yet. -/
structure Rest (R : Type) where
  q : List (Arg R)
  b : List (Arg R)
  p : List Nat
  deriving DecidableEq, Repr

/-- `initialize_qubit_wire` (wires.rs 1122-1136). -/
def initQubit (c : Cfg T R) (s : St T R L) (r : R) : Except Err (Wire × St T R L) :=
  let (n, s1) := addNode s ⟨.alloc, [], [], [c.qb]⟩
  match trackWire c s1 ⟨n, 0⟩ c.qb [r] [] with
  | .error e => .error e
  | .ok s2 => .ok (⟨n, 0⟩, s2)

/-- `initialize_bit_wire` (wires.rs 1138-1150).  The constant and its load are one node here. -/
def initBit (c : Cfg T R) (s : St T R L) (r : R) : Except Err (Wire × St T R L) :=
  let (n, s1) := addNode s ⟨.ff, [], [], [c.bool]⟩
  match trackWire c s1 ⟨n, 0⟩ c.bool [] [r] with
  | .error e => .error e
  | .ok s2 => .ok (⟨n, 0⟩, s2)

/-- The wires of the first argument: the candidates (wires.rs 690-699). -/
def Half.firstWires (h : Half R) : List (Arg R) → List Wire
  | [] => []
  | x :: _ => h.wires x.id

/-- `check_wire` (wires.rs 711-716). -/
def fits (c : Cfg T R) (s : St T R L) (ty : T) (a : Rest R) (w : Wire) : Bool :=
  match s.wires w with
  | some d => d.qs = (a.q.take (c.qubits ty)).map Arg.id &&
      d.bs = (a.b.take (c.bits ty)).map Arg.id && c.iso d.ty ty
  | none => false

/-- The choice of a wire in `find_typed_wire` (wires.rs 690-741). -/
def pick (c : Cfg T R) (s : St T R L) (ty : T) (a : Rest R) : Except Err (Wire × St T R L) :=
  match (s.q.firstWires a.q ++ s.b.firstWires a.b).find? (fits c s ty a) with
  | some w => .ok (w, s)
  | none =>
    if ty = c.qb then
      match a.q with
      | [] => .error .panic
      | x :: _ => initQubit c s x.reg
    else if ty = c.bool ∨ ty = c.tbool then
      match a.b with
      | [] => .error .panic
      | x :: _ => initBit c s x.reg
    else .error .noMatchingWire

/-- `find_typed_wire` (wires.rs 640-787). `unsup` tells whether the caller passed an identifier for
unsupported wires.  Slicing past the end (757-758) panics. -/
def find (c : Cfg T R) (s : St T R L) (ty : T) (a : Rest R) (unsup : Bool) :
    Except Err (Found T × Rest R × St T R L) :=
  if c.param ty then
    match a.p with
    | [] => .error .noParameter
    | p :: ps => .ok (.par p, { a with p := ps }, s)
  else if c.supported ty = false then
    if unsup then .ok (.unsupported, a, s) else .error .unexpectedType
  else
    match pick c s ty a with
    | .error e => .error e
    | .ok (w, s1) =>
      if (a.q.take (c.qubits ty)).any Arg.outdated then .error .outdatedQubit
      else if (a.b.take (c.bits ty)).any Arg.outdated then .error .outdatedBit
      else if a.q.length < c.qubits ty ∨ a.b.length < c.bits ty then .error .panic
      else
        let a' : Rest R := ⟨a.q.drop (c.qubits ty), a.b.drop (c.bits ty), a.p⟩
        match s1.wires w with
        | none => .error .panic
        | some d =>
          match transform c s1 w d.ty ty with
          | .error e => .error e
          | .ok (w', s2) =>
            if w = w' then .ok (.reg w d, a', s2)
            else
              -- the new wire is recorded with the type of the old one
              match trackWire c s2 w' d.ty ((a.q.take (c.qubits ty)).map Arg.reg)
                  ((a.b.take (c.bits ty)).map Arg.reg) with
              | .error e => .error e
              | .ok s3 =>
                match s3.wires w' with
                | none => .error .panic
                | some d' => .ok (.reg w' d', a', markWire s3 d)

/-- `find_typed_wires` (wires.rs 820-872): the value wires and the parameters, each in order. -/
def findAll (c : Cfg T R) : St T R L → List T → Rest R → Except Err (List Wire × List Nat × St T R L)
  | s, [], _ => .ok ([], [], s)
  | s, t :: ts, a =>
    match find c s t a false with
    | .error e => .error e
    | .ok (f, a', s1) =>
      match findAll c s1 ts a' with
      | .error e => .error e
      | .ok (ws, ps, s2) =>
        match f with
        | .reg w _ => .ok (w :: ws, ps, s2)
        | .par p => .ok (ws, p :: ps, s2)
        | .unsupported => .error .panic

/-- `register_node_outputs` (decoder.rs 785-833), with the number of the next port. Registers that
are left over are marked as outdated. -/
def registerOutputs (c : Cfg T R) (node : Nat) :
    St T R L → Nat → List T → List (Arg R) → List (Arg R) → Except Err (St T R L)
  | s, _, [], qs, bs =>
    .ok { s with q := (qs.map Arg.id).foldl Half.mark s.q, b := (bs.map Arg.id).foldl Half.mark s.b }
  | s, port, t :: ts, qs, bs =>
    if qs.length < c.qubits t ∨ bs.length < c.bits t then .error .unexpectedOutput
    else
      match trackWire c s ⟨node, port⟩ t ((qs.take (c.qubits t)).map Arg.reg)
          ((bs.take (c.bits t)).map Arg.reg) with
      | .error e => .error e
      | .ok s1 => registerOutputs c node s1 (port + 1) ts (qs.drop (c.qubits t)) (bs.drop (c.bits t))

/-- The register counts of a row of types (decoder.rs 640-655). -/
def Cfg.countQ (c : Cfg T R) (ts : List T) : Nat := (ts.map c.qubits).sum
def Cfg.countB (c : Cfg T R) (ts : List T) : Nat := (ts.map c.bits).sum
def Cfg.countP (c : Cfg T R) (ts : List T) : Nat := ts.countP c.param

/-- `wire_up_node` (decoder.rs 629-720) after adding the node. All callers pass the same qubits as
inputs and outputs. -/
def wireUp (c : Cfg T R) (s : St T R L) (l : L) (sigIn sigOut : List T) (qs inB outB : List (Arg R))
    (ps : List Nat) : Except Err (St T R L) :=
  if c.countQ sigIn ≠ qs.length ∨ c.countB sigIn ≠ inB.length ∨ c.countP sigIn ≠ ps.length then
    .error .notEnoughInput
  else if c.countQ sigOut ≠ qs.length ∨ c.countB sigOut ≠ outB.length ∨ c.countP sigOut ≠ 0 then
    .error .notEnoughOutput
  else
    match findAll c s sigIn ⟨qs, inB, ps⟩ with
    | .error e => .error e
    | .ok (ws, pp, s1) =>
      let (n, s2) := addNode s1 ⟨.cmd l, ws.map .val ++ pp.map .par, sigIn, sigOut⟩
      let s3 := { s2 with b := (inB.map Arg.id).foldl Half.mark s2.b }
      registerOutputs c n s3 0 sigOut qs outB

/-- The loops of `build_opaque_tket_op` that track the outputs (tk1.rs 108-124). -/
def trackEach (c : Cfg T R) (node : Nat) :
    St T R L → Nat → List R → List R → Except Err (St T R L)
  | s, _, [], [] => .ok s
  | s, port, [], b :: bs =>
    match trackWire c s ⟨node, port⟩ c.bool [] [b] with
    | .error e => .error e
    | .ok s1 => trackEach c node s1 (port + 1) [] bs
  | s, port, q :: qs, bs =>
    match trackWire c s ⟨node, port⟩ c.qb [q] [] with
    | .error e => .error e
    | .ok s1 => trackEach c node s1 (port + 1) qs bs

/-- The input signature of an opaque operation: qubits, bits, parameters. -/
def Cfg.opaqueIn (c : Cfg T R) (nq nb np : Nat) : List T :=
  List.replicate nq c.qb ++ List.replicate nb c.bool ++ List.replicate np c.rot

def Cfg.opaqueOut (c : Cfg T R) (nq nb : Nat) : List T :=
  List.replicate nq c.qb ++ List.replicate nb c.bool

/-- `build_opaque_tket_op` (tk1.rs 76-127). -/
def opaqueOp (c : Cfg T R) (s : St T R L) (l : L) (qs bs : List (Arg R)) (ps : List Nat) :
    Except Err (St T R L) :=
  match findAll c s (c.opaqueIn qs.length bs.length ps.length) ⟨qs, bs, ps⟩ with
  | .error e => .error e
  | .ok (ws, pp, s1) =>
    let (n, s2) := addNode s1 ⟨.cmd l, ws.map .val ++ pp.map .par,
      c.opaqueIn qs.length bs.length ps.length, c.opaqueOut qs.length bs.length⟩
    trackEach c n s2 0 (qs.map Arg.reg) (bs.map Arg.reg)

/-- `tracked_qubit_for_register` / `tracked_bit_for_register` (wires.rs 562-592): a clone. -/
def Half.get (h : Half R) (r : R) : Except Err (Arg R) :=
  match lookupLatest r h.latest with
  | none => .error .unknownRegister
  | some id =>
    match h.elems[id]? with
    | none => .error .panic
    | some e => .ok ⟨id, e.reg, e.outdated⟩

/-- `pytket_args_to_tracked_elems` (wires.rs 604-626): a register is a bit if the tracker knows a
bit of that name. -/
def splitArgs (s : St T R L) : List R → Except Err (List (Arg R) × List (Arg R))
  | [] => .ok ([], [])
  | r :: rs =>
    if (lookupLatest r s.b.latest).isSome then
      match s.b.get r with
      | .error e => .error e
      | .ok x =>
        match splitArgs s rs with
        | .error e => .error e
        | .ok (qs, bs) => .ok (qs, x :: bs)
    else
      match s.q.get r with
      | .error e => .error e
      | .ok x =>
        match splitArgs s rs with
        | .error e => .error e
        | .ok (qs, bs) => .ok (x :: qs, bs)

/-- `process_command` (decoder.rs 510-541). -/
def command (c : Cfg T R) (s : St T R L) (k : Cmd T R L) : Except Err (St T R L) :=
  match splitArgs s k.args with
  | .error e => .error e
  | .ok (qs, bs) =>
    match k.mode with
    | .split n =>
      if bs.length < n then .error .panic
      else wireUp c s k.label k.sigIn k.sigOut qs (bs.take n) (bs.drop n) k.params
    | .both => wireUp c s k.label k.sigIn k.sigOut qs bs bs k.params
    | .opaque => opaqueOp c s k.label qs bs k.params

/-- The loop of `run_decoder` (decoder.rs 470-477). -/
def commands (c : Cfg T R) : St T R L → List (Cmd T R L) → Except Err (St T R L)
  | s, [] => .ok s
  | s, k :: ks =>
    match command c s k with
    | .error e => .error e
    | .ok s1 => commands c s1 ks

/-- Registers that are tracked without a wire (decoder.rs 280-286). -/
def Half.declare (single : R → Bool) : Half R → List R → Except Err (Half R)
  | h, [] => .ok h
  | h, r :: rs =>
    match h.track single r with
    | .error e => .error e
    | .ok (_, h1) => Half.declare single h1 rs

/-- The loop over the region's inputs in `init_wire_tracker` (decoder.rs 214-268). Returns the
registers that are left. -/
def initInputs (c : Cfg T R) :
    St T R L → Nat → List T → List R → List R → Except Err (List R × List R × St T R L)
  | s, _, [], qs, bs => .ok (qs, bs, s)
  | s, port, t :: ts, qs, bs =>
    if c.supported t = false ∧ c.param t = false then initInputs c s (port + 1) ts qs bs
    else if qs.length < c.qubits t then .error .inputSignature
    else
      match trackWire c s ⟨0, port⟩ t (qs.take (c.qubits t)) (bs.take (c.bits t)) with
      | .error e => .error e
      | .ok s1 =>
        if c.param t ∧ c.supported t then .error .inputParameters
        else initInputs c s1 (port + 1) ts (qs.drop (c.qubits t)) (bs.drop (c.bits t))

/-- `init_wire_tracker` (decoder.rs 196-291), without parameter names and without the implicit
permutation (see `Registers`). -/
def init (c : Cfg T R) (sig : List T) (qs bs : List R) : Except Err (St T R L) :=
  match initInputs c ⟨[⟨.input, [], [], sig⟩], Half.empty, Half.empty, fun _ => none⟩ 0 sig qs bs with
  | .error e => .error e
  | .ok (qs', bs', s) =>
    match s.q.declare c.single qs' with
    | .error e => .error e
    | .ok q =>
      match s.b.declare c.single bs' with
      | .error e => .error e
      | .ok b => .ok { s with q := q, b := b }

/-- Clones of elements by identifier. -/
def Half.args (h : Half R) : List Nat → Except Err (List (Arg R))
  | [] => .ok []
  | id :: ids =>
    match h.elems[id]? with
    | none => .error .panic
    | some e =>
      match Half.args h ids with
      | .error e => .error e
      | .ok as => .ok (⟨id, e.reg, e.outdated⟩ :: as)

/-- The identifiers of `known_pytket_qubits` (wires.rs 448-456), with the output permutation
`perm`. -/
def knownIds (latest : List (R × Nat)) (perm : List Nat) : Option (List Nat) :=
  (List.range latest.length).mapM fun i =>
    (latest[(perm[i]?).getD i]?).map Prod.snd

/-- The loop over the region's outputs in `finish` (decoder.rs 330-400). No output port is connected
beforehand. -/
def finishOutputs (c : Cfg T R) :
    St T R L → List T → Rest R → Except Err (List Src × Rest R × St T R L)
  | s, [], a => .ok ([], a, s)
  | s, t :: ts, a =>
    match find c s t a true with
    | .error e => .error e
    | .ok (f, a', s1) =>
      match finishOutputs c s1 ts a' with
      | .error e => .error e
      | .ok (ss, a'', s2) =>
        .ok ((match f with
          | .reg w _ => .val w
          | .par p => .par p
          | .unsupported => .gap) :: ss, a'', s2)

/-- `add_implicit_qfree_operations` (decoder.rs 423-450). If the search fails the code keeps what it
added to the region before failing; here that is dropped. -/
def freeAll (c : Cfg T R) : St T R L → List (Arg R) → St T R L
  | s, [] => s
  | s, q :: qs =>
    if (s.q.wires q.id).isEmpty then freeAll c s qs
    else
      match find c s c.qb ⟨[q], [], []⟩ false with
      | .ok (.reg w _, _, s1) => freeAll c (addNode s1 ⟨.free, [.val w], [c.qb], []⟩).2 qs
      | _ => freeAll c s qs

/-- `finish` (decoder.rs 305-418). The output node is added here, in the code it exists from the
start. -/
def finish (c : Cfg T R) (s : St T R L) (sig : List T) (perm : List Nat) (ps : List Nat) :
    Except Err (St T R L) :=
  match knownIds s.q.latest perm with
  | none => .error .panic
  | some qids =>
    match s.q.args qids with
    | .error e => .error e
    | .ok qs =>
      match s.b.args (s.b.latest.map Prod.snd) with
      | .error e => .error e
      | .ok bs =>
        match finishOutputs c s sig ⟨qs, bs, ps⟩ with
        | .error e => .error e
        | .ok (ss, a, s1) => .ok (freeAll c (addNode s1 ⟨.output, ss, sig, []⟩).2 a.q)

/-- What `decode` needs: the registers of the circuit, the signature of the region, the commands,
the permutation of the output qubits and the output parameters. -/
structure Circ (T R L : Type) where
  qubits : List R
  bits : List R
  sigIn : List T
  sigOut : List T
  cmds : List (Cmd T R L)
  perm : List Nat
  outParams : List Nat

/-- `PytketDecoderContext::new`, `run_decoder` and `finish`. -/
def decode (c : Cfg T R) (k : Circ T R L) : Except Err (List (Node T L)) :=
  match init c k.sigIn k.qubits k.bits with
  | .error e => .error e
  | .ok s =>
    match commands c s k.cmds with
    | .error e => .error e
    | .ok s1 =>
      match finish c s1 k.sigOut k.perm k.outParams with
      | .error e => .error e
      | .ok s2 => .ok s2.nodes

end Defs

end Verif.Decoder
