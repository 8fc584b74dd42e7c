/-!
# Configuration of the pytket encoder and decoder

Model of `tket/src/serialize/pytket/config/encoder_config.rs` and `decoder_config.rs`, of the constants encoded by
`extension/{bool,float,rotation}.rs` (`const_to_pytket`) and of the lists of `config.rs` 40-60. The bits and
parameters of the encoder are those of `encoder/value_tracker.rs` 287-315.

Emitters are functions on a state of type `σ` (the encoder's context); extensions, operations and parameter
expressions are numbers. Type translators are in `Model/TypeTranslate`.
-/

namespace Tket.EncConfig

/-- Ways to fail: an index out of range, an error of an emitter, and (in the model only) missing fuel. -/
inductive Err where
  | index
  | emitter (n : Nat)
  | fuel
  deriving DecidableEq

/-- `TrackedValues`, without qubits. -/
structure Vals where
  bits : List Nat
  params : List Nat
  deriving DecidableEq

/-- `TrackedValues::append` (value_tracker.rs 544-548). -/
def Vals.append (a b : Vals) : Vals := ⟨a.bits ++ b.bits, a.params ++ b.params⟩

/-- Values of types of extensions: `ConstBool`, `ConstF64` and `ConstRotation` with the expression written for
them, and others with the extensions of their type. -/
inductive Leaf where
  | bool (b : Bool)
  | float (e : Nat)
  | rotation (e : Nat)
  | other (n : Nat) (exts : List Nat)
  deriving DecidableEq

/-- Constants (`Value` of `hugr`): values of the type with two empty variants, other tuples, other sums, extension
values, and functions. -/
inductive Value where
  | bool (b : Bool)
  | tuple (vs : List Value)
  | otherSum (n : Nat)
  | ext (l : Leaf)
  | function (n : Nat)

/-- `PytketEmitter`: `op_to_pytket` tells whether it succeeded. -/
structure Emitter (σ : Type) where
  exts : Option (List Nat)
  op : Nat → σ → Except Err (Bool × σ)
  const : Leaf → σ → Except Err (Option Vals × σ)

/-- `PytketEncoderConfig` (encoder_config.rs 28-42); `byExt` is the map `extension_emitters`. -/
structure Config (σ : Type) where
  emitters : List (Emitter σ)
  byExt : Nat → List Nat
  generic : List Nat

/-- `Default` (encoder_config.rs 200-209). -/
def Config.empty {σ : Type} : Config σ := ⟨[], fun _ => [], []⟩

/-- `entry(ext).or_default().push(idx)`. -/
def push (idx : Nat) (m : Nat → List Nat) (e : Nat) : Nat → List Nat := fun x => if x = e then m x ++ [idx] else m x

/-- `add_emitter` (encoder_config.rs 51-66). -/
def Config.add {σ : Type} (c : Config σ) (em : Emitter σ) : Config σ :=
  let idx := c.emitters.length
  match em.exts with
  | some es => ⟨c.emitters ++ [em], es.foldl (push idx) c.byExt, c.generic⟩
  | none => ⟨c.emitters ++ [em], c.byExt, c.generic ++ [idx]⟩

/-- Emitters by index; `none` is a panic. -/
def Config.get {σ : Type} (c : Config σ) : List Nat → Option (List (Emitter σ))
  | [] => some []
  | i :: is =>
    match c.emitters[i]? with
    | none => none
    | some e => (c.get is).map (e :: ·)

/-- `emitters_for_extension` (encoder_config.rs 173-183). -/
def Config.forExt {σ : Type} (c : Config σ) (e : Nat) : Option (List (Emitter σ)) := c.get (c.byExt e ++ c.generic)

/-- Insertion into a `BTreeSet`. -/
def insertSet (i : Nat) : List Nat → List Nat
  | [] => [i]
  | j :: l => if i < j then i :: j :: l else if i = j then j :: l else j :: insertSet i l

/-- `collect` into a `BTreeSet`. -/
def toSet (l : List Nat) : List Nat := l.foldl (fun s i => insertSet i s) []

/-- `emitters_for_extensions` (encoder_config.rs 186-197). -/
def Config.forExts {σ : Type} (c : Config σ) (es : List Nat) : Option (List (Emitter σ)) :=
  c.get (toSet (es.flatMap c.byExt ++ c.generic))

/-- The loop of `op_to_pytket` (encoder_config.rs 99-104). -/
def opLoop {σ : Type} (op : Nat) : List (Emitter σ) → σ → Except Err (Bool × σ)
  | [], s => .ok (false, s)
  | e :: es, s =>
    match e.op op s with
    | .error x => .error x
    | .ok (true, s') => .ok (true, s')
    | .ok (false, s') => opLoop op es s'

/-- `op_to_pytket` (encoder_config.rs 90-106); `ext` is the extension of the operation. -/
def Config.op {σ : Type} (c : Config σ) (ext op : Nat) (s : σ) : Except Err (Bool × σ) :=
  match c.forExt ext with
  | none => .error .index
  | some es => opLoop op es s

/-- The extensions of the type of a value; 3 is `tket.bool`, 0 floats, 1 rotations. -/
def Leaf.exts : Leaf → List Nat
  | .bool _ => [3]
  | .float _ => [0]
  | .rotation _ => [1]
  | .other _ es => es

/-- The inner loop of `const_to_pytket` (encoder_config.rs 146-152). -/
def constLoop {σ : Type} (l : Leaf) : List (Emitter σ) → σ → Except Err (Option Vals × σ)
  | [], s => .ok (none, s)
  | e :: es, s =>
    match e.const l s with
    | .error x => .error x
    | .ok (some v, s') => .ok (some v, s')
    | .ok (none, s') => constLoop l es s'

/-- The case of extension values (encoder_config.rs 137-156). -/
def Config.leaf {σ : Type} (c : Config σ) (l : Leaf) (s : σ) : Except Err (Option Vals × σ) :=
  match c.forExts l.exts with
  | none => .error .index
  | some es => constLoop l es s

/-- The part of the encoder's context that constants use: the number of bits, those unused, the parameters, and
what the bits hold after the commands so far. -/
structure State where
  numBits : Nat
  unused : List Nat
  params : List Nat
  val : Nat → Bool

/-- `new_bit` (value_tracker.rs 302-307). New bits of pytket hold zero. -/
def newBit (s : State) : Nat × State :=
  match s.unused with
  | b :: u => (b, { s with unused := u })
  | [] => (s.numBits, { s with numBits := s.numBits + 1 })

/-- `new_param` (value_tracker.rs 312-315). -/
def newParam (e : Nat) (s : State) : Nat × State := (s.params.length, { s with params := s.params ++ [e] })

/-- The command `SetBits [true]` (bool.rs 181-190). -/
def setTrue (b : Nat) (s : State) : State := { s with val := fun x => if x = b then true else s.val x }

/-- A new bit for a constant (encoder_config.rs 123-130, bool.rs 84-90): only `true` is written. -/
def constBit (b : Bool) (s : State) : Vals × State :=
  let r := newBit s
  (⟨[r.1], []⟩, if b then setTrue r.1 r.2 else r.2)

/-- The loop of `const_to_pytket` (encoder_config.rs 118-160). -/
def loop (c : Config State) : Nat → List Value → Vals → State → Except Err (Option Vals × State)
  | _, [], acc, s => .ok (some acc, s)
  | 0, _ :: _, _, _ => .error .fuel
  | fuel + 1, v :: queue, acc, s =>
    match v with
    | .bool b =>
      let r := constBit b s
      .ok (some r.1, r.2)
    | .tuple vs => loop c fuel (queue ++ vs) acc s
    | .otherSum _ => loop c fuel queue acc s
    | .ext l =>
      match c.leaf l s with
      | .error x => .error x
      | .ok (none, s') => .ok (none, s')
      | .ok (some vs, s') => loop c fuel queue (acc.append vs) s'
    | .function _ => .ok (none, s)

mutual
/-- Number of nodes of a constant. -/
def Value.size : Value → Nat
  | .tuple vs => 1 + sizes vs
  | _ => 1

/-- Number of nodes of constants. -/
def sizes : List Value → Nat
  | [] => 0
  | v :: vs => v.size + sizes vs
end

/-- `const_to_pytket` (encoder_config.rs 113-161). -/
def constToPytket (c : Config State) (v : Value) (s : State) : Except Err (Option Vals × State) :=
  loop c v.size [v] ⟨[], []⟩ s

/-- `BoolEmitter::const_to_pytket` (bool.rs 75-92). -/
def boolConst : Leaf → State → Except Err (Option Vals × State)
  | .bool b, s => let r := constBit b s; .ok (some r.1, r.2)
  | _, s => .ok (none, s)

/-- `FloatEmitter::const_to_pytket` (float.rs 62-94). -/
def floatConst : Leaf → State → Except Err (Option Vals × State)
  | .float e, s => let r := newParam e s; .ok (some ⟨[], [r.1]⟩, r.2)
  | _, s => .ok (none, s)

/-- `RotationEmitter::const_to_pytket` (rotation.rs 59-90). -/
def rotationConst : Leaf → State → Except Err (Option Vals × State)
  | .rotation e, s => let r := newParam e s; .ok (some ⟨[], [r.1]⟩, r.2)
  | _, s => .ok (none, s)

/-- The default of the trait (extension.rs 93-100). -/
def noConst : Leaf → State → Except Err (Option Vals × State) := fun _ s => .ok (none, s)

/-- `default_encoder_config` (config.rs 40-60) with any emission of operations. Extensions: 2 prelude, 3 `tket.bool`,
0 and 5 float types and operations, 1 rotations, 6 `TKET1`, 7 `tket.quantum`. -/
def defaultConfig (op : Nat → Nat → State → Except Err (Bool × State)) : Config State :=
  ((((((Config.empty.add ⟨some [2], op 0, noConst⟩).add ⟨some [3], op 1, boolConst⟩).add
    ⟨some [5, 0], op 2, floatConst⟩).add ⟨some [1], op 3, rotationConst⟩).add ⟨some [6], op 4, noConst⟩).add
    ⟨some [7], op 5, noConst⟩)

/-- `PytketDecoder`. -/
structure Decoder (σ : Type) where
  types : List Nat
  op : Nat → σ → Except Err (Bool × σ)

/-- `PytketDecoderConfig` (decoder_config.rs 27-38). -/
structure DConfig (σ : Type) where
  decoders : List (Decoder σ)
  byType : Nat → List Nat

/-- `PytketDecoderConfig::new` (decoder_config.rs 41-48). -/
def DConfig.empty {σ : Type} : DConfig σ := ⟨[], fun _ => []⟩

/-- `add_decoder` (decoder_config.rs 51-59). -/
def DConfig.add {σ : Type} (c : DConfig σ) (d : Decoder σ) : DConfig σ :=
  ⟨c.decoders ++ [d], d.types.foldl (push c.decoders.length) c.byType⟩

/-- Decoders by index; `none` is a panic. -/
def DConfig.get {σ : Type} (c : DConfig σ) : List Nat → Option (List (Decoder σ))
  | [] => some []
  | i :: is =>
    match c.decoders[i]? with
    | none => none
    | some e => (c.get is).map (e :: ·)

/-- The loop of `op_to_hugr` (decoder_config.rs 83-91); `result` is the status so far. -/
def decLoop {σ : Type} (op : Nat) : List (Decoder σ) → Bool → σ → Except Err (Bool × σ)
  | [], result, s => .ok (result, s)
  | d :: ds, _, s =>
    match d.op op s with
    | .error x => .error x
    | .ok (true, s') => .ok (true, s')
    | .ok (false, s') => decLoop op ds false s'

/-- `op_to_hugr` (decoder_config.rs 73-92) with `decoders_for_optype` (95-104). -/
def DConfig.op {σ : Type} (c : DConfig σ) (type op : Nat) (s : σ) : Except Err (Bool × σ) :=
  match c.get (c.byType type) with
  | none => .error .index
  | some ds => decLoop op ds false s

end Tket.EncConfig
