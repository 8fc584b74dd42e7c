/-!
# Circuit objects of the Python package

Model of the class `Tk2Circuit` (`tket-py/src/circuit/tk2circuit.rs`), of the handles `Node` and `Wire`
(`tket-py/src/circuit.rs` 105-180) as Python objects, of `envelope_config_from_py` (tk2circuit.rs 335-356) and of
the two registries of extensions that are used to read envelopes.

Circuits, rewrites and `pytket` circuits are opaque; what the Rust library does with them is a parameter (it is
modelled elsewhere, for example hashes in `Model/Hash` and selection of functions in
`Model/Entry`).  Calls from several Python threads are not modelled: a method runs until it returns.
-/
namespace Tket.PyCircuit

/-- The functions of the Rust library and of `pytket` that are called.  `none` is an error. -/
structure Env (C T R N : Type) where
  /-- `circ.circuit_hash(circ.parent())` (`tket/src/circuit/hash.rs` 30). -/
  circuitHash : C → Option (Fin (2 ^ 64))
  /-- `rw.rewrite.apply(&mut circ)`: the circuit afterwards, and if there was no error. -/
  apply : R → C → C × Bool
  /-- `SerialCircuit::from_tket1(circ)?.decode(..)` (`tket-py/src/circuit/convert.rs` 70-76). -/
  decode : T → Option C
  /-- `SerialCircuit::encode(..)?.to_tket1(py)` (tk2circuit.rs 84-89). -/
  encode : C → Option T
  /-- `UntuplePass::new(NonRecursive).run` (`tket/src/passes/pytket.rs` 24). -/
  untuple : C → Option C
  /-- `circ.input_node()` and `circ.output_node()` (`tket/src/circuit.rs` 160-173). -/
  inputNode : C → N
  outputNode : C → N
  /-- `__eq__` of `pytket.Circuit`. -/
  tk1Eq : T → T → Bool
  /-- `object.__hash__`, for objects of classes that have neither `__hash__` nor `__eq__`. -/
  idHash : Nat → Int

/-- Python objects.  An object is its place in memory. -/
inductive Obj (C T N : Type) where
  | tk2 (c : C)
  | tk1 (t : T)
  | node (n : N)
deriving DecidableEq

/-- The memory, and sets of Python objects: entries are the hash at the time of insertion and the object. -/
structure State (C T N : Type) where
  heap : List (Obj C T N)
  sets : Nat → List (Int × Nat)

/-- What a statement gives. -/
inductive Res where
  | obj (a : Nat)
  | int (i : Int)
  | bool (b : Bool)
  | none
  | raised
deriving DecidableEq

/-- Errors of `lower_to_pytket` (`tket/src/passes/pytket.rs` 31-46). -/
inductive LowerErr where
  | opConversion
  | nonLocal
  | untuple
deriving DecidableEq

section
variable {C T R N : Type} (E : Env C T R N)

/-- `Circuit::extract_dfg` (`tket/src/circuit.rs` 342-347): a copy.  Numbers of nodes may change in
`to_owned`, they are not modelled. -/
def extractDfg (c : C) : Option C := some c

/-- `lower_to_pytket` (`tket/src/passes/pytket.rs` 15-28). -/
def lowerToPytket (c : C) : Except LowerErr C :=
  match extractDfg c with
  | none => .error .nonLocal
  | some c =>
    match E.untuple c with
    | none => .error .untuple
    | some c => .ok c

/-- `self.hash() as isize` (tk2circuit.rs 266-268) on 64 bits. -/
def asIsize (n : Fin (2 ^ 64)) : Int := if n.val < 2 ^ 63 then n.val else (n.val : Int) - 2 ^ 64

/-- PyO3 turns the value of `__hash__` into a `Py_hash_t`, where -1 means an exception and is replaced by -2. -/
def toPyHash (i : Int) : Int := if i = -1 then -2 else i

/-- `hash(x)`.  `hash` unwraps (tk2circuit.rs 262), so an error is a panic, which is an exception in Python.  Objects
of `pytket` are not hashed here. -/
def pyHash (h : List (Obj C T N)) (a : Nat) : Option Int :=
  match h[a]? with
  | some (.tk2 c) => (E.circuitHash c).map fun n => toPyHash (asIsize n)
  | some (.node _) => some (E.idHash a)
  | _ => none

/-- `x == y`.  The classes `Tk2Circuit`, `Node` and `Wire` are declared without `eq` (tk2circuit.rs 63, circuit.rs
106, 141) and have no `__eq__`, so Python compares places in memory. -/
def pyEq (h : List (Obj C T N)) (a b : Nat) : Bool :=
  match h[a]?, h[b]? with
  | some (.tk1 s), some (.tk1 t) => E.tk1Eq s t
  | _, _ => a == b

/-- Lookup in a set: an entry with the same hash that is the same object or is equal to it. -/
def inSet (h : List (Obj C T N)) (s : List (Int × Nat)) (i : Int) (a : Nat) : Bool :=
  s.any fun e => e.1 == i && (e.2 == a || pyEq E h e.2 a)

/-- Statements of a Python program. -/
inductive Cmd (R : Type) where
  /-- `Tk2Circuit(x)`. -/
  | new (a : Nat)
  /-- `copy.copy(x)`. -/
  | copy (a : Nat)
  /-- `copy.deepcopy(x)`. -/
  | deepcopy (a : Nat)
  /-- `x.apply_rewrite(r)`. -/
  | apply (a : Nat) (r : R)
  /-- `x.to_tket1()`. -/
  | toTket1 (a : Nat)
  /-- `x.input_node()`, `x.output_node()`. -/
  | inputNode (a : Nat)
  | outputNode (a : Nat)
  /-- `hash(x)`. -/
  | hash (a : Nat)
  /-- `x == y`. -/
  | eq (a b : Nat)
  /-- `s.add(x)`, `x in s`. -/
  | add (s : Nat) (a : Nat)
  | mem (s : Nat) (a : Nat)
deriving DecidableEq

/-- A new object. -/
def alloc (st : State C T N) (o : Obj C T N) : State C T N × Res :=
  ({ st with heap := st.heap ++ [o] }, .obj st.heap.length)

/-- One statement.  Methods on objects of other classes raise an exception. -/
def step (st : State C T N) : Cmd R → State C T N × Res
  -- `new` (tk2circuit.rs 76-81) with `with_circ` (convert.rs 61-92): extracting clones the circuit.
  | .new a =>
    match st.heap[a]? with
    | some (.tk2 c) => alloc st (.tk2 c)
    | some (.tk1 t) =>
      match E.decode t with
      | some c => alloc st (.tk2 c)
      | none => (st, .raised)
    | _ => (st, .raised)
  -- `__copy__` (tk2circuit.rs 271-273).
  | .copy a =>
    match st.heap[a]? with
    | some (.tk2 c) => alloc st (.tk2 c)
    | _ => (st, .raised)
  -- `__deepcopy__` (tk2circuit.rs 276-278); the table of copies made so far is kept by Python.
  | .deepcopy a =>
    match st.heap[a]? with
    | some (.tk2 c) => alloc st (.tk2 c)
    | _ => (st, .raised)
  -- `apply_rewrite` (tk2circuit.rs 94-96); the rewrite is cloned.
  | .apply a r =>
    match st.heap[a]? with
    | some (.tk2 c) =>
      match E.apply r c with
      | (c', true) => ({ st with heap := st.heap.set a (.tk2 c') }, .none)
      | (c', false) => ({ st with heap := st.heap.set a (.tk2 c') }, .raised)
    | _ => (st, .raised)
  -- `to_tket1` (tk2circuit.rs 83-91).
  | .toTket1 a =>
    match st.heap[a]? with
    | some (.tk2 c) =>
      match lowerToPytket E c with
      | .error _ => (st, .raised)
      | .ok c' =>
        match E.encode c' with
        | none => (st, .raised)
        | some t => alloc st (.tk1 t)
    | _ => (st, .raised)
  -- `input_node`, `output_node` (tk2circuit.rs 313-319).
  | .inputNode a =>
    match st.heap[a]? with
    | some (.tk2 c) => alloc st (.node (E.inputNode c))
    | _ => (st, .raised)
  | .outputNode a =>
    match st.heap[a]? with
    | some (.tk2 c) => alloc st (.node (E.outputNode c))
    | _ => (st, .raised)
  | .hash a =>
    match pyHash E st.heap a with
    | some i => (st, .int i)
    | none => (st, .raised)
  | .eq a b => (st, .bool (pyEq E st.heap a b))
  | .add s a =>
    match pyHash E st.heap a with
    | none => (st, .raised)
    | some i =>
      if inSet E st.heap (st.sets s) i a then (st, .none)
      else ({ st with sets := fun t => if t = s then st.sets s ++ [(i, a)] else st.sets t }, .none)
  | .mem s a =>
    match pyHash E st.heap a with
    | none => (st, .raised)
    | some i => (st, .bool (inSet E st.heap (st.sets s) i a))

/-- A program: exceptions are caught. -/
def run (st : State C T N) : List (Cmd R) → State C T N
  | [] => st
  | c :: cs => run (step E st c).1 cs

end

/-- The circuit of an object. -/
def State.circ {C T N : Type} (st : State C T N) (a : Nat) : Option C :=
  match st.heap[a]? with
  | some (.tk2 c) => some c
  | _ => none

/-! ## Envelopes -/

/-- The attribute `zstd` of a configuration. -/
inductive PyLevel where
  | none
  | int (i : Int)
  | other
deriving DecidableEq

inductive PyErr where
  | overflow
  | type
  | value
  | attribute
  | panic
deriving DecidableEq

/-- `EnvelopeConfig`: the format and the compression (`none`: no compression; `some none`: the default level). -/
structure Config (F : Type) where
  format : F
  zstd : Option (Option Nat)
deriving DecidableEq

/-- `config.getattr("zstd")?.extract()?` as `Option<usize>` and `ZstdConfig` (tk2circuit.rs 344-354).
`NonZeroU8::new(level as u8).unwrap()` panics if the last eight bits are zero. -/
def zstdOf : PyLevel → Except PyErr (Option (Option Nat))
  | .none => .ok none
  | .other => .error .type
  | .int i =>
    if i < 0 ∨ 2 ^ 64 ≤ i then .error .overflow
    else
      let level := i.toNat
      if 0 < level ∧ level < 255 then
        if level % 256 = 0 then .error .panic else .ok (some (some (level % 256)))
      else .ok (some none)

/-- `envelope_config_from_py` (tk2circuit.rs 335-356); `fromRepr` is `EnvelopeFormat::from_repr`. -/
def configOf {F : Type} (fromRepr : Nat → Option F) (format : Int) (level : PyLevel) : Except PyErr (Config F) :=
  if format < 0 ∨ 2 ^ 64 ≤ format then .error .overflow
  else
    match fromRepr format.toNat with
    | none => .error .value
    | some f =>
      match zstdOf level with
      | .error e => .error e
      | .ok z => .ok ⟨f, z⟩

/-- Extensions.  `std` are those of `hugr`. -/
inductive Ext where
  | std (i : Nat)
  | tket1 | tket | rotation | bool | debug | guppy | globalPhase | modifier
  | gpu | qsystem | futures | random | result | utils | wasm
deriving DecidableEq

/-- `REGISTRY` of the Python package (tk2circuit.rs 359-380). -/
def pyRegistry : Ext → Bool
  | .std _ => true
  | e => [Ext.tket, .rotation, .bool, .debug, .guppy, .globalPhase, .modifier,
      .gpu, .qsystem, .futures, .random, .result, .utils, .wasm].contains e

/-- `REGISTRY` of the Rust library (`tket/src/extension.rs` 58-66). -/
def rustRegistry : Ext → Bool
  | .std _ => true
  | e => [Ext.tket1, .tket, .bool, .debug, .guppy, .rotation].contains e

/-- Envelopes `B` of packages `M`.  `Package::from_hugr` adds no definitions of extensions to a package
(`tket/src/serialize.rs` 55-58), so an envelope is read only if the registry has all extensions that are used. -/
structure Env' (C F B : Type) where
  /-- `Circuit::store` (serialize.rs 38-46); `none` is an error. -/
  store : Config F → C → Option B
  /-- Parsing an envelope, before extensions are resolved. -/
  parse : B → Option C
  /-- The extensions of the operations and types. -/
  uses : C → List Ext
  /-- Validation and `Circuit::try_new`. -/
  valid : C → Bool
  /-- `unwrap_package` (serialize.rs 117-128, `Model/Entry`). -/
  select : C → String → Option C
  /-- `EnvelopeConfig::binary()`. -/
  binary : Config F

/-- `Hugr::load` or `Package::load` with a registry. -/
def Env'.load {C F B : Type} (V : Env' C F B) (reg : Ext → Bool) (b : B) : Option C :=
  match V.parse b with
  | none => none
  | some c => if (V.uses c).all reg && V.valid c then some c else none

/-- `Tk2Circuit::to_bytes` (tk2circuit.rs 101-114). -/
def toBytes {C F B : Type} (V : Env' C F B) (fromRepr : Nat → Option F) (config : Option (Int × PyLevel)) (c : C) :
    Except PyErr B :=
  let cfg := match config with
    | some (f, l) => configOf fromRepr f l
    | none => .ok V.binary
  match cfg with
  | .error e => .error e
  | .ok cfg =>
    match V.store cfg c with
    | none => .error .attribute
    | some b => .ok b

/-- `Tk2Circuit::from_bytes` (tk2circuit.rs 139-149). -/
def fromBytes {C F B : Type} (V : Env' C F B) (b : B) (name : Option String) : Except PyErr C :=
  match name with
  | some n =>
    match (V.load rustRegistry b).bind (V.select · n) with
    | some c => .ok c
    | none => .error .attribute
  | none =>
    match V.load pyRegistry b with
    | some c => .ok c
    | none => .error .attribute

end Tket.PyCircuit
