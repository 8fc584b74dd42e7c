import Verif.Model.ExtOps

/-
The Python package of extensions: operations got by attributes and methods of the extensions.

Modelled code: `tket-exts/src/tket_exts/tket/*.py`, `tket/qsystem/*.py` (every attribute and method
that gives an operation or its definition, and `OPS`), the files `tket_exts/data/tket/**/*.json`
(names and parameters of operations), and the names and parameters which the Rust extensions
declare.

External: hugr-py reads the file of the extension, `get_op` raises if there is no operation of the
name, and `instantiate` stores the arguments given without comparing them to the parameters
(assumed; numbers are not negative).  Types are tokens.
-/
namespace Verif.PyExts

open Verif.ExtOps (TArg ofTypes)
open Verif.Results (Str)

/-- The extensions, `tket_exts/__init__.py:24-58`. -/
inductive PExt
  | bool
  | debug
  | futures
  | globalPhase
  | gpu
  | guppy
  | modifier
  | qsystem
  | random
  | utils
  | quantum
  | result
  | rotation
  | wasm
deriving DecidableEq

/-- All extensions. -/
def exts : List PExt :=
  [.bool, .debug, .futures, .globalPhase, .gpu, .guppy, .modifier, .qsystem, .random, .utils,
    .quantum, .result, .rotation, .wasm]

/-- Bounds of types: any type, or only types that may be copied. -/
inductive TBound
  | linear
  | copyable
deriving DecidableEq

/-- Parameters of operations. -/
inductive PParam
  | str
  | nat (bound : Option Nat)
  | ty (b : TBound)
  | row (b : TBound)
deriving DecidableEq

/-- Operations in the files of the package, `data/tket/<name>.json`, with their parameters. -/
def data : PExt → List (String × List PParam)
  | .bool =>
    [("and", []), ("eq", []), ("make_opaque", []), ("not", []), ("or", []), ("read", []),
    ("xor", [])]
  | .debug =>
    [("StateResult", [.str, .nat none])]
  | .futures =>
    [("Dup", [.ty .linear]), ("Free", [.ty .linear]), ("Read", [.ty .linear])]
  | .globalPhase =>
    [("global_phase", [])]
  | .gpu =>
    [("call", [.row .linear, .row .linear]), ("dispose_context", []), ("get_context", []),
    ("lookup_by_id", [.nat none, .row .linear, .row .linear]),
    ("lookup_by_name", [.str, .row .linear, .row .linear]), ("read_result", [.row .linear])]
  | .guppy =>
    [("drop", [.ty .linear])]
  | .modifier =>
    [("ControlModifier", [.nat none, .row .linear, .row .linear]),
    ("DaggerModifier", [.row .linear, .row .linear]),
    ("PowerModifier", [.row .linear, .row .copyable])]
  | .qsystem =>
    [("LazyMeasure", []), ("LazyMeasureLeaked", []), ("LazyMeasureReset", []), ("Measure", []),
    ("MeasureReset", []), ("PhasedX", []), ("QFree", []), ("Reset", []),
    ("RuntimeBarrier", [.nat none]), ("Rz", []), ("TryQAlloc", []), ("ZZPhase", [])]
  | .random =>
    [("DeleteRNGContext", []), ("NewRNGContext", []), ("RandomAdvance", []), ("RandomFloat", []),
    ("RandomInt", []), ("RandomIntBounded", [])]
  | .utils =>
    [("GetCurrentShot", [])]
  | .quantum =>
    [("CRz", []), ("CX", []), ("CY", []), ("CZ", []), ("H", []), ("Measure", []),
    ("MeasureFree", []), ("QAlloc", []), ("QFree", []), ("Reset", []), ("Rx", []), ("Ry", []),
    ("Rz", []), ("S", []), ("Sdg", []), ("T", []), ("Tdg", []), ("Toffoli", []),
    ("TryQAlloc", []), ("V", []), ("Vdg", []), ("X", []), ("Y", []), ("Z", []),
    ("symbolic_angle", [.str])]
  | .result =>
    [("result_array_bool", [.str, .nat none]), ("result_array_f64", [.str, .nat none]),
    ("result_array_int", [.str, .nat none, .nat (some 7)]),
    ("result_array_uint", [.str, .nat none, .nat (some 7)]), ("result_bool", [.str]),
    ("result_f64", [.str]), ("result_int", [.str, .nat (some 7)]),
    ("result_uint", [.str, .nat (some 7)])]
  | .rotation =>
    [("from_halfturns", []), ("from_halfturns_unchecked", []), ("radd", []), ("to_halfturns", [])]
  | .wasm =>
    [("call", [.row .linear, .row .linear]), ("dispose_context", []), ("get_context", []),
    ("lookup_by_id", [.nat none, .row .linear, .row .linear]),
    ("lookup_by_name", [.str, .row .linear, .row .linear]), ("read_result", [.row .linear])]

/-- Parameters of results, `extension/result.rs:127-137`, in this module's type. -/
def ofParam : ExtOps.Param → PParam
  | .str => .str
  | .nat b => .nat b

/-- Parameters of classical computing, `classical_compute.rs:25-34, 287-391`. -/
def cParams : ExtOps.CDef → List PParam
  | .getContext => []
  | .disposeContext => []
  | .lookupById => [.nat none, .row .linear, .row .linear]
  | .lookupByName => [.str, .row .linear, .row .linear]
  | .call => [.row .linear, .row .linear]
  | .readResult => [.row .linear]

/-- Operations declared in Rust, with their parameters: `tket/src/extension/bool.rs:118-128`,
`debug.rs:56-75`, `tket-qsystem/src/extension/futures.rs:92-120`, `global_phase.rs:30-43`,
`guppy.rs:20-40`, `modifier.rs:45-90` with `modifier/{control,dagger,power}.rs`,
`tket-qsystem/src/extension/qsystem.rs:88-99, 172, 206`, `random.rs:101-113`, `utils.rs:62-64`,
`tket/src/ops.rs:43-68` with `sympy.rs:28, 71`, `rotation.rs:118-131`. -/
def rust : PExt → List (String × List PParam)
  | .bool => ["read", "make_opaque", "eq", "not", "and", "or", "xor"].map fun n => (n, [])
  | .debug => [("StateResult", [.str, .nat none])]
  | .futures => ExtOps.fAll.map fun d => (ExtOps.fName d, [.ty .linear])
  | .globalPhase => [("global_phase", [])]
  | .gpu => ExtOps.cAll.map fun d => (ExtOps.cName d, cParams d)
  | .guppy => [("drop", [.ty .linear])]
  | .modifier =>
    [("ControlModifier", [.nat none, .row .linear, .row .linear]),
      ("DaggerModifier", [.row .linear, .row .linear]),
      ("PowerModifier", [.row .linear, .row .copyable])]
  | .qsystem =>
    (["Measure", "LazyMeasure", "LazyMeasureReset", "Rz", "PhasedX", "ZZPhase", "TryQAlloc",
      "QFree", "Reset", "MeasureReset", "LazyMeasureLeaked"].map fun n => (n, [])) ++
      [("RuntimeBarrier", [.nat none])]
  | .random =>
    ["RandomInt", "RandomFloat", "RandomIntBounded", "NewRNGContext", "DeleteRNGContext",
      "RandomAdvance"].map fun n => (n, [])
  | .utils => [("GetCurrentShot", [])]
  | .quantum =>
    (["H", "CX", "CY", "CZ", "CRz", "T", "Tdg", "S", "Sdg", "X", "Y", "Z", "Rx", "Ry", "Rz",
      "Toffoli", "Measure", "MeasureFree", "QAlloc", "TryQAlloc", "QFree", "Reset", "V",
      "Vdg"].map fun n => (n, [])) ++ [("symbolic_angle", [.str])]
  | .result => ExtOps.rAll.map fun d => (ExtOps.rName d, (ExtOps.rParams d).map ofParam)
  | .rotation =>
    ["from_halfturns", "from_halfturns_unchecked", "to_halfturns", "radd"].map fun n => (n, [])
  | .wasm => ExtOps.cAll.map fun d => (ExtOps.cName d, cParams d)

/-- Attributes that ask for an operation, with the name they ask for (`get_op` in the files of
`tket_exts/tket`). -/
def attrs : PExt → List (String × String)
  | .bool =>
    [("and_op", "and"), ("eq", "eq"), ("make_opaque", "make_opaque"), ("not_op", "not"),
    ("or_op", "or"), ("read", "read"), ("xor", "xor")]
  | .debug =>
    [("state_result_def", "StateResult")]
  | .futures =>
    [("dup_def", "Dup"), ("free_def", "Free"), ("read_def", "Read")]
  | .globalPhase =>
    [("global_phase", "GlobalPhase")]
  | .gpu =>
    [("call_def", "call"), ("dispose_context", "dispose_context"), ("get_context", "get_context"),
    ("lookup_by_id_def", "lookup_by_id"), ("lookup_by_name_def", "lookup_by_name"),
    ("read_result_def", "read_result")]
  | .guppy =>
    [("drop_def", "drop")]
  | .modifier =>
    [("control", "ControlModifier"), ("dagger", "DaggerModifier"), ("power", "PowerModifier")]
  | .qsystem =>
    [("lazy_measure", "LazyMeasure"), ("lazy_measure_leaked", "LazyMeasureLeaked"),
    ("lazy_measure_reset", "LazyMeasureReset"), ("measure", "Measure"),
    ("measure_reset", "MeasureReset"), ("phasedX", "PhasedX"), ("qFree", "QFree"),
    ("reset", "Reset"), ("runtime_barrier_def", "RuntimeBarrier"), ("Rz", "Rz"),
    ("try_QAlloc", "TryQAlloc"), ("ZZPhase", "ZZPhase")]
  | .random =>
    [("delete_RNGContext", "DeleteRNGContext"), ("new_RNGContext", "NewRNGContext"),
    ("random_float", "RandomFloat"), ("random_int", "RandomInt"),
    ("random_int_bounded", "RandomIntBounded"), ("random_advance", "RandomAdvance")]
  | .utils =>
    [("get_current_shot", "GetCurrentShot")]
  | .quantum =>
    [("CRz", "CRz"), ("CX", "CX"), ("CY", "CY"), ("CZ", "CZ"), ("H", "H"), ("measure", "Measure"),
    ("measure_free", "MeasureFree"), ("qAlloc", "QAlloc"), ("qFree", "QFree"), ("reset", "Reset"),
    ("Rx", "Rx"), ("Ry", "Ry"), ("Rz", "Rz"), ("S", "S"), ("Sdg", "Sdg"), ("T", "T"),
    ("Tdg", "Tdg"), ("toffoli", "Toffoli"), ("try_QAlloc", "TryQAlloc"), ("V", "V"),
    ("Vdg", "Vdg"), ("X", "X"), ("Y", "Y"), ("Z", "Z"), ("symbolic_angle_def", "symbolic_angle")]
  | .result =>
    [("result_array_bool_def", "result_array_bool"), ("result_array_f64_def", "result_array_f64"),
    ("result_array_int_def", "result_array_int"), ("result_array_uint_def", "result_array_uint"),
    ("result_bool_def", "result_bool"), ("result_f64_def", "result_f64"),
    ("result_int_def", "result_int"), ("result_uint_def", "result_uint")]
  | .rotation =>
    [("from_halfturns", "from_halfturns"),
    ("from_halfturns_unchecked", "from_halfturns_unchecked"), ("radd", "radd"),
    ("to_halfturns", "to_halfturns")]
  | .wasm =>
    [("call_def", "call"), ("dispose_context", "dispose_context"), ("get_context", "get_context"),
    ("lookup_by_id_def", "lookup_by_id"), ("lookup_by_name_def", "lookup_by_name"),
    ("read_result_def", "read_result")]

/-- `OPS`: the attributes whose definitions are listed. -/
def opsAttrs : PExt → List String
  | .bool =>
    ["and_op", "eq", "make_opaque", "not_op", "or_op", "read", "xor"]
  | .debug =>
    ["state_result_def"]
  | .futures =>
    ["dup_def", "free_def", "read_def"]
  | .globalPhase =>
    ["global_phase"]
  | .gpu =>
    ["call_def", "dispose_context", "get_context", "lookup_by_id_def", "lookup_by_name_def",
    "read_result_def"]
  | .guppy =>
    ["drop_def"]
  | .modifier =>
    ["control", "dagger", "power"]
  | .qsystem =>
    ["lazy_measure", "lazy_measure_leaked", "lazy_measure_reset", "measure", "measure_reset",
    "phasedX", "qFree", "reset", "runtime_barrier_def", "Rz", "try_QAlloc", "ZZPhase"]
  | .random =>
    ["delete_RNGContext", "new_RNGContext", "random_float", "random_int", "random_int_bounded",
    "random_advance"]
  | .utils =>
    ["get_current_shot"]
  | .quantum =>
    ["CRz", "CX", "CY", "CZ", "H", "measure", "measure_free", "qAlloc", "qFree", "reset", "Rx",
    "Ry", "Rz", "S", "Sdg", "T", "Tdg", "toffoli", "try_QAlloc", "V", "Vdg", "X", "Y", "Z",
    "symbolic_angle_def"]
  | .result =>
    ["result_array_bool_def", "result_array_f64_def", "result_array_int_def",
    "result_array_uint_def", "result_bool_def", "result_f64_def", "result_int_def",
    "result_uint_def"]
  | .rotation =>
    ["from_halfturns", "from_halfturns_unchecked", "radd", "to_halfturns"]
  | .wasm =>
    ["call_def", "dispose_context", "get_context", "lookup_by_id_def", "lookup_by_name_def",
    "read_result_def"]

/-- `Extension.get_op`: `none` for the error. -/
def getOp (x : PExt) (n : String) : Option (String × List PParam) :=
  (data x).find? fun d => d.1 = n

/-- The definition behind an attribute: `none` if there is no such attribute or it raises. -/
def attr (x : PExt) (a : String) : Option (String × List PParam) :=
  ((attrs x).find? fun p => p.1 = a).bind fun p => getOp x p.2

/-- All results, or `none` if one is missing. -/
def allSome {α : Type} : List (Option α) → Option (List α)
  | [] => some []
  | none :: _ => none
  | some a :: l => (allSome l).map (a :: ·)

/-- `OPS()`: raises if one of the attributes does. -/
def ops (x : PExt) : Option (List (String × List PParam)) :=
  allSome ((opsAttrs x).map (attr x))

/-- An operation made in Python. -/
structure POp where
  ext : PExt
  name : String
  args : List TArg
deriving DecidableEq

/-- Attributes and methods that give operations: without arguments, and
`debug.py:40-47`, `futures.py:57-97`, `gpu.py` and `wasm.py:93-189`, `guppy.py:39-45`,
`qsystem/__init__.py:99-105`, `quantum.py:183-189`, `result.py:46-189`. -/
inductive Call
  | plain (x : PExt) (attr : String)
  | stateResult (name : Str) (size : Nat)
  | dup (ty : Nat)
  | free (ty : Nat)
  | read (ty : Nat)
  | call (gpu : Bool) (inputs outputs : List Nat)
  | lookupById (gpu : Bool) (id : Nat) (inputs outputs : List Nat)
  | lookupByName (gpu : Bool) (name : Str) (inputs outputs : List Nat)
  | readResult (gpu : Bool) (outputs : List Nat)
  | drop (ty : Nat)
  | runtimeBarrier (size : Nat)
  | symbolicAngle (expr : Str)
  | resultArrayBool (label : Str) (size : Nat)
  | resultArrayF64 (label : Str) (size : Nat)
  | resultArrayInt (label : Str) (size width : Nat)
  | resultArrayUInt (label : Str) (size width : Nat)
  | resultBool (label : Str)
  | resultF64 (label : Str)
  | resultInt (label : Str) (width : Nat)
  | resultUInt (label : Str) (width : Nat)
deriving DecidableEq

/-- The extension of the methods for classical computing. -/
def computeExt (gpu : Bool) : PExt := if gpu then .gpu else .wasm

/-- Attributes that give a definition, not an operation: those ending in `_def`, and all of
`modifier.py:31-43`. -/
def givesDef (x : PExt) (a : String) : Bool :=
  decide (x = .modifier) || decide (a.toList.reverse.take 4 = ['f', 'e', 'd', '_'])

/-- `instantiate` of the definition behind an attribute. -/
def inst (x : PExt) (a : String) (args : List TArg) : Option POp :=
  (attr x a).map fun d => ⟨x, d.1, args⟩

/-- The operation given: `none` if Python raises, or if the attribute gives a definition. -/
def run : Call → Option POp
  | .plain x a => if givesDef x a then none else inst x a []
  | .stateResult n k => inst .debug "state_result_def" [.str n, .nat k]
  | .dup t => inst .futures "dup_def" [.ty t]
  | .free t => inst .futures "free_def" [.ty t]
  | .read t => inst .futures "read_def" [.ty t]
  | .call g i o => inst (computeExt g) "call_def" [ofTypes i, ofTypes o]
  | .lookupById g k i o => inst (computeExt g) "lookup_by_id_def" [.nat k, ofTypes i, ofTypes o]
  | .lookupByName g n i o =>
    inst (computeExt g) "lookup_by_name_def" [.str n, ofTypes i, ofTypes o]
  | .readResult g o => inst (computeExt g) "read_result_def" [ofTypes o]
  | .drop t => inst .guppy "drop_def" [.ty t]
  | .runtimeBarrier k => inst .qsystem "runtime_barrier_def" [.nat k]
  | .symbolicAngle e => inst .quantum "symbolic_angle_def" [.str e]
  | .resultArrayBool l k => inst .result "result_array_bool_def" [.str l, .nat k]
  | .resultArrayF64 l k => inst .result "result_array_f64_def" [.str l, .nat k]
  | .resultArrayInt l k w => inst .result "result_array_int_def" [.str l, .nat k, .nat w]
  | .resultArrayUInt l k w => inst .result "result_array_uint_def" [.str l, .nat k, .nat w]
  | .resultBool l => inst .result "result_bool_def" [.str l]
  | .resultF64 l => inst .result "result_f64_def" [.str l]
  | .resultInt l w => inst .result "result_int_def" [.str l, .nat w]
  | .resultUInt l w => inst .result "result_uint_def" [.str l, .nat w]

/-- The extensions whose operations Rust loads in `Model/ExtOps`. -/
def toExt : PExt → Option ExtOps.Ext
  | .result => some .result
  | .futures => some .futures
  | .wasm => some .wasm
  | .gpu => some .gpu
  | .debug => some .debug
  | _ => none

/-- The operation as Rust reads it from the HUGR made in Python. -/
def stored (o : POp) : Option ExtOps.ExtOp :=
  (toExt o.ext).map fun x => ⟨x, o.name, o.args⟩

/-- The types of classical computing made in Python: `func` and `result`, `wasm.py` and
`gpu.py:53-77`, `context` and `module`. -/
inductive TCall
  | context
  | module
  | func (inputs outputs : List Nat)
  | result (outputs : List Nat)

/-- The type as stored. -/
def tyRun (x : ExtOps.Ext) : TCall → ExtOps.CustomTy
  | .context => ⟨x, "context", []⟩
  | .module => ⟨x, "module", []⟩
  | .func i o => ⟨x, "func", [ofTypes i, ofTypes o]⟩
  | .result o => ⟨x, "result", [ofTypes o]⟩

end Verif.PyExts
