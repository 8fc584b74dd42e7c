import Verif.Model.Results

/-
Operations of the extensions as values of their own types and as stored in a HUGR: an extension, a
name and type arguments.

Modelled code: `tket-qsystem/src/extension/result.rs`, `futures.rs`, `classical_compute.rs` (with
`classical_compute/{wasm,gpu}.rs`) and `tket/src/extension/debug.rs`: `opdef_id`, `type_args`,
`from_def`, `instantiate`, and the polymorphic signatures.

Types inside rows are tokens.  Names of operations are given by `strum` from the variants.
-/
namespace Verif.ExtOps

open Verif.Results (Def SArgs Args ROp Str)

/-- Members of a row: types and row variables. -/
inductive Elem
  | ty (t : Nat)
  | rowVar (i : Nat)
deriving DecidableEq

/-- Members of a list argument: members of a row or other terms. -/
inductive LElem
  | elem (e : Elem)
  | other
deriving DecidableEq

/-- `TypeArg`: strings, numbers, types, lists and other terms. -/
inductive TArg
  | str (s : Str)
  | nat (n : Nat)
  | ty (t : Nat)
  | list (l : List LElem)
  | other
deriving DecidableEq

/-- Extensions. -/
inductive Ext
  | result
  | futures
  | wasm
  | gpu
  | debug
deriving DecidableEq

/-- An `ExtensionOp`. -/
structure ExtOp where
  ext : Ext
  name : String
  args : List TArg
deriving DecidableEq

/-! ### Results -/

/-- Names of the result operations, `extension/result.rs:72-89`. -/
def rName : Def → String
  | .bool => "result_bool"
  | .int => "result_int"
  | .uint => "result_uint"
  | .f64 => "result_f64"
  | .arrBool => "result_array_bool"
  | .arrInt => "result_array_int"
  | .arrUInt => "result_array_uint"
  | .arrF64 => "result_array_f64"

/-- All result operations. -/
def rAll : List Def := [.bool, .int, .uint, .f64, .arrBool, .arrInt, .arrUInt, .arrF64]

/-- `simple_type_op`, `extension/result.rs:106-114`. -/
def simpleOp : Def → Def
  | .arrBool => .bool
  | .arrInt => .int
  | .arrUInt => .uint
  | .arrF64 => .f64
  | d => d

/-- `array_type_op`, `extension/result.rs:116-124`. -/
def arrayType : Def → Def
  | .bool => .arrBool
  | .int => .arrInt
  | .uint => .arrUInt
  | .f64 => .arrF64
  | d => d

/-- `ResultOp::array_op`, `extension/result.rs:278-291`. -/
def arrayOp (op : ROp) (size : Nat) : ROp :=
  match op.args with
  | .simple s => ⟨op.tag, arrayType op.op, .array s size⟩
  | .array s _ => ⟨op.tag, op.op, .array s size⟩

/-- `ResultOpDef::instantiate` with one argument (tag). -/
def inst1 (d : Def) (t : Str) : Option ROp :=
  match d with
  | .bool => some ⟨t, .bool, .simple .basic⟩
  | .f64 => some ⟨t, .f64, .simple .basic⟩
  | _ => none

/-- `ResultOpDef::instantiate` with two arguments, `extension/result.rs:140-161`; the width is cut
to eight bits. -/
def inst2 (d : Def) (t : Str) (n : Nat) : Option ROp :=
  match d with
  | .int => some ⟨t, .int, .simple (.int (n % 256))⟩
  | .uint => some ⟨t, .uint, .simple (.int (n % 256))⟩
  | d => (inst1 (simpleOp d) t).map fun op => arrayOp op n

/-- `ResultOpDef::instantiate` with three arguments. -/
def inst3 (d : Def) (t : Str) (n m : Nat) : Option ROp :=
  (inst2 (simpleOp d) t m).map fun op => arrayOp op n

/-- `ResultOpDef::instantiate` and `concrete_result_op_type_args`,
`extension/result.rs:140-161, 304-319`. -/
def rInst (d : Def) : List TArg → Option ROp
  | [.str t] => inst1 d t
  | [.str t, .nat n] => inst2 d t n
  | [.str t, .nat n, .nat m] => inst3 d t n m
  | _ => none

/-- `ResultOp::type_args`, `extension/result.rs:343-362`. -/
def rArgs (op : ROp) : List TArg :=
  match op.args with
  | .simple .basic => [.str op.tag]
  | .simple (.int w) => [.str op.tag, .nat w]
  | .array .basic size => [.str op.tag, .nat size]
  | .array (.int w) size => [.str op.tag, .nat size, .nat w]

/-- `to_extension_op`. -/
def rTo (op : ROp) : ExtOp := ⟨.result, rName op.op, rArgs op⟩

/-- `from_extension_op`, with `try_from_name`, which also compares the extension. -/
def rFrom (e : ExtOp) : Option ROp :=
  if e.ext = .result then (rAll.find? fun d => rName d = e.name).bind fun d => rInst d e.args
  else none

/-- Type parameters: strings, numbers below a bound, any number. -/
inductive Param
  | str
  | nat (bound : Option Nat)
deriving DecidableEq

/-- `result_signature` and `type_params`, `extension/result.rs:127-137, 163-169`; the logarithm of
a width is below 7. -/
def rParams : Def → List Param
  | .bool => [.str]
  | .f64 => [.str]
  | .int => [.str, .nat (some 7)]
  | .uint => [.str, .nat (some 7)]
  | .arrBool => [.str, .nat none]
  | .arrF64 => [.str, .nat none]
  | .arrInt => [.str, .nat none, .nat (some 7)]
  | .arrUInt => [.str, .nat none, .nat (some 7)]

/-- Types of arguments with variables. -/
inductive RTy
  | bool
  | float
  | int (var : Nat)
  | array (var : Nat) (t : RTy)

/-- `arg_type`, `extension/result.rs:93-104`: variables are numbered in the list of parameters,
where the tag is the first. -/
def rArgTy : Def → RTy
  | .bool => .bool
  | .int => .int 1
  | .uint => .int 1
  | .f64 => .float
  | .arrBool => .array 1 .bool
  | .arrF64 => .array 1 .float
  | .arrInt => .array 1 (.int 2)
  | .arrUInt => .array 1 (.int 2)

/-! ### Futures -/

/-- `FutureOpDef`. -/
inductive FDef
  | read
  | dup
  | free
deriving DecidableEq

/-- `FutureOp`. -/
structure FOp where
  op : FDef
  ty : Nat
deriving DecidableEq

/-- Names, `extension/futures.rs:92-96`. -/
def fName : FDef → String
  | .read => "Read"
  | .dup => "Dup"
  | .free => "Free"

/-- All operations. -/
def fAll : List FDef := [.read, .dup, .free]

/-- `instantiate`, `extension/futures.rs:149-157`. -/
def fInst (d : FDef) : List TArg → Option FOp
  | [.ty t] => some ⟨d, t⟩
  | _ => none

/-- `to_extension_op`. -/
def fTo (op : FOp) : ExtOp := ⟨.futures, fName op.op, [.ty op.ty]⟩

/-- `from_extension_op`. -/
def fFrom (e : ExtOp) : Option FOp :=
  if e.ext = .futures then (fAll.find? fun d => fName d = e.name).bind fun d => fInst d e.args
  else none

/-- Types in signatures of futures: a variable, or a future of it. -/
inductive FPat
  | var (i : Nat)
  | fut (i : Nat)

/-- A signature with variables. -/
structure FSig where
  ins : List FPat
  outs : List FPat

/-- `init_signature`, `extension/futures.rs:103-120`. -/
def fSig : FDef → FSig
  | .read => ⟨[.fut 0], [.var 0]⟩
  | .dup => ⟨[.fut 0], [.fut 0, .fut 0]⟩
  | .free => ⟨[.fut 0], []⟩

/-! ### State results -/

/-- `StateResult`, `debug.rs:100-105`. -/
structure SOp where
  tag : Str
  n : Nat
deriving DecidableEq

/-- `to_extension_op`, `debug.rs:114-133`. -/
def sTo (op : SOp) : ExtOp := ⟨.debug, "StateResult", [.str op.tag, .nat op.n]⟩

/-- `from_extension_op`, `debug.rs:119-125, 152-160`. -/
def sFrom (e : ExtOp) : Option SOp :=
  if e.ext = .debug ∧ e.name = "StateResult" then
    match e.args with
    | [.str t, .nat n] => some ⟨t, n⟩
    | _ => none
  else none

/-! ### Classical computing -/

/-- `ComputeOp`, `classical_compute.rs:179-221`: rows of calls and results have no variables. -/
inductive COp
  | getContext
  | disposeContext
  | lookupById (id : Nat) (inputs outputs : List Elem)
  | lookupByName (name : Str) (inputs outputs : List Elem)
  | call (inputs outputs : List Nat)
  | readResult (outputs : List Nat)
deriving DecidableEq

/-- The definitions, `classical_compute.rs:246-253`. -/
inductive CDef
  | getContext
  | disposeContext
  | lookupById
  | lookupByName
  | call
  | readResult
deriving DecidableEq

/-- Names. -/
def cName : CDef → String
  | .getContext => "get_context"
  | .disposeContext => "dispose_context"
  | .lookupById => "lookup_by_id"
  | .lookupByName => "lookup_by_name"
  | .call => "call"
  | .readResult => "read_result"

/-- All definitions. -/
def cAll : List CDef :=
  [.getContext, .disposeContext, .lookupById, .lookupByName, .call, .readResult]

/-- Members of the row in a list; `none` if there is another term. -/
def elems : List LElem → Option (List Elem)
  | [] => some []
  | .elem e :: l => (elems l).map (e :: ·)
  | .other :: _ => none

/-- `TypeRowRV::try_from` of an argument. -/
def toRow : TArg → Option (List Elem)
  | .list l => elems l
  | _ => none

/-- `TypeRow::try_from`: a row without variables. -/
def closedRow : List Elem → Option (List Nat)
  | [] => some []
  | .ty t :: es => (closedRow es).map (t :: ·)
  | .rowVar _ :: _ => none

/-- `TypeArg::from` of a row. -/
def ofRow (r : List Elem) : TArg := .list (r.map .elem)

/-- `TypeArg::from` of a row without variables. -/
def ofTypes (r : List Nat) : TArg := ofRow (r.map .ty)

/-- `instantiate`, `classical_compute.rs:412-555`. -/
def cInst : CDef → List TArg → Option COp
  | .getContext, [] => some .getContext
  | .disposeContext, [] => some .disposeContext
  | .lookupById, [.nat id, i, o] =>
    (toRow i).bind fun i => (toRow o).map fun o => .lookupById id i o
  | .lookupByName, [.str n, i, o] =>
    (toRow i).bind fun i => (toRow o).map fun o => .lookupByName n i o
  | .call, [i, o] =>
    ((toRow i).bind closedRow).bind fun i => ((toRow o).bind closedRow).map fun o => .call i o
  | .readResult, [o] => ((toRow o).bind closedRow).map .readResult
  | _, _ => none

/-- `compute_op_def`, `classical_compute.rs:571-581`. -/
def cDef : COp → CDef
  | .getContext => .getContext
  | .disposeContext => .disposeContext
  | .lookupById .. => .lookupById
  | .lookupByName .. => .lookupByName
  | .call .. => .call
  | .readResult .. => .readResult

/-- `type_args`, `classical_compute.rs:607-637`. -/
def cArgs : COp → List TArg
  | .getContext => []
  | .disposeContext => []
  | .lookupById id i o => [.nat id, ofRow i, ofRow o]
  | .lookupByName n i o => [.str n, ofRow i, ofRow o]
  | .call i o => [ofTypes i, ofTypes o]
  | .readResult o => [ofTypes o]

/-- `to_extension_op`, for one of the two extensions. -/
def cTo (x : Ext) (op : COp) : ExtOp := ⟨x, cName (cDef op), cArgs op⟩

/-- `from_extension_op`. -/
def cFrom (x : Ext) (e : ExtOp) : Option COp :=
  if e.ext = x then (cAll.find? fun d => cName d = e.name).bind fun d => cInst d e.args
  else none

/-- Types in signatures with row variables, numbered in the list of parameters. -/
inductive CPat
  | usize
  | optContext
  | context
  | module
  | func (i o : Nat)
  | result (o : Nat)
  | rowUse (i : Nat)

/-- `init_signature`, `classical_compute.rs:287-391`. -/
def cSig : CDef → List CPat × List CPat
  | .getContext => ([.usize], [.optContext])
  | .disposeContext => ([.context], [])
  | .lookupById => ([.module], [.func 1 2])
  | .lookupByName => ([.module], [.func 1 2])
  | .call => ([.context, .func 0 1, .rowUse 0], [.result 1])
  | .readResult => ([.result 0], [.context, .rowUse 0])

/-- Custom types of the extension as stored: a name and arguments (`custom_type`,
`classical_compute.rs:147-176`), with the extension they belong to. -/
structure CustomTy where
  ext : Ext
  name : String
  args : List TArg
deriving DecidableEq

/-- `ComputeType`, `classical_compute.rs:77-99`. -/
inductive CTy
  | module
  | context
  | func (i o : List Elem)
  | result (o : List Elem)
deriving DecidableEq

/-- `custom_type`, `classical_compute.rs:147-176`, and `row_to_arg`, `utils.rs:120-122`. -/
def tyTo (x : Ext) : CTy → CustomTy
  | .module => ⟨x, "module", []⟩
  | .context => ⟨x, "context", []⟩
  | .func i o => ⟨x, "func", [ofRow i, ofRow o]⟩
  | .result o => ⟨x, "result", [ofRow o]⟩

/-- `TryFrom<CustomType>`, `wasm.rs:117-159`, `gpu.rs:117-159`. -/
def tyFrom (x : Ext) (t : CustomTy) : Option CTy :=
  if t.ext ≠ x then none
  else if t.name = "module" then some .module
  else if t.name = "context" then some .context
  else if t.name = "func" then
    match t.args with
    | [i, o] => (toRow i).bind fun i => (toRow o).map fun o => .func i o
    | _ => none
  else if t.name = "result" then
    match t.args with
    | [o] => (toRow o).map .result
    | _ => none
  else none

end Verif.ExtOps
