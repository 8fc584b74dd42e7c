/-!
# The function that is run

Model of `tket/src/serialize.rs` (loading a function of a package by its name),
`tket-qsystem/src/lib.rs` (the entrypoint during `QSystemPass`) and `qis-compiler/rust/{lib,utils}.rs`
(the entrypoint of the compiled program).

Simplifications: of a HUGR there are the operations of its nodes, the children of the module and the
entrypoint. Parsing and validation are `hugr`'s. The component passes are parameters.
-/

namespace Tket.Entry

/-- Kinds of operations (`OpType` of `hugr`). For functions: name, number of type parameters, number of
inputs. `tk1`: the opaque operation of pytket with the name in its payload, if it can be read. -/
inductive Op where
  | module
  | funcDefn (name : String) (params inputs : Nat)
  | funcDecl (name : String)
  | const
  | alias
  | dfg
  | dataflowBlock
  | case
  | tailLoop
  | tk1 (name : Option String)
  | other
  deriving DecidableEq

/-- A HUGR. -/
structure Hugr where
  op : Nat → Op
  nodes : List Nat
  root : Nat
  children : Nat → List Nat
  entry : Nat

/-- `set_entrypoint` of `hugr`. -/
def Hugr.setEntry (h : Hugr) (n : Nat) : Hugr := { h with entry := n }

/-! ## Loading functions -/

/-- `CircuitLoadError` (serialize.rs 133-187); the errors that can occur here. -/
inductive LoadError where
  | nonModuleRoot
  | functionNotFound (function : String) (available : List String)
  | parametric (parent : Nat)
  | invalidParent (parent : Nat)
  deriving DecidableEq

/-- `check_hugr` (circuit.rs 377-402), called by `Circuit::try_new`. -/
def checkHugr (h : Hugr) : Except LoadError Hugr :=
  match h.op h.entry with
  | .dfg | .dataflowBlock | .case | .tailLoop => .ok h
  | .funcDefn _ params _ => if params = 0 then .ok h else .error (.parametric h.entry)
  | _ => .error (.invalidParent h.entry)

/-- `func_name` (serialize.rs 247-252). -/
def funcName : Op → String
  | .funcDefn name _ _ => name
  | _ => ""

/-- `find_function` (serialize.rs 237-271). -/
def findFunction (h : Hugr) (name : String) : Except LoadError Hugr :=
  if h.op h.root ≠ .module then .error .nonModuleRoot
  else
    match (h.children h.root).find? fun n => funcName (h.op n) == name with
    | none => .error (.functionNotFound name ((h.children h.root).map fun n => funcName (h.op n)))
    | some n => checkHugr (h.setEntry n)

/-- `find_function_in_modules` (serialize.rs 207-229); `i` and `available` are the loop's variables. -/
def findFrom (i : Nat) (available : List String) : List Hugr → String → Except LoadError (Nat × Hugr)
  | [], name => .error (.functionNotFound name available)
  | h :: hs, name =>
    match findFunction h name with
    | .ok c => .ok (i, c)
    | .error (.functionNotFound _ fns) => findFrom (i + 1) (available ++ fns) hs name
    | .error e => .error e

def findInModules (hs : List Hugr) (name : String) : Except LoadError (Nat × Hugr) :=
  findFrom 0 [] hs name

/-! ## `QSystemPass` -/

/-- Errors of the pass. -/
inductive PassError where
  | noMain
  | component (k : Nat)
  deriving DecidableEq

/-- A component pass. -/
abbrev Pass := Hugr → Except PassError Hugr

/-- The component passes. `removeDead` gets the functions to keep. -/
structure Passes where
  monomorphize : Hugr → Hugr
  removeDead : Nat → Pass
  lower : Pass
  replaceBools : Pass
  lowerDrops : Pass
  linearize : Pass
  inlineConst : Pass
  constFold : Pass
  forceOrder : Pass

/-- `QSystemPass` (tket-qsystem/src/lib.rs 42-58). -/
structure Config where
  constantFold : Bool := false
  monomorphize : Bool := true
  forceOrder : Bool := true
  lazify : Bool := true

/-- A step on the mutable HUGR: it stays as it is after an error (a pass that fails may have changed
it, which is not observed here). -/
def step (p : Pass) (on : Bool) (s : Hugr × Option PassError) : Hugr × Option PassError :=
  match s with
  | (h, some e) => (h, some e)
  | (h, none) =>
    if on then
      match p h with
      | .ok h' => (h', none)
      | .error e => (h, some e)
    else (h, none)

/-- Is the node a function definition called `main`? -/
def isMain (h : Hugr) (n : Nat) : Bool :=
  match h.op n with
  | .funcDefn name _ _ => name == "main"
  | _ => false

/-- The entrypoint that `run` works with (tket-qsystem/src/lib.rs 95-107). -/
def passEntry (h : Hugr) : Option Nat :=
  if h.op h.entry = .module then (h.children h.entry).find? (isMain h) else some h.entry

/-- The steps of `run` between setting and restoring the entrypoint (lib.rs 111-138, feature `llvm`). -/
def steps (c : Config) (p : Passes) (entry : Nat) (h : Hugr) : Hugr × Option PassError :=
  let s := step (fun h => .ok (p.monomorphize h)) c.monomorphize (h, none)
  let s := step (p.removeDead entry) c.monomorphize s
  let s := step p.lower true s
  let s := step p.replaceBools c.lazify s
  let s := step p.lowerDrops true s
  let s := step p.linearize true s
  let s := step p.inlineConst true s
  let s := step p.constFold c.constantFold s
  step p.forceOrder c.forceOrder s

/-- `QSystemPass::run` (tket-qsystem/src/lib.rs 94-142): the HUGR afterwards and the error. -/
def runPass (c : Config) (p : Passes) (h : Hugr) : Hugr × Option PassError :=
  match passEntry h with
  | none => (h, some .noMain)
  | some entry =>
    match steps c p entry (h.setEntry h.root) with
    | (h', some e) => (h', some e)
    | (h', none) => (h'.setEntry entry, none)

/-! ## `qis-compiler` -/

/-- Errors of the compiler. -/
inductive CompileError where
  | numModules (n : Nat)
  | unsupported (name : String)
  | notSingleMain
  | notAFunction
  | hasInputs (n : Nat)
  | pass (e : PassError)
  | entryNotFound
  deriving DecidableEq

/-- `is_opaque_tket1_op` (utils.rs 54-77). -/
def opaqueName : Op → Option String
  | .tk1 name => some (name.getD "unknown")
  | _ => none

/-- `read_hugr_envelope` (utils.rs 15-46) on a package that was parsed and is valid. -/
def readEnvelope (modules : List Hugr) : Except CompileError Hugr :=
  match modules with
  | [h] =>
    match h.nodes.findSome? (fun n => opaqueName (h.op n)) with
    | some name => .error (.unsupported name)
    | none => .ok h
  | _ => .error (.numModules modules.length)

/-- `get_entry_point_name` (lib.rs 218-251): the node whose mangled name is returned. -/
def entryPoint (h : Hugr) : Except CompileError Nat :=
  if h.op h.entry = .module then
    match (h.children h.root).filter (isMain h) with
    | [n] => .ok n
    | _ => .error .notSingleMain
  else
    match h.op h.entry with
    | .funcDefn _ _ inputs => if inputs ≠ 0 then .error (.hasInputs inputs) else .ok h.entry
    | _ => .error .notAFunction

/-- Is there code for the function (`module.get_function`)? -/
def hasFunction (h : Hugr) (n : Nat) : Bool :=
  match h.op n with
  | .funcDefn _ _ _ => (h.children h.root).contains n
  | _ => false

/-- `compile` (lib.rs 319-364) up to the generated entry function: the function that it calls and the
HUGR for which code is generated. -/
def compile (p : Passes) (h : Hugr) : Except CompileError (Nat × Hugr) :=
  match entryPoint h with
  | .error e => .error e
  | .ok n =>
    match runPass {} p h with
    | (_, some e) => .error (.pass e)
    | (h', none) => if hasFunction h' n then .ok (n, h') else .error .entryNotFound

/-- `get_opt_level` (lib.rs 406-414); `none`: panic. -/
def optLevel (n : Nat) : Option Nat := if n ≤ 3 then some n else none

end Tket.Entry
