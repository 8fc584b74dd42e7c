/-
Calls of the GPU library.

Modelled code: `qis-compiler/rust/gpu.rs`.

A module has function symbols and thread-local variables; each operation of the program is a site for
which code is emitted once, and which is executed any number of times with any operands.  The library
is a function of the calls so far.  Names of GPU functions contain no zero character, which would end
the names in LLVM.
-/
namespace Verif.Gpu

/-- Symbols and names. -/
abbrev Sym := List Char

/-- LLVM types of values. -/
inductive Ty
  | int (width : Nat)
  | float
  | other
deriving DecidableEq

/-- LLVM values; floating point numbers are given by their bits. -/
inductive Val
  | int (width n : Nat)
  | float (bits : Nat)
  | other
deriving DecidableEq

/-- `get_type`. -/
def Val.ty : Val → Ty
  | .int w _ => .int w
  | .float _ => .float
  | .other => .other

/-- Operations of the program with the types of their arguments and results. -/
inductive Site
  | getContext (width : Nat)
  | dispose
  | lookupById (id : Nat)
  | lookupByName (name : Sym)
  | call (args outs : List Ty)
  | readResult (outs : List Ty)

/-- Operands of an execution: the index of a new context, the context, the function, the arguments. -/
structure Operands where
  index : Nat := 0
  handle : Nat := 0
  func : Nat := 0
  vals : List Val := []

/-- Calls of external functions. -/
inductive Call
  | validateApi (major minor patch : Nat)
  | init (reserved : Nat)
  | discard (handle : Nat)
  | getError
  | getFunctionId (name : Sym)
  | gpuCall (handle func size : Nat) (blob : List Nat) (signature : Sym)
  | getResult (handle len : Nat)
  | panicStr (code : Nat) (msg : Sym)
deriving DecidableEq

/-- What an external function returns: a status, a number written to memory, a message. -/
structure Resp where
  status : Nat
  out : Nat
  msg : Option Sym

/-- The library: its responses may depend on all calls before (latest first). -/
abbrev Lib := List Call → Call → Resp

/-- What an execution of an operation returns. -/
inductive Ret
  | none
  | context (handle : Nat)
  | func (id : Nat)
  | result (handle : Nat)
  | int (handle n : Nat)
  | float (handle bits : Nat)
deriving DecidableEq

/-! ### Packing of arguments -/

/-- The bytes of a number, lowest first. -/
def leBytes : Nat → Nat → List Nat
  | 0, _ => []
  | k + 1, n => n % 256 :: leBytes k (n / 256)

/-- Eight bytes in the order of the machine. -/
def word (little : Bool) (n : Nat) : List Nat :=
  if little then leBytes 8 n else (leBytes 8 n).reverse

/-- Size of one argument, `gpu.rs:928-940`; `none` is `bail!`. -/
def argSize : Ty → Option Nat
  | .int w => if w = 1 then some 1 else if w = 64 then some 8 else none
  | .float => some 8
  | .other => none

/-- Size of the blob, `gpu.rs:926-941`. -/
def blobSize : List Ty → Option Nat
  | [] => some 0
  | t :: ts => (argSize t).bind fun a => (blobSize ts).map (a + ·)

/-- A store of bytes; `none` is a store outside the memory. -/
def writeAt (mem : List Nat) (offset : Nat) (bytes : List Nat) : Option (List Nat) :=
  if offset + bytes.length ≤ mem.length then
    some (mem.take offset ++ bytes ++ mem.drop (offset + bytes.length))
  else none

/-- The loop that stores the arguments, `gpu.rs:945-999`; `none` is a store outside the blob or
`unreachable!()`. -/
def packLoop (little : Bool) : List Nat → Nat → List Val → Option (List Nat)
  | mem, _, [] => some mem
  | mem, offset, v :: vs =>
    match v with
    | .int w n =>
      if w = 1 then (writeAt mem offset [n]).bind fun m => packLoop little m (offset + 1) vs
      else if w = 64 then
        (writeAt mem offset (word little n)).bind fun m => packLoop little m (offset + 8) vs
      else none
    | .float b => (writeAt mem offset (word little b)).bind fun m => packLoop little m (offset + 8) vs
    | .other => none

/-- The character of an argument type, `gpu.rs:874-885`. -/
def argChar : Ty → Option Char
  | .int w => if w = 1 then some 'b' else if w = 64 then some 'i' else none
  | .float => some 'f'
  | .other => none

/-- The characters of all arguments. -/
def argChars : List Ty → Option Sym
  | [] => some []
  | t :: ts => (argChar t).bind fun c => (argChars ts).map (c :: ·)

/-- The character of the result, `gpu.rs:888-893`. -/
def outChar : List Ty → Option Char
  | [] => some 'v'
  | [t] => if t = .int 64 then some 'i' else if t = .float then some 'f' else none
  | _ => none

/-- `generate_signature`, `gpu.rs:864-898`. -/
def signature (args outs : List Ty) : Option Sym :=
  (argChars args).bind fun a => (outChar outs).map fun o => a ++ [':', o]

/-! ### Modules -/

/-- `validate_gpu_response` -/
def respSym : Sym := ['v', 'a', 'l', 'i', 'd', 'a', 't', 'e', '_', 'g', 'p', 'u', '_', 'r', 'e', 's', 'p', 'o', 'n',
  's', 'e']
/-- `gpu_error_handler` -/
def errSym : Sym := ['g', 'p', 'u', '_', 'e', 'r', 'r', 'o', 'r', '_', 'h', 'a', 'n', 'd', 'l', 'e', 'r']
/-- `run_gpu_validation` -/
def valSym : Sym := ['r', 'u', 'n', '_', 'g', 'p', 'u', '_', 'v', 'a', 'l', 'i', 'd', 'a', 't', 'i', 'o', 'n']
/-- `gpu_validated` -/
def valFlag : Sym := ['g', 'p', 'u', '_', 'v', 'a', 'l', 'i', 'd', 'a', 't', 'e', 'd']
/-- `gpu_function_id_{name}` -/
def lookSym (name : Sym) : Sym := ['g', 'p', 'u', '_', 'f', 'u', 'n', 'c', 't', 'i', 'o', 'n', '_', 'i', 'd', '_'] ++ name
/-- `gpu_cache_is_set_function_id_{name}` -/
def flagSym (name : Sym) : Sym := ['g', 'p', 'u', '_', 'c', 'a', 'c', 'h', 'e', '_', 'i', 's', '_', 's', 'e', 't', '_', 'f', 'u',
  'n', 'c', 't', 'i', 'o', 'n', '_', 'i', 'd', '_'] ++ name
/-- `gpu_cache_function_id_{name}` -/
def idSym (name : Sym) : Sym := ['g', 'p', 'u', '_', 'c', 'a', 'c', 'h', 'e', '_', 'f', 'u', 'n', 'c', 't', 'i', 'o', 'n', '_',
  'i', 'd', '_'] ++ name

/-- Bodies of functions: check of a status, report of an error, validation with its flag, look-up with
its flag, variable and name. -/
inductive Body
  | response
  | error
  | validate (flag : Sym)
  | lookup (flag id name : Sym)

/-- Modules: other symbols, variables, functions. -/
structure Module where
  others : List Sym
  globals : List Sym
  funcs : List (Sym × Body)

/-- `get_function` -/
def getFunc : List (Sym × Body) → Sym → Option Body
  | [], _ => none
  | (s, b) :: fs, x => if s = x then some b else getFunc fs x

/-- The symbol is in use. -/
def Module.used (m : Module) (s : Sym) : Bool :=
  m.others.contains s || m.globals.contains s || (getFunc m.funcs s).isSome

/-- `add_global`.  LLVM would choose another name for a symbol that is in use; here this is `none`, and
it is shown not to happen. -/
def addGlobal (m : Module) (s : Sym) : Option Module :=
  if m.used s then none else some { m with globals := s :: m.globals }

/-- `add_function`, like `addGlobal`. -/
def addFunc (m : Module) (s : Sym) (b : Body) : Option Module :=
  if m.used s then none else some { m with funcs := (s, b) :: m.funcs }

/-- `emit_panic_with_gpu_error`, `gpu.rs:722-790`: the function is added once. -/
def ensureError (m : Module) : Option Module :=
  match getFunc m.funcs errSym with
  | some _ => some m
  | none => addFunc m errSym .error

/-- `verify_gpu_call`, `gpu.rs:795-848`. -/
def ensureResponse (m : Module) : Option Module :=
  match getFunc m.funcs respSym with
  | some _ => some m
  | none => (addFunc m respSym .response).bind ensureError

/-- `emit_api_validation`, `gpu.rs:636-710`. -/
def ensureValidate (m : Module) : Option Module :=
  match getFunc m.funcs valSym with
  | some _ => some m
  | none =>
    (addGlobal m valFlag).bind fun m => (addFunc m valSym (.validate valFlag)).bind ensureResponse

/-- The function of `emit_lookup_by_name`, `gpu.rs:233-353`. -/
def ensureLookup (m : Module) (name : Sym) : Option Module :=
  match getFunc m.funcs (lookSym name) with
  | some _ => some m
  | none =>
    (addGlobal m (flagSym name)).bind fun m => (addGlobal m (idSym name)).bind fun m =>
      (addFunc m (lookSym name) (.lookup (flagSym name) (idSym name) name)).bind fun m =>
        (ensureValidate m).bind ensureResponse

/-- Emitted code of an operation. -/
inductive Instr
  | getContext (width : Nat)
  | dispose
  | const (id : Nat)
  | lookup (f : Sym)
  | call (size : Nat) (signature : Sym)
  | pass
  | readInt
  | readFloat

/-- `emit_op`, `gpu.rs:566-585`; `none` is an error. -/
def emitSite (m : Module) : Site → Option (Module × Instr)
  | .getContext w =>
    (ensureValidate m).bind fun m => (ensureResponse m).map fun m => (m, .getContext w)
  | .dispose => (ensureResponse m).map fun m => (m, .dispose)
  | .lookupById id => some (m, .const id)
  | .lookupByName name => (ensureLookup m name).map fun m => (m, .lookup (lookSym name))
  | .call args outs =>
    (signature args outs).bind fun s => (blobSize args).bind fun n =>
      (ensureResponse m).map fun m => (m, .call n s)
  | .readResult outs =>
    match outs with
    | [] => some (m, .pass)
    | [t] =>
      (ensureResponse m).bind fun m =>
        if t = .int 64 then some (m, .readInt)
        else if t = .float then some (m, .readFloat)
        else none
    | _ => none

/-- Code of all operations. -/
def emitAll (m : Module) : List Site → Option (Module × List Instr)
  | [] => some (m, [])
  | s :: ss =>
    (emitSite m s).bind fun r => (emitAll r.1 ss).map fun q => (q.1, r.2 :: q.2)

/-! ### Execution -/

/-- The calls so far (latest first) and the thread-local variables. -/
structure St where
  trace : List Call
  mem : Sym → Nat

/-- Outcome of an execution: a value, the end of the program by `panic_str`, or undefined behaviour. -/
inductive Out (α : Type)
  | ok (a : α) (s : St)
  | panic (s : St)
  | broken

/-- Sequence. -/
def Out.then {α β : Type} (o : Out α) (f : α → St → Out β) : Out β :=
  match o with
  | .ok a s => f a s
  | .panic s => .panic s
  | .broken => .broken

/-- Call of an external function. -/
def ext (lib : Lib) (s : St) (c : Call) : Out Resp := .ok (lib s.trace c) { s with trace := c :: s.trace }

/-- Store to a variable. -/
def St.set (s : St) (x : Sym) (n : Nat) : St :=
  { s with mem := fun y => if y = x then n else s.mem y }

/-- `No error message available` -/
def noMessage : Sym := ['N', 'o', ' ', 'e', 'r', 'r', 'o', 'r', ' ', 'm', 'e', 's', 's', 'a', 'g', 'e', ' ', 'a', 'v',
  'a', 'i', 'l', 'a', 'b', 'l', 'e']

/-- Execution of `gpu_error_handler`, `gpu.rs:737-775`; `panic_str` does not return. -/
def runError (lib : Lib) (m : Module) (s : St) : Out Unit :=
  match getFunc m.funcs errSym with
  | some .error =>
    (ext lib s .getError).then fun r s =>
      (ext lib s (.panicStr 70002 (match r.msg with | some x => x | none => noMessage))).then
        fun _ s => .panic s
  | _ => .broken

/-- Execution of `validate_gpu_response`, `gpu.rs:817-836`. -/
def runResponse (lib : Lib) (m : Module) (s : St) (status : Nat) : Out Unit :=
  match getFunc m.funcs respSym with
  | some .response => if status ≠ 0 then .ok () s else runError lib m s
  | _ => .broken

/-- Execution of `run_gpu_validation`, `gpu.rs:656-701`. -/
def runValidate (lib : Lib) (m : Module) (s : St) : Out Unit :=
  match getFunc m.funcs valSym with
  | some (.validate flag) =>
    if s.mem flag ≠ 0 then .ok () s
    else (ext lib s (.validateApi 0 1 0)).then fun r s =>
      (runResponse lib m s r.status).then fun _ s => .ok () (s.set flag 1)
  | _ => .broken

/-- Execution of a look-up function, `gpu.rs:263-346`. -/
def runLookup (lib : Lib) (m : Module) (s : St) (f : Sym) : Out Nat :=
  match getFunc m.funcs f with
  | some (.lookup flag id name) =>
    if s.mem flag = 0 then
      (runValidate lib m s).then fun _ s =>
        (ext lib s (.getFunctionId name)).then fun r s =>
          (runResponse lib m s r.status).then fun _ s =>
            .ok r.out ((s.set id r.out).set flag 1)
    else .ok (s.mem id) s
  | _ => .broken

/-- The index as a 64-bit number, `gpu.rs:143-158`; the operand has the given width. -/
def coerce (width n : Nat) : Nat := if width > 64 then n % 2 ^ 64 else n

/-- Execution of emitted code; `undef` is the content of fresh memory. -/
def runInstr (little : Bool) (undef : Nat → List Nat) (lib : Lib) (m : Module) (s : St) (o : Operands) :
    Instr → Out Ret
  | .getContext w =>
    (runValidate lib m s).then fun _ s =>
      (ext lib s (.init (coerce w o.index))).then fun r s =>
        (runResponse lib m s r.status).then fun _ s => .ok (.context r.out) s
  | .dispose =>
    (ext lib s (.discard o.handle)).then fun r s =>
      (runResponse lib m s r.status).then fun _ s => .ok .none s
  | .const id => .ok (.func id) s
  | .lookup f => (runLookup lib m s f).then fun id s => .ok (.func id) s
  | .call size sig =>
    match packLoop little (undef size) 0 o.vals with
    | none => .broken
    | some blob =>
      (ext lib s (.gpuCall o.handle o.func size blob sig)).then fun r s =>
        (runResponse lib m s r.status).then fun _ s => .ok (.result o.handle) s
  | .pass => .ok (.context o.handle) s
  | .readInt =>
    (ext lib s (.getResult o.handle 8)).then fun r s =>
      (runResponse lib m s r.status).then fun _ s => .ok (.int o.handle r.out) s
  | .readFloat =>
    (ext lib s (.getResult o.handle 8)).then fun r s =>
      (runResponse lib m s r.status).then fun _ s => .ok (.float o.handle r.out) s

/-- Execution of a sequence of operations, each given by the number of its site and its operands. -/
def runAll (little : Bool) (undef : Nat → List Nat) (lib : Lib) (m : Module) (code : List Instr) :
    St → List (Nat × Operands) → Out (List Ret)
  | s, [] => .ok [] s
  | s, (i, o) :: steps =>
    match code[i]? with
    | none => .broken
    | some c =>
      (runInstr little undef lib m s o c).then fun r s =>
        (runAll little undef lib m code s steps).then fun rs s => .ok (r :: rs) s

end Verif.Gpu
