/-
Runtime calls for the operations of the Q-System and for futures.

Modelled code: `tket-qsystem/src/llvm/qsystem.rs` and `tket-qsystem/src/llvm/futures.rs`, with the
signatures of `tket-qsystem/src/extension/qsystem.rs:107-125` and `futures.rs:103-119`.

The LLVM text is not modelled, only which runtime functions are called with which values, and what
flows to the outputs.  The runtime itself is external; it is modelled by an abstract machine that
stops with a fault if a function is called with a qubit that is not allocated or a future without
references.
-/
namespace Verif.QRuntime

/-- The types a future may have, `llvm/futures.rs:38-46`: `bool_t()`, `INT_TYPES[6]` or others. -/
inductive FTy
  | bool
  | int
  | other
deriving DecidableEq

/-- Operations: `QSystemOp` (`extension/qsystem.rs:88-100`), the runtime barrier on `n` qubits and
`FutureOp`. -/
inductive Op
  | measure
  | lazyMeasure
  | lazyMeasureReset
  | rz
  | phasedX
  | zzPhase
  | tryQAlloc
  | qfree
  | reset
  | measureReset
  | lazyMeasureLeaked
  | barrier (n : Nat)
  | read (t : FTy)
  | dup (t : FTy)
  | free (t : FTy)

/-- Types of wires.  Floats are tokens. -/
inductive Ty
  | qb
  | fut (t : FTy)
  | bool
  | int
  | flt
  | optQ
deriving DecidableEq

/-- `init_signature`, `extension/qsystem.rs:107-125` (with booleans already replaced by native
ones) and `extension/futures.rs:103-119`. -/
def Op.sig : Op → List Ty × List Ty
  | .lazyMeasure => ([.qb], [.fut .bool])
  | .lazyMeasureLeaked => ([.qb], [.fut .int])
  | .lazyMeasureReset => ([.qb], [.qb, .fut .bool])
  | .reset => ([.qb], [.qb])
  | .zzPhase => ([.qb, .qb, .flt], [.qb, .qb])
  | .measure => ([.qb], [.bool])
  | .rz => ([.qb, .flt], [.qb])
  | .phasedX => ([.qb, .flt, .flt], [.qb])
  | .tryQAlloc => ([], [.optQ])
  | .qfree => ([.qb], [])
  | .measureReset => ([.qb], [.qb, .bool])
  | .barrier n => (List.replicate n .qb, List.replicate n .qb)
  | .read .bool => ([.fut .bool], [.bool])
  | .read .int => ([.fut .int], [.int])
  | .read .other => ([.fut .other], [.flt])
  | .dup t => ([.fut t], [.fut t, .fut t])
  | .free t => ([.fut t], [])

/-- Values at run time: a qubit is its number, a future is its handle. -/
inductive Val
  | qb (q : Nat)
  | fut (h : Nat)
  | bool (b : Bool)
  | int (n : Nat)
  | flt (x : Nat)
  | opt (o : Option Nat)
deriving DecidableEq

/-- What happens on the device. -/
inductive Ev
  | rz (q : Nat) (a : Nat)
  | rxy (q : Nat) (a b : Nat)
  | rzz (q r : Nat) (a : Nat)
  | alloc (o : Option Nat)
  | free (q : Nat)
  | meas (q : Nat) (v : Nat)
  | leak (q : Nat) (v : Nat)
  | reset (q : Nat)
deriving DecidableEq

/-- The state of the runtime: its decisions to come (results of allocations, outcomes of
measurements, new handles), the allocated qubits, references, type and outcome of each handle, and what
happened so far. -/
structure RT where
  allocs : List Nat
  outcomes : List Nat
  handles : List Nat
  live : List Nat
  refs : Nat → Nat
  kinds : Nat → FTy
  table : Nat → Nat
  log : List Ev

/-- Results: a value and the new state; `fault`: a runtime function was misused; `device`: the
runtime has no answer or breaks its contract; `reject`: the compiler reports an error. -/
inductive Res (α : Type)
  | ok (a : α) (s : RT)
  | fault
  | device
  | reject

/-- Sequencing. -/
def Res.bind {α β : Type} (r : Res α) (f : α → RT → Res β) : Res β :=
  match r with
  | .ok a s => f a s
  | .fault => .fault
  | .device => .device
  | .reject => .reject

/-! ### Functions of the runtime -/

/-- A function that acts on an allocated qubit. -/
def onQubit (q : Nat) (e : Ev) (s : RT) : Res Unit :=
  if q ∈ s.live then .ok () { s with log := s.log ++ [e] } else .fault

/-- `___rz`. -/
def callRz (q a : Nat) : RT → Res Unit := onQubit q (.rz q a)
/-- `___rxy`. -/
def callRxy (q a b : Nat) : RT → Res Unit := onQubit q (.rxy q a b)
/-- `___rzz`: two different qubits. -/
def callRzz (q r a : Nat) (s : RT) : Res Unit :=
  if q ∈ s.live ∧ r ∈ s.live ∧ q ≠ r then .ok () { s with log := s.log ++ [.rzz q r a] }
  else .fault
/-- `___reset`. -/
def callReset (q : Nat) : RT → Res Unit := onQubit q (.reset q)
/-- `___qfree`. -/
def callFree (q : Nat) (s : RT) : Res Unit :=
  if q ∈ s.live then .ok () { s with live := s.live.erase q, log := s.log ++ [.free q] }
  else .fault
/-- `u64::MAX`, the answer of `___qalloc` if there is no qubit. -/
def maxQb : Nat := 2 ^ 64 - 1
/-- `___qalloc`: a qubit that is not allocated, or the maximal number. -/
def callAlloc (s : RT) : Res Nat :=
  match s.allocs with
  | [] => .device
  | q :: as =>
    if q = maxQb then .ok q { s with allocs := as, log := s.log ++ [.alloc none] }
    else if q ∈ s.live then .device
    else .ok q { s with allocs := as, live := q :: s.live, log := s.log ++ [.alloc (some q)] }
/-- `___measure`. -/
def callMeasure (q : Nat) (s : RT) : Res Bool :=
  if q ∈ s.live then
    match s.outcomes with
    | [] => .device
    | v :: vs => .ok (v != 0) { s with outcomes := vs, log := s.log ++ [.meas q v] }
  else .fault
/-- `___lazy_measure` and `___lazy_measure_leaked`: a handle that has no references is given one. -/
def callLazy (t : FTy) (e : Nat → Ev) (q : Nat) (s : RT) : Res Nat :=
  if q ∈ s.live then
    match s.outcomes, s.handles with
    | v :: vs, h :: hs =>
      if s.refs h = 0 then
        .ok h { s with
          outcomes := vs, handles := hs
          refs := fun x => if x = h then 1 else s.refs x
          kinds := fun x => if x = h then t else s.kinds x
          table := fun x => if x = h then v else s.table x
          log := s.log ++ [e v] }
      else .device
    | _, _ => .device
  else .fault
/-- `___inc_future_refcount`. -/
def callInc (h : Nat) (s : RT) : Res Unit :=
  if s.refs h = 0 then .fault
  else .ok () { s with refs := fun x => if x = h then s.refs x + 1 else s.refs x }
/-- `___dec_future_refcount`. -/
def callDec (h : Nat) (s : RT) : Res Unit :=
  if s.refs h = 0 then .fault
  else .ok () { s with refs := fun x => if x = h then s.refs x - 1 else s.refs x }
/-- `___read_future_bool`: the future of a boolean. -/
def callReadBool (h : Nat) (s : RT) : Res Bool :=
  if s.refs h = 0 ∨ s.kinds h ≠ .bool then .fault else .ok (s.table h != 0) s
/-- `___read_future_uint`: the future of an integer. -/
def callReadUint (h : Nat) (s : RT) : Res Nat :=
  if s.refs h = 0 ∨ s.kinds h ≠ .int then .fault else .ok (s.table h) s

/-! ### Emitted code -/

/-- `Dup`, `llvm/futures.rs:123-132`. -/
def dupFuture (h : Nat) (s : RT) : Res (List Val) :=
  (callInc h s).bind fun _ s => .ok [.fut h, .fut h] s

/-- `Free`, `llvm/futures.rs:133-142`. -/
def freeFuture (h : Nat) (s : RT) : Res (List Val) :=
  (callDec h s).bind fun _ s => .ok [] s

/-- What the code emitted for an operation does with its inputs: `QSystemCodegenExtension::emit`,
`llvm/qsystem.rs:147-307`, and `FuturesEmitter::emit`, `llvm/futures.rs:119-184`.  Inputs of the
wrong shape cannot come from a valid program; they count as a fault.  The operations `dup` and
`free` do not look at the type of the future, but the type of the wire is translated too and fails
(`llvm/futures.rs:38-51`) for other types. -/
def emit : Op → List Val → RT → Res (List Val)
  -- `emit_impl(Rz, [0, 1], [0])`
  | .rz, [.qb q, .flt a], s => (callRz q a s).bind fun _ s => .ok [.qb q] s
  | .zzPhase, [.qb q, .qb r, .flt a], s =>
    (callRzz q r a s).bind fun _ s => .ok [.qb q, .qb r] s
  | .phasedX, [.qb q, .flt a, .flt b], s => (callRxy q a b s).bind fun _ s => .ok [.qb q] s
  | .measure, [.qb q], s =>
    (callMeasure q s).bind fun b s => (callFree q s).bind fun _ s => .ok [.bool b] s
  | .measureReset, [.qb q], s =>
    (callMeasure q s).bind fun b s => (callReset q s).bind fun _ s => .ok [.qb q, .bool b] s
  | .lazyMeasure, [.qb q], s =>
    (callLazy .bool (.meas q) q s).bind fun h s => (callFree q s).bind fun _ s => .ok [.fut h] s
  | .lazyMeasureLeaked, [.qb q], s =>
    (callLazy .int (.leak q) q s).bind fun h s => (callFree q s).bind fun _ s => .ok [.fut h] s
  | .lazyMeasureReset, [.qb q], s =>
    (callLazy .bool (.meas q) q s).bind fun h s => (callReset q s).bind fun _ s => .ok [.qb q, .fut h] s
  | .reset, [.qb q], s => (callReset q s).bind fun _ s => .ok [.qb q] s
  | .tryQAlloc, [], s => (callAlloc s).bind fun q s =>
    -- `not_max`, `reset_if_qb` and `build_option`
    if q ≠ maxQb then (callReset q s).bind fun _ s => .ok [.opt (some q)] s
    else .ok [.opt none] s
  | .qfree, [.qb q], s => (callFree q s).bind fun _ s => .ok [] s
  | .barrier _, vs, s => .ok vs s
  | .dup .bool, [.fut h], s => dupFuture h s
  | .dup .int, [.fut h], s => dupFuture h s
  | .free .bool, [.fut h], s => freeFuture h s
  | .free .int, [.fut h], s => freeFuture h s
  | .read .bool, [.fut h], s =>
    (callReadBool h s).bind fun b s => (callDec h s).bind fun _ s => .ok [.bool b] s
  | .read .int, [.fut h], s =>
    (callReadUint h s).bind fun n s => (callDec h s).bind fun _ s => .ok [.int n] s
  -- the type has no translation
  | .read .other, _, _ => .reject
  | .dup .other, _, _ => .reject
  | .free .other, _, _ => .reject
  | _, _, _ => .fault

/-! ### Programs -/

/-- Programs on named wires.  Linear values are used once; other values are copied and discarded
explicitly.  Loops are not needed: a finite execution of a program with loops is one of its
unrolling. -/
inductive Prog
  | done
  | op (o : Op) (ins outs : List Nat) (k : Prog)
  | const (x : Nat) (out : Nat) (k : Prog)
  | copy (w a b : Nat) (k : Prog)
  | discard (w : Nat) (k : Prog)
  | ite (w : Nat) (t e : Prog)
  | unwrap (w out : Nat) (some' none' : Prog)

/-- Take the value of a wire out of the environment. -/
def takeOne {α : Type} : List (Nat × α) → Nat → Option (α × List (Nat × α))
  | [], _ => none
  | (k, v) :: env, w =>
    if k = w then some (v, env)
    else (takeOne env w).map fun p => (p.1, (k, v) :: p.2)

/-- Take the values of several wires out of the environment. -/
def takeAll {α : Type} (env : List (Nat × α)) : List Nat → Option (List α × List (Nat × α))
  | [] => some ([], env)
  | w :: ws =>
    match takeOne env w with
    | none => none
    | some (v, env') => (takeAll env' ws).map fun p => (v :: p.1, p.2)

/-- Running a program: the emitted code of one operation after the other. -/
def run : Prog → List (Nat × Val) → RT → Res (List (Nat × Val))
  | .done, env, s => .ok env s
  | .op o ins outs k, env, s =>
    match takeAll env ins with
    | none => .fault
    | some (vs, env') => (emit o vs s).bind fun rs s => run k (outs.zip rs ++ env') s
  | .const x out k, env, s => run k ((out, .flt x) :: env) s
  | .copy w a b k, env, s =>
    match takeOne env w with
    | none => .fault
    | some (v, env') => run k ((a, v) :: (b, v) :: env') s
  | .discard w k, env, s =>
    match takeOne env w with
    | none => .fault
    | some (_, env') => run k env' s
  | .ite w t e, env, s =>
    match takeOne env w with
    | some (.bool true, env') => run t env' s
    | some (.bool false, env') => run e env' s
    | _ => .fault
  | .unwrap w out k k', env, s =>
    match takeOne env w with
    | some (.opt (some q), env') => run k ((out, .qb q) :: env') s
    | some (.opt none, env') => run k' env' s
    | _ => .fault

end Verif.QRuntime
