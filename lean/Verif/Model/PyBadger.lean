import Verif.Model.BadgerSplit

/-!
# Model of the Badger pass of the Python package

Models `badger_optimise` (`/repo/tket-py/src/passes.rs` 162-229), `rebase_nam` (112-120) as far as its
effect on the argument is concerned, and the conversions of
`/repo/tket-py/src/circuit/convert.rs` 34-107.

* `pytket` circuits are a type `T` and circuits of this library a type `C`; decoding, encoding, the
  rebase pass of pytket and the optimiser itself are parameters (`Env`). The searches of the optimiser
  are in `Model/Backtracking` and `Model/BadgerSplit`.
* The optimiser also returns how many circuits it explored (a ghost value).
* Log files and the creation of their directory are left out.
* Python objects are mutable: the function returns the content of its argument after the call.
-/

namespace Tket.PyBadger

open Tket.BadgerSplit (Outcome)

/-- `BadgerOptions` (badger.rs 41-76). -/
structure Options where
  timeout : Option Nat
  progressTimeout : Option Nat
  maxCount : Option Nat
  threads : Nat
  split : Bool
  queueSize : Nat
deriving DecidableEq

/-- The Python objects accepted (convert.rs 34-41). -/
inductive PyCirc (T C : Type) where
  /-- a `pytket.Circuit` -/
  | tket1 (t : T)
  /-- a `Tk2Circuit` -/
  | tket (c : C)

/-- What is outside of the function. -/
structure Env (T C E : Type) where
  /-- `rebase_nam` (passes.rs 112-120): `AutoRebase(..).apply(circ)` changes its argument; the exception
  it raises, if any, and the content of the argument afterwards -/
  rebase : PyCirc T C → Option E × PyCirc T C
  /-- `SerialCircuit::from_tket1(circ)?.decode(..)` (convert.rs 70-77) -/
  decode : T → Except E C
  /-- `SerialCircuit::encode(..)?.to_tket1(py)` (convert.rs 47-52) -/
  encode : C → Except E T
  /-- number of commands that are `TketOp::CX` (passes.rs 202-205) -/
  cx : C → Nat
  /-- `optimiser.optimise` (tket-py optimiser.rs 167-182): circuit and number of circuits explored -/
  opt : Options → C → Outcome (C × Nat)
  /-- `num_cpus::get()` -/
  cpus : Nat

/-- The optional arguments (passes.rs 163-173). -/
structure Args where
  maxThreads : Option Nat
  timeout : Option Nat
  progressTimeout : Option Nat
  maxCount : Option Nat
  rebase : Option Bool

/-- Outcome of the call. -/
inductive Ret (T C E : Type) where
  | running
  | panic
  /-- `max_threads=0` is no `NonZeroUsize` -/
  | badArgument
  | raised (e : E)
  | ok (r : PyCirc T C) (explored : Nat)

/-- `(n_cx / 50).try_into().unwrap_or(1)` and the minimum with `max_threads` (passes.rs 206-209). -/
def numThreads (nCx maxThreads : Nat) : Nat :=
  min (if nCx / 50 = 0 then 1 else nCx / 50) maxThreads

/-- `badger_splits` (passes.rs 187-199): threads and timeouts of the cycles; the timeouts are divided
as integers. `none` is the `unreachable!`. -/
def splits (timeout n : Nat) : Option (List (Nat × Nat)) :=
  if 7 ≤ n then some ([n, 3, 1].zip [timeout / 2, timeout / 10 * 3, timeout / 10 * 2])
  else if 4 ≤ n then some ([n, 2, 1].zip [timeout / 2, timeout / 10 * 3, timeout / 10 * 2])
  else if 1 < n then some ([n, 1].zip [timeout / 2, timeout / 2])
  else if n = 1 then some ([1].zip [timeout])
  else none

/-- The options of one cycle (passes.rs 217-224). -/
def cycleOptions (args : Args) (p : Nat × Nat) : Options :=
  { timeout := some p.2
    progressTimeout := args.progressTimeout
    maxCount := args.maxCount
    threads := p.1
    split := true
    queueSize := 20 }

/-- The options of all cycles (passes.rs 206-224). -/
def allOptions (args : Args) (maxThreads nCx : Nat) : Option (List Options) :=
  (splits (args.timeout.getD 30) (numThreads nCx maxThreads)).map (·.map (cycleOptions args))

variable {T C E : Type}

/-- The loop over the cycles (passes.rs 210-226). -/
def runCycles (opt : Options → C → Outcome (C × Nat)) : List Options → C → Outcome (C × Nat)
  | [], c => .done (c, 0)
  | o :: rest, c =>
    match opt o c with
    | .running => .running
    | .panic => .panic
    | .done (c', k) =>
      match runCycles opt rest c' with
      | .running => .running
      | .panic => .panic
      | .done (c'', k') => .done (c'', k + k')

/-- The closure given to `try_update_circ` (passes.rs 201-228). -/
def optimiseCirc (env : Env T C E) (args : Args) (maxThreads : Nat) (c : C) : Outcome (C × Nat) :=
  match allOptions args maxThreads (env.cx c) with
  | none => .panic
  | some os => runCycles env.opt os c

/-- `CircuitType::convert` (convert.rs 45-55); `kind` is the argument of the call. -/
def convert (env : Env T C E) (kind : PyCirc T C) (c : C) : Except E (PyCirc T C) :=
  match kind with
  | .tket1 _ => (env.encode c).map .tket1
  | .tket _ => .ok (.tket c)

/-- `try_update_circ` (convert.rs 97-107 with `try_with_circ` 61-82). -/
def updateCirc (env : Env T C E) (f : C → Outcome (C × Nat)) (circ : PyCirc T C) : Ret T C E :=
  let decoded : Except E C :=
    match circ with
    | .tket c => .ok c
    | .tket1 t => env.decode t
  match decoded with
  | .error e => .raised e
  | .ok c =>
    match f c with
    | .running => .running
    | .panic => .panic
    | .done (c', k) =>
      match convert env circ c' with
      | .error e => .raised e
      | .ok r => .ok r k

/-- `badger_optimise` (passes.rs 164-229): the outcome and the content of the argument `circ` after the
call. -/
def badgerOptimise (env : Env T C E) (args : Args) (circ : PyCirc T C) : Ret T C E × PyCirc T C :=
  if args.maxThreads = some 0 then (.badArgument, circ)
  else if env.cpus = 0 then (.panic, circ)
  else
    let maxThreads := args.maxThreads.getD env.cpus
    if args.rebase.getD true then
      match env.rebase circ with
      | (some e, circ') => (.raised e, circ')
      | (none, circ') => (updateCirc env (optimiseCirc env args maxThreads) circ', circ')
    else (updateCirc env (optimiseCirc env args maxThreads) circ, circ)

end Tket.PyBadger
