import Verif.Model.PyBadger

/-!
# Model of the optimiser object of the Python package

Models the class `BadgerOptimiser` (`/repo/tket-py/src/optimiser.rs` 23-182), the constructors of `ECCRewriter`
it uses (`/repo/tket-py/src/rewrite.rs` 130-147) and `badger_pass` (`/repo/tket-py/tket/passes.py` 50-97).

* Arguments are Python values; `bind` is the rule by which Python and pyo3 give positional and keyword arguments
  to parameters. Keywords of a call are distinct (Python's rule).
* Conversions of arguments are those of pyo3: `Option<T>` takes `None`; integers must fit, a `bool` is also an
  integer, an integer is no `bool`. Paths are strings here.
* Files are functions of their name; the search is the parameter `opt` of `Model/PyBadger`.
* A panic is raised by pyo3 as `PanicException`, which is no `Exception`.
-/

namespace Tket.PyOptimiser

open Tket.PyBadger (Options PyCirc Env Ret Args updateCirc badgerOptimise)
open Tket.BadgerSplit (Outcome)

/-- Python values. -/
inductive Val (T C : Type) where
  | none
  | bool (b : Bool)
  | int (n : Int)
  | str (s : String)
  | circ (c : PyCirc T C)

/-- Python exceptions. -/
inductive Exn where
  | type
  | value
  | overflow
  | io
deriving DecidableEq

variable {T C E R M : Type}

/-- The value of parameter `name`: by position, else by keyword. -/
def valueOf (params : List String) (pos : List (Val T C)) (kw : List (String × Val T C)) (name : String) :
    Option (Val T C) :=
  match pos[params.idxOf name]? with
  | some v => some v
  | none => kw.lookup name

/-- Calls that Python refuses: too many positional arguments, an unknown keyword, a parameter given twice, a
required parameter (the first `required` ones) that is missing. -/
def refused (params : List String) (required : Nat) (pos : List (Val T C)) (kw : List (String × Val T C)) : Bool :=
  decide (params.length < pos.length) || kw.any (fun p => !params.contains p.1) ||
    kw.any (fun p => (params.take pos.length).contains p.1) ||
    (params.take required).any (fun p => (valueOf params pos kw p).isNone)

/-- Conversion to `Option<u64>` and, on 64 bit machines, `Option<usize>`. -/
def asNat : Option (Val T C) → Except Exn (Option Nat)
  | none | some .none => .ok none
  | some (.bool b) => .ok (some b.toNat)
  | some (.int n) => if 0 ≤ n ∧ n < 2 ^ 64 then .ok (some n.toNat) else .error .overflow
  | some _ => .error .type

/-- Conversion to `Option<NonZeroUsize>`. -/
def asNonZero (v : Option (Val T C)) : Except Exn (Option Nat) :=
  match asNat v with
  | .ok (some 0) => .error .value
  | r => r

/-- Conversion to `Option<bool>`. -/
def asBool : Option (Val T C) → Except Exn (Option Bool)
  | none | some .none => .ok none
  | some (.bool b) => .ok (some b)
  | some _ => .error .type

/-- Conversion to `Option<PathBuf>`. -/
def asPath : Option (Val T C) → Except Exn (Option String)
  | none | some .none => .ok none
  | some (.str s) => .ok (some s)
  | some _ => .error .type

/-- The parameters of `optimise` (optimiser.rs 141). -/
def params : List String :=
  ["circ", "timeout", "progress_timeout", "max_circuit_count", "n_threads", "split_circ", "queue_size",
    "log_progress"]

/-- The parameters of `optimise` in the type stub (`tket-py/tket/_tket/optimiser.pyi` 43-52). -/
def stubParams : List String :=
  ["circ", "timeout", "progress_timeout", "n_threads", "split_circ", "queue_size", "log_progress"]

/-- Outcome of a call: an exception, or what `updateCirc` gives. -/
inductive Res (T C E : Type) where
  | exn (e : Exn)
  | ret (r : Ret T C E)

/-- The options and the log file of a call, arguments converted in the order of the parameters
(optimiser.rs 141-160). -/
def readArgs (pos : List (Val T C)) (kw : List (String × Val T C)) : Except Exn (Options × Option String) :=
  let v := valueOf params pos kw
  match asNat (v "timeout") with
  | .error e => .error e
  | .ok timeout =>
  match asNat (v "progress_timeout") with
  | .error e => .error e
  | .ok progress =>
  match asNat (v "max_circuit_count") with
  | .error e => .error e
  | .ok maxCount =>
  match asNonZero (v "n_threads") with
  | .error e => .error e
  | .ok threads =>
  match asBool (v "split_circ") with
  | .error e => .error e
  | .ok split =>
  match asNat (v "queue_size") with
  | .error e => .error e
  | .ok queue =>
  match asPath (v "log_progress") with
  | .error e => .error e
  | .ok log =>
    .ok (⟨timeout, progress, maxCount, threads.getD 1, split.getD false, queue.getD 100⟩, log)

/-- `PyBadgerOptimiser::optimise` (optimiser.rs 167-181): `File::create(..).unwrap()` panics if the file can not be
created (`files`). -/
def runLogged (env : Env T C E) (files : String → Bool) (o : Options) (log : Option String) (c : C) :
    Outcome (C × Nat) :=
  match log with
  | some p => if files p then env.opt o c else .panic
  | none => env.opt o c

/-- `py_optimise` (optimiser.rs 142-162). -/
def pyOptimise (env : Env T C E) (files : String → Bool) (pos : List (Val T C)) (kw : List (String × Val T C)) :
    Res T C E :=
  if refused params 1 pos kw then .exn .type
  else
    match readArgs pos kw with
    | .error e => .exn e
    | .ok (o, log) =>
      match valueOf params pos kw "circ" with
      | some (.circ c) => .ret (updateCirc env (runLogged env files o log) c)
      | _ => .exn .type

/-- `BadgerCostFunction` (optimiser.rs 33-39). -/
inductive Cost where
  | cx
  | rz
deriving DecidableEq

/-- Conversion to `Option<BadgerCostFunction>` (optimiser.rs 50-61) with the default (33-36). -/
def asCost : Option (Val T C) → Except Exn Cost
  | none | some .none => .ok .cx
  | some (.str s) => if s = "cx" then .ok .cx else if s = "rz" then .ok .rz else .error .value
  | some _ => .error .type

/-- Outcome of a constructor. -/
inductive Made (A : Type) where
  | exn (e : Exn)
  | panic
  | ok (a : A)

/-- `ECCRewriter.load_precompiled` (rewrite.rs 132-137): errors become `IOError`. -/
def eccLoad (load : String → Except M R) (path : String) : Made R :=
  match load path with
  | .error _ => .exn .io
  | .ok r => .ok r

/-- `ECCRewriter.compile_eccs` (rewrite.rs 140-145): errors become `ValueError`. -/
def eccCompile (compile : String → Except M R) (path : String) : Made R :=
  match compile path with
  | .error _ => .exn .value
  | .ok r => .ok r

/-- `BadgerOptimiser(rewriter, cost_fn)` (optimiser.rs 66-70). -/
def newOptimiser (r : R) (cost : Option (Val T C)) : Made (R × Cost) :=
  match asCost cost with
  | .error e => .exn e
  | .ok k => .ok (r, k)

/-- `BadgerOptimiser.load_precompiled` and `compile_eccs` (optimiser.rs 75-90): the arguments are converted first;
then the error of the rewriter is unwrapped. -/
def optimiserFrom (make : String → Made R) (path : String) (cost : Option (Val T C)) : Made (R × Cost) :=
  match asCost cost with
  | .error e => .exn e
  | .ok k =>
    match make path with
    | .ok r => .ok (r, k)
    | _ => .panic

/-- The optional arguments of `badger_pass` besides the rewriter and the cost function (passes.py 52-57); the type of
`rebase` is `bool` with default `False`. -/
structure PassArgs where
  maxThreads : Option Nat := none
  timeout : Option Nat := none
  progressTimeout : Option Nat := none
  maxCount : Option Nat := none
  rebase : Bool := false

/-- `badger_pass` (passes.py 50-97): the function given to `CustomPass`. `eccs` is the path of the default rewriter,
`none` if `tket_eccs` is not installed; `env` is the environment for an optimiser. -/
def badgerPass (env : R × Cost → Env T C E) (load : String → Except M R) (eccs : Option String)
    (rewriter : Option String) (cost : Option (Val T C)) (a : PassArgs) :
    Made (PyCirc T C → Ret T C E × PyCirc T C) :=
  match rewriter.orElse (fun _ => eccs) with
  | none => .exn .value
  | some path =>
    match optimiserFrom (eccLoad load) path cost with
    | .exn e => .exn e
    | .panic => .panic
    | .ok opt =>
      .ok (badgerOptimise (env opt) ⟨a.maxThreads, a.timeout, a.progressTimeout, a.maxCount, some a.rebase⟩)

end Tket.PyOptimiser
