import Verif.Model.Together
import Verif.Model.Parallel

/-!
# The optimiser with several threads on circuits

The transition system of `Model/Parallel` with the circuits, rewrites and hashes of `Model/Together`.
-/
namespace Verif.Matching

/-- The options that matter here, `badger.rs:41-77`: `timeout` says whether one of the two timeouts is set. -/
structure ThreadOpts where
  nThreads : Nat
  queueSize : Nat
  maxCount : Option Nat
  timeout : Bool

/-- `badger_multithreaded`, `badger.rs:228-264`, and `BadgerWorker::run_loop`, `badger/worker.rs:59-101`: a run
on circuit `c`.  The `unwrap` of the hash of `c` (line 243) panics if there is none.  `results` are the circuits
and cost deltas that the strategy gives for the rewrites of a circuit; a circuit without hash is dropped
(`worker.rs:80-85`). -/
def threadsCfg {P Δ : Type} (value : TCirc → Nat) (add : P → Δ → P) (results : TCirc → List (TCirc × Δ))
    (o : ThreadOpts) (c : TCirc) (cost : P) : Option (Tket.Parallel.Cfg TCirc P) :=
  (hashOf value c).map fun h =>
    { nThreads := o.nThreads
      cap := o.queueSize
      maxCount := o.maxCount
      timeout := o.timeout
      next := fun s p => (results s).map fun r => (r.1, add p r.2, hashOf value r.1)
      init := ⟨c, cost, h⟩ }

/-- The optimiser with several threads may return circuit `r`, tracked at cost `p`: some execution ends with it. -/
def Returns {P : Type} [LinearOrder P] (cfg : Tket.Parallel.Cfg TCirc P) (r : TCirc) (p : P) : Prop :=
  ∃ s, Tket.Parallel.Reachable cfg s ∧ s.main = .finished ∧ s.best = (r, p)

end Verif.Matching
