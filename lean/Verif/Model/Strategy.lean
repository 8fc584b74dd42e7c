import Verif.Model.Cost
import Verif.Float.Basic
import Mathlib.Data.List.Sort

/-!
# Model of the rewrite strategies

Models `/repo/tket/src/rewrite/strategy.rs` and the parts of `/repo/tket/src/rewrite.rs` it uses.

A `CircuitRewrite` is abstracted to what the strategies look at: the nodes of its subgraph, its
invalidation set, its node count delta, and the costs of pattern and replacement.  Applying rewrites
to the circuit graph is not modelled; a result records *which* rewrites are applied, in order
(`SimpleReplacement::apply` of the `hugr` crate is assumed to succeed on them, cf. the `expect`s at
lines 141, 227, 277).  Sorting is stable (`sorted_by_key`).
-/

namespace Tket.Strategy

open Tket.Cost

/-- What the strategies observe of a `CircuitRewrite` (rewrite.rs 26-70). -/
structure Rewrite where
  /-- `subgraph().nodes()` -/
  nodes : List Nat
  /-- `invalidation_set()` -/
  inval : List Nat
  /-- `node_count_delta()` (rewrite.rs 46-50) -/
  nodeDelta : Int
  /-- `pre_rewrite_cost` (strategy.rs 68-70) -/
  pre : List Nat
  /-- `post_rewrite_cost` (strategy.rs 73-75) -/
  post : List Nat
deriving DecidableEq

/-- A `RewriteResult` (strategy.rs 80-85): the rewrites applied to the input circuit, and the
reported cost delta. -/
structure Result (Δ : Type) where
  applied : List Rewrite
  delta : Δ
deriving DecidableEq

/-- `xs.iter().any(|n| changed_nodes.contains(n))`. -/
def touches (xs changed : List Nat) : Bool := xs.any (fun n => changed.contains n)

/-- The loop of `GreedyRewriteStrategy::apply_rewrites` (strategy.rs 128-142); `changed` is
`changed_nodes`, `δ` is `cost_delta`. -/
def greedyLoop : List Rewrite → (changed : List Nat) → (δ : Int) → List Rewrite × Int
  | [], _, δ => ([], δ)
  | rw :: rest, changed, δ =>
    if touches rw.nodes changed then greedyLoop rest changed δ
    else
      let r := greedyLoop rest (rw.nodes ++ changed) (δ + rw.nodeDelta)
      (rw :: r.1, r.2)

/-- `GreedyRewriteStrategy::apply_rewrites` (strategy.rs 116-144): exactly one result. -/
def greedy (rws : List Rewrite) : Result Int :=
  let sorted := (rws.insertionSort (fun a b => a.nodeDelta ≤ b.nodeDelta)).takeWhile
    (fun rw => decide (rw.nodeDelta < 0))
  let r := greedyLoop sorted [] 0
  ⟨r.1, r.2⟩

/-- Default `StrategyCost::under_threshold` (strategy.rs 297-299). -/
def underThreshold (pattern target : List Nat) : Bool :=
  decide (major (subCost target pattern) ≤ 0)

/-- The inner loop of `ExhaustiveGreedyStrategy::apply_rewrites` (strategy.rs 211-228). -/
def exhLoop : List (Rewrite × List Int) → (changed : List Nat) → (δ : List Int) →
    List Rewrite × List Int
  | [], _, δ => ([], δ)
  | (rw, d) :: rest, changed, δ =>
    if !changed.isEmpty && touches rw.inval changed then exhLoop rest changed δ
    else
      let r := exhLoop rest (rw.inval ++ changed) (add δ d)
      (rw :: r.1, r.2)

/-- `cmp a b ≠ gt`: the derived `≤` on cost deltas used by `sorted_by_key`. -/
def leCost (a b : List Int) : Bool := Cost.cmp a b != .gt

/-- The filtered and sorted candidates (strategy.rs 193-204). -/
def candidates (rws : List Rewrite) : List (Rewrite × List Int) :=
  (rws.filterMap (fun rw =>
      if !underThreshold rw.pre rw.post then none else some (rw, subCost rw.post rw.pre))).insertionSort
    (fun a b => leCost a.2 b.2 = true)

/-- `ExhaustiveGreedyStrategy::apply_rewrites` (strategy.rs 187-233), `n` components of cost. -/
def exhaustiveGreedy (n : Nat) (rws : List Rewrite) : List (Result (List Int)) :=
  let cs := candidates rws
  (List.range cs.length).map (fun i =>
    let r := exhLoop (cs.drop i) [] (List.replicate n 0)
    ⟨r.1, r.2⟩)

/-- `ExhaustiveThresholdStrategy::apply_rewrites` (strategy.rs 265-280). -/
def exhaustiveThreshold (under : List Nat → List Nat → Bool) (rws : List Rewrite) :
    List (Result (List Int)) :=
  rws.filterMap (fun rw =>
    if !under rw.pre rw.post then none else some ⟨[rw], subCost rw.post rw.pre⟩)

/-- The default `gamma`, the literal `1.0001` (strategy.rs 442), which is the number with these bits
(`C54_default_gamma`). -/
def defaultGamma : Dbl.F64 := Dbl.ofBits 0x3ff00068db8bac71

/-- `GammaStrategyCost::under_threshold` (strategy.rs 425-427). -/
def gammaUnder (gamma : Dbl.F64) (pattern target : Nat) : Bool :=
  Dbl.lt (Dbl.ofNat target) (Dbl.mul gamma (Dbl.ofNat pattern))

end Tket.Strategy
