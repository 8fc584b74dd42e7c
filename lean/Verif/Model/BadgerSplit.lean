import Verif.Model.Chunks
import Verif.Model.Backtracking
import Mathlib.Algebra.Order.Group.Defs

/-!
# Model of the search that splits the circuit among threads

Models `/repo/tket/src/optimiser/badger.rs` lines 129-163 (`BadgerState`) and 366-442
(`badger_split_multithreaded`), on top of `Model/Chunks` and `Model/Backtracking`.

* Costs are any type with an order and an addition that respect each other (`usize` and
  `LexicographicCost` are examples); wrap-around of additions is not modelled.
* The rewriter with its strategy is a parameter: the states proposed for a state.
* The threads are independent; the main thread takes their results in order of the chunks (lines
  417-422), so that the outcome is the first one in this order that is not a circuit.
* Every thread has its own clock and its own tie-breaking (`opts i`); the options themselves are
  copied from the caller.  Logging and the rewrite trace are left out.
-/

namespace Tket.BadgerSplit

open Tket.Chunks Tket.Backtracking

/-- A circuit: links, its nodes and their operations. -/
structure Circ (O : Type) where
  graph : Graph
  nodes : List Nat
  op : Nat → O

variable {O P : Type}

/-- `strategy.circuit_cost` (badger.rs 121-126, used in 378 and 425; `chunk.circuit_cost` in 397): the sum of the costs of the operations. -/
def Circ.cost [AddCommMonoid P] (opCost : O → P) (c : Circ O) : P :=
  (c.nodes.map (fun n => opCost (c.op n))).sum

/-- `struct BadgerState` (badger.rs 131-134): a circuit with its tracked cost. -/
structure BState (O P : Type) where
  circ : Circ O
  cost : P

/-- What the search needs of rewriter, strategy and hashing. -/
structure Rewriting (O P : Type) where
  /-- `strategy.op_cost` -/
  opCost : O → P
  /-- `circ.circuit_hash(circ.parent()).ok()` -/
  hash : Circ O → Option Nat
  /-- `next_states` (badger.rs 152-162) -/
  next : BState O P → List (BState O P)

/-- `impl State for BadgerState` (badger.rs 138-163). The context is never changed. -/
def space (R : Rewriting O P) : Space (BState O P) Unit P where
  hash s _ := R.hash s.circ
  cost s _ := some s.cost
  next s u := (R.next s, u)

/-- Outcome of the whole function. -/
inductive Outcome (α : Type) where
  /-- some thread is still running -/
  | running
  | panic
  | done (a : α)
deriving DecidableEq

variable [LinearOrder P] [AddCommMonoid P]

/-- The work of one thread (badger.rs 399-412): `badger.optimise` with one thread, which is
`BadgerOptimiser::badger` (206-222) with its `expect`. -/
def optimiseChunk (R : Rewriting O P) (o : Opts P) (fuel : Nat) (c : Circ O) : Outcome (Circ O) :=
  match optimise (space R) o fuel ⟨c, c.cost R.opCost⟩ () with
  | .outOfFuel => .running
  | .panic => .panic
  | .failed => .panic
  | .done r => .done r.best.circ

/-- The loop collecting the results (badger.rs 417-422), `i` is the index of the first chunk. -/
def collect (R : Rewriting O P) (opts : Nat → Opts P) (fuel : Nat) :
    (i : Nat) → List (Circ O) → Outcome (List (Circ O))
  | _, [] => .done []
  | i, c :: rest =>
    match optimiseChunk R (opts i) fuel c with
    | .running => .running
    | .panic => .panic
    | .done c' =>
      match collect R opts fuel (i + 1) rest with
      | .running => .running
      | .panic => .panic
      | .done cs => .done (c' :: cs)

/-- The circuit returned: the links of the reassembled circuit and the chunks whose nodes it
contains. -/
structure Result (O : Type) where
  links : List (FSrc × FDst)
  chunks : List (Circ O)

/-- Cost of the returned circuit (badger.rs 425): its nodes are those inserted for the chunks. -/
def Result.cost (opCost : O → P) (r : Result O) : P :=
  (r.chunks.map (Circ.cost opCost)).sum

/-- `chunks[i] = res` (badger.rs 421, chunks.rs 472-476): only the circuit of a chunk is replaced. -/
def replaceCircs : List Chunk → List (Circ O) → List Chunk
  | ch :: chs, c :: cs => { ch with circ := c.graph } :: replaceCircs chs cs
  | _, _ => []

/-- The circuit of a chunk (badger.rs 391-396). -/
def chunkCirc (c : Circ O) (ns : List Nat) : Circ O := ⟨(extract c.graph ns).circ, ns, c.op⟩

/-- `badger_split_multithreaded` (badger.rs 370-442). `costOps` is the comparison with the maximal
chunk cost (`circ_cost.div_cost(n_threads)`, line 379); `nIn`, `outs` are the inputs and the sources
of the outputs of the circuit; `c.nodes` are the commands in order. -/
def badgerSplit (R : Rewriting O P) (opts : Nat → Opts P) (fuel : Nat) (ord : Order)
    (costOps : CostOps P) (c : Circ O) (nIn : Nat) (outs : List Src) : Outcome (Result O) :=
  let parts := splitWithCost costOps (fun n => R.opCost (c.op n)) c.nodes
  match collect R opts fuel 0 (parts.map (chunkCirc c)) with
  | .running => .running
  | .panic => .panic
  | .done cs =>
    match reassemble ord ((List.range nIn).map .input) outs
        (replaceCircs (parts.map (extract c.graph)) cs) with
    | none => .panic
    | some F => .done ⟨F, cs⟩

/-- The maximal chunk cost for `usize` costs (badger.rs 379, cost.rs 187-189) as used by
`split_with_cost`. -/
def natSplitOps (total threads : Nat) : CostOps Nat := natOps (Cost.divComp threads total)

end Tket.BadgerSplit
