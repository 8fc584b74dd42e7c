import Verif.Model.Rules
import Verif.Model.Strategy
import Verif.Model.Backtracking

/-
Several rewrites applied one after the other, the strategies that choose them, and the states of the
Badger optimiser.

Modelled code: `tket/src/rewrite.rs` (`node_count_delta`, `apply`), the loops of
`tket/src/rewrite/strategy.rs` that apply rewrites, `BadgerState` of `tket/src/optimiser/badger.rs`, and
the topological walk of `tket/src/circuit/hash.rs`.  Which rewrites a strategy chooses is modelled in
`Model/Strategy.lean`, what a rewrite does in `Model/Rules.lean`, and the search in
`Model/Backtracking.lean`.
-/
namespace Verif.Matching

/-- `node_count_delta`, `rewrite.rs:46-53`. -/
def Rewrite.delta (r : Rewrite) : Int := (r.repl.numOps : Int) - (r.nodes.length : Int)

/-- What the strategies look at.  `inv` is `invalidation_set` (`rewrite.rs:65-73`, external), `pre` and
`post` are the costs (`strategy.rs:67-76`). -/
def Rewrite.view (inv pre post : Rewrite → List Nat) (r : Rewrite) : Tket.Strategy.Rewrite :=
  ⟨r.nodes, inv r, r.delta, pre r, post r⟩

/-- The rewrites that a strategy has chosen, applied one after the other (`strategy.rs:128-142, 211-228,
276-277`).  `next` gives the numbers of new nodes.  `none` is the panic of `expect`.  (The external
crate may use numbers of removed nodes again; `next` may do so, too.) -/
def applyAll (next : TCirc → Nat) : TCirc → List Rewrite → Option TCirc
  | c, [] => some c
  | c, r :: rs => (applyRw c (next c) r).bind fun d => applyAll next d rs

/-- One round of the topological walk: nodes whose inputs all come from visited nodes. -/
def visitRound (c : Circ) (seen : List Nat) : List Nat :=
  seen ++ c.members.filter fun n => n ∉ seen ∧ ∀ s ∈ c.ins n, s.1 ∈ seen

/-- The nodes that `petgraph::visit::Topo` (external) visits, `hash.rs:47-53`; nodes on cycles and nodes
after them are never visited. -/
def visited (c : Circ) : List Nat := (List.range c.members.length).foldl (fun seen _ => visitRound c seen) [c.inp]

/-- `circuit_hash`, `hash.rs:39-60`, as used by Badger: there is no hash if the output node is not
visited.  (The value of the hash is a parameter.) -/
def hashOf (value : TCirc → Nat) (c : TCirc) : Option Nat :=
  if c.out ∈ visited c.toCirc then some (value c) else none

/-- `BadgerState`, `badger.rs:131-163`: a circuit with its cost.  `results` are the circuits and cost
deltas that the strategy gives for the rewrites of a circuit. -/
def badgerSpace {P Δ : Type} (value : TCirc → Nat) (add : P → Δ → P) (results : TCirc → List (TCirc × Δ)) :
    Tket.Backtracking.Space (TCirc × P) Unit P where
  hash := fun s _ => hashOf value s.1
  cost := fun s _ => some s.2
  next := fun s ctx => ((results s.1).map fun r => (r.1, add s.2 r.2), ctx)

end Verif.Matching
