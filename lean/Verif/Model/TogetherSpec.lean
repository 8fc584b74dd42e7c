import Verif.Model.Together
import Verif.Model.RulesSpec

/-
What applying several rewrites should do.
-/
namespace Verif.Matching

open Relation

/-- An output of a circuit depends on an input: there is a path. -/
def Dep (c : Circ) (i o : Nat) : Prop :=
  (c.ins c.out)[o]? = some (c.inp, i) ∨
  ∃ n ∈ c.cmds, (c.inp, i) ∈ c.ins n ∧ ∃ m p : Nat, m ∈ c.cmds ∧ ReflTransGen (Feeds c) n m ∧
    (c.ins c.out)[o]? = some (m, p)

/-- The right-hand side has no dependency that the left-hand side does not have. -/
def Rule.NoNew (u : Rule) : Prop := ∀ i o, Dep u.right.toCirc i o → Dep u.left.toCirc i o

/-- Wires from inputs to outputs of the right-hand side are dependencies of the left-hand side. -/
def Rule.Through (u : Rule) : Prop :=
  ∀ i o : Nat, (u.right.ins u.right.out)[o]? = some (u.right.inp, i) → Dep u.left.toCirc i o

/-- A rewrite of a rule at a checked place in the circuit, that keeps its inner values to itself. -/
structure Placed (u : Rule) (c : TCirc) (r : Rewrite) (f : Nat → Nat) (w : Nat → Nat × Nat) : Prop where
  proposes : Proposes u c r f w
  bare : NoBare u.left.toCirc
  sub : SubOK c.toCirc r.ins r.outs r.nodes
  sig : subSig c r.ins r.outs = some (circSig u.right)
  priv : Private u.left.toCirc c.toCirc f

/-- No cycle leads to the outputs. -/
def OutAcyclic (c : Circ) : Prop :=
  ∀ n, TransGen (Feeds c) n n → ¬ ReflTransGen (Feeds c) n c.out

/-- Two rewrites share no nodes. -/
def Apart (a b : Rewrite) : Prop := ∀ n ∈ a.nodes, n ∉ b.nodes

/-- Lists of rewrites that strategies apply together. -/
inductive Chosen (view : Rewrite → Tket.Strategy.Rewrite) (rs as : List Rewrite) : Prop
  /-- `GreedyRewriteStrategy` -/
  | greedy (h : as.map view = (Tket.Strategy.greedy (rs.map view)).applied)
  /-- `ExhaustiveGreedyStrategy` -/
  | exhaustive (n : Nat) (hn : ∀ r ∈ rs, (view r).pre.length = n ∧ (view r).post.length = n)
      (res : Tket.Strategy.Result (List Int))
      (hres : res ∈ Tket.Strategy.exhaustiveGreedy n (rs.map view)) (h : as.map view = res.applied)
  /-- `ExhaustiveThresholdStrategy` -/
  | threshold (under : List Nat → List Nat → Bool) (res : Tket.Strategy.Result (List Int))
      (hres : res ∈ Tket.Strategy.exhaustiveThreshold under (rs.map view)) (h : as.map view = res.applied)

/-- One step of the optimiser: rewrites found in the circuit, some of them chosen by a strategy and
applied.  The conditions are those of `Reaches`. -/
inductive Step (choose : Pattern → Option Walk) (rules : List Rule) (next : TCirc → Nat)
    (view : Rewrite → Tket.Strategy.Rewrite) (c d : TCirc) : Prop
  | mk (x : Ext) (m : Matcher) (rs as : List Rewrite) (hm : fromRules choose rules = .ok m)
      (hx : SubsOK x c.toCirc) (hf : findMatches x m c = .ok rs)
      (hpriv : ∀ r ∈ rs, ∀ u ∈ rules, ∀ f w, Proposes u c r f w → Private u.left.toCirc c.toCirc f)
      (hsub : ∀ a ∈ as, a ∈ rs) (hch : Chosen view rs as) (ha : applyAll next c as = some d)

end Verif.Matching
