import Verif.Model.ResolveAll
import Mathlib.Logic.Relation

/-!
# Specification of the resolution of all modifiers
-/

namespace Tket.ResolveAll

/-- Programs: nodes have different numbers, edges join nodes, and new numbers are not in use. -/
structure Graph.Valid (o : Ops) (g : Graph) : Prop where
  nodup : g.nodes.Nodup
  below : ∀ n ∈ g.nodes, n < g.next
  src : ∀ e ∈ g.edges, e.src ∈ g.nodes
  dst : ∀ e ∈ g.edges, e.dst ∈ g.nodes
  mods : ∀ n, o.isMod n = true → n ∈ g.nodes

/-- The modifiers that are replaced: those with one use only, by an operation other than a modifier, the
function of which can be modified. -/
def Replaced (o : Ops) (g : Graph) (n : Nat) : Prop :=
  o.isMod n = true ∧ o.outcome n = .ok ∧
    ∃ e, g.edges.filter (fun e => e.src = n ∧ e.sport = 0) = [e] ∧ o.isMod e.dst = false

/-- `b` uses an output of `a`, which is not replaced. -/
def Uses (o : Ops) (seen : List Nat) (g : Graph) (a b : Nat) : Prop :=
  ¬ (a ∈ seen ∧ Replaced o g a) ∧ ∃ e ∈ g.edges, e.src = a ∧ e.dst = b

/-- The nodes that are removed: modifiers, and what depends on one that is not replaced. -/
def Removed (o : Ops) (seen seen' : List Nat) (g : Graph) (n : Nat) : Prop :=
  ∃ m ∈ seen', o.isMod m = true ∧ Relation.ReflTransGen (Uses o seen g) m n

/-- Programs in which each modifier is used at most once, by a modifier or by another operation, and can
be applied. -/
structure Linear (o : Ops) (g : Graph) : Prop where
  one : ∀ m, o.isMod m = true → (g.edges.filter (fun e => e.src = m)).length ≤ 1
  value : ∀ e ∈ g.edges, o.isMod e.src = true → e.sport = 0 ∧ e.dst ≠ e.src
  applies : ∀ m, o.isMod m = true → o.outcome m = .ok

/-- The number of the node that replaces `x`, if `done` are replaced in this order. -/
def newNode (g : Graph) (done : List Nat) (x : Nat) : Nat := g.next + done.idxOf x

/-- Where an edge begins after replacement. -/
def moved (g : Graph) (done : List Nat) (e : Edge) : Edge :=
  if e.src ∈ done then { e with src := newNode g done e.src } else e

end Tket.ResolveAll
