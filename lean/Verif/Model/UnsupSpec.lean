import Verif.Model.Unsup

/-
What the components should be, in terms of the region only.
-/
namespace Verif.Unsup

/-- The operations of an item. -/
def Item.nodes : Item → List Node
  | .op n => [n]
  | .group k => k

/-- The traversal visits every node once, after its predecessors. -/
structure Topological (r : Region) : Prop where
  nodup : r.order.Nodup
  before : ∀ pre x post, r.order = pre ++ x :: post → ∀ a ∈ r.preds x, a ∈ r.order → a ∈ pre

/-- The traversal is topological, and wires that are asked for come from predecessors. -/
structure Ok (r : Region) : Prop extends Topological r where
  values : ∀ x a, a ∈ r.values x → a ∈ r.preds x
  requests : ∀ x a, a ∈ r.requests x → a ∈ r.preds x

/-- Operations with uses that can be encoded ask for all that they follow. -/
def AsksAll (r : Region) : Prop :=
  ∀ x ∈ r.order, r.supported x = true → (∃ y ∈ r.order, x ∈ r.preds y) → ∀ a ∈ r.preds x, a ∈ r.requests x

/-- `q` follows `p`. -/
def Edge (r : Region) (p q : Node) : Prop := p ∈ r.preds q ∧ p ∈ r.order ∧ q ∈ r.order

/-- A chain of links from `a` to `b` through the nodes of the list. -/
inductive Path (r : Region) : Node → Node → List Node → Prop
  | nil (a : Node) : Path r a a [a]
  | cons {a b c : Node} {ps : List Node} : Edge r a b → Path r b c ps → Path r a c (a :: ps)

/-- No chain of links leaves the set and comes back. -/
def Convex (r : Region) (k : List Node) : Prop :=
  ∀ a ∈ k, ∀ b ∈ k, ∀ ps, Path r a b ps → ∀ x ∈ ps, x ∈ k

/-- A chain of links in any direction that stays in the set. -/
inductive Joined (r : Region) (k : List Node) : Node → Node → Prop
  | refl {a : Node} : a ∈ k → Joined r k a a
  | right {a b c : Node} : Joined r k a b → b ∈ r.preds c → c ∈ k → Joined r k a c
  | left {a b c : Node} : Joined r k a b → c ∈ r.preds b → c ∈ k → Joined r k a c

/-- `pick` returns one of the nodes. -/
def Picks (pick : List Node → Node) : Prop := ∀ l, l ≠ [] → pick l ∈ l

end Verif.Unsup
