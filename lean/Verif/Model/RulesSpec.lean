import Verif.Model.Rules
import Verif.Model.MatchingSpec
import Mathlib.Logic.Relation

/-
What rules and rewrites should do.
-/
namespace Verif.Matching

/-- What a circuit computes: outputs that belong to inputs. -/
def Means {V : Type} (sem : Op → Nat → List V → Nat → V) (c : Circ) (x : Nat → V) (y : List V) : Prop :=
  ∃ val, Runs sem c val ∧ (∀ i, val c.inp i = x i) ∧ (c.ins c.out).map (fun s => val s.1 s.2) = y

/-- Circuits of rules: all nodes but the output are commands, and wires come from commands and
from inputs that exist. -/
structure Circ.Plain (c : Circ) : Prop where
  members : ∀ n, n ∈ c.members ↔ n ∈ c.cmds ∨ n = c.out
  sources : ∀ n ∈ c.members, ∀ s ∈ c.ins n, s.1 ∈ c.cmds ∨ (s.1 = c.inp ∧ s.2 < c.numInputs)
  inp : c.inp ∉ c.members
  out : c.out ∉ c.cmds

/-- A node feeds another. -/
def Feeds (c : Circ) (a b : Nat) : Prop := b ∈ c.members ∧ ∃ s ∈ c.ins b, s.1 = a

/-- No cycles. -/
def Acyclic (c : Circ) : Prop := ∀ n, ¬ Relation.TransGen (Feeds c) n n

/-- An edge that is not on the boundary. -/
def InnerEdge (c : Circ) (ins : List (List (Nat × Nat))) (outs : List (Nat × Nat)) (a b : Nat) : Prop :=
  b ∈ c.members ∧ ∃ (k : Nat) (s : Nat × Nat), (c.ins b)[k]? = some s ∧ s.1 = a ∧
    (∀ g ∈ ins, (b, k) ∉ g) ∧ s ∉ outs

/-- Nodes connected by such an edge. -/
def Joined (c : Circ) (ins : List (List (Nat × Nat))) (outs : List (Nat × Nat)) (a b : Nat) : Prop :=
  InnerEdge c ins outs a b ∨ InnerEdge c ins outs b a

/-- A node at the boundary. -/
def AtBoundary (ins : List (List (Nat × Nat))) (outs : List (Nat × Nat)) (n : Nat) : Prop :=
  (∃ g ∈ ins, ∃ k, (n, k) ∈ g) ∨ ∃ p, (n, p) ∈ outs

/-- Contract of `SiblingSubgraph::try_new_with_checker` from its documentation: the subgraph between
boundaries consists of the nodes connected with the boundary by edges that are not on the boundary;
edges enter only at the inputs, which come from outside, and leave only at the outputs; the
subgraph is convex. -/
structure SubOK (c : Circ) (ins : List (List (Nat × Nat))) (outs : List (Nat × Nat)) (nodes : List Nat) :
    Prop where
  component : ∀ n, n ∈ nodes ↔ ∃ b, AtBoundary ins outs b ∧ Relation.ReflTransGen (Joined c ins outs) b n
  groups : ∀ g ∈ ins, g ≠ []
  enter : ∀ n ∈ nodes, ∀ (k : Nat) (s : Nat × Nat), (c.ins n)[k]? = some s →
    ((∃ g ∈ ins, (n, k) ∈ g) ↔ s.1 ∉ nodes)
  leave : ∀ n ∈ c.members, n ∉ nodes → ∀ s ∈ c.ins n, s.1 ∈ nodes → s ∈ outs
  inner : ∀ n ∈ nodes, n ∈ c.members ∧ n ≠ c.inp ∧ n ≠ c.out
  convex : ∀ a ∈ nodes, ∀ b, b ∉ nodes → Feeds c a b → ∀ d ∈ nodes, ¬ Relation.ReflTransGen (Feeds c) b d

/-- Contract of the automaton: exactly the patterns that match. -/
def AutoOK (x : Ext) (m : Matcher) (c : Circ) : Prop :=
  ∀ root id, id ∈ x.auto root ↔ ∃ p, m.patterns[id]? = some p ∧ ∃ l, getMatchMap c p root = .found l

/-- Contract of the check of subgraphs for a circuit. -/
def SubsOK (x : Ext) (c : Circ) : Prop :=
  ∀ ins outs nodes, x.sub ins outs = .ok nodes → SubOK c ins outs nodes

/-- Values that the pattern keeps for itself are not used outside of the copy. -/
def Private (P C : Circ) (f : Nat → Nat) : Prop :=
  ∀ m ∈ P.cmds, ∀ p, (m, p) ∉ P.ins P.out → ∀ n ∈ C.members, (f m, p) ∈ C.ins n → ∃ m' ∈ P.cmds, n = f m'

/-- The boundary of a circuit. -/
def ownIns (P : Circ) : List (List (Nat × Nat)) := (List.range P.numInputs).map fun i => consumers P P.inp i

/-- The images of the inputs of a pattern. -/
def imgIns (P : Circ) (f : Nat → Nat) : List (List (Nat × Nat)) :=
  (List.range P.numInputs).map fun i => (consumers P P.inp i).map fun x => (f x.1, x.2)

/-- The images of the outputs of a pattern. -/
def imgOuts (P : Circ) (f : Nat → Nat) : List (Nat × Nat) := (P.ins P.out).map fun s => (f s.1, s.2)

/-- No wire goes from an input to an output. -/
def NoBare (P : Circ) : Prop := ∀ s ∈ P.ins P.out, s.1 ∈ P.cmds

/-- All commands of a pattern are connected with its boundary. -/
def Held (P : Circ) : Prop :=
  ∀ n ∈ P.cmds, ∃ b ∈ P.cmds, AtBoundary (ownIns P) (P.ins P.out) b ∧
    Relation.ReflTransGen (Joined P (ownIns P) (P.ins P.out)) b n

/-- Numbers from `base` are not used. -/
structure Fresh (c : Circ) (base : Nat) : Prop where
  members : ∀ n ∈ c.members, n < base
  sources : ∀ n ∈ c.members, ∀ s ∈ c.ins n, s.1 < base
  io : c.inp < base ∧ c.out < base

/-- Ports of linear types are linear. -/
def Typed (lin : Nat → Prop) (c : TCirc) : Prop :=
  ∀ n ∈ c.members, ∀ (k : Nat) (s : Nat × Nat), (c.ins n)[k]? = some s →
    ((c.op n).kinds[k]? = some .linear ↔ lin (c.ty s.1 s.2))

/-- Circuits as HUGR guarantees them, without nested regions, but for cycles. -/
structure Sane (lin : Nat → Prop) (c : TCirc) : Prop where
  wf : c.toCirc.WF
  nodup : c.members.Nodup
  inp : c.inp ∉ c.members
  typed : Typed lin c
  flat : ∀ n ∈ c.members, c.content n = 0

/-- Circuits as HUGR guarantees them, without nested regions. -/
structure Proper (lin : Nat → Prop) (c : TCirc) : Prop where
  wf : c.toCirc.WF
  nodup : c.members.Nodup
  inp : c.inp ∉ c.members
  typed : Typed lin c
  acyclic : Acyclic c.toCirc
  flat : ∀ n ∈ c.members, c.content n = 0

/-- Operations have types. -/
structure OpTypes (inTy outTy : Op → Nat → Nat) (c : TCirc) : Prop where
  out : ∀ n ∈ c.members, n ≠ c.inp → n ≠ c.out → ∀ p, c.ty n p = outTy (c.op n) p
  inp : ∀ n ∈ c.members, n ≠ c.inp → n ≠ c.out → ∀ (k : Nat) (s : Nat × Nat), (c.ins n)[k]? = some s → c.ty s.1 s.2 = inTy (c.op n) k

/-- Rules that can be matched: well-formed circuits without nested regions. -/
structure Rule.Fit (lin : Nat → Prop) (u : Rule) : Prop where
  left : u.left.toCirc.WF ∧ u.left.toCirc.Plain
  right : u.right.toCirc.Plain ∧ Proper lin u.right
  flat : ∀ n ∈ u.left.cmds, u.left.content n = 0
  held : Held u.left.toCirc

/-- The rewrite is the place of a copy of the left-hand side and the right-hand side. -/
structure Proposes (u : Rule) (c : TCirc) (r : Rewrite) (f : Nat → Nat) (w : Nat → Nat × Nat) : Prop where
  copy : Copy u.left.toCirc c.toCirc f w
  ins : r.ins = imgIns u.left.toCirc f
  outs : r.outs = imgOuts u.left.toCirc f
  repl : r.repl = u.right

/-- Circuits reached by applying rewrites that were found, one after the other. The conditions of the
single steps: no value that a left-hand side keeps for itself is used elsewhere, the check of
subgraphs meets its contract, and new nodes get new numbers. -/
inductive Reaches (choose : Pattern → Option Walk) (rules : List Rule) : TCirc → TCirc → Prop
  | refl (c : TCirc) : Reaches choose rules c c
  | step {c c' d : TCirc} (x : Ext) (m : Matcher) (rs : List Rewrite) (r : Rewrite) (base : Nat)
      (hm : fromRules choose rules = .ok m) (hx : SubsOK x c.toCirc)
      (hf : findMatches x m c = .ok rs) (hr : r ∈ rs)
      (hpriv : ∀ u ∈ rules, ∀ f w, Proposes u c r f w → Private u.left.toCirc c.toCirc f)
      (hb : Fresh c.toCirc base) (ha : applyRw c base r = some c') (h : Reaches choose rules c' d) :
      Reaches choose rules c d

/-- The rewriters in a list of rewriters, at any depth. -/
inductive Rewriter.Has {α : Type} (a : α) : Rewriter α → Prop
  | one : Rewriter.Has a (.one a)
  | head (h t : Rewriter α) : Rewriter.Has a h → Rewriter.Has a (.cons h t)
  | tail (h t : Rewriter α) : Rewriter.Has a t → Rewriter.Has a (.cons h t)

end Verif.Matching
