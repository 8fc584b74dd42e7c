import Verif.Model.Opaque

/-
What moving opaque subgraphs back promises: every port has the link it had before, from the same place
or from where the decoder put its value.
-/
namespace Verif.Opaque

variable {τ : Type}

/-- The subgraph and the wires found for it are inserted by the decoder. -/
def Inserted (es : List (Event τ)) (s : Sub τ) (fs : List (Option Wire)) : Prop :=
  ∃ qs bs, Event.insert s fs qs bs ∈ es

/-- Nodes that a step brings back. -/
def Event.nodes : Event τ → List Node
  | .links _ => []
  | .insert s _ _ _ => s.nodes

/-- Wires that a step links. -/
def Event.finds : Event τ → List (Option Wire)
  | .links _ => []
  | .insert _ fs _ _ => fs

/-- The node is one of the subgraph, or contained in one. -/
def Within (inside : Node → List Node) (s : Sub τ) (n : Node) : Prop := ∃ x ∈ inside n, x ∈ s.nodes

/-- An output of the subgraph to its region which the decoder sees as registers. -/
def RegisterOutput (o : Ops τ) (count : τ → Option Count) (g : Graph) (region : Node) (s : Sub τ) (w : Wire) :
    Prop :=
  w.1 ∈ s.nodes ∧ (o.ins w.1).isSome ∧
  (∃ t c, (o.outs w.1)[w.2]? = some t ∧ count t = some c ∧ c.params = 0) ∧
  ∃ l ∈ g.links, l.src = w ∧ l.dst.1 ∉ s.nodes ∧ g.parent l.dst.1 = some region

/-- Nodes that stay: those of inserted subgraphs and what they contain, and all outside the region. -/
def Stays (inside : Node → List Node) (g : Graph) (region : Node) (es : List (Event τ)) (n : Node) : Prop :=
  ∀ x ∈ inside n, g.parent x = some region → ∃ s fs, Inserted es s fs ∧ x ∈ s.nodes

/-- The decoder finds the wire `f` for the port `t`. -/
def Found (s : Sub τ) (fs : List (Option Wire)) (t : Node × Nat) (f : Wire) : Prop :=
  ∃ x ∈ s.ins.zip fs, x.1.2 = t ∧ x.2 = some f

/-- What is assumed of the program and of the decoder. -/
structure Setting (o : Ops τ) (count : τ → Option Count) (inside : Node → List Node) (r : Regions)
    (entry : Node) (g : Graph) (es : List (Event τ)) : Prop where
  /-- Nodes are inside themselves. -/
  self : ∀ n, n ∈ inside n
  /-- Nodes are inside at most one child of a region. -/
  unique : ∀ n, ∀ x ∈ inside n, ∀ y ∈ inside n, g.parent x = some r.old → g.parent y = some r.old → x = y
  inputOld : g.parent r.oldIn = some r.old
  outputOld : g.parent r.oldOut = some r.old
  ioNe : r.oldIn ≠ r.oldOut
  regionsNe : r.old ≠ r.new
  /-- The new region and its input and output are new. -/
  newIn : ∀ x ∈ inside r.newIn, g.parent x ≠ some r.old
  newOut : ∀ x ∈ inside r.newOut, g.parent x ≠ some r.old
  freshIn : ∀ l ∈ g.links, l.src.1 ≠ r.newIn
  freshOut : ∀ l ∈ g.links, l.dst.1 ≠ r.newOut
  freshParent : ∀ s fs, Inserted es s fs → ∀ n, Within inside s n → g.parent n ≠ some r.new
  /-- Ports have one source. -/
  single : ∀ t, (g.into t).length ≤ 1
  /-- Inserted subgraphs were made of nodes of the region, other than its input and output. -/
  made : ∀ s fs, Inserted es s fs → s = tryFromNodes o g entry s.nodes ∧ s.nodes ≠ [] ∧ s.nodes.Nodup ∧
    ∀ n ∈ s.nodes, g.parent n = some r.old ∧ n ≠ r.oldIn ∧ n ≠ r.oldOut
  /-- Every subgraph is inserted once. -/
  disjoint : es.Pairwise fun a b => ∀ n ∈ a.nodes, n ∉ b.nodes
  /-- Links go to ports of the signature. -/
  ports : ∀ s fs, Inserted es s fs → ∀ l ∈ g.links, l.dst.1 ∈ s.nodes →
    ∃ ts, o.ins l.dst.1 = some ts ∧ l.dst.2 < ts.length
  /-- Links come from ports of the signature. -/
  sources : ∀ s fs, Inserted es s fs → ∀ l ∈ g.links, l.src.1 ∈ s.nodes →
    (o.ins l.src.1).isSome ∧ l.src.2 < (o.outs l.src.1).length
  /-- Links connect ports of the same type. -/
  typed : ∀ l ∈ g.links, ∀ ts t, o.ins l.dst.1 = some ts → ts[l.dst.2]? = some t →
    ∀ u, (o.outs l.src.1)[l.src.2]? = some u → u = t
  /-- Other links of the decoder go to new nodes. -/
  decoded : ∀ ls, Event.links ls ∈ es → ∀ l ∈ ls, l.dst.1 ≠ r.oldOut ∧
    ∀ s fs, Inserted es s fs → ¬ Within inside s l.dst.1
  /-- The decoder finds wires for exactly the types with registers. -/
  unsupported : ∀ s fs, Inserted es s fs → ∀ x ∈ s.ins.zip fs, x.2 = none ↔ count x.1.1 = none
  /-- The decoder finds wires of new nodes or of subgraphs inserted before. -/
  available : ∀ s fs, Inserted es s fs → ∀ f, some f ∈ fs → Stays inside g r.old es f.1 ∧ f.1 ∉ s.nodes
  ordered : es.Pairwise fun a b => ∀ f, some f ∈ a.finds → f.1 ∉ b.nodes

/-- What else the exact statement needs: registers are not also read inside, parameters do not come from
subgraphs, and all other values come from where they still are. -/
structure Plain (o : Ops τ) (count : τ → Option Count) (inside : Node → List Node) (r : Regions)
    (g : Graph) (es : List (Event τ)) : Prop where
  /-- Outputs that the decoder sees as registers are only used by other nodes of the region. -/
  uses : ∀ s fs, Inserted es s fs → ∀ w, RegisterOutput o count g r.old s w → ∀ l ∈ g.links, l.src = w →
    l.dst.1 ∉ s.nodes ∧ g.parent l.dst.1 = some r.old
  /-- Parameters of subgraphs do not come from subgraphs. -/
  params : ∀ s fs, Inserted es s fs → ∀ t f, Found s fs t f → ∀ ts ty c, o.ins t.1 = some ts →
    ts[t.2]? = some ty → count ty = some c → c.params ≠ 0 → ∀ w ∈ g.into t, ¬ Stays inside g r.old es w.1
  /-- Values the decoder does not look for come from nodes that stay, or from the input. -/
  sourced : ∀ s fs, Inserted es s fs → ∀ t, Within inside s t.1 → (¬ ∃ f, Found s fs t f) → ∀ w ∈ g.into t,
    Stays inside g r.old es w.1 ∨ w.1 = r.oldIn

/-! ### Registers of outputs -/

/-- Registers of the outputs that are seen as registers. -/
def counts (count : τ → Option Count) (outs : List (τ × Wire)) : List Count :=
  outs.filterMap fun x => (count x.1).filter fun c => c.params == 0

end Verif.Opaque
