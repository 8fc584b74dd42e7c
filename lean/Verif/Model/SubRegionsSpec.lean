import Verif.Model.SubRegions

/-
What a user expects of the choice of regions and of putting them back.
-/
namespace Verif.SubRegions

/-- The node `n` is the child `c` of the node `a`, or is inside of it. -/
inductive Inside : Forest → Nat → Nat → Nat → Prop
  | here {ks r : Forest} {a c n : Nat} {d : Bool} (s : Sub) :
      s ∈ ks.tops → s.id = c → (n = c ∨ n ∈ s.kids.ids) → Inside (.cons a d ks r) a c n
  | down {ks r : Forest} {a c n i : Nat} {d : Bool} : Inside ks a c n → Inside (.cons i d ks r) a c n
  | next {ks r : Forest} {a c n i : Nat} {d : Bool} : Inside r a c n → Inside (.cons i d ks r) a c n

/-- A node with what is below it. -/
inductive Node : Forest → Sub → Prop
  | here {ks r : Forest} {i : Nat} {d : Bool} : Node (.cons i d ks r) ⟨i, d, ks⟩
  | down {ks r : Forest} {i : Nat} {d : Bool} {s : Sub} : Node ks s → Node (.cons i d ks r) s
  | next {ks r : Forest} {i : Nat} {d : Bool} {s : Sub} : Node r s → Node (.cons i d ks r) s

/-- The tree of a node. -/
def Sub.tree (s : Sub) : Forest := .cons s.id s.df s.kids .nil

/-- A region of the program that should be encoded: a dataflow region that has children or is the
entry point, and all dataflow regions around it leave the child that contains it to an opaque
subgraph, and subcircuits are asked for. -/
def Wanted (enc : Nat → Option (List Nat)) (subs : Bool) (entry : Sub) (n : Nat) : Prop :=
  (∃ ks, Node entry.tree ⟨n, true, ks⟩ ∧ (n = entry.id ∨ ks ≠ .nil)) ∧
    ∀ a c ks, Node entry.tree ⟨a, true, ks⟩ → Inside entry.tree a c n →
      subs = true ∧ ∃ opq, enc a = some opq ∧ c ∈ opq

/-- The nodes of the opaque subgraphs of a region are distinct children of it. -/
def OpaqueOk (enc : Nat → Option (List Nat)) (t : Forest) : Prop :=
  ∀ n ks opq, Node t ⟨n, true, ks⟩ → enc n = some opq →
    opq.Nodup ∧ ∀ k ∈ opq, k ∈ ks.tops.map Sub.id

/-- Contents for some regions of a program: each region once, contents without repetitions, new nodes
are new, moved nodes are children of the region. -/
structure Plans (t : Forest) (ps : List (Nat × List Item)) : Prop where
  keys : (ps.map Prod.fst).Nodup
  region : ∀ p ∈ ps, ∃ d ks, Node t ⟨p.1, d, ks⟩ ∧ ∀ k ∈ olds p.2, k ∈ ks.tops.map Sub.id
  nodup : ∀ p ∈ ps, (p.2.map Item.id).Nodup
  fresh : ∀ p ∈ ps, ∀ n ∈ news p.2, n ∉ t.ids

/-- The nodes around a region that is to be put back are moved. -/
def Keeps (t : Forest) (ps : List (Nat × List Item)) : Prop :=
  ∀ p ∈ ps, ∀ p' ∈ ps, ∀ c, Inside t p.1 c p'.1 → c ∈ olds p.2

end Verif.SubRegions
