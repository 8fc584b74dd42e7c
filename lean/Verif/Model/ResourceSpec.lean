import Verif.Model.Resource
import Mathlib.Logic.Relation

/-!
# What resource tracking should compute

Specification of resources in terms of the graph alone: linear ports are linked by the wires between
them and by operations which give back a value they took.
-/

namespace Verif.Resource

variable {T : Type}

/-- The port exists on a dataflow operation of the region. -/
def Region.Valid (r : Region T) (P : Port) : Prop :=
  P.node ∈ r.nodes ∧ ∃ t, r.type? P.node P.dir P.idx = some t

/-- The port exists and carries a value which cannot be copied. -/
def Region.Linear (r : Region T) (P : Port) : Prop :=
  P.node ∈ r.nodes ∧ ∃ t, r.type? P.node P.dir P.idx = some t ∧ r.copyable t = false

/-- There is a value edge between two dataflow operations of the region. -/
def Region.Wire (r : Region T) (n p m q : Nat) : Prop :=
  n ∈ r.nodes ∧ m ∈ r.nodes ∧ (∃ t, r.type? n .out p = some t) ∧ (m, q) ∈ r.linked n p

/-- An operation preserves its resources if linear values stay in their places, and no others
appear or disappear (documentation of `DefaultResourceFlow`). -/
def Preserves (cp : T → Bool) (ins outs : List T) : Prop :=
  ∀ (i : Nat) (t : T), (ins[i]? = some t ∨ outs[i]? = some t) → cp t = false → ins[i]? = outs[i]?

/-- Which input an output continues, for the default flow. -/
def Region.Through (r : Region T) (n i o : Nat) : Prop :=
  i = o ∧ ∃ ins outs t, r.sig n = some (ins, outs) ∧ Preserves r.copyable ins outs ∧
    ins[i]? = some t ∧ r.copyable t = false

/-- One step along a resource path, where `th n i o` says that the operation `n` returns its input
`i` as its output `o`. -/
inductive Link (r : Region T) (th : Nat → Nat → Nat → Prop) : Port → Port → Prop
  | wire {n p m q} (h : r.Wire n p m q) (hl : r.Linear ⟨n, .out, p⟩) :
      Link r th ⟨n, .out, p⟩ ⟨m, .inc, q⟩
  | through {n i o} (hn : n ∈ r.nodes) (h : th n i o) : Link r th ⟨n, .inc, i⟩ ⟨n, .out, o⟩

/-- A region as the HUGR validator guarantees it, with a topological order of its nodes. -/
structure WF (r : Region T) (order : List Nat) : Prop where
  nodup : r.nodes.Nodup
  perm : order.Perm r.nodes
  topo : order.Pairwise fun a b => ∀ p q, ¬ r.Wire b p a q
  acyclic : ∀ n p q, ¬ r.Wire n p n q
  types : ∀ n p m q, r.Wire n p m q → r.type? m .inc q = r.type? n .out p
  sourceOf : ∀ n p m q, m ∈ r.nodes → (∃ t, r.type? n .out p = some t) →
    ((m, q) ∈ r.linked n p ↔ r.source m q = some (n, p))
  sourceOut : ∀ n p m q, n ∈ r.nodes → r.Valid ⟨m, .inc, q⟩ → r.source m q = some (n, p) →
    ∃ t, r.type? n .out p = some t
  connected : ∀ m q, r.Valid ⟨m, .inc, q⟩ → ∃ n p, r.source m q = some (n, p)
  incoming : ∀ x ∈ r.incoming, r.Valid ⟨x.1, .inc, x.2⟩

/-- Linear values are used exactly once. -/
def Region.LinearUse (r : Region T) : Prop :=
  ∀ n p, r.Linear ⟨n, .out, p⟩ → ∃ x, r.linked n p = [x]

/-- A relation which says which inputs the flows return as which outputs, independently of the
identifiers. -/
structure Follows (r : Region T) (flows : List Flow) (th : Nat → Nat → Nat → Prop) : Prop where
  linear : ∀ n i o, n ∈ r.nodes → th n i o → r.Linear ⟨n, .inc, i⟩ ∧ r.Linear ⟨n, .out, o⟩
  left : ∀ n i j o, th n i o → th n j o → i = j
  run : ∀ n ins outs res, n ∈ r.nodes → r.sig n = some (ins, outs) → res.length = ins.length →
    (∀ (i : Nat) (t : T), ins[i]? = some t → ((∃ id, res[i]? = some (some id)) ↔ r.copyable t = false)) →
    ∃ out, firstFlow flows n res = some out ∧
      ∀ o : Nat, o < outs.length →
        ∀ id : Nat, (out[o]?).join = some id ↔ ∃ i, th n i o ∧ res[i]? = some (some id)

/-- No input is returned twice. -/
def Injective (th : Nat → Nat → Nat → Prop) : Prop := ∀ n i o o', th n i o → th n i o' → o = o'

/-- The resource at a port of a scope. -/
def St.resAt (st : St) (P : Port) : Option Nat := (st.getRes P.node P.dir P.idx).join

end Verif.Resource
