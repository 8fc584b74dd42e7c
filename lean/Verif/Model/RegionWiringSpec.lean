import Verif.Model.RegionWiring

/-!
# Specification of the edges of modified regions
-/

namespace Tket.RegionWiring

open Tket.Modifier (Ty Sig Dir Port)

/-- The ports of an operation correspond to different ports, in the other direction exactly for quantum
types under dagger. -/
structure Faithful (dagger : Bool) (o : Op) (f : Port → Port) : Prop where
  reg : ∀ p t, o.ty p = some t → o.corresp dagger p = some [f p]
  dir : ∀ p t, o.ty p = some t → (f p).dir = if dagger && t.isQ then (flip p).dir else p.dir
  inj : ∀ p q, (o.ty p).isSome → (o.ty q).isSome → f p = f q → p = q

/-- The type of a port of the new node. -/
def Op.newTy (o : Op) (p : Port) : Option Ty :=
  match p.dir with
  | .inc => o.new.input[p.idx]?
  | .out => o.new.output[p.idx]?

/-- The ports that correspond exist and have the same types. -/
def TypesKept (o : Op) (f : Port → Port) : Prop := ∀ p t, o.ty p = some t → o.newTy (f p) = some t

/-- The old edge ends at this port. -/
def Edge.touches (e : Edge) (n : Nat) (p : Port) : Bool :=
  (e.src = n && p = ⟨.out, e.sport⟩) || (e.dst = n && p = ⟨.inc, e.dport⟩)

/-- The new edge ends at this port. -/
def touches (e : End × End) (x : End) : Bool := e.1 = x || e.2 = x

/-- The edges from children of the region. -/
def Region.inner (r : Region) : List Edge := r.edges.filter fun e => e.src ∈ r.children

/-- The edge joins two children of the region, at ports of the same type. -/
def Edge.Local (r : Region) (e : Edge) : Prop :=
  e.src ∈ r.children ∧ e.dst ∈ r.children ∧
    ∃ t, (r.op e.src).ty ⟨.out, e.sport⟩ = some t ∧ (r.op e.dst).ty ⟨.inc, e.dport⟩ = some t

/-- The edge has a quantum type. -/
def quantum (r : Region) (e : Edge) : Bool :=
  match (r.op e.src).ty ⟨.out, e.sport⟩ with
  | some t => t.isQ
  | none => false

/-- The edge of the new region for `e`: reversed if it is quantum and there is a dagger. -/
def image (r : Region) (dagger : Bool) (f : Nat → Port → Port) (e : Edge) : End × End :=
  let o : End := ⟨e.src, f e.src ⟨.out, e.sport⟩⟩
  let i : End := ⟨e.dst, f e.dst ⟨.inc, e.dport⟩⟩
  if dagger && quantum r e then (i, o) else (o, i)

/-- The operation has a port of quantum type. -/
def Op.hasQ (o : Op) : Prop := (∃ t ∈ o.sig.input, t.isQ = true) ∨ ∃ t ∈ o.sig.output, t.isQ = true

/-- Nodes other than the boundary (node 0) can be ordered along the edges. -/
def Acyclic (edges : List (Nat × Nat)) : Prop :=
  ∃ rank : Nat → Nat, ∀ e ∈ edges, e.1 ≠ 0 → e.2 ≠ 0 → rank e.1 < rank e.2

/-- Source and target of the old edges. -/
def Region.arrows (r : Region) : List (Nat × Nat) := r.edges.map fun e => (e.src, e.dst)

/-- Source and target of new edges. -/
def arrows (l : List (End × End)) : List (Nat × Nat) := l.map fun e => (e.1.node, e.2.node)

end Tket.RegionWiring
