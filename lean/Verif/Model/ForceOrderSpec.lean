import Verif.Model.ForceOrder
import Mathlib.Logic.Relation

/-!
# What is claimed of a forced order
-/

namespace Tket.ForceOrder

/-- A region: nodes occur once, predecessors are nodes, there are no cycles. -/
structure WF (G : Graph) : Prop where
  nodup : G.nodes.Nodup
  closed : ∀ n ∈ G.nodes, ∀ p ∈ G.preds n, p ∈ G.nodes
  acyclic : ∃ d : Nat → Nat, ∀ n ∈ G.nodes, ∀ p ∈ G.preds n, d p < d n

/-- `a` is needed, directly or not, by `b`. -/
def Needs (G : Graph) (b a : Nat) : Prop := Relation.TransGen (fun x p => p ∈ G.preds x) b a

/-- An execution order: every node once, after its predecessors. -/
structure Executes (G : Graph) (l : List Nat) : Prop where
  perm : l.Perm G.nodes
  preds : ∀ q n r, l = q ++ n :: r → ∀ p ∈ G.preds n, p ∈ q

/-- `x` comes after `y`. -/
def After (l : List Nat) (y x : Nat) (between : List Nat) : Prop :=
  ∃ pre post, l = pre ++ y :: (between ++ x :: post)

/-- An operation of one of the quantum extensions. -/
def Quantum : Op → Prop
  | .tket _ => True
  | .qsystem _ => True
  | _ => False

instance (o : Op) : Decidable (Quantum o) := by
  cases o <;> unfold Quantum <;> infer_instance

/-- Qubits gained by an operation (an allocation that may fail is taken to succeed). -/
def gain : Op → Int
  | .tket .QAlloc => 1
  | .tket .TryQAlloc => 1
  | .tket .QFree => -1
  | .tket .MeasureFree => -1
  | .qsystem .TryQAlloc => 1
  | .qsystem .QFree => -1
  | .qsystem .Measure => -1
  | .qsystem .LazyMeasure => -1
  | .qsystem .LazyMeasureLeaked => -1
  | _ => 0

/-- The largest number of qubits that are allocated at the same time. -/
def peak (G : Graph) (l : List Nat) : Int :=
  (l.foldl (fun (s : Int × Int) n =>
    let live := s.1 + gain (G.op n)
    (live, if s.2 < live then live else s.2)) (0, 0)).2

end Tket.ForceOrder
