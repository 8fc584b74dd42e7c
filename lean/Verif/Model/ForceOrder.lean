import Verif.Model.Ops
import Verif.Model.GateTable

/-!
# The order forced on operations

Model of `QSystemPass::force_order` (`tket-qsystem/src/lib.rs` 144-182). The traversal is `hugr`'s
`force_order`: it visits the nodes of a region in a topological order, takes a node of least rank among
those whose predecessors have been visited, and adds order edges between consecutive nodes. Which of the
nodes of least rank it takes is a parameter.
-/

namespace Tket.ForceOrder

/-- `FutureOpDef` (tket-qsystem/src/extension/futures.rs 92-96). -/
inductive FutureOp where
  | read
  | dup
  | free
  deriving DecidableEq

/-- Operations. -/
inductive Op where
  | tket (o : TketOp)
  | qsystem (o : Verif.GateTable.QOp)
  | future (o : FutureOp)
  | other
  deriving DecidableEq

/-- `is_quantum` (lib.rs 148-149). -/
def isQuantum : Op → Bool
  | .tket _ => true
  | .qsystem _ => true
  | _ => false

/-- `is_qalloc` (lib.rs 150-153). -/
def isQAlloc : Op → Bool
  | .tket .QAlloc => true
  | .tket .TryQAlloc => true
  | .qsystem .TryQAlloc => true
  | _ => false

/-- `is_qfree` (lib.rs 154-155). -/
def isQFree : Op → Bool
  | .tket .QFree => true
  | .qsystem .QFree => true
  | _ => false

/-- `is_read` (lib.rs 156). -/
def isRead : Op → Bool
  | .future .read => true
  | _ => false

/-- The rank (lib.rs 166-179). -/
def rank (o : Op) : Int :=
  if isQFree o then -3
  else if isQuantum o && !isQAlloc o then -2
  else if isQAlloc o then -1
  else if !isRead o then 0
  else 1

/-- The nodes of a region: operations and predecessors (by values or order). -/
structure Graph where
  nodes : List Nat
  op : Nat → Op
  preds : Nat → List Nat

/-- The predecessors have been visited, the node has not. -/
def Graph.ready (G : Graph) (visited : List Nat) (n : Nat) : Bool :=
  !visited.contains n && (G.preds n).all (visited.contains ·)

/-- The nodes of least rank among those that are ready. -/
def Graph.next (G : Graph) (visited : List Nat) : List Nat :=
  let r := G.nodes.filter (G.ready visited)
  r.filter fun n => r.all fun m => rank (G.op n) ≤ rank (G.op m)

/-- Tie-breaking: a position, given the visited nodes and the candidates. -/
abbrev Pick := List Nat → List Nat → Nat

/-- The traversal; it ends if no node is ready. -/
def traverse (G : Graph) (pick : Pick) : Nat → List Nat → List Nat
  | 0, visited => visited
  | fuel + 1, visited =>
    match G.next visited with
    | [] => visited
    | n :: ns =>
      traverse G pick fuel
        (visited ++ [(n :: ns).getD (pick visited (n :: ns) % (n :: ns).length) n])

/-- The visited nodes in order. -/
def order (G : Graph) (pick : Pick) : List Nat := traverse G pick G.nodes.length []

/-- The order edges that are added. -/
def edges : List Nat → List (Nat × Nat)
  | a :: b :: l => (a, b) :: edges (b :: l)
  | _ => []

/-- The region afterwards. -/
def forceOrder (G : Graph) (pick : Pick) : Graph :=
  { G with preds := fun n =>
      G.preds n ++ ((edges (order G pick)).filter fun e => e.2 == n).map (·.1) }

end Tket.ForceOrder
