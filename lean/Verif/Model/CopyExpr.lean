import Verif.Model.Resource

/-!
# Expressions of copyable values

Model of `/repo/tket/src/subcircuit/expression.rs`.  The circuit is a `Region` with its resource scope
(`Verif.Model.Resource`).

* `IndexSet`s are lists without repetitions, in insertion order.
* `PriorityQueue<N, Position>` is the list of its nodes; which of several nodes of greatest position
  `pop` returns is not documented, so the choice is an oracle `tb`, which may differ at every call.
* The grouping of function calls by callee (`group_function_calls`, lines 248-265) is not modelled; the
  calling nodes are recorded.
* The `debug_assert!`s are not modelled.
-/

namespace Verif.CopyExpr

open Verif.Resource

variable {T : Type}

/-- `IndexSet::insert`. -/
def insertNew {α : Type} [DecidableEq α] (l : List α) (x : α) : List α := if x ∈ l then l else l ++ [x]

/-- `pure_copyable` (lines 213-218). -/
def pureCopyable (r : Region T) (n : Nat) : Bool :=
  match r.sig n with
  | none => true
  | some (ins, outs) => ins.all r.copyable && outs.all r.copyable

/-- `admissible_node` (lines 221-230). -/
def admissible (r : Region T) (excl : List Nat) (n : Nat) : Bool :=
  !decide (n ∈ excl) && pureCopyable r n && decide (n ∈ r.nodes)

/-- `ExprArgs` (lines 232-238), with the state of the traversal (lines 138-142): the queue and the
traversed ports.  `visited` always has the same elements as `nodes`. -/
structure Trav where
  inputs : List (Nat × Nat) := []
  outputs : List (Nat × Nat) := []
  calls : List Nat := []
  nodes : List Nat := []
  queue : List Nat := []
  ports : List (Nat × Nat) := []

/-- A result, a panic, or more steps needed than the fuel allows. -/
inductive Out (α : Type)
  | panic
  | fuel
  | ok (a : α)
  deriving DecidableEq, Repr

/-- The loop over the inputs of a node (lines 167-182). -/
def visitInputs (r : Region T) (st : St) (allowed : List (Nat × Nat)) (excl : List Nat) (n : Nat) :
    List Nat → Trav → Option Trav
  | [], s => some s
  | q :: qs, s =>
    match r.source n q with
    | none => none
    | some (m, _) =>
      if (n, q) ∈ allowed ∨ admissible r excl m = false then
        visitInputs r st allowed excl n qs { s with inputs := insertNew s.inputs (n, q) }
      else
        match st.getPos m with
        | none => none
        | some _ =>
          visitInputs r st allowed excl n qs
            { s with ports := insertNew s.ports (n, q), queue := insertNew s.queue m }

/-- The types at the inputs and outputs of a node (`in_value_types`, `out_value_types`). -/
def numIn (r : Region T) (n : Nat) : Nat :=
  match r.sig n with
  | none => 0
  | some (ins, _) => ins.length

def numOut (r : Region T) (n : Nat) : Nat :=
  match r.sig n with
  | none => 0
  | some (_, outs) => outs.length

/-- The outputs of a node that are used by a port not traversed (lines 160-166). -/
def newOutputs (r : Region T) (n : Nat) (ports : List (Nat × Nat)) : List (Nat × Nat) :=
  ((List.range (numOut r n)).filter fun p => (r.linked n p).any fun x => !decide (x ∈ ports)).map
    fun p => (n, p)

/-- The body of the loop, for a node not visited before (lines 156-189). -/
def visit (r : Region T) (st : St) (isCall : Nat → Bool) (allowed : List (Nat × Nat))
    (excl : List Nat) (n : Nat) (s : Trav) : Option Trav :=
  visitInputs r st allowed excl n (List.range (numIn r n))
    { s with
      nodes := s.nodes ++ [n]
      outputs := (newOutputs r n s.ports).foldl insertNew s.outputs
      calls := if isCall n then s.calls ++ [n] else s.calls }

/-- The loop of `traverse_expression` (lines 146-190). -/
def loop (r : Region T) (st : St) (isCall : Nat → Bool) (tb : Nat → List Nat → Nat)
    (allowed : List (Nat × Nat)) (excl : List Nat) : Nat → Trav → Out Trav
  | 0, _ => .fuel
  | fuel + 1, s =>
    if s.queue = [] then .ok s
    else
      let n := tb fuel s.queue
      let s' := { s with queue := s.queue.erase n }
      if n ∈ s.nodes then loop r st isCall tb allowed excl fuel s'
      else
        match visit r st isCall allowed excl n s' with
        | none => .panic
        | some s'' => loop r st isCall tb allowed excl fuel s''

/-- The oracle returns a node of greatest position. -/
def Picks (st : St) (tb : Nat → List Nat → Nat) : Prop :=
  ∀ i q, q ≠ [] → tb i q ∈ q ∧ ∀ m ∈ q, (st.getPos m).getD 0 ≤ (st.getPos (tb i q)).getD 0

/-- `traverse_expression` (lines 128-193). -/
def traverse (r : Region T) (st : St) (isCall : Nat → Bool) (tb : Nat → List Nat → Nat)
    (allowed : List (Nat × Nat)) (excl : List Nat) (fuel : Nat) (n : Nat) : Out Trav :=
  match st.getPos n with
  | none => .panic
  | some _ => loop r st isCall tb allowed excl fuel { queue := [n] }

/-- The key by which inputs are sorted (lines 277-288): `Left(pos)` before `Right(_)`, and `None`
before `Some(_)`. -/
def sortKey (r : Region T) (allowed : List (Nat × Nat)) (excl : List Nat) (x : Nat × Nat) :
    Option (Nat × Nat) :=
  match allowed.idxOf? x with
  | some i => some (0, i)
  | none =>
    match r.source x.1 x.2 with
    | none => none
    | some (m, _) =>
      match excl.idxOf? m with
      | none => some (1, 0)
      | some i => some (1, i + 1)

/-- Lexicographic comparison of keys. -/
def keyLe (a b : Nat × Nat) : Bool := decide (a.1 < b.1) || (decide (a.1 = b.1) && decide (a.2 ≤ b.2))

/-- Stable insertion. -/
def insertBy (key : Nat × Nat → Nat × Nat) (x : Nat × Nat) : List (Nat × Nat) → List (Nat × Nat)
  | [] => [x]
  | y :: ys => if keyLe (key x) (key y) then x :: y :: ys else y :: insertBy key x ys

/-- `Itertools::sorted_by_key`, which is stable. -/
def sortBy (key : Nat × Nat → Nat × Nat) (l : List (Nat × Nat)) : List (Nat × Nat) :=
  l.foldr (insertBy key) []

/-- `sort_inputs` (lines 269-291). Every input is in a group of its own. -/
def sortInputs (r : Region T) (allowed : List (Nat × Nat)) (excl : List Nat)
    (inputs : List (Nat × Nat)) : Option (List (Nat × Nat)) :=
  if inputs.all fun x => (sortKey r allowed excl x).isSome then
    some (sortBy (fun x => (sortKey r allowed excl x).getD (0, 0)) inputs)
  else none

/-- `CopyableExpr` (lines 29-40). -/
inductive Expr
  | wire (node port : Nat)
  | composite (inputs outputs : List (Nat × Nat)) (calls nodes : List Nat)
  | notConvex
  deriving DecidableEq, Repr

/-- `validate_output_copyable` (lines 112-124). -/
def outputOk (r : Region T) (output : Nat × Nat) : Bool :=
  match r.type? output.1 .out output.2 with
  | none => false
  | some t => r.copyable t

/-- `CopyableExpr::try_new` (lines 74-110); `notConvex` is the error. -/
def tryNew (r : Region T) (st : St) (nbr : Nat → List Nat) (isCall : Nat → Bool)
    (tb : Nat → List Nat → Nat) (fuel : Nat) (output : Nat × Nat) (allowed : List (Nat × Nat))
    (excl : List Nat) : Out Expr :=
  if outputOk r output then
    if admissible r excl output.1 then
      match traverse r st isCall tb allowed excl fuel output.1 with
      | .panic => .panic
      | .fuel => .fuel
      | .ok s =>
        match anyReachable r st nbr fuel s.outputs s.inputs with
        | none => .fuel
        | some true => .ok .notConvex
        | some false =>
          match sortInputs r allowed excl s.inputs with
          | none => .panic
          | some ins => .ok (.composite ins s.outputs s.calls s.nodes.reverse)
    else .ok (.wire output.1 output.2)
  else .panic

/-- `CopyableExpr::output` (lines 196-201); `none` is a panic. -/
def Expr.output : Expr → Option (Nat × Nat)
  | .wire n p => some (n, p)
  | .composite _ outputs _ _ => outputs.head?
  | .notConvex => none

end Verif.CopyExpr
