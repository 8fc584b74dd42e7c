import Mathlib.Data.List.Basic
import Mathlib.Order.Basic

/-!
# Model of equivalence classes and the ECC rewriter

Models `/repo/tket/src/optimiser/badger/eq_circ_class.rs` and
`/repo/tket/src/rewrite/ecc_rewriter.rs`.

Circuits are an arbitrary type `C`. What the code computes from one circuit is a parameter:
`size` (`Circuit::num_operations`), `empties` (`empty_wires`, ecc_rewriter.rs 286-309, modelled
concretely in `Verif.Model.EmptyWire`) and `pattern` (removing these wires followed by
`CircuitPattern::try_from_circuit`, `none` if it fails). The pattern matcher itself is external
(crate `portmatching`): it is a list of patterns indexed by `PatternID`.
-/

namespace Tket.Ecc

variable {C Pt : Type}

/-- `struct EqCircClass` (eq_circ_class.rs 24-32). -/
structure EqCircClass (C : Type) where
  rep : C
  others : List C
deriving DecidableEq

/-- `circuits` / `into_circuits` (eq_circ_class.rs 54-61). -/
def EqCircClass.circuits (e : EqCircClass C) : List C := e.rep :: e.others

/-- `n_circuits` (eq_circ_class.rs 67-69). -/
def EqCircClass.nCircuits (e : EqCircClass C) : Nat := e.others.length + 1

/-- `Itertools::position_min_by_key`: index of the first minimal element. Returns the index and the
minimum found. -/
def positionMin (size : C → Nat) : List C → Option (Nat × Nat)
  | [] => none
  | c :: cs =>
    match positionMin size cs with
    | none => some (0, size c)
    | some (i, m) => if m < size c then some (i + 1, m) else some (0, size c)

/-- `Vec::swap_remove(i)`: the removed element, and the rest with the last element moved into the
hole. `none` is an out-of-bounds panic. -/
def swapRemove (l : List C) (i : Nat) : Option (C × List C) :=
  match l[i]?, l.getLast? with
  | some x, some last =>
    if i + 1 = l.length then some (x, l.dropLast) else some (x, l.dropLast.set i last)
  | _, _ => none

/-- `EqCircClass::from_circuits` (eq_circ_class.rs 74-91). Outer `none`: panic; `error ()`:
`NoRepresentative`. -/
def fromCircuits (size : C → Nat) (circs : List C) : Option (Except Unit (EqCircClass C)) :=
  if circs.isEmpty then some (.error ())
  else
    match positionMin size circs with
    | none => none
    | some (i, _) => (swapRemove circs i).map (fun r => .ok ⟨r.1, r.2⟩)

/-- `get_rewrite_rules` (ecc_rewriter.rs 237-255), starting at index `off` = `curr_target`.
The Rust code writes each index of a preallocated vector once, in increasing blocks; the model
appends the blocks. -/
def rewriteRules : (off : Nat) → List (EqCircClass C) → List (List Nat)
  | _, [] => []
  | off, e :: es =>
    (List.range' (off + 1) (e.nCircuits - 1)) ::
      (List.replicate (e.nCircuits - 1) [off] ++ rewriteRules (off + e.nCircuits) es)

/-- `struct ECCRewriter` (ecc_rewriter.rs 52-65); `patterns` are the patterns given to the matcher,
indexed by `PatternID`. -/
structure Rewriter (C Pt : Type) where
  patterns : List Pt
  targets : List C
  rules : List (List Nat)
  emptyWires : List (List Nat)

/-- The filter in `from_eccs` (ecc_rewriter.rs 96-105); `none` is an out-of-bounds panic. -/
def admissible (empties : C → List Nat) (targets : List C) (pe : List Nat) (id : Nat) : Option Bool :=
  (targets[id]?).map (fun t => pe.all (fun w => (empties t).contains w))

/-- Filtering a list with a test that may panic. -/
def filterM (f : Nat → Option Bool) : List Nat → Option (List Nat)
  | [] => some []
  | x :: xs =>
    match f x, filterM f xs with
    | some true, some r => some (x :: r)
    | some false, some r => some r
    | _, _ => none

/-- The `filter_map` of `from_eccs` (ecc_rewriter.rs 90-108): per circuit and its rules, drop failed
patterns and filter targets. -/
def buildRules (pattern : C → Option Pt) (empties : C → List Nat) (targets : List C) :
    List (C × List Nat) → Option (List (Pt × List Nat × List Nat))
  | [] => some []
  | (c, r) :: rest =>
    match pattern c with
    | none => buildRules pattern empties targets rest
    | some p =>
      match filterM (admissible empties targets (empties c)) r,
        buildRules pattern empties targets rest with
      | some ts, some out => some ((p, empties c, ts) :: out)
      | _, _ => none

/-- `ECCRewriter::from_eccs` (ecc_rewriter.rs 84-116); `none` is a panic. -/
def fromEccs (pattern : C → Option Pt) (empties : C → List Nat) (eccs : List (EqCircClass C)) :
    Option (Rewriter C Pt) :=
  let targets := eccs.flatMap EqCircClass.circuits
  (buildRules pattern empties targets (targets.zip (rewriteRules 0 eccs))).map (fun out =>
    { patterns := out.map (·.1), targets, rules := out.map (·.2.2),
      emptyWires := out.map (·.2.1) })

/-- `get_targets` (ecc_rewriter.rs 119-123); `none` is an out-of-bounds panic. -/
def Rewriter.getTargets (r : Rewriter C Pt) (p : Nat) : Option (List C) :=
  (r.rules[p]?).bind (fun ids => ids.mapM (fun id => r.targets[id]?))

end Tket.Ecc
