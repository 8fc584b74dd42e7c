import Verif.Model.Ecc
import Verif.Model.Rules

/-
The rewriter of equivalence classes on circuits: patterns and targets without their empty wires, and the
rewrites that it proposes.

Modelled code: `tket/src/rewrite/ecc_rewriter.rs` (`get_rewrites`, `get_patterns`, `empty_wires`) with
`remove_empty_wire` of `tket/src/circuit.rs` on the circuits of `Model/Matching.lean`.  Building the
rewriter is `fromEccs` of `Model/Ecc.lean`; ports and signatures during the removal of a wire are in
`Model/EmptyWire.lean`.
-/
namespace Verif.Matching

/-- `empty_wires`, `ecc_rewriter.rs:286-309`: inputs that go to nothing, or only to one output. -/
def emptyOf (c : TCirc) : List Nat :=
  (List.range c.numInputs).filter fun k =>
    match consumers c.toCirc c.inp k with
    | [] => true
    | [(n, _)] => n = c.out
    | _ => false

/-- The number of an input port when port `k` is gone. -/
def lowerPort (inp k : Nat) (s : Nat × Nat) : Nat × Nat :=
  if s.1 = inp ∧ k < s.2 then (s.1, s.2 - 1) else s

/-- The circuit without input `k` and without the output `j` to which it goes, `circuit.rs:413-466`.
(The operation of the output node keeps its name.) -/
def cut (c : TCirc) (k : Nat) (j : Option Nat) : TCirc :=
  let drop {α : Type} (l : List α) : List α :=
    match j with
    | some j => l.eraseIdx j
    | none => l
  { c with
    op := fun n => if n = c.out then ⟨(c.op n).name, drop (c.op n).kinds⟩ else c.op n
    ins := fun n => (if n = c.out then drop (c.ins n) else c.ins n).map (lowerPort c.inp k)
    numInputs := c.numInputs - 1
    ty := fun n p => if n = c.inp ∧ k ≤ p then c.ty n (p + 1) else c.ty n p }

/-- `remove_empty_wire(..).unwrap()`, `circuit.rs:413-466`; `none` is a panic. -/
def removeWire (c : TCirc) (k : Nat) : Option TCirc :=
  if c.numInputs ≤ k then none
  else match consumers c.toCirc c.inp k with
    | [] => some (cut c k none)
    | [(n, j)] => if n = c.out then some (cut c k (some j)) else none
    | _ => none

/-- Wires removed one after the other. -/
def removeWires : TCirc → List Nat → Option TCirc
  | c, [] => some c
  | c, k :: ks => (removeWire c k).bind fun d => removeWires d ks

/-- The loops over `empty_wires` in reverse order, `ecc_rewriter.rs:206-208, 266-268`. -/
def shrink (c : TCirc) (ws : List Nat) : Option TCirc := removeWires c ws.reverse

/-- One element of `get_patterns`, `ecc_rewriter.rs:259-275`: the pattern of the circuit without its empty
wires, if there is one.  (Panics count as no pattern here.) -/
def eccPattern (choose : Pattern → Option Walk) (c : TCirc) : Option CPattern :=
  (shrink c (emptyOf c)).bind fun d =>
    match tryFromCircuit choose d.toCirc with
    | .ok p => some p
    | _ => none

/-- `ECCRewriter::from_eccs` for circuits. -/
def eccRewriter (choose : Pattern → Option Walk) (eccs : List (Tket.Ecc.EqCircClass TCirc)) :
    Option (Tket.Ecc.Rewriter TCirc CPattern) :=
  Tket.Ecc.fromEccs (eccPattern choose) emptyOf eccs

/-- Applying a call that may panic to all elements of a list. -/
def collect {α β : Type} (f : α → Option β) : List α → Option (List β)
  | [] => some []
  | a :: as => (f a).bind fun b => (collect f as).map (b :: ·)

/-- `PatternMatcher::find_matches`, `matcher.rs:268-284`; `none` is a panic. -/
def allMatches (x : Ext) (ps : List CPattern) (c : TCirc) : Option (List Match) :=
  (collect (fun n =>
    match findRooted x ⟨ps, []⟩ c.toCirc n with
    | .ok as => some as
    | _ => none) c.cmds).map List.flatten

/-- `m.to_rewrite(circ, repl).expect(..)`, `matcher.rs:213-219` and `rewrite.rs:33-44`; `none` is a panic. -/
def toRewrite (c : TCirc) (a : Match) (repl : TCirc) : Option Rewrite :=
  (subSig c a.ins a.outs).bind fun s =>
    if s = circSig repl then some ⟨a.nodes, a.ins, a.outs, repl⟩ else none

/-- The rewrites of one match, `ecc_rewriter.rs:202-211`: one for each target, without the wires that are
empty in the pattern; `none` is a panic. -/
def matchRewrites (R : Tket.Ecc.Rewriter TCirc CPattern) (c : TCirc) (a : Match) : Option (List Rewrite) :=
  (R.getTargets a.id).bind fun ts => (R.emptyWires[a.id]?).bind fun ws =>
    collect (fun t => (shrink t ws).bind fun repl => toRewrite c a repl) ts

/-- `ECCRewriter::get_rewrites`, `ecc_rewriter.rs:197-214`; `none` is a panic. -/
def eccRewrites (x : Ext) (R : Tket.Ecc.Rewriter TCirc CPattern) (c : TCirc) : Option (List Rewrite) :=
  (allMatches x R.patterns c).bind fun as => (collect (matchRewrites R c) as).map List.flatten

end Verif.Matching
