import Verif.Model.EccRun
import Verif.Model.AmplitudeSpec
import Mathlib.Algebra.Star.BigOperators

/-
Circuits of gates, and classes of equivalent circuits.
-/
namespace Verif.Matching

/-- Circuits of gates with parameters: the outputs are linear, all inputs and all results are used, and every
operation has outputs.  Classical operations can compute parameters from others, for example sums of angles. -/
structure Mixed (lin : Nat → Prop) (arity : Op → Nat) (c : TCirc) : Prop where
  proper : Proper lin c
  plain : c.toCirc.Plain
  range : ∀ n ∈ c.members, ∀ s ∈ c.ins n, s.1 = c.inp ∨ s.2 < arity (c.op s.1)
  outputs : ∀ s ∈ c.ins c.out, lin (c.ty s.1 s.2)
  used : ∀ n ∈ c.cmds, ∀ p < arity (c.op n), ∃ m ∈ c.members, (n, p) ∈ c.ins m
  inputs : ∀ i < c.numInputs, ∃ m ∈ c.members, (c.inp, i) ∈ c.ins m
  gates : ∀ n ∈ c.cmds, 0 < arity (c.op n)

/-- Circuits of gates on qubits: all wires are linear and used, and every gate has outputs. -/
structure Gates (lin : Nat → Prop) (arity : Op → Nat) (c : TCirc) : Prop where
  proper : Proper lin c
  plain : c.toCirc.Plain
  range : ∀ n ∈ c.members, ∀ s ∈ c.ins n, s.1 = c.inp ∨ s.2 < arity (c.op s.1)
  linear : ∀ n ∈ c.members, ∀ k ∈ (c.op n).kinds, k = .linear
  used : ∀ n ∈ c.cmds, ∀ p < arity (c.op n), ∃ m ∈ c.members, (n, p) ∈ c.ins m
  inputs : ∀ i < c.numInputs, ∃ m ∈ c.members, (c.inp, i) ∈ c.ins m
  gates : ∀ n ∈ c.cmds, 0 < arity (c.op n)

/-- All circuits of a class have the same signature and the same amplitudes, up to a common factor. -/
structure ClassOK {D R : Type} [Fintype D] [DecidableEq D] [CommSemiring R] (lin : Nat → Prop) (A : Weights D R)
    (K : R → Prop) (e : Tket.Ecc.EqCircClass TCirc) : Prop where
  gates : ∀ c ∈ e.circuits, Gates lin A.arity c
  sig : ∀ c ∈ e.circuits, ∀ d ∈ e.circuits, circSig c = circSig d
  same : ∀ c ∈ e.circuits, ∀ d ∈ e.circuits, SameUpTo A K c.toCirc d.toCirc

/-- The rules of classes: two circuits of the same class, one of them the representative, without the wires
that are empty in the first. -/
def ClassRule (eccs : List (Tket.Ecc.EqCircClass TCirc)) (u : Rule) : Prop :=
  ∃ e ∈ eccs, ∃ (i j : Nat) (c t : TCirc), e.circuits[i]? = some c ∧ e.circuits[j]? = some t ∧ i ≠ j ∧
    (i = 0 ∨ j = 0) ∧ shrink c (emptyOf c) = some u.left ∧ shrink t (emptyOf c) = some u.right

/-- No circuit of a class has the operations of the input and the output node. -/
def ClassIO (eccs : List (Tket.Ecc.EqCircClass TCirc)) (c : Circ) : Prop :=
  ∀ e ∈ eccs, ∀ d ∈ e.circuits, NoIO d.toCirc c

/-- Circuits reached by applying rewrites of the rewriter, one after the other. -/
inductive EccReaches (R : Tket.Ecc.Rewriter TCirc CPattern) : TCirc → TCirc → Prop
  | refl (c : TCirc) : EccReaches R c c
  | step {c c' d : TCirc} (x : Ext) (rs : List Rewrite) (r : Rewrite) (base : Nat) (hx : SubsOK x c.toCirc)
      (hf : eccRewrites x R c = some rs) (hr : r ∈ rs) (hb : Fresh c.toCirc base)
      (ha : applyRw c base r = some c') (h : EccReaches R c' d) : EccReaches R c d

/-- One step of the optimiser with the rewriter. -/
inductive EccStep (R : Tket.Ecc.Rewriter TCirc CPattern) (next : TCirc → Nat)
    (view : Rewrite → Tket.Strategy.Rewrite) (c d : TCirc) : Prop
  | mk (x : Ext) (rs as : List Rewrite) (hx : SubsOK x c.toCirc) (hf : eccRewrites x R c = some rs)
      (hsub : ∀ a ∈ as, a ∈ rs) (hch : Chosen view rs as) (ha : applyAll next c as = some d)

/-- An operation whose matrix is an isometry, for example a unitary one: the vectors of results of different
inputs are orthogonal, and have length one. -/
def IsoOp {D R : Type} [Fintype D] [DecidableEq D] [CommSemiring R] [StarRing R] (A : Weights D R) (o : Op)
    (content : Nat) : Prop :=
  ∀ a b : List D, a.length = o.kinds.length → b.length = o.kinds.length →
    ∑ g : Fin (A.arity o) → D, star (A.weight o content a (List.ofFn g)) * A.weight o content b (List.ofFn g) =
      if a = b then 1 else 0

/-- Inputs with the same parameters, which are the inputs that are not linear. -/
def SameParams {D : Type} (o : Op) (a b : List D) : Prop :=
  ∀ k : Nat, o.kinds[k]? ≠ some .linear → a[k]? = b[k]?

/-- An operation with parameters: an isometry for all values of them, and results that are not linear depend on
nothing else. -/
structure ParamOp {D R : Type} [Fintype D] [DecidableEq D] [CommSemiring R] [StarRing R] (A : Weights D R) (o : Op)
    (content : Nat) (linear : Nat → Prop) : Prop where
  iso : ∀ a b : List D, a.length = o.kinds.length → b.length = o.kinds.length → SameParams o a b →
    ∑ g : Fin (A.arity o) → D, star (A.weight o content a (List.ofFn g)) * A.weight o content b (List.ofFn g) =
      if a = b then 1 else 0
  det : ∀ a b : List D, a.length = o.kinds.length → b.length = o.kinds.length → SameParams o a b →
    ∀ g g' : Fin (A.arity o) → D, A.weight o content a (List.ofFn g) ≠ 0 → A.weight o content b (List.ofFn g') ≠ 0 →
      ∀ p : Fin (A.arity o), ¬ linear p → g p = g' p

/-- All gates of the classes are isometries. -/
def ClassIso {D R : Type} [Fintype D] [DecidableEq D] [CommSemiring R] [StarRing R] (A : Weights D R)
    (eccs : List (Tket.Ecc.EqCircClass TCirc)) : Prop :=
  ∀ e ∈ eccs, ∀ c ∈ e.circuits, ∀ n ∈ c.cmds, IsoOp A (c.op n) 0

end Verif.Matching
