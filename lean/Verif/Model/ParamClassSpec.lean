import Verif.Model.EccRunSpec
import Verif.Model.TogetherSpec

/-
Classes of equivalent circuits with parameters.
-/
namespace Verif.Matching

open Relation

/-- All circuits of a class have the same signature and the same amplitudes, up to a common factor.  The circuits
can have parameters, for example angles of rotations, and compute others from them. -/
structure ParamClass {D R : Type} [Fintype D] [DecidableEq D] [CommSemiring R] (lin : Nat → Prop) (A : Weights D R)
    (K : R → Prop) (e : Tket.Ecc.EqCircClass TCirc) : Prop where
  mixed : ∀ c ∈ e.circuits, Mixed lin A.arity c
  sig : ∀ c ∈ e.circuits, ∀ d ∈ e.circuits, circSig c = circSig d
  same : ∀ c ∈ e.circuits, ∀ d ∈ e.circuits, SameUpTo A K c.toCirc d.toCirc

/-- All operations of the classes are isometries for fixed parameters. -/
def ParamIso {D R : Type} [Fintype D] [DecidableEq D] [CommSemiring R] [StarRing R] (lin : Nat → Prop)
    (A : Weights D R) (eccs : List (Tket.Ecc.EqCircClass TCirc)) : Prop :=
  ∀ e ∈ eccs, ∀ c ∈ e.circuits, ∀ n ∈ c.cmds, ParamOp A (c.op n) 0 fun p => lin (c.ty n p)

/-- Circuits that throw nothing away: linear results are used, and every operation has a result that is used. -/
structure Busy (lin : Nat → Prop) (arity : Op → Nat) (c : TCirc) : Prop where
  linear : ∀ n ∈ c.members, n ≠ c.out → ∀ p < arity (c.op n), lin (c.ty n p) → ∃ m ∈ c.members, (n, p) ∈ c.ins m
  some : ∀ n ∈ c.members, n ≠ c.out → ∃ p, ∃ m ∈ c.members, (n, p) ∈ c.ins m

/-- Every operation has a path to the outputs. -/
def Alive (c : Circ) : Prop := ∀ n ∈ c.members, ReflTransGen (Feeds c) n c.out

end Verif.Matching
