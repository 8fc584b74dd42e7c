import Verif.Model.EccRunSpec
import Verif.Model.TogetherSpec

/-
Rules of gates.
-/
namespace Verif.Matching

/-- Both sides are circuits of gates, with the same amplitudes up to a factor. -/
structure GateRule {D R : Type} [Fintype D] [DecidableEq D] [CommSemiring R] (lin : Nat → Prop) (A : Weights D R)
    (K : R → Prop) (u : Rule) : Prop where
  left : Gates lin A.arity u.left
  right : Gates lin A.arity u.right
  same : SameUpTo A K u.left.toCirc u.right.toCirc

/-- The gates of the left-hand side are isometries. -/
def GateIso {D R : Type} [Fintype D] [DecidableEq D] [CommSemiring R] [StarRing R] (A : Weights D R)
    (u : Rule) : Prop :=
  ∀ n ∈ u.left.cmds, IsoOp A (u.left.op n) 0

/-- Circuits reached by applying rewrites that were found, one after the other. -/
inductive RuleReaches (choose : Pattern → Option Walk) (rules : List Rule) : TCirc → TCirc → Prop
  | refl (c : TCirc) : RuleReaches choose rules c c
  | step {c c' d : TCirc} (x : Ext) (m : Matcher) (rs : List Rewrite) (r : Rewrite) (base : Nat)
      (hm : fromRules choose rules = .ok m) (hx : SubsOK x c.toCirc) (hf : findMatches x m c = .ok rs) (hr : r ∈ rs)
      (hb : Fresh c.toCirc base) (ha : applyRw c base r = some c') (h : RuleReaches choose rules c' d) :
      RuleReaches choose rules c d

/-- One step of the optimiser. -/
inductive RuleStep (choose : Pattern → Option Walk) (rules : List Rule) (next : TCirc → Nat)
    (view : Rewrite → Tket.Strategy.Rewrite) (c d : TCirc) : Prop
  | mk (x : Ext) (m : Matcher) (rs as : List Rewrite) (hm : fromRules choose rules = .ok m)
      (hx : SubsOK x c.toCirc) (hf : findMatches x m c = .ok rs)
      (hsub : ∀ a ∈ as, a ∈ rs) (hch : Chosen view rs as) (ha : applyAll next c as = some d)

end Verif.Matching
