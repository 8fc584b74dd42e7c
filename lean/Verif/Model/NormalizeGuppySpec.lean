import Verif.Model.NormalizeGuppy

/-
What a sequence of passes does.
-/
namespace Tket.NormalizeGuppy

/-- The passes by name. -/
inductive Stage where
  | cfg
  | untuple
  | fold
  | dead
  | inline
  | squash
deriving DecidableEq

/-- The order of the passes. -/
def order : List Stage := [.cfg, .untuple, .fold, .dead, .inline, .squash]

/-- The options that are on. -/
def Options.On (o : Options) : Stage → Bool
  | .cfg => o.simplifyCfgs
  | .untuple => o.untuple
  | .fold => o.constantFold
  | .dead => o.deadFuncs
  | .inline => o.inlineDfgs
  | .squash => o.squashBorrows

/-- The stages that arguments of the Python function turn on. -/
def Kwargs.On (k : Kwargs) : Stage → Bool
  | .cfg => k.simplifyCfgs
  | .untuple => k.removeTupleUntuple
  | .fold => k.constantFolding
  | .dead => k.removeDeadFuncs
  | .inline => k.inlineDfgs
  | .squash => true

/-- One pass that succeeds. -/
inductive Does {H E : Type} (p : Parts H E) : Stage → H → H → Prop
  | cfg {h h' : H} : p.cfg h = (h', none) → Does p .cfg h h'
  | untuple {h h' : H} : p.untuple h = (h', none) → Does p .untuple h h'
  | fold {h h' : H} : p.fold h = (h', none) → Does p .fold h h'
  | dead {h h' : H} : p.dead h = (h', none) → Does p .dead h h'
  | inline (h : H) : Does p .inline h (p.inline h)
  | squash (h : H) : Does p .squash h (p.squash h)

/-- One pass that fails, with the program that it leaves and its error. -/
inductive Fails {H E : Type} (p : Parts H E) : Stage → H → H → Err E → Prop
  | cfg {h h' : H} {e : E} : p.cfg h = (h', some e) → Fails p .cfg h h' (.simplifyCFG e)
  | untuple {h h' : H} {e : E} : p.untuple h = (h', some e) → Fails p .untuple h h' (.untuple e)
  | fold {h h' : H} {e : E} : p.fold h = (h', some e) → Fails p .fold h h' (.constantFold e)
  | dead {h h' : H} {e : E} : p.dead h = (h', some e) → Fails p .dead h h' (.deadFuncs e)

/-- Passes one after the other, that all succeed. -/
inductive Runs {H E : Type} (p : Parts H E) : List Stage → H → H → Prop
  | nil (h : H) : Runs p [] h h
  | cons {s : Stage} {l : List Stage} {h m h' : H} : Does p s h m → Runs p l m h' → Runs p (s :: l) h h'

end Tket.NormalizeGuppy
