import Verif.Model.ExtOps
import Verif.Model.ResultsSpec

/-
What storing operations and their signatures should be.
-/
namespace Verif.ExtOps

open Verif.Results (Def SArgs Args ROp Str)

/-- The argument is of the kind of the parameter. -/
def Param.fits : Param → TArg → Bool
  | .str, .str _ => true
  | .nat none, .nat _ => true
  | .nat (some b), .nat n => decide (n < b)
  | _, _ => false

/-- The arguments are of the kinds of the parameters. -/
def fit : List Param → List TArg → Bool
  | [], [] => true
  | p :: ps, a :: as => p.fits a && fit ps as
  | _, _ => false

/-- The width is a byte. -/
def byteWidth (op : ROp) : Prop :=
  match op.args with
  | .simple (.int w) => w < 256
  | .array (.int w) _ => w < 256
  | _ => True

/-- Types without variables. -/
inductive GTy
  | bool
  | float
  | int (w : Nat)
  | array (n : Nat) (t : GTy)
deriving DecidableEq

/-- The number given for a variable. -/
def natAt (as : List TArg) (i : Nat) : Option Nat :=
  match as[i]? with
  | some (.nat n) => some n
  | _ => none

/-- Arguments in place of the variables. -/
def RTy.subst (as : List TArg) : RTy → Option GTy
  | .bool => some .bool
  | .float => some .float
  | .int v => (natAt as v).map .int
  | .array v t => (natAt as v).bind fun n => (t.subst as).map fun t => .array n t

/-- The type of the values that the operation reports: booleans, floats, integers of its width, or
arrays of its size of these. -/
def reports (op : ROp) : Option GTy :=
  match op.op, op.args with
  | .bool, .simple .basic => some .bool
  | .f64, .simple .basic => some .float
  | .int, .simple (.int w) => some (.int w)
  | .uint, .simple (.int w) => some (.int w)
  | .arrBool, .array .basic n => some (.array n .bool)
  | .arrF64, .array .basic n => some (.array n .float)
  | .arrInt, .array (.int w) n => some (.array n (.int w))
  | .arrUInt, .array (.int w) n => some (.array n (.int w))
  | _, _ => none

/-- Types of values and futures. -/
inductive FTy
  | ty (t : Nat)
  | fut (t : Nat)
deriving DecidableEq

/-- The type given for a variable. -/
def tyAt (as : List TArg) (i : Nat) : Option Nat :=
  match as[i]? with
  | some (.ty t) => some t
  | _ => none

/-- Arguments in place of the variables. -/
def FPat.subst (as : List TArg) : FPat → Option FTy
  | .var i => (tyAt as i).map .ty
  | .fut i => (tyAt as i).map .fut

/-- Arguments in place of the variables. -/
def FSig.subst (as : List TArg) (s : FSig) : Option (List FTy × List FTy) :=
  (s.ins.mapM (FPat.subst as)).bind fun i => (s.outs.mapM (FPat.subst as)).map fun o => (i, o)

/-- Types in signatures of classical computing. -/
inductive STy
  | usize
  | optContext
  | ty (t : CTy)
  | elem (e : Elem)
deriving DecidableEq

/-- The row given for a variable. -/
def rowAt (as : List TArg) (i : Nat) : Option (List Elem) :=
  (as[i]?).bind toRow

/-- Arguments in place of the variables. -/
def CPat.subst (as : List TArg) : CPat → Option (List STy)
  | .usize => some [.usize]
  | .optContext => some [.optContext]
  | .context => some [.ty .context]
  | .module => some [.ty .module]
  | .func i o => (rowAt as i).bind fun i => (rowAt as o).map fun o => [.ty (.func i o)]
  | .result o => (rowAt as o).map fun o => [.ty (.result o)]
  | .rowUse i => (rowAt as i).map fun r => r.map .elem

/-- Arguments in place of the variables of a row. -/
def substRow (as : List TArg) : List CPat → Option (List STy)
  | [] => some []
  | p :: ps => (p.subst as).bind fun t => (substRow as ps).map fun ts => t ++ ts

/-- The signature of an operation, as described: looking up a function in a module, calling it in a
context and reading its result. -/
def COp.signature : COp → List STy × List STy
  | .getContext => ([.usize], [.optContext])
  | .disposeContext => ([.ty .context], [])
  | .lookupById _ i o => ([.ty .module], [.ty (.func i o)])
  | .lookupByName _ i o => ([.ty .module], [.ty (.func i o)])
  | .call i o => (.ty .context :: .ty (.func (i.map .ty) (o.map .ty)) :: i.map fun t => .elem (.ty t),
      [.ty (.result (o.map .ty))])
  | .readResult o => ([.ty (.result (o.map .ty))], .ty .context :: o.map fun t => .elem (.ty t))

end Verif.ExtOps
