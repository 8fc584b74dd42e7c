import Verif.Model.PyExts
import Mathlib.Data.List.Forall2

/-
What the attributes and methods of the Python package should give.
-/
namespace Verif.PyExts

open Verif.ExtOps (TArg Elem LElem)
open Verif.Results (Str ROp)

/-- Letters without case and underscores. -/
def plainLetters (s : List Char) : List Char := (s.filter (· ≠ '_')).map Char.toLower

/-- Two names are the same up to case, underscores, the endings `_op` and `_def` of attributes, and
the ending `Modifier` of operations. -/
def sameName (a op : String) : Bool :=
  let l := plainLetters op.toList
  [[], ['_', 'o', 'p'], ['_', 'd', 'e', 'f']].any fun e =>
    [[], ['m', 'o', 'd', 'i', 'f', 'i', 'e', 'r']].any fun m =>
      decide (plainLetters a.toList ++ m = l ++ plainLetters e)

/-- The argument is of the kind of the parameter; which types may be copied is given. -/
def PParam.fits (copyable : Nat → Prop) : PParam → TArg → Prop
  | .str, .str _ => True
  | .nat none, .nat _ => True
  | .nat (some b), .nat n => n < b
  | .ty .linear, .ty _ => True
  | .ty .copyable, .ty t => copyable t
  | .row b, .list l => ∀ e ∈ l, ∃ t, e = .elem (.ty t) ∧ (b = .copyable → copyable t)
  | _, _ => False

/-- The operation is declared by the Rust extension, and its arguments are of the kinds of the
parameters. -/
def Declared (copyable : Nat → Prop) (o : POp) : Prop :=
  ∃ ps, (o.name, ps) ∈ rust o.ext ∧ List.Forall₂ (fun p a => p.fits copyable a) ps o.args

/-- The width given for the integers of a result, if any. -/
def Call.width : Call → Option Nat
  | .resultInt _ w => some w
  | .resultUInt _ w => some w
  | .resultArrayInt _ _ w => some w
  | .resultArrayUInt _ _ w => some w
  | _ => none

/-- The result operation asked for. -/
def Call.asked : Call → Option ROp
  | .resultBool l => some ⟨l, .bool, .simple .basic⟩
  | .resultF64 l => some ⟨l, .f64, .simple .basic⟩
  | .resultInt l w => some ⟨l, .int, .simple (.int w)⟩
  | .resultUInt l w => some ⟨l, .uint, .simple (.int w)⟩
  | .resultArrayBool l k => some ⟨l, .arrBool, .array .basic k⟩
  | .resultArrayF64 l k => some ⟨l, .arrF64, .array .basic k⟩
  | .resultArrayInt l k w => some ⟨l, .arrInt, .array (.int w) k⟩
  | .resultArrayUInt l k w => some ⟨l, .arrUInt, .array (.int w) k⟩
  | _ => none

/-- Bits of the integers that a result operation reports: its width is the logarithm. -/
def bitsOf (op : ROp) : Option Nat :=
  match op.args with
  | .simple (.int w) => some (2 ^ w)
  | .array (.int w) _ => some (2 ^ w)
  | _ => none

end Verif.PyExts
