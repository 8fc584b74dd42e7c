import Verif.Model.ClExpr

/-
The meaning of classical expressions in pytket, and of the operations on booleans.
-/
namespace Verif.ClExpr

/-- The meaning of `BoolOp`. -/
def BoolOp.apply : BoolOp → List Bool → Option Bool
  | .not, [a] => some (!a)
  | .eq, [a, b] => some (a == b)
  | .and, [a, b] => some (a && b)
  | .or, [a, b] => some (a || b)
  | .xor, [a, b] => some (a ^^ b)
  | _, _ => none

/-- A number as a bit. -/
def asBit : Nat → Option Bool
  | 0 => some false
  | 1 => some true
  | _ => none

/-- The meaning of an operator; `other` gives that of the operators on registers. -/
def ClOp.apply (other : Nat → List Nat → Option Nat) : ClOp → List Nat → Option Nat
  | .bitZero, [] => some 0
  | .bitOne, [] => some 1
  | .bitNot, [a] => (asBit a).map fun a => (!a).toNat
  | .bitAnd, [a, b] => (asBit a).bind fun a => (asBit b).map fun b => (a && b).toNat
  | .bitOr, [a, b] => (asBit a).bind fun a => (asBit b).map fun b => (a || b).toNat
  | .bitXor, [a, b] => (asBit a).bind fun a => (asBit b).map fun b => (a ^^ b).toNat
  | .bitEq, [a, b] => (asBit a).bind fun a => (asBit b).map fun b => (a == b).toNat
  | .bitNeq, [a, b] => (asBit a).bind fun a => (asBit b).map fun b => (a != b).toNat
  | .other k, vs => other k vs
  | _, _ => none

/-- The number in a list of bits, lowest bit first. -/
def number : List Bool → Nat
  | [] => 0
  | b :: bs => b.toNat + 2 * number bs

mutual
/-- The value of an argument when the bits of the command are `s`. -/
def Arg.eval (other : Nat → List Nat → Option Nat) (e : ClExpr) (s : List Bool) : Arg → Option Nat
  | .bit i => (e.bitPosn.lookup i).bind fun p => s[p]?.map Bool.toNat
  | .reg i => (e.regPosn.lookup i).bind fun ps => (ps.mapM fun p => s[p]?).map number
  | .int n => some n
  | .node op args => (evalAll other e s args).bind (op.apply other)
/-- The values of several arguments. -/
def evalAll (other : Nat → List Nat → Option Nat) (e : ClExpr) (s : List Bool) :
    List Arg → Option (List Nat)
  | [] => some []
  | a :: as => (a.eval other e s).bind fun v => (evalAll other e s as).map (v :: ·)
end

/-- Write a number to the given places. -/
def write : List Nat → Nat → List Bool → List Bool
  | [], _, s => s
  | p :: ps, v, s => write ps (v / 2) (s.set p (v % 2 == 1))

/-- The effect of a command in pytket on its bits. -/
def ClExpr.run (other : Nat → List Nat → Option Nat) (e : ClExpr) (s : List Bool) :
    Option (List Bool) :=
  ((evalAll other e s e.args).bind (e.op.apply other)).map fun v => write e.outPosn v s

/-- The effect of the decoded node on the bits of the command. -/
def runNode (op : BoolOp) (ins outs : List Nat) (s : List Bool) : Option (List Bool) :=
  (ins.mapM fun p => s[p]?).bind fun vs => (op.apply vs).bind fun b =>
    match outs with
    | [o] => some (s.set o b)
    | _ => none

end Verif.ClExpr
