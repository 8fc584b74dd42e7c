/-
Classical expressions in pytket circuits.

Modelled code: `tket/src/serialize/pytket/extension/bool.rs` (`BoolEmitter`, both directions),
`make_tk1_classical_expression` and `make_tk1_operation` (`tket/src/serialize/pytket/encoder.rs:1391-1410,
1468-1488`), the default choice of output bits (`encoder.rs:1053-1056, 1098-1106`) and the checks of
`wire_up_node` (`tket/src/serialize/pytket/decoder.rs:656-696`).
-/
namespace Verif.ClExpr

/-- Classical operators of pytket (`ClOp`).  The operators on registers are not used by the code and
are numbered. -/
inductive ClOp
  | bitAnd | bitOr | bitXor | bitEq | bitNeq | bitNot | bitZero | bitOne
  | other (k : Nat)
  deriving DecidableEq, Repr

/-- Arguments of an operator (`ClArgument`): a bit variable, a register variable, an integer, or
another expression. -/
inductive Arg
  | bit (i : Nat)
  | reg (i : Nat)
  | int (n : Nat)
  | node (op : ClOp) (args : List Arg)

/-- `ClExpr` of pytket: `bitPosn` and `regPosn` give the places, among the bits of the command, of
the variables, and `outPosn` the places where the result goes. -/
structure ClExpr where
  bitPosn : List (Nat × Nat)
  regPosn : List (Nat × List Nat)
  outPosn : List Nat
  op : ClOp
  args : List Arg

/-- `BoolOp` (`tket/src/extension/bool.rs`) without the conversions `read` and `make_opaque`, which
produce no command. -/
inductive BoolOp
  | eq | not | and | or | xor
  deriving DecidableEq, Repr

/-- Number of inputs; there is always one output. -/
def BoolOp.inputs : BoolOp → Nat
  | .not => 1
  | _ => 2

/-- The table of `op_to_pytket`, `bool.rs:53-57`. -/
def BoolOp.clop : BoolOp → ClOp
  | .eq => .bitEq
  | .not => .bitNot
  | .and => .bitAnd
  | .or => .bitOr
  | .xor => .bitXor

/-- A command as emitted: the expression, the number of bits declared in the signature of the
operation, and the bits of the command. -/
structure Command (B : Type) where
  expr : ClExpr
  declared : Nat
  bits : List B

/-- `op_to_pytket`, `bool.rs:46-73`, for a node whose inputs are in the bits `ins`.  The bits of the
command are the inputs followed by the newly created outputs (`encoder.rs:470-471`); as no reuse
function is given, the outputs take the bits of the inputs first, so none are created. -/
def encode {B : Type} (op : BoolOp) (ins : List B) : Command B where
  expr := {
    bitPosn := (List.range (op.inputs + 1)).map fun i => (i, i)
    regPosn := []
    outPosn := List.range 1
    op := op.clop
    args := (List.range op.inputs).map .bit }
  declared := op.inputs + 1
  bits := ins

/-- The bit that holds the output afterwards (`encoder.rs:1098-1099`). -/
def encodeOut {B : Type} (ins : List B) : Option B := ins.head?

/-- Results of `op_to_hugr`. -/
inductive Outcome
  | unsupported
  /-- A slice index out of range. -/
  | panic
  /-- An error that ends the decoding. -/
  | error
  /-- A node for `op` that reads the bits at the places `ins` and writes those at `outs`. -/
  | ok (op : BoolOp) (ins outs : List Nat)

/-- The loop over the registers, `bool.rs:132-136`. -/
def regsOk : Nat → List (Nat × List Nat) → Bool
  | _, [] => true
  | i, r :: rs => r.1 == i && r.2.length == 1 && regsOk (i + 1) rs

/-- The check of one argument, `bool.rs:138-150`. -/
def argOk (i : Nat) : Arg → Bool
  | .bit j => j == i
  | .reg j => j == i
  | _ => true

/-- The loop over the arguments, `bool.rs:137-151`. -/
def argsOk : Nat → List Arg → Bool
  | _, [] => true
  | i, a :: as => argOk i a && argsOk (i + 1) as

/-- The table of `op_to_hugr`, `bool.rs:153-160`. -/
def ClOp.boolOp : ClOp → Option BoolOp
  | .bitEq => some .eq
  | .bitNot => some .not
  | .bitAnd => some .and
  | .bitOr => some .or
  | .bitXor => some .xor
  | _ => none

/-- `op_to_hugr`, `bool.rs:116-177`, for a command with `nbits` bits and `nparams` parameters (and no
qubits). -/
def decode (e : ClExpr) (nbits nparams : Nat) : Outcome :=
  if regsOk 0 e.regPosn && argsOk 0 e.args then
    match e.op.boolOp with
    | none => .unsupported
    | some op =>
      if nparams ≠ 0 then .unsupported
      else if nbits < op.inputs then .panic
      else if nbits - op.inputs ≠ 1 then .error
      else .ok op (List.range op.inputs) [op.inputs]
  else .unsupported

end Verif.ClExpr
