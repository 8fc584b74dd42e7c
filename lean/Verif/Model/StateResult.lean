import Verif.Model.ResultsSpec

/-
Reporting the state of qubits in the compiled program.

Modelled code: `tket-qsystem/src/llvm/debug.rs`, and `instantiate` of `tket/src/extension/debug.rs`
151-159.  Strings, globals and memory are as in `Model/Results`.
-/
namespace Verif.Results

/-- Arguments of operations (`TypeArg`); those of other kinds are numbered. -/
inductive TArg
  | string (s : Str)
  | nat (n : Nat)
  | other (n : Nat)
deriving DecidableEq

/-- `StateResult`, `extension/debug.rs:101-109`. -/
structure StateOp where
  tag : Str
  num : Nat
deriving DecidableEq

/-- `StateResult::type_args`, `extension/debug.rs:132-137`. -/
def StateOp.args (op : StateOp) : List TArg := [.string op.tag, .nat op.num]

/-- `StateResultDef::instantiate`, `extension/debug.rs:151-159`. -/
def StateOp.load : List TArg → Option StateOp
  | [.string t, .nat n] => some ⟨t, n⟩
  | _ => none

/-- Outcome: the module, the tag and the numbers that the function of the runtime gets, and the
value of the output; or the compiler reports an error. -/
inductive StateOutcome
  | ok (m : Globals) (tag : List Nat) (qubits : List Nat) (out : Data)
  | error
deriving DecidableEq

/-- `"USER:STATE:"`, `llvm/debug.rs:16, 64`. -/
def statePrefix : Str := ['U', 'S', 'E', 'R', ':', 'S', 'T', 'A', 'T', 'E', ':']

/-- `emit_state_result`, `llvm/debug.rs:46-110`.  Qubits are numbers of 64 bits; the function of the
runtime reads as many as the operation says from the memory of the array, `junk` is the memory
behind it. -/
def emitState (w : World) (args : List TArg) (m : Globals) (inputs : List Data) (junk : Nat → Nat) :
    StateOutcome :=
  match StateOp.load args with
  | none => .error
  | some op =>
    -- `bail!("Empty state result tag received")`
    if op.tag = [] then .error
    else match emitString w m op.tag ['r','e','s','_'] statePrefix with
      | .ok m' name =>
        match inputs with
        | [.many qs] =>
          -- `array_len.try_into()`
          if op.num < 2 ^ 32 then
            .ok m' (tagAt m' name) (readArr 8 op.num (put (qs.flatMap (leBytes 8)) junk)) (.many qs)
          else .error
        | _ => .error
      | _ => .error

end Verif.Results
