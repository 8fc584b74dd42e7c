import Verif.Model.Encoder
import Verif.Model.Registers
import Verif.Model.Decoder

/-!
# From the encoder to the decoder

Joins the models of the encoder (`Model/Encoder.lean`), of the output permutation (`Model/Registers.lean`)
and of the decoder (`Model/Decoder.lean`): the second half of `PytketEncoderContext::finish`
(`/repo/tket/src/serialize/pytket/encoder.rs:255-275`) and of `ValueTracker::finish`
(`/repo/tket/src/serialize/pytket/encoder/value_tracker.rs:444-495`), the arguments of `emit_command`
(`encoder.rs:706-725`) and what the decoder makes of them.

Simplifications:
* a register is its sort and its index; names are modelled in `Model/Registers.lean`;
* the operation of a command is the name of the node it was emitted for, and the decoder is given the
  signature of the operation of every name.  That the operations themselves survive is the subject of
  `Model/GateTable.lean`;
* a parameter expression is turned into a number by `num`, see `Model/Params.lean`;
* commands are for operations that read no bits, which is how the decoder treats the bits of quantum gates
  and measurements (`decoder` `extension/tket.rs:180-192`).
-/

namespace Verif.RoundTrip

open Verif.Encoder (Srt Enc)

/-- A register of the file. -/
abbrev Reg := Srt × Nat

variable {W E T : Type} [DecidableEq W]

/-- `qubits` and `bits` of the serialised circuit (`encoder.rs:260-261`). -/
def regs (e : Enc W E) (s : Srt) : List Reg := (List.range (e.tr.pool s).size).map (Prod.mk s)

/-- The registers of the output wires (`value_tracker.rs:457-482`); a wire without values is skipped. -/
def outRegs (e : Enc W E) (outputs : List W) (s : Srt) : List Nat :=
  outputs.flatMap fun w => ((e.tr.wires w).map fun tr => tr.vals.reg s).getD []

/-- The parameters of the output wires, as indices (`value_tracker.rs:478-480`). -/
def outPars (e : Enc W E) (outputs : List W) : List Nat :=
  outputs.flatMap fun w => ((e.tr.wires w).map fun tr => tr.vals.params).getD []

/-- A command of the file (`emit_command`, `encoder.rs:706-725`: qubits, then bits), with the signature of
its operation. -/
def command (sigIn sigOut : Nat → List T) (num : E → Nat) (x : Encoder.Cmd E) : Decoder.Cmd T Reg Nat where
  label := x.node
  args := (x.args .qubit).map (Prod.mk .qubit) ++ (x.args .bit).map (Prod.mk .bit)
  params := x.params.map num
  sigIn := sigIn x.node
  sigOut := sigOut x.node
  mode := .split 0

/-- The file, as the decoder reads it (`encoder.rs:255-275`, `value_tracker.rs:444-495`); the implicit
permutation has become the output permutation of the decoder
(`/repo/tket/src/serialize/pytket/decoder/wires.rs:419-433`).  `none` is a panic. -/
def file (sigIn sigOut : Nat → List T) (num : E → Nat) (ty : W → T) (c : Encoder.Circ W E) (e : Enc W E) :
    Option (Decoder.Circ T Reg Nat) :=
  match Encoder.lookupParams e.tr.exprs (outPars e c.outputs),
      Registers.finalPermutation ((outRegs e c.outputs .qubit).map (Prod.mk .qubit)) (regs e .qubit) with
  | some ps, some perm =>
    match Registers.outputPermutation (Registers.trackAll [] (regs e .qubit)) perm with
    | some out => some {
        qubits := regs e .qubit
        bits := regs e .bit
        sigIn := c.inputs.map ty
        sigOut := c.outputs.map ty
        cmds := e.cmds.map (command sigIn sigOut num)
        perm := out
        outParams := ps.map num }
    | none => none
  | _, _ => none

end Verif.RoundTrip
