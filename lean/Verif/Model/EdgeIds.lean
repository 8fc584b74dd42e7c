import Verif.Model.InlineSpec

/-
The identifiers of the edges between subgraphs of standalone circuits:
`tket/src/serialize/pytket/opaque/payload.rs` 28-62 and 116-171.

The hash is `fxhash::hash64` of fxhash 0.2.1 (`Cargo.lock`:960), which is not in the repository: a state of 64
bits that starts with zero, and for each word `state = (rotate_left(state, 5) ^ word) * 0x517cc1b727220a95`. A
wire is a node and an outgoing port, that is an index of 32 bits and an offset of 16 bits, and each is fed as
one word. This is recorded as an assumption in DESIGN.md. Whether the index is stored from zero or from one
makes no difference to the theorems, except for `C89_default_unused`, where it is assumed to be nonzero or the
port not the first.
-/
namespace Verif.EdgeIds
open Verif.Inline

/-- `SEED64` of fxhash. -/
def seed : BitVec 64 := 0x517cc1b727220a95#64

/-- `HashWord::hash_word` of fxhash for `u64`. -/
def hashWord (h w : BitVec 64) : BitVec 64 := (h.rotateLeft 5 ^^^ w) * seed

/-- `fxhash::hash64` of a value that is fed as the given words. -/
def hash64 (ws : List (BitVec 64)) : BitVec 64 := ws.foldl hashWord 0#64

/-- A wire of the program: node and outgoing port. -/
structure HWire where
  node : BitVec 32
  port : BitVec 16
deriving DecidableEq

/-- `EncodedEdgeID::new`, `payload.rs:58-61`. -/
def edgeId (w : HWire) : Edge := (hash64 [w.node.setWidth 64, w.port.setWidth 64]).toNat

/-- `EncodedEdgeID::default` -/
def defaultId : Edge := 0

/-- A subgraph that can be written out. For each input, the wire of the program that it is linked to (`none` if
it is not linked), the wire that a later reader finds in the registers (`none` for types without registers)
and the targets in the envelope; for each output its wire in the program, whether its type has registers, and the
wire in the envelope. -/
structure Sub where
  links : List Link
  ins : List (Option HWire × Option Wire × List (Node × Nat))
  outs : List (HWire × Bool × Wire)

/-- `new_inline`, `payload.rs:149-170`, the identifiers, with the function for them as a parameter; `none` is the
panic of `Wire::from_connected_port` for an input that is not linked. The types, whose number is that of the
ports, are left out. -/
def newInlineWith (f : HWire → Edge) (s : Sub) : Option Payload := do
  let ins ← s.ins.mapM fun x => x.1.map fun w => (x.2.1, f w, x.2.2)
  pure ⟨s.links, ins, s.outs.map fun x => (x.2.1, f x.1, x.2.2)⟩

/-- All subgraphs, each with the `node_map` that it will have when it is read. -/
def writeAllWith (f : HWire → Edge) (subs : List ((Node → Node) × Sub)) : Option (List ((Node → Node) × Payload)) :=
  subs.mapM fun x => (newInlineWith f x.2).map fun p => (x.1, p)

/-- All subgraphs as the code writes them. -/
def writeAll (subs : List ((Node → Node) × Sub)) : Option (List ((Node → Node) × Payload)) :=
  writeAllWith edgeId subs

end Verif.EdgeIds
