import Verif.Model.Encoder

/-!
# Register names and output permutations in the pytket format

Models of
* `/repo/tket/src/serialize/pytket/encoder/unit_generator.rs` (fresh register names),
* the input parameter names of `ValueTracker::new`,
* `compute_final_permutation` of the encoder
  (`/repo/tket/src/serialize/pytket/encoder/value_tracker.rs:584-631`),
* `compute_output_permutation`, `known_pytket_qubits`, `known_pytket_bits` of the decoder
  (`/repo/tket/src/serialize/pytket/decoder/wires.rs:419-476`).

Simplification: the code identifies registers by a 64-bit hash (`RegisterHash`,
`/repo/tket/src/serialize/pytket.rs:238-273`); here registers are compared directly, so hash
collisions are not modelled.  `none` stands for a panic.
-/

namespace Verif.Registers

/-! ### Fresh names -/

/-- `tket_json_rs::register::ElementId`: a name and an index vector of `i64`. -/
structure Unit' where
  name : String
  index : List Int
  deriving DecidableEq, Repr

/-- The cast `as u16` of an `i64`. -/
def asU16 (i : Int) : Nat := (i % 65536).toNat

/-- Addition of 1 to a `u16`: a panic with overflow checks (debug builds), wrapping without
(release builds; `/repo/Cargo.toml` does not turn the checks on). -/
def incU16 (checks : Bool) (n : Nat) : Option Nat :=
  if n + 1 < 65536 then some (n + 1) else if checks then none else some 0

/-- `RegisterUnitGenerator` (`unit_generator.rs:7-13`). -/
structure Gen where
  next : Nat
  register : String
  deriving DecidableEq, Repr

/-- The loop of `RegisterUnitGenerator::new` (`unit_generator.rs:25-31`); `reg.1[0]` panics on an
empty index vector. -/
def scan (register : String) : List Unit' → Option Nat → Option (Option Nat)
  | [], last => some last
  | u :: us, last =>
    if u.name ≠ register then scan register us last
    else match u.index with
      | [] => none
      | i :: _ => scan register us (some (max (last.getD 0) (asU16 i)))

/-- `RegisterUnitGenerator::new` (`unit_generator.rs:20-36`). -/
def Gen.new (checks : Bool) (register : String) (existing : List Unit') : Option Gen :=
  match scan register existing none with
  | none => none
  | some none => some ⟨0, register⟩
  | some (some i) =>
    match incU16 checks i with
    | none => none
    | some n => some ⟨n, register⟩

/-- `RegisterUnitGenerator::next` (`unit_generator.rs:39-43`); the increment comes before the
result. -/
def Gen.step (checks : Bool) (g : Gen) : Option (Unit' × Gen) :=
  match incU16 checks g.next with
  | none => none
  | some n => some (⟨g.register, [(g.next : Int)]⟩, ⟨n, g.register⟩)

/-- `n` calls of `next`. -/
def Gen.take (checks : Bool) : Nat → Gen → Option (List Unit' × Gen)
  | 0, g => some ([], g)
  | n + 1, g =>
    match g.step checks with
    | none => none
    | some (u, g1) =>
      match Gen.take checks n g1 with
      | none => none
      | some (us, g2) => some (u :: us, g2)

/-- The first `n` items of `param_gen` in `ValueTracker::new` (`value_tracker.rs:233-239`): the
names from the metadata, then `f0`, `f1`, … except those already taken.  The infinite iterator is
cut off after enough candidates (`C32_parameters` shows that they suffice).  `fmt` is
`format!("f{i}")`. -/
def paramNames (fmt : Nat → String) (names : List String) (n : Nat) : List String :=
  (names ++ ((List.range (n + names.length)).map fmt).filter fun x => !names.contains x).take n

/-! ### Output permutations -/

variable {R : Type} [DecidableEq R]

/-- The loop of `compute_final_permutation` which appends the registers not among the outputs
(`value_tracker.rs:600-606`). -/
def extendOutputs : List R → List R → List R
  | outs, [] => outs
  | outs, r :: rs => if r ∈ outs then extendOutputs outs rs else extendOutputs (outs ++ [r]) rs

/-- `input_hashes` (`value_tracker.rs:593-597`): the last position of a register. -/
def lastPos (r : R) : List R → Option Nat
  | [] => none
  | x :: xs =>
    match lastPos r xs with
    | some i => some (i + 1)
    | none => if x = r then some 0 else none

/-- `compute_final_permutation` (`value_tracker.rs:584-631`). -/
def finalPermutation (outs all : List R) : Option (List (R × R)) :=
  (extendOutputs outs all).mapM fun reg =>
    match lastPos reg all with
    | none => none
    | some i =>
      match all[i]? with
      | none => none
      | some out => some (reg, out)

/-- The keys of the `IndexMap` `latest_qubit_tracker` after all registers of the circuit have been
tracked in order (`decoder.rs:226-287`, `wires.rs:485-503`): an `insert` of an existing key keeps
its place. -/
def trackAll : List R → List R → List R
  | known, [] => known
  | known, r :: rs => if r ∈ known then trackAll known rs else trackAll (known ++ [r]) rs

/-- `IndexMap::get_index_of`. -/
def indexOf (r : R) : List R → Option Nat
  | [] => none
  | x :: xs => if x = r then some 0 else (indexOf r xs).map (· + 1)

/-- `BTreeMap::insert` on a sorted list of entries. -/
def treeInsert (k v : Nat) : List (Nat × Nat) → List (Nat × Nat)
  | [] => [(k, v)]
  | e :: es =>
    if k < e.1 then (k, v) :: e :: es
    else if k = e.1 then (k, v) :: es
    else e :: treeInsert k v es

/-- The loop of `compute_output_permutation` (`wires.rs:427-431`). -/
def reorder (known : List R) : List (R × R) → List (Nat × Nat) → Option (List (Nat × Nat))
  | [], m => some m
  | (a, b) :: ps, m =>
    match indexOf a known, indexOf b known with
    | some i, some j => reorder known ps (treeInsert j i m)
    | _, _ => none

/-- `compute_output_permutation` (`wires.rs:419-433`): only the values of the map are kept. -/
def outputPermutation (known : List R) (perm : List (R × R)) : Option (List Nat) :=
  (reorder known perm []).map fun m => m.map Prod.snd

/-- `known_pytket_qubits` (`wires.rs:460-466`). -/
def knownQubits (known : List R) (out : List Nat) : Option (List R) :=
  (List.range known.length).mapM fun i => known[(out[i]?).getD i]?

/-- The order in which the decoder offers qubits to the output node of the region, for a circuit
with the registers `regs` and the implicit permutation `perm` (`decoder.rs:305-311`). -/
def decodeQubits (regs : List R) (perm : List (R × R)) : Option (List R) :=
  match outputPermutation (trackAll [] regs) perm with
  | none => none
  | some out => knownQubits (trackAll [] regs) out

/-- The same for bits (`wires.rs:469-473`): the order of registration; the encoder stores no
permutation for bits (`value_tracker.rs:446-487`). -/
def decodeBits (regs : List R) : List R := trackAll [] regs

/-- Encoding the outputs of a region (`value_tracker.rs:437-495`) and decoding them again. -/
def roundTripQubits (outs all : List R) : Option (List R) :=
  match finalPermutation outs all with
  | none => none
  | some perm => (decodeQubits all perm).map (·.take outs.length)

def roundTripBits (outs all : List R) : List R := (decodeBits all).take outs.length

end Verif.Registers
