import Verif.Lemmas.DecoderTyped

/-!
# C38: the wires of the pytket decoder
-/

namespace Verif.Decoder

variable {T R L : Type} [DecidableEq T] [DecidableEq R]

/-! ### Examples -/

/-- Types for the examples: qubits, native and opaque booleans, rotations, pairs of qubits and
something the decoder does not know. -/
inductive Ty where
  | q | b | tb | rot | qq | other
  deriving DecidableEq, Repr

/-- A configuration without tuples. -/
def plain : Cfg Ty Nat where
  qubits t := match t with | .q => 1 | _ => 0
  bits t := match t with | .b | .tb => 1 | _ => 0
  param t := t == .rot
  qb := .q
  bool := .b
  tbool := .tb
  rot := .rot
  single _ := true

/-- The same with pairs. -/
def pairs : Cfg Ty Nat :=
  { plain with qubits := fun t => match t with | .q => 1 | .qq => 2 | _ => 0 }

theorem plain_simple : plain.Simple := by
  constructor <;> first | rfl | (intro t; cases t <;> simp [plain, Cfg.supported])

/-- Two qubits of which one is an input, three bits of which one is an input: a rotation, a CX, a
measurement, an opaque operation on a bit, and swapped outputs. -/
def demo : Circ Ty Nat Nat where
  qubits := [0, 1]
  bits := [10, 11, 12]
  sigIn := [.b, .q]
  sigOut := [.q, .b, .b, .q, .b]
  cmds := [
    ⟨0, [0], [7], [.q, .rot], [.q], .split 0⟩,
    ⟨1, [0, 1], [], [.q, .q], [.q, .q], .both⟩,
    ⟨2, [1, 11], [], [.q], [.q, .b], .split 0⟩,
    ⟨3, [11, 0, 12], [], [], [], .opaque⟩]
  perm := [1, 0]
  outParams := []

theorem demo_ok : demo.Ok plain := by
  refine ⟨fun _ _ => rfl, by decide, by decide, ?_, by decide, by decide, by decide, by decide,
    by decide, by decide⟩
  intro x hx
  simp only [demo, List.mem_cons, List.not_mem_nil, or_false] at hx
  rcases hx with rfl | rfl | rfl | rfl <;>
    refine ⟨by decide, by decide, by simp [Cfg.paramsLast, plain], ?_, by decide, by decide,
      by decide, by decide, by decide, by decide, by decide, by decide⟩ <;>
    (intro n hn; simp at hn) <;> (subst hn; decide)

theorem demo_native : demo.Native plain := by
  refine ⟨by decide, by decide, by decide, by decide, by decide⟩

/-! ### The wire of a register is the one written last -/

/-- Whatever the decoder returns does what the circuit does, as a sequential program on registers:
every command, and the output of the region, receives on every port the value last written to the
register, the input of the region for a register that no command wrote, and a fresh qubit or false
for a register that is not an input either. Assumes that registers are carried by single qubits and
booleans and that operations take their parameters last. -/
theorem C38_last_writer_partial (c : Cfg T R) (hc : c.Simple) (k : Circ T R L)
    (hq : k.qubits.Nodup) (hb : k.bits.Nodup) (hp : ∀ x ∈ k.cmds, c.paramsLast x.sigIn)
    (ns : List (Node T L)) (h : decode c k = .ok ns) : observe ns = spec c k :=
  decode_spec hc hq hb hp h

/-- The decoder succeeds on every circuit whose commands fit their operations, if every bit that a
command reads is also written by it. -/
theorem C38_succeeds_partial (c : Cfg T R) (hc : c.Simple) (k : Circ T R L) (hk : k.Ok c) :
    ∃ ns, decode c k = .ok ns ∧ observe ns = spec c k := by
  obtain ⟨ns, h⟩ := decode_ok hc hk
  exact ⟨ns, h, decode_spec hc hk.qubits hk.bits (fun x hx => (hk.cmds x hx).last) h⟩

example : ∃ ns, decode plain demo = .ok ns ∧ observe ns = spec plain demo :=
  C38_succeeds_partial plain plain_simple demo demo_ok

/-- The values of the example: the second output port of the measurement, and so on. -/
example : (spec plain demo).map (fun x => (x.1, x.2.length)) =
    [(some 0, 2), (some 1, 2), (some 2, 1), (some 3, 3), (none, 5)] := by decide

example : (spec plain demo)[2]? = some (some 2, [.out 1 1 [.out 0 0 [.inp 1, .par 7], .zero]]) := rfl

/-! ### Qubit wires are used once -/

/-- Every qubit wire of a decoded region is used exactly once: none is used twice and none is left
dangling. Assumes in addition that no command names a qubit twice and that the permutation of the
outputs is one. -/
theorem C38_qubits_used_once_partial (c : Cfg T R) (hc : c.Simple) (k : Circ T R L)
    (hq : k.qubits.Nodup) (hb : k.bits.Nodup) (hp : ∀ x ∈ k.cmds, c.paramsLast x.sigIn)
    (hd : ∀ x ∈ k.cmds, (x.qs k.bits).Nodup) (ho : k.outQubits.Perm k.qubits)
    (ns : List (Node T L)) (h : decode c k = .ok ns) (w : Wire) (hw : typeOf ns w = some c.qb) :
    uses ns w = 1 :=
  decode_once hc hq hb hp hd ho h hw

example : ∀ ns, decode plain demo = .ok ns → ∀ w, typeOf ns w = some .q → uses ns w = 1 :=
  fun ns h w hw => C38_qubits_used_once_partial plain plain_simple demo demo_ok.qubits demo_ok.bits
    (fun x hx => (demo_ok.cmds x hx).last) (fun x hx => (demo_ok.cmds x hx).nodup) demo_ok.perm
    ns h w hw

/-- If no opaque booleans occur, the decoded region is well typed. -/
theorem C38_well_typed_partial (c : Cfg T R) (hc : c.Simple) (k : Circ T R L)
    (hq : k.qubits.Nodup) (hb : k.bits.Nodup) (hp : ∀ x ∈ k.cmds, c.paramsLast x.sigIn)
    (hk : k.Native c) (ns : List (Node T L)) (h : decode c k = .ok ns) : WellTyped ns :=
  decode_typed hc hq hb hp hk h

example : ∃ ns, decode plain demo = .ok ns ∧ WellTyped ns := by
  obtain ⟨ns, h, _⟩ := C38_succeeds_partial plain plain_simple demo demo_ok
  exact ⟨ns, h, C38_well_typed_partial plain plain_simple demo demo_ok.qubits demo_ok.bits
    (fun x hx => (demo_ok.cmds x hx).last) demo_native ns h⟩

/-! ### What goes wrong -/

/-- Reads bits 10 and 11 and writes bit 12 (`ClExpr` with `BitAnd`), twice. -/
def readTwice (t : Ty) : Circ Ty Nat Nat where
  qubits := []
  bits := [10, 11, 12, 13]
  sigIn := [t, t]
  sigOut := []
  cmds := [⟨0, [10, 11, 12], [], [.tb, .tb], [.tb], .split 2⟩,
    ⟨0, [10, 11, 13], [], [.tb, .tb], [.tb], .split 2⟩]
  perm := []
  outParams := []

/-- A bit that a command reads without writing it cannot be used again: reading marks it as
outdated. -/
theorem C38_bit_cannot_be_read_twice :
    decode plain (readTwice .tb) = .error .outdatedBit := by decide +kernel

/-- After a conversion the new wire is recorded with the type of the old one, so a second use
converts it again and the region is not well typed. -/
theorem C38_converted_bit_is_ill_typed :
    ∃ ns, decode plain (readTwice .b) = .ok ns ∧ ¬ WellTyped ns := by
  refine ⟨_, rfl, ?_⟩
  intro h
  obtain ⟨t, h1, h2⟩ := (h.2.2.1) 0 ⟨2, 0⟩ rfl
  have h3 : some Ty.tb = some t := h1
  have h4 : some Ty.b = some t := h2
  exact absurd (h3.trans h4.symm) (by decide)

/-- A command that names a qubit twice uses its wire twice. -/
def sameQubit : Circ Ty Nat Nat where
  qubits := [0]
  bits := []
  sigIn := [.q]
  sigOut := [.q]
  cmds := [⟨1, [0, 0], [], [.q, .q], [.q, .q], .split 0⟩]
  perm := []
  outParams := []

theorem C38_repeated_argument_uses_wire_twice :
    ∃ ns, decode plain sameQubit = .ok ns ∧ typeOf ns ⟨0, 0⟩ = some .q ∧ uses ns ⟨0, 0⟩ = 2 ∧
      typeOf ns ⟨1, 0⟩ = some .q ∧ uses ns ⟨1, 0⟩ = 0 := ⟨_, rfl, by decide, by decide +kernel,
        by decide, by decide +kernel⟩

/-- The input of the region is a pair of qubits, and a command uses one of them. -/
def tupleInput : Circ Ty Nat Nat where
  qubits := [0, 1]
  bits := []
  sigIn := [.qq]
  sigOut := [.q, .q]
  cmds := [⟨0, [0], [], [.q], [.q], .split 0⟩]
  perm := []
  outParams := []

/-- A register that arrives in a tuple is silently replaced by a fresh qubit: the command receives
`|0⟩` instead of the input, and the input is not used at all. -/
theorem C38_register_in_tuple_is_lost :
    ∃ ns, decode pairs tupleInput = .ok ns ∧
      observe ns = [(some 0, [.zero]), (none, [.out 0 0 [.zero], .zero])] ∧
      typeOf ns ⟨0, 0⟩ = some .qq ∧ uses ns ⟨0, 0⟩ = 0 :=
  ⟨_, rfl, rfl, by decide, by decide +kernel⟩

/-- An operation with its parameter first receives its inputs in the wrong order. -/
def paramFirst : Circ Ty Nat Nat where
  qubits := [0]
  bits := []
  sigIn := [.q]
  sigOut := [.q]
  cmds := [⟨0, [0], [7], [.rot, .q], [.q], .split 0⟩]
  perm := []
  outParams := []

theorem C38_param_first_is_miswired :
    ∃ ns, decode plain paramFirst = .ok ns ∧
      (observe ns)[0]? = some (some 0, [.inp 0, .par 7]) ∧
      (spec plain paramFirst)[0]? = some (some 0, [.par 7, .inp 0]) :=
  ⟨_, rfl, rfl, rfl⟩

/-- A barrier on a qubit and a bit: prelude.rs 161 gives the operation no output bits. -/
def barrier (qs bs : List Nat) : Circ Ty Nat Nat where
  qubits := qs
  bits := bs
  sigIn := []
  sigOut := []
  cmds := [⟨0, qs ++ bs, [], qs.map (fun _ => .q) ++ bs.map (fun _ => .b),
    qs.map (fun _ => .q) ++ bs.map (fun _ => .b), .split bs.length⟩]
  perm := []
  outParams := []

theorem C38_barrier_on_bits_fails :
    decode plain (barrier [0] [10]) = .error .notEnoughOutput ∧
    ∃ ns, decode plain (barrier [0] []) = .ok ns := ⟨by decide +kernel, _, rfl⟩

/-- The region has an output qubit that the circuit does not have. -/
def missingOutput : Circ Ty Nat Nat where
  qubits := []
  bits := []
  sigIn := []
  sigOut := [.q]
  cmds := []
  perm := []
  outParams := []

theorem C38_missing_output_panics : decode plain missingOutput = .error .panic := by decide +kernel

end Verif.Decoder
