import Verif.Model.Ops

/-!
# Operations as Python objects

Models `tket-py/tket/ops.py`, `tket-py/src/ops.rs`, and the names of operations in `tket/src/ops.rs`.

Comparison follows the rules of Python: the method of the left object is asked first, then that of the right one if the
answer is `NotImplemented`, then identity.  Classes here are not subclasses of each other.  Other objects have the
comparison of `object` and are given by numbers.
-/
namespace Tket.PyOps

/-- Names of `TketOp` in Rust: `IntoStaticStr` and `EnumString` of `strum` use the names of the variants
(ops.rs 22-68, 104-106). -/
def rsName : TketOp → String
  | .H => "H" | .CX => "CX" | .CY => "CY" | .CZ => "CZ" | .CRz => "CRz" | .T => "T" | .Tdg => "Tdg" | .S => "S"
  | .Sdg => "Sdg" | .X => "X" | .Y => "Y" | .Z => "Z" | .Rx => "Rx" | .Ry => "Ry" | .Rz => "Rz"
  | .Toffoli => "Toffoli" | .Measure => "Measure" | .MeasureFree => "MeasureFree" | .QAlloc => "QAlloc"
  | .TryQAlloc => "TryQAlloc" | .QFree => "QFree" | .Reset => "Reset" | .V => "V" | .Vdg => "Vdg"

/-- `TketOp::iter` (`EnumIter`): the variants as they are declared. -/
def rsOps : List TketOp :=
  [.H, .CX, .CY, .CZ, .CRz, .T, .Tdg, .S, .Sdg, .X, .Y, .Z, .Rx, .Ry, .Rz, .Toffoli, .Measure, .MeasureFree, .QAlloc,
    .TryQAlloc, .QFree, .Reset, .V, .Vdg]

/-- `Display` of `Pauli` (ops.rs 86-95): the names of the variants. -/
def rsPauliName : Pauli → String
  | .I => "I" | .X => "X" | .Y => "Y" | .Z => "Z"

/-- `Pauli::iter`. -/
def rsPaulis : List Pauli := [.I, .X, .Y, .Z]

/-- The enumeration `TketOp` of Python (ops.py 28-56). -/
inductive PyOp where
  | H | CX | CY | CZ | CRz | T | Tdg | S | Sdg | X | Y | Z | Rz | Rx | Ry | Toffoli
  | Measure | MeasureFree | QAlloc | TryQAlloc | QFree | Reset | V | Vdg
deriving DecidableEq

/-- The members in the order of the class. -/
def pyOps : List PyOp :=
  [.H, .CX, .CY, .CZ, .CRz, .T, .Tdg, .S, .Sdg, .X, .Y, .Z, .Rz, .Rx, .Ry, .Toffoli, .Measure, .MeasureFree, .QAlloc,
    .TryQAlloc, .QFree, .Reset, .V, .Vdg]

/-- `name` of a member of the enumeration. -/
def PyOp.name : PyOp → String
  | .H => "H" | .CX => "CX" | .CY => "CY" | .CZ => "CZ" | .CRz => "CRz" | .T => "T" | .Tdg => "Tdg" | .S => "S"
  | .Sdg => "Sdg" | .X => "X" | .Y => "Y" | .Z => "Z" | .Rz => "Rz" | .Rx => "Rx" | .Ry => "Ry"
  | .Toffoli => "Toffoli" | .Measure => "Measure" | .MeasureFree => "MeasureFree" | .QAlloc => "QAlloc"
  | .TryQAlloc => "TryQAlloc" | .QFree => "QFree" | .Reset => "Reset" | .V => "V" | .Vdg => "Vdg"

/-- The enumeration `Pauli` of Python (ops.py 82-91). -/
inductive PyPauli where
  | I | X | Y | Z
deriving DecidableEq

/-- The members in the order of the class. -/
def pyPaulis : List PyPauli := [.I, .X, .Y, .Z]

/-- `name` of a member of the enumeration. -/
def PyPauli.name : PyPauli → String
  | .I => "I" | .X => "X" | .Y => "Y" | .Z => "Z"

/-- Exceptions. -/
inductive Exc where
  | value
  | key
  | type
deriving DecidableEq

/-- `PyTketOp::new` (tket-py/src/ops.rs 38-43): `EnumString` compares with the names. -/
def newOp (s : String) : Except Exc TketOp :=
  match rsOps.find? fun o => rsName o = s with
  | some o => .ok o
  | none => .error .value

/-- `PyPauli::new` (tket-py/src/ops.rs 124-129). -/
def newPauli (s : String) : Except Exc Pauli :=
  match rsPaulis.find? fun o => rsPauliName o = s with
  | some o => .ok o
  | none => .error .value

/-- `TketOp._to_rs` (ops.py 62-64). -/
def PyOp.toRs (p : PyOp) : Except Exc TketOp := newOp p.name

/-- `TketOp._from_rs` (ops.py 66-69): `TketOp[op.name]`. -/
def PyOp.fromRs (o : TketOp) : Except Exc PyOp :=
  match pyOps.find? fun p => p.name = rsName o with
  | some p => .ok p
  | none => .error .key

/-- `Pauli._to_rs` (ops.py 98-100). -/
def PyPauli.toRs (p : PyPauli) : Except Exc Pauli := newPauli p.name

/-- `Pauli._from_rs` (ops.py 102-105). -/
def PyPauli.fromRs (o : Pauli) : Except Exc PyPauli :=
  match pyPaulis.find? fun p => p.name = rsPauliName o with
  | some p => .ok p
  | none => .error .key

/-! ### Comparison -/

/-- Python objects: members of the enumerations, objects of the classes of Rust, strings, other objects. -/
inductive Obj where
  | op (p : PyOp)
  | rsOp (o : TketOp)
  | pauli (p : PyPauli)
  | rsPauli (o : Pauli)
  | str (s : String)
  | other (n : Nat)
deriving DecidableEq

/-- The answer of a method `__eq__`. -/
inductive Answer where
  | is (b : Bool)
  | notImplemented
  | raises (e : Exc)
deriving DecidableEq

/-- The method `__eq__` of the first object: ops.py 71-79, tket-py/src/ops.rs 81-83 (an argument that is not of the
class gives `NotImplemented`), ops.py 107-115, tket-py/src/ops.rs 177-182 (an argument that is not of the class gives
`False`), and the methods of `str` and `object`.  `name` of an object of Rust is the name in Rust. -/
def method : Obj → Obj → Answer
  | .op p, .op q => .is (p.name = q.name)
  | .op p, .rsOp o =>
    match PyOp.fromRs o with
    | .ok q => .is (p.name = q.name)
    | .error e => .raises e
  | .op p, .str s => .is (p.name = s)
  | .op _, _ => .is false
  | .rsOp o, .rsOp o' => .is (o = o')
  | .rsOp _, _ => .notImplemented
  | .pauli p, .pauli q => .is (p.name = q.name)
  | .pauli p, .rsPauli o =>
    match PyPauli.fromRs o with
    | .ok q => .is (p.name = q.name)
    | .error e => .raises e
  | .pauli p, .str s => .is (p.name = s)
  | .pauli _, _ => .is false
  | .rsPauli o, .rsPauli o' => .is (o = o')
  | .rsPauli _, _ => .is false
  | .str s, .str t => .is (s = t)
  | .str _, _ => .notImplemented
  | .other n, .other m => if n = m then .is true else .notImplemented
  | .other _, _ => .notImplemented

/-- `a == b`. -/
def eq (a b : Obj) : Except Exc Bool :=
  match method a b with
  | .is r => .ok r
  | .raises e => .error e
  | .notImplemented =>
    match method b a with
    | .is r => .ok r
    | .raises e => .error e
    -- The objects are not identical: every method above accepts the object itself.
    | .notImplemented => .ok false

/-! ### Conversion to operations of extensions, and hashes -/

/-- A custom operation: extension and name. -/
structure Custom where
  extension : String
  name : String
deriving DecidableEq

/-- `PyTketOp::to_custom` (tket-py/src/ops.rs 66-68). -/
def custom (o : TketOp) : Custom := ⟨"tket.quantum", rsName o⟩

/-- `qualified_name` (tket-py/src/ops.rs 61-63). -/
def qualifiedName (o : TketOp) : String := "tket.quantum." ++ rsName o

/-- `TketOp.to_custom` (ops.py 58-60). -/
def PyOp.toCustom (p : PyOp) : Except Exc Custom :=
  match p.toRs with
  | .ok o => .ok (custom o)
  | .error e => .error e

/-- Calling the class `CustomOp`: it has no `#[new]` (tket-py/src/ops.rs 216-251), so Python raises `TypeError`. -/
def customNew (_extension _name : String) : Except Exc Custom := .error .type

/-- `Pauli.to_custom` (ops.py 93-96). -/
def PyPauli.toCustom (p : PyPauli) : Except Exc Custom := customNew "tket.quantum" p.name

/-- `name` of a custom operation (tket-py/src/ops.rs 250-253). -/
def Custom.getName (c : Custom) : String := c.name

/-- Whether a class defines `__eq__` and `__hash__`: ops.py 28-79, 82-115, tket-py/src/ops.rs 35-84, 119-183. -/
def defines : Obj → Bool × Bool
  | .op _ => (true, false)
  | .rsOp _ => (true, false)
  | .pauli _ => (true, false)
  | .rsPauli _ => (true, false)
  | .str _ => (true, true)
  | .other _ => (false, false)

/-- Whether `hash(x)` works: Python removes the hash of classes that define `__eq__` without `__hash__`. -/
def hashable (x : Obj) : Bool := !(defines x).1 || (defines x).2

end Tket.PyOps
