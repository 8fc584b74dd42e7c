/-!
# Normalising programs made by Guppy

Model of `tket/src/passes/guppy.rs` (`NormalizeGuppy`), of `normalize_guppy` in `tket-py/src/passes.rs` 67-90, of
`try_with_circ` and `CircuitType::convert` in `tket-py/src/circuit/convert.rs` 33-81.

The six passes are parameters: five of them are those of `hugr`, `BorrowSquashPass` is modelled in
`Model/BorrowSquash`.  A pass gives the program afterwards, also if it fails.
-/
namespace Tket.NormalizeGuppy

/-- `NormalizeGuppy` (guppy.rs 17-31). -/
structure Options where
  simplifyCfgs : Bool
  untuple : Bool
  constantFold : Bool
  deadFuncs : Bool
  inlineDfgs : Bool
  squashBorrows : Bool
deriving DecidableEq

/-- `NormalizeGuppy::default` (guppy.rs 66-77). -/
def Options.default : Options := ⟨true, true, true, true, true, true⟩

/-- `simplify_cfgs` (guppy.rs 35-38). -/
def Options.setCfgs (o : Options) (b : Bool) : Options := { o with simplifyCfgs := b }
/-- `remove_tuple_untuple` (guppy.rs 40-43). -/
def Options.setUntuple (o : Options) (b : Bool) : Options := { o with untuple := b }
/-- `constant_folding` (guppy.rs 45-48). -/
def Options.setFold (o : Options) (b : Bool) : Options := { o with constantFold := b }
/-- `remove_dead_funcs` (guppy.rs 50-53). -/
def Options.setDead (o : Options) (b : Bool) : Options := { o with deadFuncs := b }
/-- `inline_dfgs` (guppy.rs 55-58). -/
def Options.setInline (o : Options) (b : Bool) : Options := { o with inlineDfgs := b }
/-- `squash_borrows` (guppy.rs 60-63). -/
def Options.setSquash (o : Options) (b : Bool) : Options := { o with squashBorrows := b }

/-- The passes on programs `H` with errors `E`.  The errors of `InlineDFGsPass` and of `BorrowSquashPass` are
`Infallible` (guppy.rs 103, 108-110: `match e {}`). -/
structure Parts (H E : Type) where
  cfg : H → H × Option E
  untuple : H → H × Option E
  fold : H → H × Option E
  dead : H → H × Option E
  inline : H → H
  squash : H → H

/-- `NormalizeGuppyErrors` (guppy.rs 119-131). -/
inductive Err (E : Type) where
  | simplifyCFG (e : E)
  | untuple (e : E)
  | constantFold (e : E)
  | deadFuncs (e : E)
  | inline (e : E)
deriving DecidableEq

/-- A statement `if on { pass.run(hugr)?; }` and what follows. -/
def attempt {H E : Type} (on : Bool) (pass : H → H × Option E) (wrap : E → Err E) (h : H)
    (next : H → H × Option (Err E)) : H × Option (Err E) :=
  if on then
    match pass h with
    | (h', some e) => (h', some (wrap e))
    | (h', none) => next h'
  else next h

/-- `NormalizeGuppy::run` (guppy.rs 82-115): the program afterwards and the error. -/
def run {H E : Type} (o : Options) (p : Parts H E) (h : H) : H × Option (Err E) :=
  attempt o.simplifyCfgs p.cfg .simplifyCFG h fun h =>
  attempt o.untuple p.untuple .untuple h fun h =>
  attempt o.constantFold p.fold .constantFold h fun h =>
  attempt o.deadFuncs p.dead .deadFuncs h fun h =>
    let h := if o.inlineDfgs then p.inline h else h
    let h := if o.squashBorrows then p.squash h else h
    (h, none)

/-! ### Python -/

/-- Circuits as Python objects: `Tk2Circuit`, and `pytket.Circuit` (`CircuitType`, convert.rs 33-40). -/
inductive PyCirc (H S : Type) where
  | tket (h : H)
  | tket1 (s : S)
deriving DecidableEq

/-- Conversions between the formats, each with both steps of the code: `SerialCircuit::from_tket1` and `decode`
(convert.rs 73-78), `SerialCircuit::encode` and `to_tket1` (convert.rs 46-51). -/
structure Convert (H S X : Type) where
  decode : S → Except X H
  encode : H → Except X S

/-- Exceptions: of conversions, and `NormalizeGuppyError`.  `noObject` stands for a call without a circuit. -/
inductive PyErr (E X : Type) where
  | convert (x : X)
  | normalize (e : Err E)
  | noObject
deriving DecidableEq

/-- The arguments with keywords (passes.rs 66). -/
structure Kwargs where
  simplifyCfgs : Bool := true
  removeTupleUntuple : Bool := true
  constantFolding : Bool := false
  removeDeadFuncs : Bool := true
  inlineDfgs : Bool := true
deriving DecidableEq

/-- The options that the arguments give (passes.rs 77-83). -/
def Kwargs.options (k : Kwargs) : Options :=
  ((((Options.default.setCfgs k.simplifyCfgs).setUntuple k.removeTupleUntuple).setFold k.constantFolding).setDead
    k.removeDeadFuncs).setInline k.inlineDfgs

/-- `CircuitType::convert` (convert.rs 44-54); the flag says whether the format is that of pytket. -/
def convert {H S E X : Type} (cv : Convert H S X) (tk1 : Bool) (h : H) : Except (PyErr E X) (PyCirc H S) :=
  if tk1 then
    match cv.encode h with
    | .ok s => .ok (.tket1 s)
    | .error x => .error (.convert x)
  else .ok (.tket h)

/-- `try_with_circ` (convert.rs 61-81): the circuit is a copy. -/
def withCirc {H S E X T : Type} (cv : Convert H S X) (c : PyCirc H S) (f : H → Bool → Except (PyErr E X) T) :
    Except (PyErr E X) T :=
  match c with
  | .tket h => f h false
  | .tket1 s =>
    match cv.decode s with
    | .ok h => f h true
    | .error x => .error (.convert x)

/-- `normalize_guppy` (passes.rs 67-90) on objects in memory: a new object is added at the end. -/
def normalizePy {H S E X : Type} (cv : Convert H S X) (p : Parts H E) (k : Kwargs) (mem : List (PyCirc H S)) (i : Nat) :
    List (PyCirc H S) × Except (PyErr E X) Nat :=
  match mem[i]? with
  | none => (mem, .error .noObject)
  | some c =>
    match withCirc cv c (fun h tk1 =>
      match run k.options p h with
      | (_, some e) => .error (.normalize e)
      | (h', none) => convert cv tk1 h') with
    | .ok c' => (mem ++ [c'], .ok mem.length)
    | .error e => (mem, .error e)

end Tket.NormalizeGuppy
