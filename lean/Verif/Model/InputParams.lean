/-!
# Parameters of decoded circuits

Model of how the pytket decoder binds the variables of parameter expressions to inputs of the region
(`tket/src/serialize/pytket/decoder.rs:196-286`, `decoder/wires.rs:893-1063`), and of the names that
the encoder gives to such inputs (`encoder/value_tracker.rs:211-282`).

Simplifications that hold for the whole file:

* Expressions are given as parsed (parsing is in `Model/Params`); operations have one or two arguments.
* An input is its position. Conversions between floats, radians and rotations are left out (they are
  in `Model/Params`): a tree says which input is used where.
* Qubits and bits are only counted.
-/

namespace Verif.InputParams

/-- `RegisterCount`: what a type stands for in pytket. -/
structure Count where
  qubits : Nat
  bits : Nat
  params : Nat
  deriving DecidableEq, Repr

/-- `PytketParam` (decoder/param/parser.rs:24-48). -/
inductive Exp where
  | const (c : Nat)
  | sympy (s : String)
  | var (n : String)
  | op1 (o : Nat) (a : Exp)
  | op2 (o : Nat) (a b : Exp)
  deriving DecidableEq, Repr

/-- The value that is loaded. -/
inductive Tree where
  | const (c : Nat)
  | pi
  | sympy (s : String)
  | input (i : Nat)
  | op1 (o : Nat) (a : Tree)
  | op2 (o : Nat) (a b : Tree)
  deriving DecidableEq, Repr

/-- `InvalidInputSignature`, `UnsupportedParametersInInput` and `DuplicatedParameter`. -/
inductive Err where
  | signature
  | params
  | duplicate (n : String)
  deriving DecidableEq, Repr

/-- The fields of `WireTracker` for parameters (wires.rs:332-342), and the number of inputs. -/
structure Tracker where
  params : List (String × Nat)
  unused : List Nat
  vars : List String
  inputs : Nat
  deriving DecidableEq, Repr

/-- Insertion into an `IndexSet`. -/
def insertVar (vars : List String) (n : String) : List String :=
  if n ∈ vars then vars else vars ++ [n]

/-- `register_input_parameter` (wires.rs:1043-1058). -/
def register (t : Tracker) (n : String) (i : Nat) : Except Err Tracker :=
  if n ∈ t.params.map Prod.fst then .error (.duplicate n)
  else .ok { t with params := t.params ++ [(n, i)], vars := insertVar t.vars n }

/-- The loop over the inputs of the signature (decoder.rs:218-266): `i` is the position, `q` the number
of qubits that are left. -/
def initLoop : List Count → Nat → Nat → List String → Tracker → Except Err (Tracker × List String)
  | [], _, _, names, t => .ok (t, names)
  | c :: cs, i, q, names, t =>
    if c = ⟨0, 0, 0⟩ then initLoop cs (i + 1) q names t
    else if q < c.qubits then .error .signature
    else if c.params > 0 then
      if c ≠ ⟨0, 0, 1⟩ then .error .params
      else match names with
        | n :: ns =>
          match register t n i with
          | .ok t => initLoop cs (i + 1) q ns t
          | .error e => .error e
        | [] => initLoop cs (i + 1) q [] { t with unused := t.unused ++ [i] }
    else initLoop cs (i + 1) (q - c.qubits) names t

/-- Names that are left get new inputs (decoder.rs:268-274). -/
def addRest : List String → Tracker → Except Err Tracker
  | [], t => .ok t
  | n :: ns, t =>
    match register { t with inputs := t.inputs + 1 } n t.inputs with
    | .ok t => addRest ns t
    | .error e => .error e

/-- `init_wire_tracker` (decoder.rs:196-286). -/
def init (sig : List Count) (q : Nat) (names : List String) : Except Err Tracker :=
  match initLoop sig 0 q names ⟨[], [], [], sig.length⟩ with
  | .ok (t, rest) => addRest rest t
  | .error e => .error e

/-- The input of a variable (wires.rs:946-961). -/
def varInput (t : Tracker) (n : String) : Nat × Tracker :=
  match t.params.find? (fun p => p.1 == n) with
  | some p => (p.2, t)
  | none =>
    match t.unused with
    | i :: rest =>
      (i, ⟨t.params ++ [(n, i)], rest, insertVar t.vars n, t.inputs⟩)
    | [] =>
      (t.inputs, ⟨t.params ++ [(n, t.inputs)], [], insertVar t.vars n, t.inputs + 1⟩)

/-- `load_half_turns_parameter` (wires.rs:893-1002). -/
def load : Exp → Tracker → Tree × Tracker
  | .const c, t => (.const c, t)
  | .sympy s, t => (.sympy s, t)
  | .var n, t =>
    if n = "pi" then (.pi, t)
    else
      let r := varInput t n
      (.input r.1, r.2)
  | .op1 o a, t =>
    let r := load a t
    (.op1 o r.1, r.2)
  | .op2 o a b, t =>
    let r := load a t
    let s := load b r.2
    (.op2 o r.1 s.1, s.2)

/-- The parameters of all commands, in order, and then those of the outputs (decoder.rs:315-319). -/
def loadAll : List Exp → Tracker → List Tree × Tracker
  | [], t => ([], t)
  | e :: es, t =>
    let r := load e t
    let s := loadAll es r.2
    (r.1 :: s.1, s.2)

/-- What is decoded: the values of the parameters, the number of inputs, and the names that are stored
as `METADATA_INPUT_PARAMETERS` (decoder.rs:405-413). -/
structure Decoded where
  trees : List Tree
  inputs : Nat
  names : List String
  deriving DecidableEq, Repr

/-- Decoding a circuit with a signature and input parameters (decoder.rs:130-194 and 405-413), as far as
parameters go. -/
def decode (sig : List Count) (q : Nat) (names : List String) (es : List Exp) :
    Except Err Decoded :=
  match init sig q names with
  | .ok t =>
    let r := loadAll es t
    .ok ⟨r.1, r.2.inputs, r.2.vars⟩
  | .error e => .error e

/-! ### The encoder -/

/-- The names the encoder generates (value_tracker.rs:235-241): the first `n` of them are found among
the first `stored.length + n` candidates. -/
def generated (stored : List String) (n : Nat) : List String :=
  ((List.range (stored.length + n)).map fun i => "f" ++ toString i).filter
    fun s => !stored.contains s

/-- The names of the parameters of a region, in the order of its inputs (value_tracker.rs:236-278):
those of the metadata first. -/
def encNames (stored : List String) (sig : List Count) : List String :=
  let n := (sig.map Count.params).sum
  (stored ++ generated stored n).take n

/-- A parameter in a region before it is encoded: constants, the `k`-th parameter of the region, symbolic
expressions (`SympyOp`), and operations on rotations and floats. -/
inductive Src where
  | const (c : Nat)
  | param (k : Nat)
  | sympy (s : String)
  | op1 (o : Nat) (a : Src)
  | op2 (o : Nat) (a b : Src)
  deriving DecidableEq, Repr

/-- The expression of a parameter (value_tracker.rs:271-275, extension/tket.rs:106-116): the name of an
input, and the text of a symbolic expression as it is. Simplified: the texts are given as what they are
parsed to; `parse` is the parser (`Model/Params`). -/
def Src.encode (parse : String → Exp) (names : List String) : Src → Exp
  | .const c => .const c
  | .param k => parse (names.getD k "")
  | .sympy s => parse s
  | .op1 o a => .op1 o (a.encode parse names)
  | .op2 o a b => .op2 o (a.encode parse names) (b.encode parse names)

/-! ### Outputs -/

/-- What an output of a region is connected to: a parameter, an input whose type pytket does not have, an
output of an unsupported subgraph, registers, or nothing (with a type that pytket does not have). -/
inductive Out where
  | param (a : Src)
  | through (i : Nat)
  | subgraph (i : Nat)
  | reg
  | free
  deriving DecidableEq, Repr

/-- Parameter expressions of the outputs (value_tracker.rs:456-485). -/
def outParams : List Out → List Src
  | [] => []
  | .param a :: os => a :: outParams os
  | _ :: os => outParams os

/-- Wires from inputs to outputs, from the `p`-th output on (value_tracker.rs:456-470). -/
def straight : Nat → List Out → List (Nat × Nat)
  | _, [] => []
  | p, .through i :: os => (i, p) :: straight (p + 1) os
  | p, _ :: os => straight (p + 1) os

/-- Kinds of types of outputs in `find_typed_wire` (wires.rs:664-694). -/
inductive OutTy where
  | param
  | register
  | other
  deriving DecidableEq, Repr

/-- What an output of the decoded region is connected to. -/
inductive Link where
  | tree (t : Tree)
  | input (i : Nat)
  | subgraph (i : Nat)
  | register
  | none
  deriving DecidableEq, Repr

/-- Links that exist before the outputs are connected: wires from inputs (decoder.rs:490-503), and those of
subgraphs that were put back, given as pairs of an output of the subgraph and an output of the region. -/
def linked (st subs : List (Nat × Nat)) (p : Nat) : Option Link :=
  match st.find? (fun w => w.2 == p) with
  | some w => some (.input w.1)
  | .none =>
    match subs.find? (fun w => w.2 == p) with
    | some w => some (.subgraph w.1)
    | .none => .none

/-- The loop over the outputs in `finish` (decoder.rs:330-398), from the `p`-th output on, with the
parameters that are left. `none`: there is no parameter (wires.rs:665-669). Which registers are taken is
the subject of other models (`Model/Registers`, `Model/Decoder`). -/
def finish (l : Nat → Option Link) : Nat → List OutTy → List Tree → Option (List Link)
  | _, [], _ => some []
  | p, ty :: tys, ts =>
    match l p with
    | some k => (finish l (p + 1) tys ts).map (k :: ·)
    | .none =>
      match ty with
      | .param =>
        match ts with
        | t :: ts => (finish l (p + 1) tys ts).map (.tree t :: ·)
        | [] => .none
      | .register => (finish l (p + 1) tys ts).map (.register :: ·)
      | .other => (finish l (p + 1) tys ts).map (.none :: ·)

end Verif.InputParams
