import Verif.Model.Quartz

/-
What circuits of a Quartz file and graphs mean.
-/
namespace Verif.Quartz

open Tket

/-- Values of names and wires: which qubit of the register they hold, or an angle. -/
inductive Val (R : Type) where
  | label (l : Nat)
  | angle (a : R)
deriving DecidableEq

/-- A gate on qubits of the register. -/
structure Act (R : Type) where
  gate : TketOp
  qubits : List Nat
  angles : List R
deriving DecidableEq

/-- The gates that are applied, and where the qubits of the register are at the end. -/
structure Meaning (R : Type) where
  acts : List (Act R)
  outs : List Nat
deriving DecidableEq

def Val.label? {R : Type} : Val R → Option Nat
  | .label l => some l
  | .angle _ => none

def Val.angle? {R : Type} : Val R → Option R
  | .label _ => none
  | .angle a => some a

/-- The names of the gates in Quartz. -/
def quartzNames : List (String × GOp) :=
  [("h", .gate .H), ("x", .gate .X), ("y", .gate .Y), ("z", .gate .Z), ("s", .gate .S), ("sdg", .gate .Sdg),
   ("t", .gate .T), ("tdg", .gate .Tdg), ("v", .gate .V), ("vdg", .gate .Vdg), ("cx", .gate .CX),
   ("rz", .gate .Rz), ("add", .radd)]

variable {R : Type} [Add R]

/-- The effect of an operation on its inputs. Gates act on distinct qubits. -/
def apply (op : GOp) (vs : List (Val R)) : Option (List (Act R) × List (Val R)) :=
  match op with
  | .gate g => do
    let qs ← (vs.take g.qubits).mapM Val.label?
    let as ← (vs.drop g.qubits).mapM Val.angle?
    if qs.Nodup ∧ qs.length = g.qubits ∧ as.length = (if g = .Rz then 1 else 0) then
      some ([⟨g, qs, as⟩], qs.map .label)
    else none
  | .radd => match vs with
    | [.angle a, .angle b] => some ([], [.angle (a + b)])
    | _ => none

/-- Values of the wires after some nodes, and the gates so far. -/
structure GSt (R : Type) where
  n : Nat
  env : Wire → Option (Val R)
  acts : List (Act R)

def setOuts (env : Wire → Option (Val R)) (n : Nat) (vs : List (Val R)) : Wire → Option (Val R)
  | .inp i => env (.inp i)
  | .out m k => if m = n then vs[k]? else env (.out m k)

def nodeStep (s : GSt R) (e : GOp × List Wire) : Option (GSt R) := do
  let vs ← e.2.mapM s.env
  let r ← apply e.1 vs
  some ⟨s.n + 1, setOuts s.env s.n r.2, s.acts ++ r.1⟩

/-- Qubits come first, then the parameters. -/
def gInit (nQb nParam : Nat) (θ : Nat → R) : GSt R where
  n := 0
  env
    | .inp i => if i < nQb then some (.label i) else if i < nQb + nParam then some (.angle (θ (i - nQb))) else none
    | .out _ _ => none
  acts := []

/-- The meaning of a graph for given parameters. -/
def Graph.eval (g : Graph) (θ : Nat → R) : Option (Meaning R) := do
  let s ← g.nodes.foldlM nodeStep (gInit g.nQb g.nParam θ)
  let vs ← g.outs.mapM s.env
  let ls ← vs.mapM Val.label?
  some ⟨s.acts, ls⟩

/-- Values of the names, and the gates so far. -/
structure QSt (R : Type) where
  env : Name → Option (Val R)
  acts : List (Act R)

/-- The qubits of a command leave their names. -/
def consume (env : Name → Option (Val R)) (xs : List Name) : Name → Option (Val R) := fun y =>
  match env y with
  | some (.label l) => if y ∈ xs then none else some (.label l)
  | v => v

/-- A name gets a value. A qubit cannot be overwritten. -/
def define (env : Name → Option (Val R)) (e : Name × Val R) : Option (Name → Option (Val R)) :=
  match env e.1 with
  | some (.label _) => none
  | _ => some (insert env e.1 e.2)

/-- A command: its outputs are named by it. -/
def cmdStep (s : QSt R) (c : Cmd) : Option (QSt R) := do
  let op ← quartzNames.lookup c.op
  let vs ← c.inputs.mapM s.env
  let r ← apply op vs
  if c.outputs.length = r.2.length then
    let env ← (c.outputs.zip r.2).foldlM define (consume s.env c.inputs)
    some ⟨env, s.acts ++ r.1⟩
  else none

def qInit (d : Data) (θ : Nat → R) : QSt R where
  env
    | .q i => if i < d.nQb then some (.label i) else none
    | .p i => if i < d.nParam then some (.angle (θ i)) else none
    | .other _ => none
  acts := []

/-- The meaning of a circuit in a file. -/
def Data.eval (d : Data) (θ : Nat → R) : Option (Meaning R) := do
  let s ← d.cmds.foldlM cmdStep (qInit d θ)
  let vs ← ((List.range d.nQb).map Name.q).mapM s.env
  let ls ← vs.mapM Val.label?
  some ⟨s.acts, ls⟩

/-- Gates name their outputs as their inputs. -/
def Kept (d : Data) : Prop :=
  ∀ c ∈ d.cmds, ∀ g, quartzNames.lookup c.op = some (.gate g) → c.outputs = c.inputs.take g.qubits

end Verif.Quartz
