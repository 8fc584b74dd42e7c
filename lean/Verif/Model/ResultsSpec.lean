import Verif.Model.Results

/-
What constant strings, results and exit codes should be.
-/
namespace Verif.Results

/-- A request for a constant string: the string, the prefix of the symbol and of the string. -/
structure Request where
  str : Str
  pre : Str
  strPre : Str

/-- The content of the constant: a byte with the length, then the text. -/
def Request.content (w : World) (r : Request) : List Nat :=
  (w.enc (r.strPre ++ r.str)).length :: w.enc (r.strPre ++ r.str)

/-- Emission of several strings one after the other: the module and the variables, or nothing if
one fails. -/
def emitMany (w : World) : Globals → List Request → Option (Globals × List Str)
  | m, [] => some (m, [])
  | m, r :: rs =>
    match emitString w m r.str r.pre r.strPre with
    | .ok m' n => (emitMany w m' rs).map fun p => (p.1, n :: p.2)
    | _ => none

/-- The operation is built as the constructors do: arguments of the right form. -/
def ROp.wf (op : ROp) : Prop :=
  match op.op, op.args with
  | .bool, .simple .basic => True
  | .f64, .simple .basic => True
  | .int, .simple (.int _) => True
  | .uint, .simple (.int _) => True
  | .arrBool, .array .basic _ => True
  | .arrF64, .array .basic _ => True
  | .arrInt, .array (.int _) _ => True
  | .arrUInt, .array (.int _) _ => True
  | _, _ => False

/-- The value is of the type of the operation. -/
def ROp.accepts (op : ROp) (v : Data) : Prop :=
  match op.args, v with
  | .simple s, .one n => n < 256 ^ elemBytes op.op s
  | .array s size, .many ns => ns.length = size ∧ ∀ n ∈ ns, n < 256 ^ elemBytes op.op s
  | _, _ => False

/-- The integers are 64 bits wide. -/
def ROp.wide (op : ROp) : Prop :=
  match op.args with
  | .simple (.int w) => w = 6
  | .array (.int w) _ => w = 6
  | _ => True

/-- The numbers of a value. -/
def Data.values : Data → List Nat
  | .one n => [n]
  | .many ns => ns

/-- Arrays. -/
def Def.isArr : Def → Bool
  | .arrBool | .arrInt | .arrUInt | .arrF64 => true
  | _ => false

/-- The name of the type in tags. -/
def Def.typeName : Def → Str
  | .bool | .arrBool => ['B', 'O', 'O', 'L']
  | .f64 | .arrF64 => ['F', 'L', 'O', 'A', 'T']
  | _ => ['I', 'N', 'T']

/-- Tags start with `USER`, the name of the type, and `ARR` for arrays. -/
def wantedTag (op : ROp) : Str :=
  ['U', 'S', 'E', 'R', ':'] ++ op.op.typeName ++ (if op.op.isArr then ['A', 'R', 'R'] else []) ++ [':']
    ++ op.tag

/-- The type of values that a function of the runtime prints: floats, booleans, integers with or
without sign. -/
inductive Shape
  | bool
  | float
  | signed
  | unsigned
deriving DecidableEq

/-- What the functions of the runtime print, by their names: the type, and whether it is an
array. -/
def PrintFn.prints : PrintFn → Shape × Bool
  | .printBool => (.bool, false)
  | .printInt => (.signed, false)
  | .printUint => (.unsigned, false)
  | .printFloat => (.float, false)
  | .printBoolArr => (.bool, true)
  | .printIntArr => (.signed, true)
  | .printUintArr => (.unsigned, true)
  | .printFloatArr => (.float, true)

/-- What the operation reports. -/
def Def.shape : Def → Shape
  | .bool | .arrBool => .bool
  | .f64 | .arrF64 => .float
  | .int | .arrInt => .signed
  | .uint | .arrUInt => .unsigned

/-- The report is the wanted one: printed by the function for the type, with the tag of the user
after the prefix for the type, and with the values. -/
def Report.wanted (r : Report) (w : World) (op : ROp) (v : Data) : Prop :=
  r.fn.prints = (op.op.shape, op.op.isArr) ∧ r.tag = w.enc (wantedTag op) ∧ r.values = v.values

/-- A code seen as a signed number. -/
def signed32 (n : Nat) : Int := if n < 2 ^ 31 then n else n - 2 ^ 32

/-- The runtime ends all shots for codes above 1000. -/
def endsAll (code : Nat) : Prop := 1000 < signed32 code

/-- The runtime ends the current shot for codes from 1 to 1000. -/
def endsShot (code : Nat) : Prop := 1 ≤ signed32 code ∧ signed32 code ≤ 1000

end Verif.Results
