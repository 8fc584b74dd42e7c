import Mathlib.Order.Compare
import Mathlib.Algebra.Group.Defs
import Mathlib.Data.Int.Order.Basic

/-!
# Model of costs given by Python functions

Models `/repo/tket-py/src/circuit/cost.rs` and `Tk2Circuit::circuit_cost`
(`/repo/tket-py/src/circuit/tk2circuit.rs` 234-251) with `Circuit::circuit_cost`
(`/repo/tket/src/circuit.rs` 357-366).

* Python objects are a type `V`; the special methods called by the code are parameters (`Py`), with
  `none` for an exception. The methods are called directly, as the code does, so that there is no
  fallback to the reflected method if the result is `NotImplemented`.
* `Val` is a model of the numbers built into Python: integers, booleans and floats with integral values
  that are added without rounding.
* The commands of a circuit are a list (`Model/Commands`).
-/

namespace Tket.PyCost

/-- The methods of Python objects used by cost.rs. -/
structure Py (V : Type) where
  /-- `a.__add__(b)` -/
  add : V → V → Option V
  /-- `a.__sub__(b)` -/
  sub : V → V → Option V
  /-- `a.__lt__(b)` -/
  lt : V → V → Option V
  /-- `a.__eq__(b)` -/
  eq : V → V → Option V
  /-- `bool(a)` -/
  truthy : V → Option Bool
  /-- `a.__int__()`, if it fits into an `isize` -/
  toInt : V → Option Int
  /-- `a.__div__()` -/
  div : V → Option V
  /-- `None` -/
  none : V

/-- Outcome of a call: a panic of the `expect`s, a Python exception, or a value. -/
inductive Ret (E V : Type) where
  | panic
  | raised (e : E)
  | ok (v : V)
deriving DecidableEq

variable {V E Op : Type}

/-- A command: its operation is a `TketOp`, or not. -/
inductive Cmd (Op : Type) where
  | tket (o : Op)
  | other (name : String)
deriving DecidableEq

/-- The errors of `circuit_cost` (tk2circuit.rs 236-247). -/
inductive CostErr (E : Type) where
  /-- `Could not convert circuit operation to a TketOp` -/
  | notTket (name : String)
  /-- an exception of the cost function -/
  | fn (e : E)
deriving DecidableEq

/-- The closure `cost_fn` (tk2circuit.rs 236-247). -/
def opCost (f : Op → Except E V) : Cmd Op → Except (CostErr E) V
  | .other n => .error (.notTket n)
  | .tket o =>
    match f o with
    | .error e => .error (.fn e)
    | .ok v => .ok v

/-- `impl Sum for PyCircuitCost` (cost.rs 78-95) applied to the successful results up to the first error,
which is then returned (`Sum` for `Result`). -/
def sumFrom (py : Py V) (f : Op → Except E V) : Option V → List (Cmd Op) → Ret (CostErr E) V
  | none, [] => .ok py.none
  | some v, [] => .ok v
  | acc, c :: cs =>
    match opCost f c with
    | .error e => .raised e
    | .ok v =>
      match acc with
      | none => sumFrom py f (some v) cs
      | some w =>
        match py.add w v with
        | none => .panic
        | some x => sumFrom py f (some x) cs

/-- `Tk2Circuit::circuit_cost` (tk2circuit.rs 234-251). -/
def circuitCost (py : Py V) (f : Op → Except E V) (cmds : List (Cmd Op)) : Ret (CostErr E) V :=
  sumFrom py f none cmds

/-- `impl Ord for PyCircuitCost` (cost.rs 119-135). -/
def cmp (py : Py V) (a b : V) : Option Ordering := do
  let l ← py.lt a b
  if ← py.truthy l then return .lt
  let e ← py.eq a b
  if ← py.truthy e then return .eq
  return .gt

/-- `sub_cost` (cost.rs 158-160 and 63-76). -/
def subCost (py : Py V) (a b : V) : Option V := py.sub a b

/-- `add_delta` (cost.rs 162-164 and 35-48). -/
def addDelta (py : Py V) (a d : V) : Option V := py.add a d

/-- `div_cost` (cost.rs 166-175). The divisor is not used. -/
def divCost (py : Py V) (a : V) (_n : Nat) : Option V := py.div a

/-- `as_usize` (cost.rs 154-156): `isize as usize`. -/
def asUsize (py : Py V) (a : V) : Option Nat :=
  (py.toInt a).map (fun i => (i % 18446744073709551616).toNat)

/-! ## Numbers of Python -/

/-- Built-in objects. -/
inductive Val where
  | int (n : Int)
  | bool (b : Bool)
  /-- a float with the integral value `n` -/
  | float (n : Int)
  | none
  | notImplemented
deriving DecidableEq

/-- Integers and booleans as an integer. -/
def Val.asInt : Val → Option Int
  | .int n => some n
  | .bool true => some 1
  | .bool false => some 0
  | _ => Option.none

/-- All numbers. -/
def Val.asNum : Val → Option Int
  | .float n => some n
  | v => v.asInt

/-- A method of `int` (also used by `bool`) or `float`: `int` accepts only integers and booleans, `float`
accepts all numbers, and anything else gives `NotImplemented`; other objects have no such method. -/
def arith (f : Int → Int → Int) (a b : Val) : Option Val :=
  match a with
  | .float x => some (match b.asNum with | some y => .float (f x y) | Option.none => .notImplemented)
  | _ =>
    match a.asInt with
    | some x => some (match b.asInt with | some y => .int (f x y) | Option.none => .notImplemented)
    | Option.none => Option.none

/-- A comparison: as `arith`; the other objects have the methods of `object`, with `same` the result on
the object itself. -/
def compareWith (f : Int → Int → Bool) (same : Val) (a b : Val) : Option Val :=
  match a with
  | .float x => some (match b.asNum with | some y => .bool (f x y) | Option.none => .notImplemented)
  | _ =>
    match a.asInt with
    | some x => some (match b.asInt with | some y => .bool (f x y) | Option.none => .notImplemented)
    | Option.none => some (if a = b then same else .notImplemented)

/-- The built-in objects. `ni` is the truth value of `NotImplemented`: `true` up to Python 3.13, an
exception from 3.14. There is no method `__div__` in Python 3. -/
def builtin (ni : Option Bool) : Py Val where
  add := arith (· + ·)
  sub := arith (· - ·)
  lt := compareWith (fun x y => decide (x < y)) .notImplemented
  eq := compareWith (fun x y => decide (x = y)) (.bool true)
  truthy
    | .notImplemented => ni
    | .none => some false
    | .int n => some (decide (n ≠ 0))
    | .float n => some (decide (n ≠ 0))
    | .bool b => some b
  toInt v := v.asNum.bind (fun n =>
    if -9223372036854775808 ≤ n ∧ n < 9223372036854775808 then some n else Option.none)
  div _ := Option.none
  none := .none

end Tket.PyCost
