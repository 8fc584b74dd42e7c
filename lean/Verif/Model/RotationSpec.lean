import Verif.Model.Rotation

/-!
# What rotation and boolean operations are documented to do
-/

namespace Tket.Rotation

open Tket.Dbl

/-- Types of wires: `float64`, `rotation`, `tket.bool`, the unit sum, an option of a rotation. -/
inductive Ty where
  | flt
  | rot
  | bool
  | sum
  | opt
  deriving DecidableEq

/-- Values. -/
inductive SVal where
  | flt (x : F64)
  | rot (x : F64)
  | bool (b : Bool)
  | sum (b : Bool)
  | opt (x : Option F64)

def SVal.ty : SVal → Ty
  | .flt _ => .flt
  | .rot _ => .rot
  | .bool _ => .bool
  | .sum _ => .sum
  | .opt _ => .opt

/-- Signatures (extension/rotation.rs 147-164, extension/bool.rs 138-151). -/
def Op.sig : Op → List Ty × Ty
  | .fromHalfturns => ([.flt], .opt)
  | .fromHalfturnsUnchecked => ([.flt], .rot)
  | .toHalfturns => ([.rot], .flt)
  | .radd => ([.rot, .rot], .rot)
  | .read => ([.bool], .sum)
  | .makeOpaque => ([.sum], .bool)
  | .eq | .and | .or | .xor => ([.bool, .bool], .bool)
  | .not => ([.bool], .bool)
  | .constRotation _ => ([], .rot)
  | .constBool _ => ([], .bool)

/-- Results of one operation. -/
inductive Res where
  | val (v : SVal)
  | panic
  | illTyped

/-- The documentation of the operations (extension/rotation.rs 120-130, 166-180, extension/bool.rs
166-177). -/
def Op.sem : Op → List SVal → Res
  | .fromHalfturns, [.flt x] => .val (.opt (if isFin x then some x else none))
  | .fromHalfturnsUnchecked, [.flt x] => if isFin x then .val (.rot x) else .panic
  | .toHalfturns, [.rot x] => .val (.flt x)
  | .radd, [.rot x, .rot y] => .val (.rot (add x y))
  | .read, [.bool b] => .val (.sum b)
  | .makeOpaque, [.sum b] => .val (.bool b)
  | .eq, [.bool a, .bool b] => .val (.bool (decide (a = b)))
  | .and, [.bool a, .bool b] => .val (.bool (decide (a = true ∧ b = true)))
  | .or, [.bool a, .bool b] => .val (.bool (decide (a = true ∨ b = true)))
  | .xor, [.bool a, .bool b] => .val (.bool (decide (a ≠ b)))
  | .not, [.bool a] => .val (.bool (decide (a = false)))
  | .constRotation x, [] => .val (.rot x)
  | .constBool b, [] => .val (.bool b)
  | _, _ => .illTyped

/-- Values of wires. -/
abbrev SEnv := Nat → Option SVal

def SEnv.set (s : SEnv) (n : Nat) (v : SVal) : SEnv := fun m => if m = n then some v else s m

/-- Runs of programs. -/
inductive SOut where
  | done (s : SEnv)
  | panic
  | illTyped

/-- The values of some wires. -/
def SEnv.gets (s : SEnv) : List Nat → Option (List SVal)
  | [] => some []
  | n :: ns =>
    match s n, s.gets ns with
    | some v, some vs => some (v :: vs)
    | _, _ => none

def exec (s : SEnv) : List Instr → SOut
  | [] => .done s
  | c :: cs =>
    match s.gets c.ins with
    | none => .illTyped
    | some vs =>
      match c.op.sem vs with
      | .val v => exec (s.set c.out v) cs
      | .panic => .panic
      | .illTyped => .illTyped

/-- The types of wires after a program; `none` if it is ill-typed. -/
def check (Γ : Nat → Option Ty) : List Instr → Option (Nat → Option Ty)
  | [] => some Γ
  | c :: cs =>
    if c.ins.map Γ = c.op.sig.1.map some then
      check (fun m => if m = c.out then some c.op.sig.2 else Γ m) cs
    else none

/-- Values have their types. -/
def Typed (Γ : Nat → Option Ty) (s : SEnv) : Prop := ∀ n, (s n).map SVal.ty = Γ n

/-- The value of a wire as an LLVM value. -/
def SVal.repr : SVal → LVal
  | .flt x => .f x
  | .rot x => .f x
  | .bool b => .i b
  | .sum b => .sum b []
  | .opt none => .sum false []
  | .opt (some x) => .sum true [x]

/-- The registers hold the values of the wires. -/
def Agree (s : SEnv) (e : Env) : Prop := ∀ n v, s n = some v → e (.wire n) = some v.repr

/-- A rotation is finite. -/
def SVal.ok : SVal → Prop
  | .rot x => isFin x = true
  | .opt (some x) => isFin x = true
  | _ => True

end Tket.Rotation
