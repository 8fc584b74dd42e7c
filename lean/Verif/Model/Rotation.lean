import Verif.Float.Basic

/-!
# Rotations and opaque booleans, and the code generated for them

Model of `tket/src/extension/rotation.rs`, `tket/src/llvm/rotation.rs` and `tket/src/llvm/bool.rs`.

Simplifications: the program is a straight line of operations on numbered wires (the code generator of
`hugr` visits the operations of a region in an order of the data flow).  Of LLVM there are the
instructions used, on `f64`, `i1` and tagged sums (whose layout is `hugr`'s); the mailboxes that hold
the values of wires are registers.  `emit_panic` ends the run with the given error.
-/

namespace Tket.Rotation

open Tket.Dbl

/-! ## Constants -/

/-- `ConstRotation::new` (rotation.rs 71-81); the field of the constant. -/
def constNew (x : F64) : Option F64 := if isNan x || isInf x then none else some x

/-- `ConstRotation::from_radians` (rotation.rs 89-91). -/
def fromRadians (x : F64) : Option F64 := constNew (div x Dbl.pi)

/-- `ConstRotation::to_radians` (rotation.rs 84-86). -/
def toRadians (x : F64) : F64 := mul x Dbl.pi

/-- The number written with the sign, the digits `n` with the decimal point moved `e` places to the
right, or to the left if `left` (`str::parse::<f64>`, which rounds to the nearest number). -/
def readDec (neg : Bool) (n : Nat) (left : Bool) (e : Nat) : F64 :=
  if left then mk neg (n * unit) (10 ^ e) else mk neg (n * 10 ^ e * unit) 1

/-- Loading a literal of a parameter as a rotation or as a float (serialize/pytket/decoder/wires.rs
914-925). `ConstRotation::new(..).unwrap()` and `ConstF64::new` (of `hugr`) panic unless the number is
finite. -/
def loadConst (x : F64) : Option F64 := constNew x

/-! ## Programs -/

/-- `RotationOp` (rotation.rs 119-131), `BoolOp` (bool.rs 121-131), and constants of both. -/
inductive Op where
  | fromHalfturns
  | fromHalfturnsUnchecked
  | toHalfturns
  | radd
  | read
  | makeOpaque
  | eq
  | not
  | and
  | or
  | xor
  | constRotation (x : F64)
  | constBool (b : Bool)
  deriving DecidableEq

/-- An operation with its input wires and its output wire. -/
structure Instr where
  op : Op
  ins : List Nat
  out : Nat

/-! ## LLVM -/

/-- Values. -/
inductive LVal where
  | f (x : F64)
  | i (b : Bool)
  | sum (tag : Bool) (fields : List F64)
  deriving DecidableEq

/-- Registers: mailboxes of wires and temporaries. -/
inductive Reg where
  | wire (n : Nat)
  | tmp (n : Nat)
  deriving DecidableEq

/-- Operands. -/
inductive Opnd where
  | reg (r : Reg)
  | lit (v : LVal)

/-- Instructions. -/
inductive LOp where
  | foeq (a b : Opnd)
  | funo (a b : Opnd)
  | fadd (a b : Opnd)
  | or (a b : Opnd)
  | and (a b : Opnd)
  | xor (a b : Opnd)
  | icmpEq (a b : Opnd)
  | not (a : Opnd)
  | select (c a b : Opnd)
  | tag (t : Bool) (fields : List Opnd)
  | getTag (a : Opnd)
  | mov (a : Opnd)

/-- Ends of blocks. -/
inductive Term where
  | br (c : Opnd) (ok fail : Nat)
  | panic (signal : Nat) (msg : String)
  | ret

/-- A block under construction. -/
structure Block where
  ins : List (Reg × LOp)
  term : Option Term

/-- The builder: blocks, the current one, and the number of temporaries. -/
structure St where
  blocks : List Block
  cur : Nat
  tmp : Nat

/-- An instruction is appended to the current block. -/
def St.push (st : St) (r : Reg) (o : LOp) : St :=
  { st with blocks := st.blocks.modify st.cur (fun b => { b with ins := b.ins ++ [(r, o)] }) }

/-- An instruction whose result is a temporary. -/
def St.emit (st : St) (o : LOp) : St × Opnd :=
  ({ st.push (.tmp st.tmp) o with tmp := st.tmp + 1 }, .reg (.tmp st.tmp))

/-- The current block is ended. -/
def St.terminate (st : St) (t : Term) : St :=
  { st with blocks := st.blocks.modify st.cur (fun b => { b with term := some t }) }

/-- A new block is appended; the position does not change. -/
def St.newBlock (st : St) : St × Nat :=
  ({ st with blocks := st.blocks ++ [⟨[], none⟩] }, st.blocks.length)

/-- `position_at_end`. -/
def St.position (st : St) (b : Nat) : St := { st with cur := b }

/-- `args.outputs.finish` for one value. -/
def St.finish (st : St) (out : Nat) (v : Opnd) : St := st.push (.wire out) (.mov v)

/-- Value of the input wire `n`. -/
def inp (n : Nat) : Opnd := .reg (.wire n)

/-- `emit_from_halfturns` (llvm/rotation.rs 74-113): whether the number is finite. -/
def emitFromHalfturns (st : St) (x : Opnd) : St × Opnd :=
  let (st, p) := st.emit (.foeq x (.lit (.f (.inf false))))
  let (st, n) := st.emit (.foeq x (.lit (.f (.inf true))))
  let (st, u) := st.emit (.funo x (.lit (.f (.fin false 0))))
  let (st, o) := st.emit (.or p n)
  let (st, o) := st.emit (.or o u)
  st.emit (.not o)

/-- `DEFAULT_FROM_HALFTURNS_ERROR` (llvm/rotation.rs 39-40). -/
def errSignal : Nat := 1

def errMsg : String := "tket.rotation.from_halfturns_unchecked failed"

/-- The blocks of `from_halfturns_unchecked` (llvm/rotation.rs 142-161); building in a new block with
`build_positioned_new_block` restores the position. -/
def St.branch (st : St) (ok : Opnd) (out : Nat) (v : Opnd) : St :=
  let here := st.cur
  let fail := st.newBlock.2
  let st := st.newBlock.1
  let st := ((st.position fail).terminate (.panic errSignal errMsg)).position here
  let succ := st.newBlock.2
  let st := st.newBlock.1
  let st := ((st.position succ).finish out v).position here
  let st := st.terminate (.br ok succ fail)
  st.position succ

/-- `emit_rotation_op` (llvm/rotation.rs 115-189), `emit_bool_op` (llvm/bool.rs 33-94) and the
constants (llvm/rotation.rs 205-208, llvm/bool.rs 109-112). `none`: an error because of the number of
inputs. -/
def emitOp (st : St) (c : Instr) : Option St :=
  match c.op, c.ins with
  | .radd, [a, b] =>
    let (st, r) := st.emit (.fadd (inp a) (inp b))
    some (st.finish c.out r)
  | .fromHalfturnsUnchecked, [a] =>
    let (st, ok) := emitFromHalfturns st (inp a)
    some (st.branch ok c.out (inp a))
  | .fromHalfturns, [a] =>
    let (st, ok) := emitFromHalfturns st (inp a)
    let (st, s) := st.emit (.tag true [inp a])
    let (st, f) := st.emit (.tag false [])
    let (st, r) := st.emit (.select ok s f)
    some (st.finish c.out r)
  | .toHalfturns, [a] => some (st.finish c.out (inp a))
  | .read, [a] =>
    let (st, r) := st.emit (.select (inp a) (.lit (.sum true [])) (.lit (.sum false [])))
    some (st.finish c.out r)
  | .makeOpaque, [a] =>
    let (st, r) := st.emit (.getTag (inp a))
    some (st.finish c.out r)
  | .not, [a] =>
    let (st, r) := st.emit (.not (inp a))
    some (st.finish c.out r)
  | .and, [a, b] =>
    let (st, r) := st.emit (.and (inp a) (inp b))
    some (st.finish c.out r)
  | .or, [a, b] =>
    let (st, r) := st.emit (.or (inp a) (inp b))
    some (st.finish c.out r)
  | .xor, [a, b] =>
    let (st, r) := st.emit (.xor (inp a) (inp b))
    some (st.finish c.out r)
  | .eq, [a, b] =>
    let (st, r) := st.emit (.icmpEq (inp a) (inp b))
    some (st.finish c.out r)
  | .constRotation x, [] => some (st.finish c.out (.lit (.f x)))
  | .constBool b, [] => some (st.finish c.out (.lit (.i b)))
  | _, _ => none

/-- All operations in order. -/
def emitAll : St → List Instr → Option St
  | st, [] => some st
  | st, c :: cs => (emitOp st c).bind fun st => emitAll st cs

/-- A whole function. -/
def compile (cs : List Instr) : Option (List Block) :=
  (emitAll ⟨[⟨[], none⟩], 0, 0⟩ cs).map fun st => (st.terminate .ret).blocks

/-! ## Running the generated code -/

/-- Contents of registers. -/
abbrev Env := Reg → Option LVal

def Env.set (e : Env) (r : Reg) (v : LVal) : Env := fun r' => if r' = r then some v else e r'

def Opnd.val (e : Env) : Opnd → Option LVal
  | .reg r => e r
  | .lit v => some v

/-- The numbers of a list of operands. -/
def floats (e : Env) : List Opnd → Option (List F64)
  | [] => some []
  | o :: os =>
    match o.val e, floats e os with
    | some (.f x), some xs => some (x :: xs)
    | _, _ => none

/-- LLVM's instructions; `none` if the operands have other types. -/
def LOp.eval (e : Env) : LOp → Option LVal
  | .foeq a b => match a.val e, b.val e with
    | some (.f x), some (.f y) => some (.i (oeq x y))
    | _, _ => none
  | .funo a b => match a.val e, b.val e with
    | some (.f x), some (.f y) => some (.i (uno x y))
    | _, _ => none
  | .fadd a b => match a.val e, b.val e with
    | some (.f x), some (.f y) => some (.f (add x y))
    | _, _ => none
  | .or a b => match a.val e, b.val e with
    | some (.i x), some (.i y) => some (.i (x || y))
    | _, _ => none
  | .and a b => match a.val e, b.val e with
    | some (.i x), some (.i y) => some (.i (x && y))
    | _, _ => none
  | .xor a b => match a.val e, b.val e with
    | some (.i x), some (.i y) => some (.i (x ^^ y))
    | _, _ => none
  | .icmpEq a b => match a.val e, b.val e with
    | some (.i x), some (.i y) => some (.i (x == y))
    | _, _ => none
  | .not a => match a.val e with
    | some (.i x) => some (.i !x)
    | _ => none
  | .select c a b => match c.val e with
    | some (.i true) => a.val e
    | some (.i false) => b.val e
    | _ => none
  | .tag t fs => (floats e fs).map (.sum t)
  | .getTag a => match a.val e with
    | some (.sum t _) => some (.i t)
    | _ => none
  | .mov a => a.val e

/-- How a run ends; `stuck` is undefined behaviour. -/
inductive Outcome where
  | ret (e : Env)
  | panic (signal : Nat) (msg : String)
  | stuck
  | outOfFuel

/-- Runs instructions of a block. -/
def runIns (e : Env) : List (Reg × LOp) → Option Env
  | [] => some e
  | (r, o) :: is =>
    match o.eval e with
    | some v => runIns (e.set r v) is
    | none => none

/-- Runs from the given instructions of a block on; the fuel bounds the number of further blocks. -/
def run (P : List Block) : Nat → List (Reg × LOp) → Option Term → Env → Outcome
  | fuel, is, t, e =>
    match runIns e is with
    | none => .stuck
    | some e =>
      match t with
      | none => .stuck
      | some .ret => .ret e
      | some (.panic s m) => .panic s m
      | some (.br c ok fail) =>
        match c.val e with
        | some (.i b) =>
          match fuel with
          | 0 => .outOfFuel
          | fuel + 1 =>
            match P[if b then ok else fail]? with
            | some B => run P fuel B.ins B.term e
            | none => .stuck
        | _ => .stuck

/-- A call of the function. -/
def call (P : List Block) (fuel : Nat) (e : Env) : Outcome :=
  match P[0]? with
  | some B => run P fuel B.ins B.term e
  | none => .stuck

end Tket.Rotation
