/-!
# Parameter expressions in the pytket format

Models of
* the PEG grammar `/repo/tket/src/serialize/pytket/decoder/param/param.pest`,
* the parser `/repo/tket/src/serialize/pytket/decoder/param/parser.rs`,
* `load_half_turns_parameter` (`/repo/tket/src/serialize/pytket/decoder/wires.rs:893-999`) and the
  conversions of `/repo/tket/src/serialize/pytket/decoder/param.rs`,
* the printing of expressions by the encoder
  (`/repo/tket/src/serialize/pytket/extension/float.rs`, `rotation.rs`) and the conversion of
  radians in `/repo/tket-qsystem/src/pytket/qsystem.rs:91-103`.

Simplifications, common to the whole file:
* strings are lists of characters;
* floating point numbers are an arbitrary type `F` with arbitrary operations (`Arith`); the few laws
  used are hypotheses of the theorems;
* rotations are the numbers of half-turns they stand for, `radd` is the addition of these
  (`/repo/tket/src/extension/rotation.rs:111-124`); `from_halfturns_unchecked` panics on NaN and
  infinities, which is not modelled;
* reading a string may run out of fuel (`Res.oof`); `parse` provides enough fuel (proved in
  `Lemmas/Params.lean`).
-/

namespace Verif.Params

/-- The arithmetic of floats, `f64::to_string`, `str::parse::<f64>` and the constant `PI`.  `near` is
the closure `approx_eq` (`float.rs:75`). -/
structure Arith (F : Type) where
  add : F → F → F
  sub : F → F → F
  mul : F → F → F
  div : F → F → F
  pow : F → F → F
  max : F → F → F
  min : F → F → F
  neg : F → F
  abs : F → F
  floor : F → F
  ceil : F → F
  round : F → F
  pi : F
  fmt : F → List Char
  read : List Char → F
  near : F → F → Bool

/-- Infix operators (`param.pest:31-36`). -/
inductive InOp
  | add
  | sub
  | pow
  | mul
  | div
  deriving DecidableEq, Repr

/-- Known functions (`parser.rs:158-165`). -/
inductive Fn
  | max
  | min
  | abs
  | floor
  | ceil
  | round
  deriving DecidableEq, Repr

/-- `PytketParam` (`parser.rs:24-48`); an `Operation` is `neg`, `bin` or `call`. -/
inductive Ast (F : Type)
  | const (f : F)
  | var (name : List Char)
  | sympy (text : List Char)
  | neg (a : Ast F)
  | bin (o : InOp) (a b : Ast F)
  | call (f : Fn) (args : List (Ast F))

/-- The result of matching a rule: success with the remaining input, failure, or not enough fuel. -/
inductive Res (α : Type)
  | ok (a : α) (rest : List Char)
  | fail
  | oof

/-- Ordered choice. -/
def Res.or {α : Type} (a : Res α) (b : Unit → Res α) : Res α :=
  match a with
  | .ok x r => .ok x r
  | .oof => .oof
  | .fail => b ()

/-- Sequence. -/
def Res.bind {α β : Type} (a : Res α) (f : α → List Char → Res β) : Res β :=
  match a with
  | .ok x r => f x r
  | .oof => .oof
  | .fail => .fail

/-! ### Lexical rules -/

def isDigit (c : Char) : Bool := decide ('0' ≤ c ∧ c ≤ '9')

def isAlpha (c : Char) : Bool := decide (('a' ≤ c ∧ c ≤ 'z') ∨ ('A' ≤ c ∧ c ≤ 'Z'))

/-- `ASCII_ALPHANUMERIC | "_"`. -/
def isIdent (c : Char) : Bool := isAlpha c || isDigit c || c == '_'

/-- `WHITESPACE` (`param.pest:61`), which may occur at every `~` of a non-atomic rule. -/
def isWs (c : Char) : Bool := c == ' ' || c == '\t'

def skipWs (s : List Char) : List Char := s.dropWhile isWs

/-- `ident` (`param.pest:9`). -/
def ident : List Char → Option (List Char × List Char)
  | [] => none
  | c :: cs => if isAlpha c then some (c :: cs.takeWhile isIdent, cs.dropWhile isIdent) else none

/-- The optional sign of `num`. -/
def sign : List Char → List Char × List Char
  | [] => ([], [])
  | c :: cs => if c = '-' then (['-'], cs) else ([], c :: cs)

/-- The digits before the point: `"0" | ASCII_NONZERO_DIGIT ~ ASCII_DIGIT*`. -/
def intPart : List Char → Option (List Char × List Char)
  | [] => none
  | c :: cs =>
    if c = '0' then some (['0'], cs)
    else if isDigit c then some (c :: cs.takeWhile isDigit, cs.dropWhile isDigit)
    else none

/-- `("." ~ ASCII_DIGIT*)?`. -/
def fracPart : List Char → List Char × List Char
  | [] => ([], [])
  | c :: cs => if c = '.' then ('.' :: cs.takeWhile isDigit, cs.dropWhile isDigit) else ([], c :: cs)

/-- The optional sign of an exponent. -/
def expSign : List Char → List Char × List Char
  | [] => ([], [])
  | c :: cs => if c = '+' ∨ c = '-' then ([c], cs) else ([], c :: cs)

/-- `(^"e" ~ ("+" | "-")? ~ ASCII_DIGIT+)?`. -/
def expPart : List Char → List Char × List Char
  | [] => ([], [])
  | c :: cs =>
    if c = 'e' ∨ c = 'E' then
      let x := expSign cs
      match x.2.takeWhile isDigit with
      | [] => ([], c :: cs)
      | d :: ds => (c :: x.1 ++ (d :: ds), x.2.dropWhile isDigit)
    else ([], c :: cs)

/-- `num` (`param.pest:16-21`). -/
def num (s : List Char) : Option (List Char × List Char) :=
  let a := sign s
  match intPart a.2 with
  | none => none
  | some b =>
    let c := fracPart b.2
    let d := expPart c.2
    some (a.1 ++ b.1 ++ c.1 ++ d.1, d.2)

/-- `infix_operator` (`param.pest:26-31`). -/
def infixOp : List Char → Option (InOp × List Char)
  | [] => none
  | c :: cs =>
    if c = '+' then some (.add, cs)
    else if c = '-' then some (.sub, cs)
    else if c = '/' then some (.div, cs)
    else if c = '*' then
      match cs with
      | [] => some (.mul, [])
      | d :: ds => if d = '*' then some (.pow, ds) else some (.mul, d :: ds)
    else none

/-! ### The grammar -/

variable {F : Type}

/-- Match of a single character. -/
def lit (c : Char) : List Char → Res Unit
  | [] => .fail
  | d :: s => if d = c then .ok () s else .fail

/-- `"(" ~ expr ~ ")"` in `term` and `implicit_multiply` (`param.pest:50,55`). -/
def paren (e : List Char → Res (Ast F)) (s : List Char) : Res (Ast F) :=
  (lit '(' s).bind fun _ r => (e (skipWs r)).bind fun a r => (lit ')' (skipWs r)).bind fun _ r =>
    .ok a r

/-- `("," ~ expr)*` (`param.pest:41`). -/
def moreArgs (e : List Char → Res (Ast F)) : Nat → List Char → Res (List (Ast F))
  | 0, _ => .oof
  | n + 1, s =>
    (((lit ',' (skipWs s)).bind fun _ r => (e (skipWs r)).bind fun a r =>
      (moreArgs e n r).bind fun l r => .ok (a :: l) r) : Res (List (Ast F))).or fun _ => .ok [] s

/-- The names of the known functions (`parser.rs:158-169`). -/
def fnOf (name : List Char) : Option Fn :=
  if name = ['m', 'a', 'x'] then some .max
  else if name = ['m', 'i', 'n'] then some .min
  else if name = ['a', 'b', 's'] then some .abs
  else if name = ['f', 'l', 'o', 'o', 'r'] then some .floor
  else if name = ['c', 'e', 'i', 'l'] then some .ceil
  else if name = ['r', 'o', 'u', 'n', 'd'] then some .round
  else none

/-- `parse_function_call` (`parser.rs:151-179`); `text` is the matched string. -/
def mkCall (name text : List Char) (args : List (Ast F)) : Ast F :=
  match fnOf name with
  | some f => .call f args
  | none => .sympy text

/-- The part of `s` before `rest`. -/
def upTo (s rest : List Char) : List Char := s.take (s.length - rest.length)

/-- `","? ~ ")"` at the end of a call. -/
def closeCall (s : List Char) : Res Unit :=
  (((lit ',' (skipWs s)).bind fun _ r => lit ')' (skipWs r)) : Res Unit).or
    fun _ => lit ')' (skipWs s)

/-- `function_call` (`param.pest:41`).  The alternative `"()"` is tried first. -/
def fcall (e : List Char → Res (Ast F)) (n : Nat) (s : List Char) : Res (Ast F) :=
  match ident s with
  | none => .fail
  | some (f, r0) =>
    (((lit '(' (skipWs r0)).bind fun _ r => (lit ')' r).bind fun _ r =>
      .ok (mkCall f (upTo s r) []) r) : Res (Ast F)).or fun _ =>
    (lit '(' (skipWs r0)).bind fun _ r => (e (skipWs r)).bind fun a r =>
      (moreArgs e n r).bind fun l r => (closeCall r).bind fun _ r =>
        .ok (mkCall f (upTo s r) (a :: l)) r

/-- `variable` (`param.pest:11`). -/
def variable' (s : List Char) : Res (Ast F) :=
  match ident s with
  | none => .fail
  | some (f, r) => .ok (.var f) r

/-- `num` as a term (`parse_number`, `parser.rs:142-148`). -/
def number (A : Arith F) (s : List Char) : Res (Ast F) :=
  match num s with
  | none => .fail
  | some (t, r) => .ok (.const (A.read t)) r

/-- `implicit_multiply` (`param.pest:50`, `parser.rs:119-128`). -/
def implMul (A : Arith F) (e : List Char → Res (Ast F)) (n : Nat) (s : List Char) : Res (Ast F) :=
  (number A s).bind fun a r =>
    ((paren e (skipWs r)).or fun _ => (fcall e n (skipWs r)).or fun _ => variable' (skipWs r)).bind
      fun b r => .ok (.bin .mul a b) r

/-- `unary_minus` (`param.pest:43`). -/
def uminus (t : List Char → Res (Ast F)) (s : List Char) : Res (Ast F) :=
  (lit '-' s).bind fun _ r => (t (skipWs r)).bind fun a r => .ok (.neg a) r

/-- The alternatives of `term` (`param.pest:55`). -/
def termStep (A : Arith F) (e t : List Char → Res (Ast F)) (n : Nat) (s : List Char) :
    Res (Ast F) :=
  (paren e s).or fun _ => (implMul A e n s).or fun _ => (number A s).or fun _ =>
    (uminus t s).or fun _ => (fcall e n s).or fun _ => variable' s

/-- `(infix_operator ~ term)*` (`param.pest:53`).  (If there is no operator at all, pest has already
skipped the white space; everything that follows an `expr` skips it anyway.) -/
def tail (t : List Char → Res (Ast F)) : Nat → List Char → Res (List (InOp × Ast F))
  | 0, _ => .oof
  | n + 1, s =>
    match infixOp (skipWs s) with
    | none => .ok [] s
    | some (o, r) =>
      ((t (skipWs r)).bind fun a r => (tail t n r).bind fun l r => .ok ((o, a) :: l) r).or
        fun _ => .ok [] s

/-- The precedences of `PRATT_PARSER` (`parser.rs:68-84`). -/
def InOp.prec : InOp → Nat
  | .add => 1
  | .sub => 1
  | .mul => 2
  | .div => 2
  | .pow => 3

/-- The loop of pest's `PrattParser` for left-associative infix operators: `lhs` has been read, and
operators binding stronger than `rbp` are consumed.  The first argument bounds the recursion. -/
def pratt : Nat → Nat → Ast F → List (InOp × Ast F) → Ast F × List (InOp × Ast F)
  | 0, _, l, ops => (l, ops)
  | _ + 1, _, l, [] => (l, [])
  | n + 1, rbp, l, (o, a) :: ops =>
    if rbp < o.prec then
      let x := pratt n o.prec a ops
      pratt n rbp (.bin o l x.1) x.2
    else (l, (o, a) :: ops)

/-- `parse_infix_ops` (`parser.rs:89-111`). -/
def infixAst (a : Ast F) (ops : List (InOp × Ast F)) : Ast F := (pratt ops.length 0 a ops).1

mutual

/-- `term` (`param.pest:55`, `parse_term`, `parser.rs:114-140`). -/
def term (A : Arith F) : Nat → List Char → Res (Ast F)
  | 0, _ => .oof
  | n + 1, s => termStep A (expr A n) (term A n) n s

/-- `expr` (`param.pest:53`). -/
def expr (A : Arith F) : Nat → List Char → Res (Ast F)
  | 0, _ => .oof
  | n + 1, s =>
    (term A n s).bind fun a r => (tail (term A n) n r).bind fun ops r => .ok (infixAst a ops) r

end

/-- `parameter` (`param.pest:58`). -/
def parameter (A : Arith F) (n : Nat) (s : List Char) : Res (Ast F) :=
  (expr A n (skipWs s)).bind fun a r =>
    match skipWs r with
    | [] => .ok a []
    | _ :: _ => .fail

/-- `parse_pytket_param` (`parser.rs:52-63`). -/
def parse (A : Arith F) (s : List Char) : Ast F :=
  match parameter A (2 * s.length + 2) s with
  | .ok a _ => a
  | _ => .sympy s

/-! ### Loading a parameter -/

/-- `ParameterType` (`param.rs:16-24`). -/
inductive PType
  | radians
  | halfTurns
  | rotation
  deriving DecidableEq, Repr

/-- `LoadedParameter` (`param.rs:44-49`), with the value on its wire. -/
structure Loaded (F : Type) where
  typ : PType
  val : F
  deriving DecidableEq

/-- `as_float_half_turns` (`param.rs:145-167`). -/
def Loaded.asHalfTurns (A : Arith F) (p : Loaded F) : Loaded F :=
  match p.typ with
  | .halfTurns => p
  | .radians => ⟨.halfTurns, A.div p.val A.pi⟩
  | .rotation => ⟨.halfTurns, p.val⟩

/-- `as_float_radians` (`param.rs:124-140`). -/
def Loaded.asRadians (A : Arith F) (p : Loaded F) : Loaded F :=
  match p.typ with
  | .radians => p
  | .halfTurns => ⟨.radians, A.mul p.val A.pi⟩
  | .rotation => ⟨.radians, A.mul (p.asHalfTurns A).val A.pi⟩

/-- `as_rotation` (`param.rs:172-187`). -/
def Loaded.asRotation (A : Arith F) (p : Loaded F) : Loaded F :=
  match p.typ with
  | .rotation => p
  | .halfTurns => ⟨.rotation, p.val⟩
  | .radians => ⟨.rotation, (p.asHalfTurns A).val⟩

/-- `with_type` (`param.rs:108-118`). -/
def Loaded.withType (A : Arith F) (p : Loaded F) : PType → Loaded F
  | .radians => p.asRadians A
  | .halfTurns => p.asHalfTurns A
  | .rotation => p.asRotation A

/-- The operation on floats behind an infix operator (`parser.rs:95-101`). -/
def InOp.apply (A : Arith F) : InOp → F → F → F
  | .add => A.add
  | .sub => A.sub
  | .mul => A.mul
  | .div => A.div
  | .pow => A.pow

/-- The type used for the inputs and the output of an infix operator (`parser.rs:95-101`). -/
def InOp.ptype : InOp → PType
  | .add => .rotation
  | _ => .halfTurns

/-- The operation behind a function; `none` for a wrong number of arguments, which is a panic in
`add_dataflow_op(...).unwrap_or_else` (`wires.rs:981-983`). -/
def Fn.apply (A : Arith F) : Fn → List F → Option F
  | .max, [a, b] => some (A.max a b)
  | .min, [a, b] => some (A.min a b)
  | .abs, [a] => some (A.abs a)
  | .floor, [a] => some (A.floor a)
  | .ceil, [a] => some (A.ceil a)
  | .round, [a] => some (A.round a)
  | _, _ => none

mutual

/-- `process` (`wires.rs:903-988`), with the value on the resulting wire.  `env` gives the loaded
input of a variable.  `none` stands for an opaque sympy expression, whose value is not known, or
for a panic. -/
def process (A : Arith F) (env : List Char → Loaded F) (hint : Option PType) :
    Ast F → Option (Loaded F)
  | .const f =>
    if hint = some .halfTurns ∨ hint = some .radians then some ⟨.halfTurns, f⟩
    else some ⟨.rotation, f⟩
  | .sympy _ => none
  | .var name =>
    if name = ['p', 'i'] then
      if hint = some .halfTurns ∨ hint = some .radians then some ⟨.halfTurns, A.pi⟩
      else some ⟨.rotation, A.pi⟩
    else some (env name)
  | .neg a =>
    match process A env (some .halfTurns) a with
    | none => none
    | some p => some ⟨.halfTurns, A.neg (p.withType A .halfTurns).val⟩
  | .bin o a b =>
    match process A env (some o.ptype) a, process A env (some o.ptype) b with
    | some p, some q =>
      some ⟨o.ptype, o.apply A (p.withType A o.ptype).val (q.withType A o.ptype).val⟩
    | _, _ => none
  | .call f args =>
    match processArgs A env args with
    | none => none
    | some vs => (f.apply A vs).map fun v => ⟨.halfTurns, v⟩

/-- The arguments of a function. -/
def processArgs (A : Arith F) (env : List Char → Loaded F) : List (Ast F) → Option (List F)
  | [] => some []
  | a :: as =>
    match process A env (some .halfTurns) a, processArgs A env as with
    | some p, some vs => some ((p.withType A .halfTurns).val :: vs)
    | _, _ => none

end

/-- `load_half_turns_with_type` (`decoder.rs:854-862`). -/
def load (A : Arith F) (env : List Char → Loaded F) (s : List Char) (typ : PType) :
    Option (Loaded F) :=
  (process A env (some typ) (parse A s)).map fun p => p.withType A typ

/-! ### Printing -/

/-- Operations of the float and rotation extensions which the encoder prints
(`float.rs:37-58`; `fadd` stands for `radd` as well, `rotation.rs:118-126`). -/
inductive Op1
  | neg
  | floor
  | ceil
  | round
  | abs
  deriving DecidableEq, Repr

inductive Op2
  | add
  | sub
  | mul
  | div
  | pow
  | max
  | min
  deriving DecidableEq, Repr

/-- `encode_rotation_op` for one input (`float.rs:115-146`). -/
def print1 : Op1 → List Char → List Char
  | .neg, a => '-' :: '(' :: a ++ [')']
  | .floor, a => ['f', 'l', 'o', 'o', 'r', '('] ++ a ++ [')']
  | .ceil, a => ['c', 'e', 'i', 'l', '('] ++ a ++ [')']
  | .round, a => ['r', 'o', 'u', 'n', 'd', '('] ++ a ++ [')']
  | .abs, a => ['a', 'b', 's', '('] ++ a ++ [')']

/-- `format!("({}) op ({})", a, b)`. -/
def printInfix (op : List Char) (a b : List Char) : List Char :=
  '(' :: a ++ (')' :: ' ' :: op) ++ (' ' :: '(' :: b) ++ [')']

/-- `encode_rotation_op` for two inputs (`float.rs:115-146`). -/
def print2 : Op2 → List Char → List Char → List Char
  | .add, a, b => printInfix ['+'] a b
  | .sub, a, b => printInfix ['-'] a b
  | .pow, a, b => printInfix ['*', '*'] a b
  | .max, a, b => ['m', 'a', 'x', '('] ++ a ++ (',' :: ' ' :: b) ++ [')']
  | .min, a, b => ['m', 'i', 'n', '('] ++ a ++ (',' :: ' ' :: b) ++ [')']
  | .div, a, b => if b = ['1'] then a else printInfix ['/'] a b
  | .mul, a, b =>
    if a = ['1'] then b else if b = ['1'] then a else printInfix ['*'] a b

/-- The names of the multiples of π (`float.rs:76-84`). -/
inductive PiName
  | pi
  | pi2
  | mpi2
  | pi4
  | pi34
  | mpi4
  | mpi34
  deriving DecidableEq, Repr

def PiName.all : List PiName := [.pi, .pi2, .mpi2, .pi4, .pi34, .mpi4, .mpi34]

def PiName.text : PiName → List Char
  | .pi => ['p', 'i']
  | .pi2 => ['p', 'i', '/', '2']
  | .mpi2 => ['-', 'p', 'i', '/', '2']
  | .pi4 => ['p', 'i', '/', '4']
  | .pi34 => ['3', 'p', 'i', '/', '4']
  | .mpi4 => ['-', 'p', 'i', '/', '4']
  | .mpi34 => ['-', '3', 'p', 'i', '/', '4']

/-- The values in the table; float literals are written as `A.read`. -/
def PiName.val (A : Arith F) : PiName → F
  | .pi => A.pi
  | .pi2 => A.div A.pi (A.read ['2'])
  | .mpi2 => A.div (A.neg A.pi) (A.read ['2'])
  | .pi4 => A.div A.pi (A.read ['4'])
  | .pi34 => A.div (A.mul (A.read ['3']) A.pi) (A.read ['4'])
  | .mpi4 => A.div (A.neg A.pi) (A.read ['4'])
  | .mpi34 => A.div (A.mul (A.read ['-', '3']) A.pi) (A.read ['4'])

/-- The table entry chosen for a constant. -/
def snap (A : Arith F) (f : F) : Option PiName := PiName.all.find? fun n => A.near f (n.val A)

/-- `const_to_pytket` (`float.rs:62-94`, `rotation.rs:60-90`). -/
def printConst (A : Arith F) (f : F) : List Char :=
  match snap A f with
  | some n => n.text
  | none => A.fmt f

/-- An expression as it is computed in the program. -/
inductive Ex (F : Type)
  | const (f : F)
  | var (name : List Char)
  | op1 (o : Op1) (a : Ex F)
  | op2 (o : Op2) (a b : Ex F)

/-- The string the encoder tracks for the wire of an expression. -/
def Ex.print (A : Arith F) : Ex F → List Char
  | .const f => printConst A f
  | .var n => n
  | .op1 o a => print1 o (a.print A)
  | .op2 o a b => print2 o (a.print A) (b.print A)

/-- `param.strip_suffix(") * (pi)")` (`qsystem.rs:95`). -/
def stripSuffix (suf s : List Char) : Option (List Char) :=
  if suf <:+ s then some (s.take (s.length - suf.length)) else none

/-- The conversion of a radian parameter to half-turns (`qsystem.rs:94-99`). -/
def toHalfTurns (s : List Char) : List Char :=
  match stripSuffix [')', ' ', '*', ' ', '(', 'p', 'i', ')'] s with
  | some t =>
    match t with
    | '(' :: u => u
    | _ => s ++ [' ', '/', ' ', '(', 'p', 'i', ')']
  | none => s ++ [' ', '/', ' ', '(', 'p', 'i', ')']

end Verif.Params
