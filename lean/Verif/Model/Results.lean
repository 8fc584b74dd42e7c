/-
Constant strings, result reporting, and exit codes in the compiled program.

Modelled code: `emit_global_string`, `emit_panic` and `emit_exit` of
`tket-qsystem/src/llvm/prelude.rs`; `tket-qsystem/src/llvm/result.rs`; `struct_1d_arr_alloc` of
`tket-qsystem/src/llvm/array_utils.rs`.

Strings are lists of characters.  The encoding of characters as bytes and the hash function of the
standard library are parameters.  LLVM is modelled by the globals of a module and by the bytes that
values occupy in memory.
-/
namespace Verif.Results

/-- Strings. -/
abbrev Str := List Char

/-- The encoding of strings (UTF-8) and the hash of byte strings, printed (`{lower32:08X}`). -/
structure World where
  enc : Str → List Nat
  hash : List Nat → Str

/-! ### Global strings -/

/-- The global variables of the module with their initializers. -/
abbrev Globals := List (Str × Option (List Nat))

/-- `Module::get_global`: the variable with the name. -/
def find : Globals → Str → Option (Option (List Nat))
  | [], _ => none
  | (k, v) :: m, n => if k = n then some v else find m n

/-- The names that are tried, `prelude.rs:164-181`. -/
def symbol (w : World) (pre str : Str) (bytes : List Nat) (i : Nat) : Str :=
  pre ++ str.take 10 ++ ['.'] ++ w.hash bytes ++ ['.'] ++ Nat.toDigits 10 i

/-- Outcome of emitting a string: the module and the name of the variable; the string is too long;
or the search does not end within the given number of steps. -/
inductive Emitted
  | ok (m : Globals) (name : Str)
  | tooLong
  | outOfFuel
deriving DecidableEq

/-- The search for a name, `prelude.rs:179-201`: reuse a variable with the same value, or create
the variable if there is none with the name.  (The new variable is put at the end; names are unique
in a module, so the order does not matter.) -/
def search (w : World) (pre str : Str) (bytes : List Nat) (m : Globals) : Nat → Nat → Emitted
  | 0, _ => .outOfFuel
  | fuel + 1, i =>
    match find m (symbol w pre str bytes i) with
    | some v =>
      if v = some bytes then .ok m (symbol w pre str bytes i)
      else search w pre str bytes m fuel (i + 1)
    | none => .ok (m ++ [(symbol w pre str bytes i, some bytes)]) (symbol w pre str bytes i)

/-- `emit_global_string`, `prelude.rs:139-207`. -/
def emitString (w : World) (m : Globals) (str pre strPre : Str) : Emitted :=
  let tagged := w.enc (strPre ++ str)
  if tagged.length < 256 then
    search w pre str (tagged.length :: tagged) m (m.length + 1) 0
  else .tooLong

/-! ### Results -/

/-- `ResultOpDef`, `extension/result.rs:72-89`. -/
inductive Def
  | bool
  | int
  | uint
  | f64
  | arrBool
  | arrInt
  | arrUInt
  | arrF64
deriving DecidableEq

/-- `SimpleArgs`, `extension/result.rs:222-227`. -/
inductive SArgs
  | basic
  | int (w : Nat)
deriving DecidableEq

/-- `ResultArgs`, `extension/result.rs:231-236`. -/
inductive Args
  | simple (s : SArgs)
  | array (s : SArgs) (size : Nat)
deriving DecidableEq

/-- `ResultOp`, `extension/result.rs:240-247`. -/
structure ROp where
  tag : Str
  op : Def
  args : Args
deriving DecidableEq

/-- The type part of the tag, `llvm/result.rs:196-281`, after `TAG_PREFIX`. -/
def tagPrefix : Def → Str
  | .bool => ['U','S','E','R',':','B','O','O','L',':']
  | .int => ['U','S','E','R',':','I','N','T',':']
  | .uint => ['U','S','E','R',':','I','N','T',':']
  | .f64 => ['U','S','E','R',':','F','L','O','A','T',':']
  | .arrBool => ['U','S','E','R',':','B','O','O','L','A','R','R',':']
  | .arrInt => ['U','S','E','R',':','I','N','T','A','R','R',':']
  | .arrUInt => ['U','S','E','R',':','I','N','T','A','R','R',':']
  | .arrF64 => ['U','S','E','R',':','F','L','O','A','T','A','R','R',':']

/-- The function of the runtime, `get_func_print`, `llvm/result.rs:89-129`. -/
inductive PrintFn
  | printBool
  | printInt
  | printUint
  | printFloat
  | printBoolArr
  | printIntArr
  | printUintArr
  | printFloatArr
deriving DecidableEq

/-- `get_func_print`. -/
def printFn : Def → PrintFn
  | .bool => .printBool
  | .int => .printInt
  | .uint => .printUint
  | .f64 => .printFloat
  | .arrBool => .printBoolArr
  | .arrInt => .printIntArr
  | .arrUInt => .printUintArr
  | .arrF64 => .printFloatArr

/-- Bytes of an LLVM integer that represents `int<w>` (hugr's LLVM lowering: `i8` up to `w = 3`,
then `i16`, `i32`, `i64`). -/
def intBytes (w : Nat) : Nat :=
  if w ≤ 3 then 1 else 2 ^ (w - 3)

/-- Bytes of a value with the given arguments; booleans take one byte and floats eight. -/
def elemBytes (d : Def) : SArgs → Nat
  | .int w => intBytes w
  | .basic =>
    match d with
    | .bool => 1
    | .arrBool => 1
    | _ => 8

/-- Bytes that the runtime function reads for one element: `i64`, `f64` or `i1`
(`array_utils.rs:209-214`, `llvm/result.rs:89-127`). -/
def printBytes : Def → Nat
  | .bool => 1
  | .arrBool => 1
  | _ => 8

/-- Values: the bits of a number, or the numbers of an array. -/
inductive Data
  | one (n : Nat)
  | many (ns : List Nat)
deriving DecidableEq

/-- The bytes of a number, lowest first. -/
def leBytes : Nat → Nat → List Nat
  | 0, _ => []
  | k + 1, n => n % 256 :: leBytes k (n / 256)

/-- The number with the bytes. -/
def leVal : List Nat → Nat
  | [] => 0
  | b :: bs => b + 256 * leVal bs

/-- Memory that starts with the bytes and goes on with others. -/
def put : List Nat → (Nat → Nat) → Nat → Nat
  | [], r, i => r i
  | b :: _, _, 0 => b
  | _ :: bs, r, i + 1 => put bs r i

/-- The first bytes of memory. -/
def bytesAt (mem : Nat → Nat) : Nat → List Nat
  | 0 => []
  | k + 1 => mem 0 :: bytesAt (fun i => mem (i + 1)) k

/-- An array in memory, elements of `k` bytes. -/
def readArr (k : Nat) : Nat → (Nat → Nat) → List Nat
  | 0, _ => []
  | n + 1, mem => leVal (bytesAt mem k) :: readArr k n (fun i => mem (i + k))

/-- What the runtime reports: the function, the tag it is given and the values. -/
structure Report where
  fn : PrintFn
  tag : List Nat
  values : List Nat
deriving DecidableEq

/-- Outcome of compiling and running a result operation: a report; the compiler panics (`unwrap`);
the compiler reports an error; or the emitted call is ill-typed, which the verifier of LLVM
refuses. -/
inductive Outcome
  | report (m : Globals) (r : Report)
  | panic
  | error
  | illTyped
deriving DecidableEq

/-- The tag that the runtime gets: a pointer to the variable, whose first byte is the length that
is passed along (`generate_global_tag`, `llvm/result.rs:131-160`). -/
def tagAt (m : Globals) (name : Str) : List Nat :=
  match find m name with
  | some (some (n :: bs)) => bs.take n
  | _ => []

/-- The call of the printing function, `llvm/result.rs:162-190, 193-284`.  `junk` is the memory
behind the array. -/
def callPrint (op : ROp) (m : Globals) (name : Str) (v : Data) (junk : Nat → Nat) : Outcome :=
  match op.op with
  | .bool | .int | .uint | .f64 =>
    match op.args, v with
    | .simple s, .one n =>
      if elemBytes op.op s = printBytes op.op then .report m ⟨printFn op.op, tagAt m name, [n]⟩
      else .illTyped
    | _, _ => .error
  | .arrBool | .arrInt | .arrUInt | .arrF64 =>
    match op.args, v with
    | .array s size, .many ns =>
      -- `length.try_into()`
      if size < 2 ^ 32 then
        .report m ⟨printFn op.op, tagAt m name,
          readArr (printBytes op.op) size (put (ns.flatMap (leBytes (elemBytes op.op s))) junk)⟩
      else .error
    -- `bail!("Expected array argument")`
    | _, _ => .error

/-- `ResultEmitter::emit`, `llvm/result.rs:193-284`, with the tag generated first. -/
def emitResult (w : World) (op : ROp) (m : Globals) (v : Data) (junk : Nat → Nat) : Outcome :=
  if op.tag = [] then .panic
  else match emitString w m op.tag ['r','e','s','_'] (tagPrefix op.op) with
    | .ok m' name => callPrint op m' name v junk
    | _ => .panic

/-! ### Exit codes -/

/-- `emit_panic`, `prelude.rs:32-56`: the code passed to the runtime, a 32-bit number. -/
def panicCode (signal : Nat) : Nat := (signal + 1000) % 2 ^ 32

/-- `emit_exit`, `prelude.rs:58-73`. -/
def exitCode (signal : Nat) : Nat := signal

end Verif.Results
