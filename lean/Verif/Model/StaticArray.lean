/-
Replacing `tket.bool` by native booleans inside static arrays.

Modelled code: `tket-qsystem/src/replace_bools/static_array.rs` (`ReplaceStaticArrayBoolPass`).
The engine `ReplaceTypes` belongs to hugr and is used as documented: it rewrites all types of a
program and applies the registered handlers to constants and operations.
-/
namespace Verif.StaticArray

/-- Types as the pass sees them.

`sum vs` has one payload type per variant; the fields of a variant form a `row`.  `app t` is any
other extension type with a type argument, such as `array<n, t>`.  `func m` is a function type
(or a type variable), where `m` says whether its signature mentions `tket.bool`; `atom n` is any
other type without arguments.  The native boolean is `sum [row [], row []]`. -/
inductive Ty
  | obool
  | atom (n : Nat)
  | sarr (t : Ty)
  | app (t : Ty)
  | sum (vs : List Ty)
  | row (ts : List Ty)
  | func (m : Bool)

/-- Values.  `tag i v` is variant `i` of a sum with payload `v`. -/
inductive Val
  | obool (b : Bool)
  | atom (k : Nat)
  | sarr (vs : List Val)
  | app (vs : List Val)
  | tag (i : Nat) (v : Val)
  | row (vs : List Val)
  | fn (k : Nat)

/-- `bool_t()`. -/
def nbool : Ty := .sum [.row [], .row []]

/-- `Value::from_bool`. -/
def nval (b : Bool) : Val := .tag (if b then 1 else 0) (.row [])

/-- `option_type(t)`. -/
def optTy (t : Ty) : Ty := .sum [.row [], .row [t]]

mutual
/-- The type mentions `tket.bool`, that is, `transform(&inner)` reports a change. -/
def mentions : Ty → Bool
  | .obool => true
  | .atom _ => false
  | .sarr t => mentions t
  | .app t => mentions t
  | .sum vs => mentionsAny vs
  | .row ts => mentionsAny ts
  | .func m => m
/-- Some type of the list mentions `tket.bool`. -/
def mentionsAny : List Ty → Bool
  | [] => false
  | t :: ts => mentions t || mentionsAny ts
end

mutual
/-- `inner_replace_types` on types, `static_array.rs:60-84`: inside a static array every
`tket.bool` becomes a native boolean. -/
def inner : Ty → Ty
  | .obool => nbool
  | .atom n => .atom n
  | .sarr t => .sarr (inner t)
  | .app t => .app (inner t)
  | .sum vs => .sum (innerAll vs)
  | .row ts => .row (innerAll ts)
  | .func _ => .func false
/-- `inner` on lists. -/
def innerAll : List Ty → List Ty
  | [] => []
  | t :: ts => inner t :: innerAll ts
end

mutual
/-- `outer_replace_types` on types, `static_array.rs:103-135`: only static arrays change. -/
def outer : Ty → Ty
  | .obool => .obool
  | .atom n => .atom n
  | .sarr t => .sarr (inner t)
  | .app t => .app (outer t)
  | .sum vs => .sum (outerAll vs)
  | .row ts => .row (outerAll ts)
  | .func m => .func m
/-- `outer` on lists. -/
def outerAll : List Ty → List Ty
  | [] => []
  | t :: ts => outer t :: outerAll ts
end

mutual
/-- `rt.change_value` of the inner replacement on a value (`static_array.rs:65-82` and the
handlers of hugr for sums and arrays): the new value. -/
def strip : Val → Val
  | .obool b => nval b
  | .atom k => .atom k
  | .sarr vs => .sarr (stripAll vs)
  | .app vs => .app (stripAll vs)
  | .tag i v => .tag i (strip v)
  | .row vs => .row (stripAll vs)
  | .fn k => .fn k
/-- `strip` on lists. -/
def stripAll : List Val → List Val
  | [] => []
  | v :: vs => strip v :: stripAll vs
end

/-- Whether `change_value` reports a change for a value `v` of type `t`.  Sums and arrays compare
types (hugr); a static array reports a change only if one of its elements does
(`static_array.rs:164-177`). -/
def changed : Ty → Val → Bool
  | .sarr t, v => match v with
    | .sarr vs => vs.any (changed t)
    | _ => false
  | t, _ => mentions t

/-- `replace_const_static_array`, `static_array.rs:160-185`, on the constant with element type `t`
and elements `vs`: the element type and elements afterwards. -/
def replaceConst (t : Ty) (vs : List Val) : Ty × List Val :=
  if vs.any (changed t) then (inner t, stripAll vs) else (t, vs)

mutual
/-- `build_new_to_old` does not panic (`static_array.rs:255`) when called with this type. -/
def buildOk : Ty → Bool
  | .obool => true
  | .atom _ => true
  | .sarr _ => true
  | .app _ => true
  | .sum vs => !mentionsAny vs || buildOkAll vs
  | .row ts => buildOkAll ts
  | .func _ => false
/-- `buildOk` for all variants or fields. -/
def buildOkAll : List Ty → Bool
  | [] => true
  | t :: ts => buildOk t && buildOkAll ts
end

/-- `make_opaque`. -/
def makeOpaque : Val → Val
  | .tag 0 _ => .obool false
  | .tag _ _ => .obool true
  | v => v

mutual
/-- What the code made by `build_new_to_old` (`static_array.rs:197-257`) does to a value of the new
type; `t` is the old type. -/
def newToOld : Ty → Val → Val
  | .obool, v => makeOpaque v
  | .atom _, v => v
  | .sarr _, v => v
  | .app _, v => v
  | .sum ts, v =>
    if mentionsAny ts then
      match v with
      | .tag i w => .tag i (newToOldAt ts i w)
      | v => v
    else v
  | .row ts, v => match v with
    | .row vs => .row (newToOldRow ts vs)
    | v => v
  | .func _, v => v
/-- The case for variant `i` (lines 239-250). -/
def newToOldAt : List Ty → Nat → Val → Val
  | [], _, w => w
  | t :: ts, i, w => match i with
    | 0 => newToOld t w
    | i + 1 => newToOldAt ts i w
/-- The fields of a variant (lines 241-245). -/
def newToOldRow : List Ty → List Val → List Val
  | [], _ => []
  | t :: ts, vs => match vs with
    | [] => []
    | v :: vs => newToOld t v :: newToOldRow ts vs
end

/-- The operation `static_array.get`. -/
def getOp (vs : List Val) (i : Nat) : Val :=
  match vs[i]? with
  | some v => .tag 1 (.row [v])
  | none => .tag 0 (.row [])

/-- The replacement of `get` for element type `t` (`get_op_dest`, `static_array.rs:259-302`):
`none` is a panic while building, otherwise the code that is run on the new array. -/
def getDest (t : Ty) : Option (List Val → Nat → Val) :=
  if mentions t then
    if buildOk (optTy t) then some fun vs i => newToOld (optTy t) (getOp vs i) else none
  else some getOp

/-- The operation `static_array.len`; `len_op_dest` (`static_array.rs:187-195`) replaces it by
itself at the new type. -/
def lenOp (vs : List Val) : Nat := vs.length

end Verif.StaticArray
