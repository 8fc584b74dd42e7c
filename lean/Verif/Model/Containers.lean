/-
Unpacking containers of qubits and lowering barriers to runtime barriers.

Modelled code
* `tket/src/passes/unpack_container/type_unpack.rs`
* `tket/src/passes/unpack_container.rs`
* `tket/src/passes/unpack_container/op_function_map.rs` (only the fact that a
  stored function is checked against the signature of its operation)
* `tket-qsystem/src/extension/qsystem/barrier/barrier_inserter.rs`
* `tket-qsystem/src/extension/qsystem/barrier/wrapped_barrier.rs`

The builder runs at compile time and produces functions that run later, so there are two
families of definitions: `b…` computes what the *builder* does (types of the returned wires,
type clashes, panics), `r…` computes what the built functions do on *values*.
-/
namespace Verif.Containers

/-- The three array types of `type_unpack.rs:92-96` (`Array`, `ValueArray`, `BorrowArray`). -/
inductive Kind
  | array | value | borrow
  deriving DecidableEq, Repr

/-- HUGR types as `type_unpack.rs` looks at them.

`tuple row` is a sum with one variant (`SumType::as_tuple`), `opt t` is a sum with an empty
variant followed by a variant with one field (`SumType::as_unary_option`).  Every other type is
an `atom`: `bool` and other sums, functions, types of other extensions.  The code never looks
inside those (`type_unpack.rs:91,114-116`).  Row variables, on which the code panics
(`type_unpack.rs:124`), are left out. -/
inductive Ty
  | qubit
  | atom (n : Nat)
  | tuple (row : List Ty)
  | opt (t : Ty)
  | arr (k : Kind) (n : Nat) (t : Ty)
  deriving Repr

mutual
/-- Equality of types, used by `==` throughout. -/
def Ty.decEq : (a b : Ty) → Decidable (a = b)
  | .qubit, b => match b with
    | .qubit => isTrue rfl
    | .atom _ | .tuple _ | .opt _ | .arr .. => isFalse nofun
  | .atom m, b => match b with
    | .atom m' => if h : m = m' then isTrue (h ▸ rfl) else isFalse fun h' => h (Ty.atom.inj h')
    | .qubit | .tuple _ | .opt _ | .arr .. => isFalse nofun
  | .tuple r, b => match b with
    | .tuple r' => match Ty.decEqRow r r' with
      | isTrue h => isTrue (h ▸ rfl)
      | isFalse h => isFalse fun h' => h (Ty.tuple.inj h')
    | .qubit | .atom _ | .opt _ | .arr .. => isFalse nofun
  | .opt t, b => match b with
    | .opt t' => match Ty.decEq t t' with
      | isTrue h => isTrue (h ▸ rfl)
      | isFalse h => isFalse fun h' => h (Ty.opt.inj h')
    | .qubit | .atom _ | .tuple _ | .arr .. => isFalse nofun
  | .arr k n t, b => match b with
    | .arr k' n' t' => match Ty.decEq t t' with
      | isTrue h =>
        if hk : k = k' ∧ n = n' then isTrue (by rw [h, hk.1, hk.2])
        else isFalse fun h' => hk ⟨(Ty.arr.inj h').1, (Ty.arr.inj h').2.1⟩
      | isFalse h => isFalse fun h' => h (Ty.arr.inj h').2.2
    | .qubit | .atom _ | .tuple _ | .opt _ => isFalse nofun

/-- Equality of rows. -/
def Ty.decEqRow : (a b : List Ty) → Decidable (a = b)
  | [], b => match b with
    | [] => isTrue rfl
    | _ :: _ => isFalse nofun
  | t :: ts, b => match b with
    | [] => isFalse nofun
    | t' :: ts' => match Ty.decEq t t', Ty.decEqRow ts ts' with
      | isTrue h, isTrue h' => isTrue (by rw [h, h'])
      | isFalse h, _ => isFalse fun h' => h (List.cons.inj h').1
      | _, isFalse h => isFalse fun h' => h (List.cons.inj h').2
end

instance : DecidableEq Ty := Ty.decEq

/-- Values at run time.  `qb q` is a handle to qubit `q`, `opaque n k` is a value of `atom n`. -/
inductive Val
  | qb (q : Nat)
  | «opaque» (n k : Nat)
  | tuple (vs : List Val)
  | none
  | some (v : Val)
  | arr (vs : List Val)
  deriving Repr

/-- Things that go wrong while building.
`clash` is a wire, an operation or a function body whose types do not fit: the builder or the
validator refuses it.  `panic` is a Rust panic. -/
inductive BErr
  | clash
  | panic
  deriving DecidableEq, Repr

/-- Things that go wrong at run time.  `isNone` is the panic of `build_expect_sum`
(`unpack_container.rs:203-205`); `stuck` is an operation applied to a value of the wrong shape,
which cannot happen in a well-typed program. -/
inductive RErr
  | isNone
  | stuck
  deriving DecidableEq, Repr

/-! ### `type_unpack.rs` -/

/-- `is_opt_of`, `type_unpack.rs:12-19`. -/
def isOptOf : Ty → Ty → Bool
  | .opt t, e => decide (t = e)
  | _, _ => false

mutual
/-- `TypeUnpacker::unpack_type` and `_new_unpack_type`, `type_unpack.rs:72-117`; `e` is the
element type.  The memo table (lines 73-79) is left out: the function is pure, so the table
only ever holds what the function returns. -/
def unpackType (e : Ty) : Ty → Option (List Ty)
  | .tuple row =>
    if Ty.tuple row = e then some [e]
    else if (tupleRow e row).1 then some (tupleRow e row).2 else none
  | .arr k n t =>
    if Ty.arr k n t = e then some [e]
    else if isOptOf t e then some (List.replicate n e)
    else (unpackType e t).map fun inner => (List.replicate n inner).flatten
  | .qubit => if Ty.qubit = e then some [e] else none
  | .atom m => if Ty.atom m = e then some [e] else none
  | .opt t => if Ty.opt t = e then some [e] else none

/-- The loop of `TypeUnpacker::tuple_row`, `type_unpack.rs:119-135`: whether some component
contains the element type, and the concatenated rows. -/
def tupleRow (e : Ty) : List Ty → Bool × List Ty
  | [] => (false, [])
  | t :: ts =>
    match unpackType e t with
    | some inner => (true, inner ++ (tupleRow e ts).2)
    | none => ((tupleRow e ts).1, t :: (tupleRow e ts).2)
end

/-- `TypeUnpacker::num_unpacked_wires`, `type_unpack.rs:138-140`. -/
def numWires (e t : Ty) : Nat :=
  match unpackType e t with
  | some row => row.length
  | none => 1

/-- `TypeUnpacker::contains_element_type`, `type_unpack.rs:143-145`. -/
def contains (e t : Ty) : Bool := (unpackType e t).isSome

/-- `is_array_of::<Array>`, `type_unpack.rs:154-158`, as used by `barrier_inserter.rs:27-29`. -/
def qubitArray : Ty → Option Nat
  | .arr .array n .qubit => some n
  | _ => none

/-! ### Building the unpacking functions -/

/-- `slice::chunks` of the Rust standard library for a positive chunk size; `fuel` is the length
of the list. -/
def chunksGo {α : Type} (k : Nat) : Nat → List α → List (List α)
  | 0, _ => []
  | fuel + 1, l =>
    if l.isEmpty then [] else l.take k :: chunksGo k fuel (l.drop k)

/-- `slice::chunks`. -/
def chunks {α : Type} (k : Nat) (l : List α) : List (List α) := chunksGo k l.length l

/-- The check that the outputs of a function body have the types in the signature of the
operation it implements: `op_function_map.rs:76-82`. -/
def check {α : Type} [DecidableEq α] (body declared : α) : Except BErr α :=
  if body = declared then .ok declared else .error .clash

/-- `elem_wires.into_iter().next().expect(..)` and `unpacked_wires[0]`. -/
def first (ws : List Ty) : Except BErr Ty :=
  match ws with
  | w :: _ => .ok w
  | [] => .error .panic

mutual
/-- `unpack_container`, `unpack_container.rs:447-494`, with `unpack_option` (191-213),
`unpack_array` (241-272) and `unpack_tuple` (380-408) inlined: the types of the wires returned
for a container wire of type `ty`.

Line 460 compares with the qubit type, not with the element type, while `unpack_option` makes an
operation for options of the element type. -/
def bUnpack (e : Ty) : Ty → Except BErr (List Ty)
  | .tuple row =>
    if Ty.tuple row = e then .ok [.tuple row]
    else match unpackType e (.tuple row) with
      | none => .ok [.tuple row]
      | some r => (bUnpackRow e row).bind fun body => check body r
  | .arr k n t =>
    if Ty.arr k n t = e then .ok [.arr k n t]
    else match unpackType e (.arr k n t) with
      | none => .ok [.arr k n t]
      | some r =>
        -- one call of `unpack_container` per element, none for an empty array
        if n = 0 then check [] r
        else (bUnpack e t).bind fun inner => check (List.replicate n inner).flatten r
  | .opt t =>
    if Ty.opt t = e then .ok [.opt t]
    else if t = .qubit then (if e = .qubit then .ok [e] else .error .clash)
    else .ok [.opt t]
  | .qubit => .ok [.qubit]
  | .atom m => .ok [.atom m]

/-- `unpack_row`, `unpack_container.rs:344-359`. -/
def bUnpackRow (e : Ty) : List Ty → Except BErr (List Ty)
  | [] => .ok []
  | t :: ts =>
    (bUnpack e t).bind fun ws => (bUnpackRow e ts).bind fun rest => .ok (ws ++ rest)
end

mutual
/-- `repack_container`, `unpack_container.rs:497-542`, with `repack_option` (216-238),
`repack_array` (288-327) and `repack_tuple` (411-444) inlined: the type of the returned wire for
wires of types `ws`.  `chunks(inner_row_len)` (line 315) panics when the chunk size is zero.
The `debug_assert`s are left out. -/
def bRepack (e : Ty) : Ty → List Ty → Except BErr Ty
  | .tuple row, ws =>
    if Ty.tuple row = e then first ws
    else match unpackType e (.tuple row) with
      | none => first ws
      | some r =>
        (bRepackRow e row r).bind fun body => (check body row).bind fun _ =>
          (check ws r).bind fun _ => .ok (.tuple row)
  | .arr k n t, ws =>
    if Ty.arr k n t = e then first ws
    else match unpackType e (.arr k n t) with
      | none => first ws
      | some r =>
        if numWires e t = 0 then .error .panic
        else
          ((chunks (numWires e t) r).mapM (bRepack e t)).bind fun body =>
            (check body (List.replicate n t)).bind fun _ =>
              (check ws r).bind fun _ => .ok (.arr k n t)
  | .opt t, ws =>
    if Ty.opt t = e then first ws
    else if t = e then (first ws).bind fun w => (check w e).bind fun _ => .ok (.opt e)
    else first ws
  | .qubit, ws => first ws
  | .atom _, ws => first ws

/-- `repack_row`, `unpack_container.rs:362-377`. -/
def bRepackRow (e : Ty) : List Ty → List Ty → Except BErr (List Ty)
  | [], _ => .ok []
  | t :: ts, ws =>
    (bRepack e t (ws.take (numWires e t))).bind fun w =>
      (bRepackRow e ts (ws.drop (numWires e t))).bind fun rest => .ok (w :: rest)
end

/-! ### Running the built functions -/

/-- `build_expect_sum(1, option_type(..))`, `unpack_container.rs:203-205`. -/
def unwrap : Val → Except RErr Val
  | .some v => .ok v
  | .none => .error .isNone
  | _ => .error .stuck

/-- The outputs of `UnpackTuple`, `unpack_container.rs:395-398`. -/
def fields : Val → Except RErr (List Val)
  | .tuple vs => .ok vs
  | _ => .error .stuck

/-- The outputs of the array unpack operation, `unpack_container.rs:258`. -/
def elements : Val → Except RErr (List Val)
  | .arr vs => .ok vs
  | _ => .error .stuck

/-- Concatenating the outputs of the calls for all elements. -/
def concatM {α : Type} (f : α → Except RErr (List Val)) : List α → Except RErr (List Val)
  | [] => .ok []
  | a :: as => (f a).bind fun x => (concatM f as).bind fun y => .ok (x ++ y)

mutual
/-- What the operations inserted by `unpack_container` do to a value. -/
def rUnpack (e : Ty) : Ty → Val → Except RErr (List Val)
  | .tuple row, v =>
    if Ty.tuple row = e then .ok [v]
    else match unpackType e (.tuple row) with
      | none => .ok [v]
      | some _ => (fields v).bind fun vs => rUnpackRow e row vs
  | .arr k n t, v =>
    if Ty.arr k n t = e then .ok [v]
    else match unpackType e (.arr k n t) with
      | none => .ok [v]
      | some _ => (elements v).bind fun vs => concatM (rUnpack e t) vs
  | .opt t, v =>
    if Ty.opt t = e then .ok [v]
    else if t = .qubit then (unwrap v).bind fun w => .ok [w]
    else .ok [v]
  | .qubit, v => .ok [v]
  | .atom _, v => .ok [v]

/-- What the operations inserted by `unpack_row` do to a row of values. -/
def rUnpackRow (e : Ty) : List Ty → List Val → Except RErr (List Val)
  | [], _ => .ok []
  | _ :: _, [] => .error .stuck
  | t :: ts, v :: vs =>
    (rUnpack e t v).bind fun ws => (rUnpackRow e ts vs).bind fun rest => .ok (ws ++ rest)
end

/-- The value on the only wire. -/
def rFirst (ws : List Val) : Except RErr Val :=
  match ws with
  | w :: _ => .ok w
  | [] => .error .stuck

mutual
/-- What the operations inserted by `repack_container` do to the values on the wires. -/
def rRepack (e : Ty) : Ty → List Val → Except RErr Val
  | .tuple row, ws =>
    if Ty.tuple row = e then rFirst ws
    else match unpackType e (.tuple row) with
      | none => rFirst ws
      | some _ => (rRepackRow e row ws).bind fun vs => .ok (.tuple vs)
  | .arr k n t, ws =>
    if Ty.arr k n t = e then rFirst ws
    else match unpackType e (.arr k n t) with
      | none => rFirst ws
      | some _ =>
        ((chunks (numWires e t) ws).mapM (rRepack e t)).bind fun vs => .ok (.arr vs)
  | .opt t, ws =>
    if Ty.opt t = e then rFirst ws
    else if t = e then (rFirst ws).bind fun w => .ok (.some w)
    else rFirst ws
  | .qubit, ws => rFirst ws
  | .atom _, ws => rFirst ws

/-- What the operations inserted by `repack_row` do. -/
def rRepackRow (e : Ty) : List Ty → List Val → Except RErr (List Val)
  | [], _ => .ok []
  | t :: ts, ws =>
    (rRepack e t (ws.take (numWires e t))).bind fun w =>
      (rRepackRow e ts (ws.drop (numWires e t))).bind fun rest => .ok (w :: rest)
end

/-! ### `barrier_inserter.rs` -/

/-- `build_packing_hugr`, `barrier_inserter.rs:98-151`, at build time.  The wrapped barrier has
the same number of qubit outputs as inputs (`wrapped_barrier.rs:69-92`), so the repacked wires
have the types of the unpacked ones. -/
def bPacking (row : List Ty) : Except BErr Unit :=
  (bUnpackRow .qubit row).bind fun ws =>
    (bRepackRow .qubit row ws).bind fun outs =>
      (check outs row).bind fun _ => .ok ()

/-- Lines 109-126: the values on wires of qubit type.  `ts` are the types of the wires. -/
def qubitWires (ts : List Ty) (ws : List Val) : List Val :=
  ((ts.zip ws).filter fun p => decide (p.1 = .qubit)).map (·.2)

/-- Lines 134-142: put the outputs of the barrier in place of the qubit wires.  `none` is the
panic of line 138. -/
def replaceQubits : List Ty → List Val → List Val → Option (List Val)
  | [], _, _ => some []
  | _ :: _, [], _ => some []
  | t :: ts, w :: ws, outs =>
    if t = .qubit then
      match outs with
      | [] => none
      | o :: outs => (replaceQubits ts ws outs).map (o :: ·)
    else (replaceQubits ts ws outs).map (w :: ·)

/-- A runtime barrier on an array of qubits: `touch` is what the barrier does to each qubit
handle.  A real runtime barrier returns the same qubits; an arbitrary function keeps track of
which outputs of the program went through the barrier. -/
def barrierOut (touch : Nat → Nat) : Val → Val
  | .qb q => .qb (touch q)
  | v => v

/-- The function built by `build_packing_hugr` at run time: the arguments of the runtime barrier
and the outputs. `ts` are the types of the unpacked wires. -/
def rPacking (touch : Nat → Nat) (row ts : List Ty) (vs : List Val) :
    Except RErr (List Val × List Val) :=
  (rUnpackRow .qubit row vs).bind fun ws =>
    match replaceQubits ts ws ((qubitWires ts ws).map (barrierOut touch)) with
    | none => .error .stuck
    | some ws' =>
      (rRepackRow .qubit row ws').bind fun outs => .ok (qubitWires ts ws, outs)

/-- What is inserted behind a barrier node. -/
inductive Inserted
  /-- No type contains a qubit (lines 163-165). -/
  | nothing
  /-- The short cut for a single array of qubits (lines 171-176), on output port `i`. -/
  | direct (i : Nat)
  /-- The packing function on the output ports `ports`, with wires of types `ts` inside. -/
  | packing (ports : List Nat) (row ts : List Ty)
  deriving DecidableEq, Repr

/-- `filter_qubit_containers`, `barrier_inserter.rs:49-72`: output ports of the barrier whose type
contains qubits, starting to count at `i`. -/
def filterPorts (i : Nat) : List Ty → List (Nat × Ty)
  | [] => []
  | t :: ts => if contains .qubit t then (i, t) :: filterPorts (i + 1) ts else filterPorts (i + 1) ts

/-- The short cut applies: one filtered type and it is an `Array` of qubits
(`barrier_inserter.rs:172-176`, `try_array_barrier_shortcut` 75-95). -/
def shortcut : List (Nat × Ty) → Option Nat
  | [(i, t)] => if (qubitArray t).isSome then some i else none
  | _ => none

/-- `insert_runtime_barrier`, `barrier_inserter.rs:154-186`. -/
def insertBarrier (types : List Ty) : Except BErr Inserted :=
  let filtered := filterPorts 0 types
  if filtered.isEmpty then .ok .nothing
  else match shortcut filtered with
    | some i => .ok (.direct i)
    | none =>
      let row := filtered.map (·.2)
      (bPacking row).bind fun _ =>
        (bUnpackRow .qubit row).bind fun ts => .ok (.packing (filtered.map (·.1)) row ts)

/-- The runtime barrier on an array (`wrapped_barrier.rs:102-107`). -/
def directOut (touch : Nat → Nat) : Val → Except RErr (List Val × Val)
  | .arr vs => .ok (vs, .arr (vs.map (barrierOut touch)))
  | _ => .error .stuck

/-- `InsertCut` on the edges leaving the given ports: the values at these ports are replaced. -/
def setPorts : List Nat → List Val → List Val → List Val
  | i :: is, o :: os, vs => setPorts is os (vs.set i o)
  | _, _, vs => vs

/-- Running what was inserted on the values leaving the barrier: the arguments of the runtime
barriers that are executed, and the values that arrive behind them. -/
def runInserted (touch : Nat → Nat) (vs : List Val) :
    Inserted → Except RErr (List (List Val) × List Val)
  | .nothing => .ok ([], vs)
  | .direct i =>
    match vs[i]? with
    | none => .error .stuck
    | some v => (directOut touch v).bind fun p => .ok ([p.1], vs.set i p.2)
  | .packing ports row ts =>
    (rPacking touch row ts (ports.filterMap (vs[·]?))).bind fun p =>
      .ok ([p.1], setPorts ports p.2 vs)

end Verif.Containers
