/-
The functions that are generated for temporary operations when barriers are lowered:
`tket/src/passes/unpack_container/op_function_map.rs`, and its use in `unpack_container.rs` 161-460,
`tket-qsystem/src/extension/qsystem/barrier/{wrapped_barrier,barrier_inserter}.rs` and
`tket-qsystem/src/extension/qsystem/lower.rs` 100-150.

Operations are keys of any type with decidable equality (`OpHashWrapper` compares the operations and hashes
what determines them). What a builder does is a parameter: the operations that it asks for in order, which
depends on the operation only, and whether the function can be finished. Reading the map with `borrow` never
overlaps with writing, as no borrow is kept during a call of a builder. Containers and wrapped barriers have a
map each; they are one here, as their operations are of different extensions and never ask for each other. That
`build_func` or the lowering itself may also fail is left out.
-/
namespace Verif.OpMap

variable {K F : Type} [DecidableEq K]

/-- What is known about the builder of the function of an operation: whether `FunctionBuilder::new` accepts the
signature, the operations that it adds (each through `insert_with`), and the function, or `none` if it or the last step
fails. -/
structure Body (K F : Type) where
  starts : Bool
  requests : List K
  result : Option F

/-- The `IndexMap`: operations in the order of insertion, `none` is the placeholder. -/
abbrev Table (K F : Type) := List (K × Option F)

/-- Outcomes: success, an error, or more nesting than the fuel allows. -/
inductive Out
  | ok
  | err
  | fuel
deriving DecidableEq

/-- `IndexMap::get` -/
def look (t : Table K F) (k : K) : Option (Option F) := (t.find? fun e => e.1 = k).map Prod.snd

/-- `IndexMap::insert` of a key that is there: the place is kept. -/
def put (t : Table K F) (k : K) (v : Option F) : Table K F := t.map fun e => if e.1 = k then (k, v) else e

/-- Requests one after the other, until one fails. -/
def runAll (ins : Table K F → K → Table K F × Out) : Table K F → List K → Table K F × Out
  | t, [] => (t, .ok)
  | t, k :: ks =>
    match ins t k with
    | (t', .ok) => runAll ins t' ks
    | r => r

/-- `insert_with`, `op_function_map.rs:61-88`, with the requests of the builder. -/
def insertWith (body : K → Body K F) : Nat → Table K F → K → Table K F × Out
  | 0, t, _ => (t, .fuel)
  | n + 1, t, k =>
    if (look t k).isSome then (t, .ok)
    else if !(body k).starts then (t, .err)
    else
      match runAll (insertWith body n) (t ++ [(k, none)]) (body k).requests with
      | (t', .ok) =>
        match (body k).result with
        | some f => (put t' k (some f), .ok)
        | none => (t', .err)
      | r => r

/-- `into_function_iter`, `op_function_map.rs:101-106`; `none` is the panic. -/
def collect (t : Table K F) : Option (List (K × F)) := t.mapM fun e => e.2.map fun f => (e.1, f)

/-- What lowering returns: the functions, an error, a panic, or out of fuel. -/
inductive Lowered (K F : Type)
  | done (fs : List (K × F))
  | error
  | panic
  | fuel

/-- The lowering of all barriers, `lower.rs:100-150`: the operations of all barriers are requested (the first error
is returned), then the functions are inserted and registered as replacements. -/
def lower (body : K → Body K F) (n : Nat) (ks : List K) : Lowered K F :=
  match runAll (insertWith body n) [] ks with
  | (t, .ok) =>
    match collect t with
    | some fs => .done fs
    | none => .panic
  | (_, .err) => .error
  | (_, .fuel) => .fuel

/-! ### Keys and names -/

/-- Arguments of operations: types, numbers and lists of types. -/
inductive Arg (T : Type)
  | ty (t : T)
  | nat (n : Nat)
  | list (ts : List T)
deriving DecidableEq

/-- The three kinds of arrays. -/
inductive Kind
  | array | value | borrow
deriving DecidableEq

/-- What is asked for: unwrapping (`true`) or making options, unpacking (`true`) or repacking arrays and tuples, a barrier
on a number of qubits. -/
inductive Ask (T : Type)
  | option (unpack : Bool) (t : T)
  | array (kind : Kind) (unpack : Bool) (size : Nat) (t : T)
  | tuple (unpack : Bool) (row : List T)
  | barrier (size : Nat)
deriving DecidableEq

/-- Names of the operations, `unpack_container.rs:79-88`, `wrapped_barrier.rs:24-25`. -/
def Ask.opName {T : Type} : Ask T → String
  | .option true _ => "option_unwrap"
  | .option false _ => "option_tag"
  | .array .array true _ _ => "array_unpack"
  | .array .array false _ _ => "array_repack"
  | .array .value true _ _ => "varray_unpack"
  | .array .value false _ _ => "varray_repack"
  | .array .borrow true _ _ => "barray_unpack"
  | .array .borrow false _ _ => "barray_repack"
  | .tuple true _ => "tuple_unpack"
  | .tuple false _ => "tuple_repack"
  | .barrier _ => "wrapped_barrier"

/-- The operation: name and arguments. `flatArray` and `flatTuple` are the rows of `unpack_type`; `qubit` is `qb_t()`.
`unpack_container.rs:192-200, 220-224, 250-256, 273-286, 329-342`, `wrapped_barrier.rs:74-86`. -/
def Ask.key {T : Type} (flatArray : Kind → Nat → T → List T) (flatTuple : List T → List T) (qubit : T) (a : Ask T) :
    String × List (Arg T) :=
  (a.opName, match a with
    | .option _ t => [.ty t]
    | .array k _ n t => [.nat n, .ty t, .list (flatArray k n t)]
    | .tuple _ row => [.list row, .list (flatTuple row)]
    | .barrier n => [.list (List.replicate n qubit)])

/-- The name of the function, `mangle_name` of the name of the operation and `mangle_args`; `mangle_name` (of `hugr`) is
taken to be injective. `unpack_container.rs:200, 224, 256, 309, 393, 430`, `wrapped_barrier.rs:87-88`. -/
def Ask.funcName {T : Type} (a : Ask T) : String × List (Arg T) :=
  (a.opName, match a with
    | .option true t => [.ty t]
    | .option false _ => []
    | .array _ _ n t => [.nat n, .ty t]
    | .tuple _ row => [.list row]
    | .barrier n => [.nat n])

end Verif.OpMap
