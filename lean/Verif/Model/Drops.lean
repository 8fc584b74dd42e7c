/-!
# Lowering of the drop operations of Guppy

Model of `tket-qsystem/src/lower_drops.rs` and of the steps of `QSystemPass`
(`tket-qsystem/src/lib.rs`) and `ReplaceBoolPass` (`tket-qsystem/src/replace_bools.rs`) that make and
consume operations `tket.guppy.drop`.

Simplifications that hold for the whole file:

* A sum type is a chain of alternatives, a row a chain of cells; a tag is the position in the chain.
* All types whose values may be thrown away are one leaf `native`, except `tket.bool`.
* `ReplaceTypes` and its linearizer belong to `hugr`, not to this repository. They are modelled from
  their documentation: a wire of a linear type that is not used gets an operation that discards the
  value, by case distinction for sums, element by element for arrays, and with the registered
  operation for other types; a type for which nothing is registered is an error.
* All elements of arrays are present (no element of a borrow array is lent when it is dropped).
* Loops and control flow graphs are recursive functions.
-/

namespace Verif.Drops

/-- What a future stands for (tket-qsystem/src/extension/qsystem.rs:108-114): a boolean, or the
integer of `LazyMeasureLeaked`. -/
inductive Elem where
  | bool
  | int
  deriving DecidableEq, Repr

/-- Types that are not composed. `var` is a type variable and whether it is bound to be copyable. -/
inductive Leaf where
  | native
  | tbool
  | future (e : Elem)
  | qubit
  | var (i : Nat) (copyable : Bool)
  deriving DecidableEq, Repr

/-- Types: `void` ends a chain of alternatives, `unit` a row. -/
inductive Ty where
  | leaf (l : Leaf)
  | void
  | alt (row rest : Ty)
  | unit
  | cell (head tail : Ty)
  | arr (n : Nat) (t : Ty)
  deriving DecidableEq, Repr

/-- Values. `nil` and `cons` are rows and arrays. -/
inductive Val where
  | data (n : Nat)
  | fut (h : Nat)
  | lin (q : Nat)
  | here (v : Val)
  | there (v : Val)
  | nil
  | cons (v w : Val)
  deriving DecidableEq, Repr

/-- Futures are linear (tket-qsystem/src/extension/futures.rs:46-52), as are qubits. -/
def Leaf.copyable : Leaf → Bool
  | .native => true
  | .tbool => true
  | .future _ => false
  | .qubit => false
  | .var _ c => c

/-- Arrays are linear whatever they hold. -/
def Ty.copyable : Ty → Bool
  | .leaf l => l.copyable
  | .void => true
  | .alt a b => a.copyable && b.copyable
  | .unit => true
  | .cell a b => a.copyable && b.copyable
  | .arr _ _ => false

/-- The operations that the linearizer inserts to discard a value. -/
inductive Code where
  | nothing
  | free
  | split (a b : Code)
  | both (a b : Code)
  | each (n : Nat) (c : Code)
  deriving DecidableEq, Repr

/-- The linearizer with the handlers of the default and those registered in
tket-qsystem/src/lower_drops.rs:24-46: only futures of booleans. -/
def discard : Ty → Option Code
  | .leaf l =>
    if l.copyable then some .nothing
    else if l = .future .bool then some .free
    else none
  | .void => some .nothing
  | .alt a b =>
    if a.copyable && b.copyable then some .nothing
    else match discard a, discard b with
      | some c, some d => some (.split c d)
      | _, _ => none
  | .unit => some .nothing
  | .cell a b =>
    if a.copyable && b.copyable then some .nothing
    else match discard a, discard b with
      | some c, some d => some (.both c d)
      | _, _ => none
  | .arr n t => (discard t).map (.each n)

/-- How often each future was read or freed. -/
abbrev Heap := Nat → Nat

def Heap.use (H : Heap) (h : Nat) : Heap := fun i => if i = h then H i + 1 else H i

/-- The operation `op` on each of `n` elements. -/
def forEach (op : Val → Heap → Option Heap) : Nat → Val → Heap → Option Heap
  | 0, .nil, H => some H
  | n + 1, .cons v w, H => (op v H).bind (forEach op n w)
  | _, _, _ => none

/-- Running the inserted operations; `none` for a value of another type. -/
def Code.run : Code → Val → Heap → Option Heap
  | .nothing, _, H => some H
  | .free, .fut h, H => some (H.use h)
  | .free, _, _ => none
  | .split a _, .here v, H => a.run v H
  | .split _ b, .there v, H => b.run v H
  | .split _ _, _, _ => none
  | .both a b, .cons v w, H => (a.run v H).bind (b.run w)
  | .both _ _, _, _ => none
  | .each n c, v, H => forEach c.run n v H

/-! ### Programs -/

/-- A region: operations with the names they read and define. `discard` is the operation of arrays of
copyable elements, `dfg` the graph that replaces a drop. -/
inductive Body (L : Type) where
  | ret (outs : List Nat)
  | op (l : L) (ins outs : List Nat) (k : Body L)
  | drop (t : Ty) (x : Nat) (k : Body L)
  | discard (n : Nat) (t : Ty) (x : Nat) (k : Body L)
  | dfg (c : Code) (x : Nat) (k : Body L)
  | cond (x y : Nat) (a b : Body L) (outs : List Nat) (k : Body L)
  | call (f : Nat) (ins outs : List Nat) (k : Body L)
  deriving DecidableEq, Repr

structure Fn (L : Type) where
  ins : List Nat
  body : Body L
  deriving DecidableEq, Repr

/-- `LowerDropsPass::run` (tket-qsystem/src/lower_drops.rs:23-63) on a region: every drop becomes a
graph with one input that is not used, for which the linearizer inserts operations. -/
def lower {L : Type} : Body L → Option (Body L)
  | .ret outs => some (.ret outs)
  | .op l ins outs k => (lower k).map (.op l ins outs)
  | .drop t x k =>
    match Drops.discard t, lower k with
    | some c, some k => some (.dfg c x k)
    | _, _ => none
  | .discard n t x k => (lower k).map (.discard n t x)
  | .dfg c x k => (lower k).map (.dfg c x)
  | .cond x y a b outs k =>
    match lower a, lower b, lower k with
    | some a, some b, some k => some (.cond x y a b outs k)
    | _, _, _ => none
  | .call f ins outs k => (lower k).map (.call f ins outs)

def Body.hasDrop {L : Type} : Body L → Bool
  | .ret _ => false
  | .op _ _ _ k => k.hasDrop
  | .drop _ _ _ => true
  | .discard _ _ _ k => k.hasDrop
  | .dfg _ _ k => k.hasDrop
  | .cond _ _ a b _ k => a.hasDrop || b.hasDrop || k.hasDrop
  | .call _ _ _ k => k.hasDrop

/-- All functions of the module. -/
def lowerFns {L : Type} : List (Fn L) → Option (List (Fn L))
  | [] => some []
  | f :: fs =>
    match lower f.body, lowerFns fs with
    | some b, some gs => some (⟨f.ins, b⟩ :: gs)
    | _, _ => none

/-- The pass returns whether it replaced anything (lower_drops.rs:20). -/
def lowerDrops {L : Type} (P : List (Fn L)) : Option (List (Fn L) × Bool) :=
  (lowerFns P).map fun Q => (Q, P.any fun f => f.body.hasDrop)

/-! ### Lazy booleans

`ReplaceBoolPass` as far as it touches drops. What it does to values is in `Model/LazyBool`. -/

/-- `bool_dest` (tket-qsystem/src/replace_bools.rs:85-87): a boolean or a future of one. -/
def boolDest : Ty :=
  .alt (.cell (.leaf .native) .unit) (.alt (.cell (.leaf (.future .bool)) .unit) .void)

def lazyTy : Ty → Ty
  | .leaf .tbool => boolDest
  | .leaf l => .leaf l
  | .void => .void
  | .alt a b => .alt (lazyTy a) (lazyTy b)
  | .unit => .unit
  | .cell a b => .cell (lazyTy a) (lazyTy b)
  | .arr n t => .arr n (lazyTy t)

/-- A discard of an array whose elements are no longer copyable becomes a drop
(tket-qsystem/src/replace_bools.rs:383-403). -/
def bools {L : Type} : Body L → Body L
  | .ret outs => .ret outs
  | .op l ins outs k => .op l ins outs (bools k)
  | .drop t x k => .drop (lazyTy t) x (bools k)
  | .discard n t x k =>
    if (lazyTy t).copyable then .discard n (lazyTy t) x (bools k)
    else .drop (.arr n (lazyTy t)) x (bools k)
  | .dfg c x k => .dfg c x (bools k)
  | .cond x y a b outs k => .cond x y (bools a) (bools b) outs (bools k)
  | .call f ins outs k => .call f ins outs (bools k)

/-- The part of `QSystemPass::run` (tket-qsystem/src/lib.rs:118-124) that is about drops. -/
def qsystem {L : Type} (lazify : Bool) (P : List (Fn L)) : Option (List (Fn L)) :=
  (lowerDrops (if lazify then P.map fun f => ⟨f.ins, bools f.body⟩ else P)).map Prod.fst

/-! ### Running programs -/

inductive Out (α : Type) where
  | ok (a : α)
  | panic
  | fuel
  | stuck
  deriving Repr

structure St (W : Type) where
  w : W
  heap : Heap

/-- The other operations, on the whole state. -/
structure Machine (W L : Type) where
  op : L → St W → List Val → Out (St W × List Val)

abbrev Env := Nat → Option Val

def bindAll : List Nat → List Val → Env → Env
  | x :: xs, v :: vs, E => bindAll xs vs fun i => if i = x then some v else E i
  | _, _, E => E

def readAll (E : Env) : List Nat → Option (List Val)
  | [] => some []
  | x :: xs =>
    match E x, readAll E xs with
    | some v, some vs => some (v :: vs)
    | _, _ => none

/-- A region. `drop` is what a drop does (a parameter: there is no code for it before the pass). -/
def exec {W L : Type} (M : Machine W L) (drop : Ty → Val → Heap → Option Heap)
    (call : Nat → St W → List Val → Out (St W × List Val)) :
    Body L → Env → St W → Out (St W × List Val)
  | .ret outs, E, st =>
    match readAll E outs with
    | some vs => .ok (st, vs)
    | none => .stuck
  | .op l ins outs k, E, st =>
    match readAll E ins with
    | none => .stuck
    | some vs =>
      match M.op l st vs with
      | .ok (st', ws) => exec M drop call k (bindAll outs ws E) st'
      | .panic => .panic
      | .fuel => .fuel
      | .stuck => .stuck
  | .drop t x k, E, st =>
    match (E x).bind fun v => drop t v st.heap with
    | some H => exec M drop call k E ⟨st.w, H⟩
    | none => .stuck
  | .discard _ _ x k, E, st =>
    match E x with
    | some _ => exec M drop call k E st
    | none => .stuck
  | .dfg c x k, E, st =>
    match (E x).bind fun v => c.run v st.heap with
    | some H => exec M drop call k E ⟨st.w, H⟩
    | none => .stuck
  | .cond x y a b outs k, E, st =>
    match E x with
    | some (.here v) =>
      match exec M drop call a (fun i => if i = y then some v else E i) st with
      | .ok (st', ws) => exec M drop call k (bindAll outs ws E) st'
      | .panic => .panic
      | .fuel => .fuel
      | .stuck => .stuck
    | some (.there v) =>
      match exec M drop call b (fun i => if i = y then some v else E i) st with
      | .ok (st', ws) => exec M drop call k (bindAll outs ws E) st'
      | .panic => .panic
      | .fuel => .fuel
      | .stuck => .stuck
    | _ => .stuck
  | .call f ins outs k, E, st =>
    match readAll E ins with
    | none => .stuck
    | some vs =>
      match call f st vs with
      | .ok (st', ws) => exec M drop call k (bindAll outs ws E) st'
      | .panic => .panic
      | .fuel => .fuel
      | .stuck => .stuck

/-- Calling function `f` with a bound on the depth of calls. -/
def run {W L : Type} (M : Machine W L) (drop : Ty → Val → Heap → Option Heap) (P : List (Fn L)) :
    Nat → Nat → St W → List Val → Out (St W × List Val)
  | 0, _, _, _ => .fuel
  | n + 1, f, st, vs =>
    match P[f]? with
    | none => .stuck
    | some d => exec M drop (run M drop P n) d.body (bindAll d.ins vs fun _ => none) st

end Verif.Drops
