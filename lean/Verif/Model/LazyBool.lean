/-!
# Lazy booleans

Model of `tket-qsystem/src/replace_bools.rs`: every `tket.bool` becomes either a native boolean or a
future of one, and measurements become lazy.

Simplifications that hold for the whole file:

* A program is a table of regions with local names. Conditionals and nested dataflow graphs contain
  their regions; functions, loops and control flow graphs are entries of the table.
* Types are reduced to one flag per wire: whether the type mentions `tket.bool`, so that the wire is
  copyable before the pass and linear after it.
* Values are untyped; a step that a well-typed program cannot take is `stuck`.
* The general machinery of `ReplaceTypes` and of its linearizer is part of `hugr`, not of this
  repository. It is modelled from its documentation: an operation is replaced by the given template,
  and a wire that becomes linear and is not used exactly once gets an operation that copies or
  discards the value, which applies the registered `Dup` or `Free` to every future inside.
* The value of a future is fixed when the lazy measurement is executed.
-/

namespace Verif.LazyBool

/-- Runtime values. Tuples and arrays are sums with tag 0; `hole` is a borrowed array element. -/
inductive Val where
  | o (b : Bool)
  | fut (h : Nat)
  | lin (q : Nat)
  | nat (n : Nat)
  | hole
  | sum (tag : Nat) (xs : List Val)
  deriving Repr

/-- A native boolean is a sum of two empty rows. -/
def bool (b : Bool) : Val := .sum (if b then 1 else 0) []

def Val.isHole : Val → Bool
  | .hole => true
  | _ => false

def Val.toBool : Val → Option Bool
  | .sum 0 [] => some false
  | .sum 1 [] => some true
  | _ => none

mutual
/-- The value mentions neither opaque booleans nor futures. -/
def Val.clean : Val → Bool
  | .o _ => false
  | .fut _ => false
  | .sum _ xs => cleanL xs
  | .lin _ => true
  | .nat _ => true
  | .hole => true
def cleanL : List Val → Bool
  | [] => true
  | x :: xs => x.clean && cleanL xs
end

/-- A future: its value, and how often it was consumed. -/
structure Slot where
  val : Bool
  used : Nat
  deriving DecidableEq, Repr

abbrev Heap := List Slot

structure St (W : Type) where
  w : W
  heap : Heap
  deriving Repr

inductive Bin where
  | eq | and | or | xor
  deriving DecidableEq, Repr

def Bin.run : Bin → Bool → Bool → Bool
  | .eq, a, b => a == b
  | .and, a, b => a && b
  | .or, a, b => a || b
  | .xor, a, b => a != b

/-- Operations. The flag `lz` tells whether the element type mentions `tket.bool`. -/
inductive Op (L : Type) where
  /-- `tket.bool` (tket/src/extension/bool.rs). -/
  | read
  | makeOpaque
  | bin (b : Bin)
  | not
  /-- Loading a constant. -/
  | const (v : Val)
  /-- `TketOp::MeasureFree`, `QSystemOp::Measure` and `QSystemOp::MeasureReset`. -/
  | measure
  | measureReset
  /-- Anything without `tket.bool` in its signature. -/
  | prim (l : L)
  | tag (t : Nat)
  /-- `clone` and `discard` of arrays, `get` of borrow arrays of the given size. -/
  | clone (lz : Bool)
  | discard (lz : Bool)
  | get (lz : Bool) (size : Nat)
  /-- `borrow` and `return` of borrow arrays, and `drop` of the guppy extension. -/
  | borrow
  | giveBack
  | drop
  /-- Native logic and the comparison with a constant. -/
  | lbin (b : Bin)
  | lnot
  | ilt (n : Nat)
  /-- Lazy measurements and `Read` of the futures extension. -/
  | lazyMeasure
  | lazyMeasureReset
  | futRead
  /-- What the linearizer inserts: as many copies as needed. -/
  | copy (k : Nat)

/-- Entries of the table: functions, loop bodies and blocks of control flow graphs. -/
inductive Key where
  | fn (f : Nat)
  | loop (f : Nat)
  | block (f : Nat)
  deriving DecidableEq, Repr

mutual
/-- A region after its inputs: statements with the names they read and define, and the outputs. A
name is defined together with the flag of its type. -/
inductive Body (ν L : Type) where
  | ret (outs : List ν)
  | op (o : Op L) (ins : List ν) (outs : List (ν × Bool)) (k : Body ν L)
  | cond (ins : List ν) (cs : Cases ν L) (outs : List (ν × Bool)) (k : Body ν L)
  | dfg (ins : List ν) (bins : List (ν × Bool)) (b : Body ν L) (outs : List (ν × Bool))
      (k : Body ν L)
  | call (key : Key) (ins : List ν) (outs : List (ν × Bool)) (k : Body ν L)
inductive Cases (ν L : Type) where
  | nil
  | cons (bins : List (ν × Bool)) (b : Body ν L) (cs : Cases ν L)
end

/-- An entry of the table. The successors matter for blocks only; `none` is the exit block. -/
structure Def (ν L : Type) where
  bins : List (ν × Bool)
  body : Body ν L
  succs : List (Option Nat)

/-! ### Semantics -/

/-- The result of a run: a value, a panic of the program, more fuel needed, or ill-typed. -/
inductive Out (α : Type) where
  | ok (a : α)
  | panic
  | fuel
  | stuck
  deriving Repr

def Out.bind {α β : Type} : Out α → (α → Out β) → Out β
  | .ok a, f => f a
  | .panic, _ => .panic
  | .fuel, _ => .fuel
  | .stuck, _ => .stuck

def Out.ofOption {α : Type} : Option α → Out α
  | some a => .ok a
  | none => .stuck

/-- The rest of the machine: measurements with their outcomes, and other operations, which may
panic. -/
structure Machine (W L : Type) where
  meas : W → Nat → Bool × W
  measReset : W → Nat → Bool × W
  prim : L → W → List Val → Option (W × List Val)

/-- Creates a future. -/
def alloc (H : Heap) (b : Bool) : Nat × Heap := (H.length, H ++ [⟨b, 0⟩])

/-- Consumes a future and returns its value. -/
def consume (H : Heap) (h : Nat) : Option (Bool × Heap) :=
  match H[h]? with
  | none => none
  | some s => some (s.val, H.set h ⟨s.val, s.used + 1⟩)

mutual
/-- Copies a value with `Dup` for every future inside. -/
def copyVal : Val → Heap → Option (Val × Val × Heap)
  | .fut h, H =>
    match consume H h with
    | none => none
    | some (b, H1) =>
      let (h1, H2) := alloc H1 b
      let (h2, H3) := alloc H2 b
      some (.fut h1, .fut h2, H3)
  | .sum t xs, H =>
    match copyVals xs H with
    | none => none
    | some (ys, zs, H1) => some (.sum t ys, .sum t zs, H1)
  | .o b, H => some (.o b, .o b, H)
  | .lin q, H => some (.lin q, .lin q, H)
  | .nat n, H => some (.nat n, .nat n, H)
  | .hole, H => some (.hole, .hole, H)
def copyVals : List Val → Heap → Option (List Val × List Val × Heap)
  | [], H => some ([], [], H)
  | x :: xs, H =>
    match copyVal x H with
    | none => none
    | some (y, z, H1) =>
      match copyVals xs H1 with
      | none => none
      | some (ys, zs, H2) => some (y :: ys, z :: zs, H2)
end

mutual
/-- Discards a value with `Free` for every future inside. -/
def freeVal : Val → Heap → Option Heap
  | .fut h, H => (consume H h).map Prod.snd
  | .sum _ xs, H => freeVals xs H
  | .o _, H => some H
  | .lin _, H => some H
  | .nat _, H => some H
  | .hole, H => some H
def freeVals : List Val → Heap → Option Heap
  | [], H => some H
  | x :: xs, H =>
    match freeVal x H with
    | none => none
    | some H1 => freeVals xs H1
end

def copyN : Nat → Val → Heap → Option (List Val × Heap)
  | 0, v, H => (freeVal v H).map fun H1 => ([], H1)
  | 1, v, H => some ([v], H)
  | k + 2, v, H =>
    match copyVal v H with
    | none => none
    | some (a, b, H1) =>
      match copyN (k + 1) b H1 with
      | none => none
      | some (vs, H2) => some (a :: vs, H2)

section Sem
variable {W L ν : Type} [DecidableEq ν]

/-- `get` of an array: nothing if the index is out of range, a panic if the element is borrowed. -/
def getElem (st : St W) (xs : List Val) (i : Nat) : Out (St W × List Val) :=
  match xs[i]? with
  | none => .ok (st, [.sum 0 [], .sum 0 xs])
  | some x => if x.isHole then .panic else .ok (st, [.sum 1 [x], .sum 0 xs])

/-- `borrow`: panics if the index is out of range or the element is borrowed. -/
def borrowElem (st : St W) (xs : List Val) (i : Nat) : Out (St W × List Val) :=
  match xs[i]? with
  | none => .panic
  | some x => if x.isHole then .panic else .ok (st, [.sum 0 (xs.set i .hole), x])

/-- `return`: panics if the index is out of range or the element is not borrowed. -/
def returnElem (st : St W) (xs : List Val) (i : Nat) (x : Val) : Out (St W × List Val) :=
  match xs[i]? with
  | none => .panic
  | some y => if y.isHole then .ok (st, [.sum 0 (xs.set i x)]) else .panic

/-- One operation. -/
def opStep (M : Machine W L) (o : Op L) (st : St W) (vs : List Val) : Out (St W × List Val) :=
  match o with
  | .read =>
    match vs with
    | [.o b] => .ok (st, [bool b])
    | _ => .stuck
  | .makeOpaque =>
    match vs with
    | [v] => (Out.ofOption v.toBool).bind fun b => .ok (st, [.o b])
    | _ => .stuck
  | .bin f =>
    match vs with
    | [.o a, .o b] => .ok (st, [.o (f.run a b)])
    | _ => .stuck
  | .not =>
    match vs with
    | [.o a] => .ok (st, [.o (!a)])
    | _ => .stuck
  | .const v =>
    match vs with
    | [] => .ok (st, [v])
    | _ => .stuck
  | .measure =>
    match vs with
    | [.lin q] => .ok (⟨(M.meas st.w q).2, st.heap⟩, [.o (M.meas st.w q).1])
    | _ => .stuck
  | .measureReset =>
    match vs with
    | [.lin q] => .ok (⟨(M.measReset st.w q).2, st.heap⟩, [.lin q, .o (M.measReset st.w q).1])
    | _ => .stuck
  | .prim l =>
    if cleanL vs then
      match M.prim l st.w vs with
      | none => .panic
      | some r => if cleanL r.2 then .ok (⟨r.1, st.heap⟩, r.2) else .stuck
    else .stuck
  | .tag t => .ok (st, [.sum t vs])
  | .clone lz =>
    match vs with
    | [v] => if lz || v.clean then .ok (st, [v, v]) else .stuck
    | _ => .stuck
  | .discard lz =>
    match vs with
    | [v] => if lz || v.clean then .ok (st, []) else .stuck
    | _ => .stuck
  | .get lz size =>
    match vs with
    | [.sum 0 xs, .nat i] => if xs.length = size ∧ (lz || cleanL xs) then getElem st xs i else .stuck
    | _ => .stuck
  | .borrow =>
    match vs with
    | [.sum 0 xs, .nat i] => borrowElem st xs i
    | _ => .stuck
  | .giveBack =>
    match vs with
    | [.sum 0 xs, .nat i, x] => returnElem st xs i x
    | _ => .stuck
  | .drop =>
    match vs with
    | [v] => (Out.ofOption (freeVal v st.heap)).bind fun H => .ok (⟨st.w, H⟩, [])
    | _ => .stuck
  | .lbin f =>
    match vs with
    | [x, y] =>
      (Out.ofOption x.toBool).bind fun a => (Out.ofOption y.toBool).bind fun b =>
        .ok (st, [bool (f.run a b)])
    | _ => .stuck
  | .lnot =>
    match vs with
    | [x] => (Out.ofOption x.toBool).bind fun a => .ok (st, [bool (!a)])
    | _ => .stuck
  | .ilt n =>
    match vs with
    | [.nat i] => .ok (st, [bool (decide (i < n))])
    | _ => .stuck
  | .lazyMeasure =>
    match vs with
    | [.lin q] =>
      .ok (⟨(M.meas st.w q).2, (alloc st.heap (M.meas st.w q).1).2⟩,
        [.fut (alloc st.heap (M.meas st.w q).1).1])
    | _ => .stuck
  | .lazyMeasureReset =>
    match vs with
    | [.lin q] =>
      .ok (⟨(M.measReset st.w q).2, (alloc st.heap (M.measReset st.w q).1).2⟩,
        [.lin q, .fut (alloc st.heap (M.measReset st.w q).1).1])
    | _ => .stuck
  | .futRead =>
    match vs with
    | [.fut h] => (Out.ofOption (consume st.heap h)).bind fun r => .ok (⟨st.w, r.2⟩, [bool r.1])
    | _ => .stuck
  | .copy k =>
    match vs with
    | [v] => (Out.ofOption (copyN k v st.heap)).bind fun r => .ok (⟨st.w, r.2⟩, r.1)
    | _ => .stuck

abbrev Env (ν : Type) := ν → Option Val

/-- Reads names. -/
def getAll (e : Env ν) : List ν → Option (List Val)
  | [] => some []
  | n :: ns =>
    match e n with
    | none => none
    | some v => (getAll e ns).map (v :: ·)

/-- Defines names. A name whose type does not mention `tket.bool` gets a clean value. -/
def bindAll (e : Env ν) : List (ν × Bool) → List Val → Option (Env ν)
  | [], [] => some e
  | (n, lz) :: ns, v :: vs =>
    if lz || v.clean then bindAll (fun m => if m = n then some v else e m) ns vs else none
  | _, _ => none

def noNames : Env ν := fun _ => none

mutual
/-- Runs a region. Calls are passed to `callee`. -/
def exec (M : Machine W L) (callee : Key → St W → List Val → Out (St W × List Val)) :
    Body ν L → Env ν → St W → Out (St W × List Val)
  | .ret outs, e, st =>
    (Out.ofOption (getAll e outs)).bind fun vs => .ok (st, vs)
  | .op o ins outs k, e, st =>
    (Out.ofOption (getAll e ins)).bind fun vs =>
    (opStep M o st vs).bind fun r =>
    (Out.ofOption (bindAll e outs r.2)).bind fun e1 => exec M callee k e1 r.1
  | .cond ins cs outs k, e, st =>
    (Out.ofOption (getAll e ins)).bind fun vs =>
    (match vs with
      | .sum t xs :: rest => execCase M callee cs t st (xs ++ rest)
      | _ => .stuck).bind fun r =>
    (Out.ofOption (bindAll e outs r.2)).bind fun e1 => exec M callee k e1 r.1
  | .dfg ins bins b outs k, e, st =>
    (Out.ofOption (getAll e ins)).bind fun vs =>
    ((Out.ofOption (bindAll noNames bins vs)).bind fun e0 => exec M callee b e0 st).bind fun r =>
    (Out.ofOption (bindAll e outs r.2)).bind fun e1 => exec M callee k e1 r.1
  | .call key ins outs k, e, st =>
    (Out.ofOption (getAll e ins)).bind fun vs =>
    (callee key st vs).bind fun r =>
    (Out.ofOption (bindAll e outs r.2)).bind fun e1 => exec M callee k e1 r.1
/-- Runs one case of a conditional. -/
def execCase (M : Machine W L) (callee : Key → St W → List Val → Out (St W × List Val)) :
    Cases ν L → Nat → St W → List Val → Out (St W × List Val)
  | .nil, _, _, _ => .stuck
  | .cons bins b _, 0, st, vs =>
    (Out.ofOption (bindAll noNames bins vs)).bind fun e => exec M callee b e st
  | .cons _ _ cs, t + 1, st, vs => execCase M callee cs t st vs
end

def execDef (M : Machine W L) (callee : Key → St W → List Val → Out (St W × List Val))
    (d : Def ν L) (st : St W) (vs : List Val) : Out (St W × List Val) :=
  (Out.ofOption (bindAll noNames d.bins vs)).bind fun e => exec M callee d.body e st

/-- What happens after an entry was run: a function returns; a loop continues with tag 0 and ends
with tag 1; a block continues with the successor that its tag selects. -/
def after (callee : Key → St W → List Val → Out (St W × List Val)) (succs : List (Option Nat))
    (key : Key) (r : St W × List Val) : Out (St W × List Val) :=
  match key, r.2 with
  | .fn _, _ => .ok r
  | .loop f, .sum 0 xs :: rest => callee (.loop f) r.1 (xs ++ rest)
  | .loop _, .sum 1 xs :: rest => .ok (r.1, xs ++ rest)
  | .block _, .sum t xs :: rest =>
    match succs[t]? with
    | some none => .ok (r.1, xs ++ rest)
    | some (some g) => callee (.block g) r.1 (xs ++ rest)
    | none => .stuck
  | _, _ => .stuck

def Key.index : Key → Nat
  | .fn f => f
  | .loop f => f
  | .block f => f

/-- Runs an entry of the table with at most `n` nested calls and iterations. -/
def run (M : Machine W L) (P : Nat → Option (Def ν L)) :
    Nat → Key → St W → List Val → Out (St W × List Val)
  | 0, _, _, _ => .fuel
  | n + 1, key, st, vs =>
    match P key.index with
    | none => .stuck
    | some d => (execDef M (run M P n) d st vs).bind (after (run M P n) d.succs key)

end Sem

/-! ### Replacement of operations -/

mutual
/-- The replacement of constants (replace_bools.rs 341-357). -/
def Val.replace : Val → Val
  | .o b => .sum 0 [bool b]
  | .fut h => .fut h
  | .lin q => .lin q
  | .nat n => .nat n
  | .hole => .hole
  | .sum t xs => .sum t (replaceL xs)
def replaceL : List Val → List Val
  | [] => []
  | x :: xs => x.replace :: replaceL xs
end

section Lower
variable {L : Type}

/-- `read_builder` (87-109): the conditional which reads name `n` and defines `m`. -/
def readCases : Cases Nat L :=
  .cons [(0, false)] (.ret [0])
    (.cons [(0, true)] (.op .futRead [0] [(1, false)] (.ret [1])) .nil)

/-- `read_op_dest` (111-117). -/
def readDest : Body Nat L := .cond [0] readCases [(1, false)] (.ret [1])

/-- `make_opaque_op_dest` (119-130). -/
def makeOpaqueDest : Body Nat L := .op (.tag 0) [0] [(1, true)] (.ret [1])

/-- `binary_logic_op_dest` (132-164). -/
def binDest (f : Bin) : Body Nat L :=
  .cond [0] readCases [(2, false)] <|
  .cond [1] readCases [(3, false)] <|
  .op (.lbin f) [2, 3] [(4, false)] <|
  .op (.tag 0) [4] [(5, true)] <|
  .ret [5]

/-- `not_op_dest` (166-181). -/
def notDest : Body Nat L :=
  .cond [0] readCases [(1, false)] <|
  .op .lnot [1] [(2, false)] <|
  .op (.tag 0) [2] [(3, true)] <|
  .ret [3]

/-- `measure_dest` (183-199). -/
def measureDest : Body Nat L :=
  .op .lazyMeasure [0] [(1, true)] <|
  .op (.tag 1) [1] [(2, true)] <|
  .ret [2]

/-- `measure_reset_dest` (201-217). -/
def measureResetDest : Body Nat L :=
  .op .lazyMeasureReset [0] [(1, false), (2, true)] <|
  .op (.tag 1) [2] [(3, true)] <|
  .ret [1, 3]

/-- `copy_dfg` (219-226), before it is linearized. -/
def copyDest : Body Nat L := .ret [0, 0]

/-- `barray_get_dest` (228-294), before it is linearized. The conversion of the index and the
constant are part of the comparison. -/
def getDest (size : Nat) : Body Nat L :=
  .op (.ilt size) [1] [(2, false)] <|
  .cond [2, 0, 1]
    (.cons [(0, true), (1, false)]
      (.op (.tag 0) [] [(2, true)] (.ret [2, 0]))
    (.cons [(0, true), (1, false)]
      (.op .borrow [0, 1] [(2, true), (3, true)] <|
       .dfg [3] [(0, true)] copyDest [(4, true), (5, true)] <|
       .op .giveBack [2, 1, 4] [(6, true)] <|
       .op (.tag 1) [5] [(7, true)] <|
       .ret [7, 6])
    .nil)) [(3, true), (4, true)] <|
  .ret [3, 4]

/-- `lowerer` (297-423): an operation is replaced by another one, or by a nested graph. -/
def lowerOp : Op L → Op L ⊕ (List (Nat × Bool) × Body Nat L)
  | .read => .inr ([(0, true)], readDest)
  | .makeOpaque => .inr ([(0, false)], makeOpaqueDest)
  | .bin f => .inr ([(0, true), (1, true)], binDest f)
  | .not => .inr ([(0, true)], notDest)
  | .const v => .inl (.const v.replace)
  | .measure => .inr ([(0, false)], measureDest)
  | .measureReset => .inr ([(0, false)], measureResetDest)
  | .clone true => .inr ([(0, true)], copyDest)
  | .discard true => .inl .drop
  | .get true size => .inr ([(0, true), (1, false)], getDest size)
  | o => .inl o

mutual
/-- Replaces all operations of a region. -/
def lowerOps : Body Nat L → Body Nat L
  | .ret outs => .ret outs
  | .op o ins outs k =>
    match lowerOp o with
    | .inl o' => .op o' ins outs (lowerOps k)
    | .inr (bins, b) => .dfg ins bins b outs (lowerOps k)
  | .cond ins cs outs k => .cond ins (lowerOpsC cs) outs (lowerOps k)
  | .dfg ins bins b outs k => .dfg ins bins (lowerOps b) outs (lowerOps k)
  | .call key ins outs k => .call key ins outs (lowerOps k)
def lowerOpsC : Cases Nat L → Cases Nat L
  | .nil => .nil
  | .cons bins b cs => .cons bins (lowerOps b) (lowerOpsC cs)
end

end Lower

/-! ### Linearization -/

/-- Names after linearization: the original ones, and the copies of a value. -/
inductive Nm (ν : Type) where
  | raw (n : ν)
  | cp (n : ν) (i : Nat)
  deriving DecidableEq, Repr

section Lin
variable {ν L : Type} [DecidableEq ν]

/-- The names a region reads, in order, up to its outputs; nested regions have their own names. -/
def Body.uses : Body ν L → List ν
  | .ret outs => outs
  | .op _ ins _ k => ins ++ k.uses
  | .cond ins _ _ k => ins ++ k.uses
  | .dfg ins _ _ _ k => ins ++ k.uses
  | .call _ ins _ k => ins ++ k.uses

/-- The names a region defines, except its inputs. -/
def Body.defs : Body ν L → List (ν × Bool)
  | .ret _ => []
  | .op _ _ outs k => outs ++ k.defs
  | .cond _ _ outs k => outs ++ k.defs
  | .dfg _ _ _ outs k => outs ++ k.defs
  | .call _ _ outs k => outs ++ k.defs

/-- The values that need an operation of the linearizer: the type becomes linear and the value is
not used exactly once. -/
def needs (bins : List (ν × Bool)) (b : Body ν L) (n : ν) : Bool :=
  decide ((n, true) ∈ bins ++ b.defs) && decide (b.uses.count n ≠ 1)

/-- The names for a list of uses: each use of a copied value gets its own copy. `later` are the uses
after these. -/
def rename (lz : ν → Bool) (later : List ν) : List ν → List (Nm ν)
  | [] => []
  | n :: ns => (if lz n then .cp n ((ns ++ later).count n) else .raw n) :: rename lz later ns

/-- Inserts the copies of the defined names in front of `k`; `u` are the uses that follow. -/
def insertCopies (lz : ν → Bool) (u : List ν) (k : Body (Nm ν) L) :
    List (ν × Bool) → Body (Nm ν) L
  | [] => k
  | (n, _) :: ns =>
    if lz n then
      .op (.copy (u.count n)) [.raw n] ((List.range (u.count n)).map fun i => (.cp n i, true))
        (insertCopies lz u k ns)
    else insertCopies lz u k ns

def rawOuts (outs : List (ν × Bool)) : List (Nm ν × Bool) := outs.map fun x => (.raw x.1, x.2)

mutual
/-- Linearizes a region. -/
def linearize (lz : ν → Bool) : Body ν L → Body (Nm ν) L
  | .ret outs => .ret (rename lz [] outs)
  | .op o ins outs k =>
    .op o (rename lz k.uses ins) (rawOuts outs) (insertCopies lz k.uses (linearize lz k) outs)
  | .cond ins cs outs k =>
    .cond (rename lz k.uses ins) (linearizeC cs) (rawOuts outs)
      (insertCopies lz k.uses (linearize lz k) outs)
  | .dfg ins bins b outs k =>
    .dfg (rename lz k.uses ins) (rawOuts bins)
      (insertCopies (needs bins b) b.uses (linearize (needs bins b) b) bins) (rawOuts outs)
      (insertCopies lz k.uses (linearize lz k) outs)
  | .call key ins outs k =>
    .call key (rename lz k.uses ins) (rawOuts outs) (insertCopies lz k.uses (linearize lz k) outs)
def linearizeC : Cases ν L → Cases (Nm ν) L
  | .nil => .nil
  | .cons bins b cs =>
    .cons (rawOuts bins) (insertCopies (needs bins b) b.uses (linearize (needs bins b) b) bins)
      (linearizeC cs)
end

def Def.linearize (d : Def ν L) : Def (Nm ν) L :=
  ⟨rawOuts d.bins,
    insertCopies (needs d.bins d.body) d.body.uses (LazyBool.linearize (needs d.bins d.body) d.body)
      d.bins, d.succs⟩

end Lin

/-- `ReplaceBoolPass` on an entry of the table. -/
def Def.lower {L : Type} (d : Def Nat L) : Def (Nm Nat) L :=
  Def.linearize ⟨d.bins, lowerOps d.body, d.succs⟩

def lowerTable {L : Type} (P : Nat → Option (Def Nat L)) : Nat → Option (Def (Nm Nat) L) :=
  fun f => (P f).map Def.lower

end Verif.LazyBool
