import Mathlib.Data.List.Dedup
import Mathlib.Logic.Function.Basic

/-!
# Model of the borrow-squash pass

Models `/repo/tket/src/passes/borrow_squash.rs`.

A dataflow region is a set of nodes with typed value ports and links between them. Only the operations
the pass looks at are distinguished. State-order edges are not modelled. `none` is a panic.
-/

namespace Tket.BorrowSquash

/-- A port: node and offset. A `Wire` (borrow_squash.rs 12) is an output port. -/
abbrev Port := Nat × Nat

/-- Types: borrow arrays (`BORROW_ARRAY_TYPENAME`, borrow_squash.rs 166-170) of fixed size are told
apart from all other types, which may be linear or copyable. -/
inductive Ty where
  | array (size : Nat) (elem : Ty)
  | other (k : Nat) (linear : Bool)
deriving DecidableEq

def Ty.linear : Ty → Bool
  | .array _ _ => true
  | .other _ b => b

/-- The type of array indices (`usize`). -/
def Ty.index : Ty := .other 0 false

/-- Operations: `BArrayUnsafeOpDef::borrow` and `return` (borrow_squash.rs 124-164), a `LoadConstant` of
an index (borrow_squash.rs 353-373), and anything else (including the input and output nodes). -/
inductive Op where
  | borrow
  | ret
  | load (c : Nat)
  | other
deriving DecidableEq

structure G where
  nodes : List Nat
  links : List (Port × Port)
  op : Nat → Op
  tyOut : Port → Ty
  tyIn : Port → Ty

/-- `exactly_one`. Links form a set. -/
def single (l : List Port) : Option Port :=
  match l.dedup with
  | [x] => some x
  | _ => none

/-- `single_linked_output`: the port linked to an input port. -/
def G.srcOf (g : G) (d : Port) : Option Port :=
  single ((g.links.filter (fun l => l.2 = d)).map (·.1))

/-- `single_linked_input`: the port linked to an output port. -/
def G.tgtOf (g : G) (s : Port) : Option Port :=
  single ((g.links.filter (fun l => l.1 = s)).map (·.2))

/-- `linked_inputs`. -/
def G.targets (g : G) (s : Port) : List Port := (g.links.filter (fun l => l.1 = s)).map (·.2)

/-- `HugrMut::connect`. -/
def G.connect (g : G) (s d : Port) : G := { g with links := (s, d) :: g.links }

/-- `HugrMut::remove_node`. -/
def G.removeNode (g : G) (n : Nat) : G :=
  { g with nodes := g.nodes.filter (· ≠ n),
           links := g.links.filter (fun l => l.1.1 ≠ n ∧ l.2.1 ≠ n) }

/-- `find_const` (borrow_squash.rs 353-373) at the index port 1. -/
def G.findConst (g : G) (n : Nat) : Option (Option Nat) :=
  match g.srcOf (n, 1) with
  | none => none
  | some m =>
    match g.op m.1 with
    | .load c => some (some c)
    | _ => some none

/-- A borrow or return with constant index met on the way of an array. -/
structure Step where
  node : Nat
  idx : Nat
  isBorrow : Bool
deriving DecidableEq

/-- `next_array_op` (borrow_squash.rs 296-339); the inner `none` means: stop following this array.
`is_borrow_return` fixes the array ports to 0, the index port to 1, the returned value to port 2 and the
borrowed value to port 1. -/
def G.nextOp (g : G) (w : Port) : Option (Option Step) :=
  match g.tgtOf w with
  | none => none
  | some (n, q) =>
    match g.op n with
    | .borrow =>
      if q = 0 then (g.findConst n).map (fun c => c.map (fun i => ⟨n, i, true⟩)) else none
    | .ret =>
      if q = 0 then (g.findConst n).map (fun c => c.map (fun i => ⟨n, i, false⟩))
      else if q = 2 then some none
      else none
    | _ => some none

/-- The loop of `borrow_squash_traversal` following the array (borrow_squash.rs 215-220). The loop ends
because graphs are acyclic; the model has a bound on the number of iterations. -/
def G.steps (g : G) : (fuel : Nat) → Port → Option (List Step)
  | 0, _ => some []
  | fuel + 1, w =>
    match g.nextOp w with
    | none => none
    | some none => some []
    | some (some s) => (g.steps fuel (s.node, 0)).map (s :: ·)

/-- The map `borrowed` and the list `rb_elisions` (borrow_squash.rs 212-213). -/
structure Scan where
  borrowed : Nat → Option (Nat × Option Nat)
  pairs : List (Nat × Nat)

/-- Body of the loop (borrow_squash.rs 222-252). -/
def Scan.step (st : Scan) (s : Step) : Scan :=
  match s.isBorrow, st.borrowed s.idx with
  | true, none => { st with borrowed := Function.update st.borrowed s.idx (some (s.node, none)) }
  | false, some (b, none) =>
    { st with borrowed := Function.update st.borrowed s.idx (some (b, some s.node)) }
  | false, some (_, some _) => { st with borrowed := Function.update st.borrowed s.idx none }
  | true, some (b, some r) =>
    { borrowed := Function.update st.borrowed s.idx (some (b, none)), pairs := st.pairs ++ [(r, s.node)] }
  | true, some (_, none) => { st with borrowed := Function.update st.borrowed s.idx none }
  | false, none => st

def scan (l : List Step) : Scan := l.foldl Scan.step ⟨fun _ => none, []⟩

/-- `elide_node` (borrow_squash.rs 255-264). -/
def G.elideNode (g : G) (n : Nat) : Option G :=
  match g.srcOf (n, 0), g.tgtOf (n, 0) with
  | some i, some o => some ((g.connect i o).removeNode n)
  | _, _ => none

/-- Elision of one (return, borrow) pair (borrow_squash.rs 265-277). -/
def G.elide (g : G) (p : Nat × Nat) : Option G :=
  match g.srcOf (p.1, 2) with
  | none => none
  | some src =>
    let g := (g.targets (p.2, 1)).foldl (fun g t => g.connect src t) g
    (g.elideNode p.2).bind (fun g => g.elideNode p.1)

def G.elideAll (g : G) : List (Nat × Nat) → Option G
  | [] => some g
  | p :: ps => (g.elide p).bind (fun g => g.elideAll ps)

/-- `borrow_squash_traversal` (borrow_squash.rs 196-293) on one array, without the recursion
(`recurse = false`). -/
def G.squash (g : G) (fuel : Nat) (w : Port) : Option (G × List (Nat × Nat)) :=
  match g.tyOut w with
  | .array _ _ =>
    (g.steps fuel w).bind (fun l => (g.elideAll (scan l).pairs).map (fun g' => (g', (scan l).pairs)))
  | _ => some (g, [])

/-- The borrows still recorded after the loop: values of `borrowed` (borrow_squash.rs 283). -/
def Scan.starts (st : Scan) (l : List Step) : List Port :=
  (l.map (·.idx)).dedup.filterMap (fun i => (st.borrowed i).map (fun e => (e.1, 1)))

/-- One traversal after the other, collecting the elided pairs. -/
def inTurn (f : G → Port → Option (G × List (Nat × Nat))) :
    List Port → G → Option (G × List (Nat × Nat))
  | [], g => some (g, [])
  | w :: ws, g =>
    (f g w).bind (fun r => (inTurn f ws r.1).map (fun r' => (r'.1, r.2 ++ r'.2)))

/-- `borrow_squash_traversal` (borrow_squash.rs 196-293) with `recurse = true`: afterwards the arrays
borrowed from this one are traversed (281-291). The first argument is the type of the array
(`array_ty`, 203); `ord` is the iteration order of the hash map. -/
def squashRec (ord : List Port → List Port) (fuel : Nat) :
    Ty → G → Port → Option (G × List (Nat × Nat))
  | .other _ _, g, _ => some (g, [])
  | .array _ e, g, w =>
    (g.steps fuel w).bind (fun l =>
      (g.elideAll (scan l).pairs).bind (fun g1 =>
        (inTurn (squashRec ord fuel e) (ord ((scan l).starts l)) g1).map
          (fun r => (r.1, (scan l).pairs ++ r.2))))

end Tket.BorrowSquash
