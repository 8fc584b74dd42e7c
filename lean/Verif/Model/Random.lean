/-!
# Random number contexts

Model of `tket-qsystem/src/extension/random.rs` (the operations) and
`tket-qsystem/src/llvm/random.rs` (what they are compiled to). The runtime library is a parameter.
Contexts are numbered in the order of their creation; the number is what the program passes along,
and the compiled code ignores it, since a context is compiled to an empty structure (llvm/random.rs
38-40). Floats are represented by their bit pattern.
-/

namespace Verif.Random

/-- The functions of the runtime that the compiled code calls. -/
structure Runtime (R : Type) where
  /-- `random_seed` -/
  seed : R → Nat → R
  /-- `random_int` -/
  int : R → Nat × R
  /-- `random_float` -/
  float : R → Nat × R
  /-- `random_rng` -/
  bounded : R → Nat → Nat × R
  /-- `random_advance` -/
  advance : R → Nat → R

/-- Executed operations (extension/random.rs 100-113). `c` is the context. -/
inductive Call where
  | new (seed : Nat)
  | int (c : Nat)
  | float (c : Nat)
  | bounded (c b : Nat)
  | advance (c d : Nat)
  | delete (c : Nat)
  deriving DecidableEq, Repr

/-- What an operation returns, besides the context it was given. -/
inductive Res where
  /-- `Some` or `None` context -/
  | ctx (isSome : Bool)
  | num (n : Nat)
  | unit
  deriving DecidableEq, Repr

variable {R : Type}

/-- `RandomEmitter::emit` (llvm/random.rs 95-149), executed. -/
def step (T : Runtime R) (r : R) : Call → Res × R
  | .new s => (.ctx true, T.seed r s)
  | .int _ => (.num (T.int r).1, (T.int r).2)
  | .float _ => (.num (T.float r).1, (T.float r).2)
  | .bounded _ b => (.num (T.bounded r b).1, (T.bounded r b).2)
  | .advance _ d => (.unit, T.advance r d)
  | .delete _ => (.unit, r)

/-- The results of a sequence of operations. -/
def results (T : Runtime R) (r : R) : List Call → List Res
  | [] => []
  | c :: cs => (step T r c).1 :: results T (step T r c).2 cs

/-! ### What the extension promises -/

def Call.isNew : Call → Bool
  | .new _ => true
  | _ => false

/-- `new_rng_context(seed: u64) -> Option<RNGContext>`, "return None on second call"
(extension/random.rs 108): `b` tells whether there was a call before. -/
def Documented : Bool → List Call → List Res → Prop
  | _, [], [] => True
  | b, c :: cs, r :: rs =>
    (c.isNew = true → r = .ctx (!b)) ∧ Documented (b || c.isNew) cs rs
  | _, _, _ => False

/-- Separate generators: the states of the contexts created so far. -/
def specStep (T : Runtime R) (r0 : R) (g : List R) : Call → Res × List R
  | .new s => (.ctx true, g ++ [T.seed r0 s])
  | .int c => (.num (T.int (g.getD c r0)).1, g.set c (T.int (g.getD c r0)).2)
  | .float c => (.num (T.float (g.getD c r0)).1, g.set c (T.float (g.getD c r0)).2)
  | .bounded c b => (.num (T.bounded (g.getD c r0) b).1, g.set c (T.bounded (g.getD c r0) b).2)
  | .advance c d => (.unit, g.set c (T.advance (g.getD c r0) d))
  | .delete _ => (.unit, g)

def specResults (T : Runtime R) (r0 : R) (g : List R) : List Call → List Res
  | [] => []
  | c :: cs => (specStep T r0 g c).1 :: specResults T r0 (specStep T r0 g c).2 cs

/-- The context a call is made through. -/
def Call.context : Call → Option Nat
  | .new _ => none
  | .int c | .float c | .bounded c _ | .advance c _ | .delete c => some c

/-- A program that creates a context only when none is live, and uses the live one; `n` contexts were
created so far, and `live` tells whether the last one still exists. -/
def OneAtATime : Nat → Bool → List Call → Prop
  | _, _, [] => True
  | n, live, c :: cs =>
    match c with
    | .new _ => live = false ∧ OneAtATime (n + 1) true cs
    | .delete k => (live = true ∧ k + 1 = n) ∧ OneAtATime n false cs
    | c => (live = true ∧ c.context = some (n - 1)) ∧ OneAtATime n true cs

end Verif.Random
