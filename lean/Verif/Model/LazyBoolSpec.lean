import Verif.Model.LazyBool

/-!
# What the replacement of booleans should do
-/

namespace Verif.LazyBool

/-- The value of a future. -/
def valOf (H : Heap) (h : Nat) : Option Bool := (H[h]?).map Slot.val

/-- How often a future was consumed. -/
def usedOf (H : Heap) (h : Nat) : Nat := ((H[h]?).map Slot.used).getD 0

mutual
/-- `Rep H x y`: with the futures `H`, the value `y` of the lowered program represents the value `x`
of the original one. An opaque boolean is represented by the native boolean or by a future with that
value; everything else stays the same. -/
def Rep (H : Heap) : Val → Val → Prop
  | .o b, y => y = .sum 0 [bool b] ∨ ∃ h, y = .sum 1 [.fut h] ∧ valOf H h = some b
  | .fut _, _ => False
  | .lin q, y => y = .lin q
  | .nat n, y => y = .nat n
  | .hole, y => y = .hole
  | .sum t xs, y => ∃ ys, y = .sum t ys ∧ RepL H xs ys
def RepL (H : Heap) : List Val → List Val → Prop
  | [], ys => ys = []
  | x :: xs, ys => ∃ y ys', ys = y :: ys' ∧ Rep H x y ∧ RepL H xs ys'
end

mutual
/-- How often a future occurs in a value. -/
def Val.occ (h : Nat) : Val → Nat
  | .fut h' => if h' = h then 1 else 0
  | .sum _ xs => occL h xs
  | .o _ => 0
  | .lin _ => 0
  | .nat _ => 0
  | .hole => 0
def occL (h : Nat) : List Val → Nat
  | [] => 0
  | x :: xs => x.occ h + occL h xs
end

/-- The outcomes of two runs agree: both end with related results, both panic or both need more
fuel. Nothing is said about ill-typed programs. -/
def Out.Agree {α β : Type} (R : α → β → Prop) : Out α → Out β → Prop
  | .ok a, .ok b => R a b
  | .panic, .panic => True
  | .fuel, .fuel => True
  | .stuck, _ => True
  | _, _ => False

/-- The same world, and values that represent the original ones. -/
def Same {W : Type} (r r' : St W × List Val) : Prop :=
  r.1.w = r'.1.w ∧ RepL r'.1.heap r.2 r'.2

/-! ### Programs -/

mutual
def Val.noFut : Val → Bool
  | .fut _ => false
  | .sum _ xs => noFutL xs
  | .o _ => true
  | .lin _ => true
  | .nat _ => true
  | .hole => true
def noFutL : List Val → Bool
  | [] => true
  | x :: xs => x.noFut && noFutL xs
end

/-- Operations of a program before the pass. -/
def Op.source {L : Type} : Op L → Bool
  | .lazyMeasure | .lazyMeasureReset | .futRead | .copy _ => false
  | .const v => v.noFut
  | _ => true

section
variable {ν L : Type}

mutual
/-- All operations of a region satisfy a condition. -/
def Body.all (p : Op L → Bool) : Body ν L → Bool
  | .ret _ => true
  | .op o _ _ k => p o && k.all p
  | .cond _ cs _ k => cs.all p && k.all p
  | .dfg _ _ b _ k => b.all p && k.all p
  | .call _ _ _ k => k.all p
def Cases.all (p : Op L → Bool) : Cases ν L → Bool
  | .nil => true
  | .cons _ b cs => b.all p && cs.all p
end

/-- Definitions of names that are not in scope yet. -/
def Fresh (D : List ν) (outs : List (ν × Bool)) : Prop :=
  (outs.map Prod.fst).Nodup ∧ ∀ n ∈ outs.map Prod.fst, n ∉ D

mutual
/-- With the names `D` in scope, a region reads names in scope only and defines every name once. -/
def Body.Scoped (D : List ν) : Body ν L → Prop
  | .ret outs => outs ⊆ D
  | .op _ ins outs k => ins ⊆ D ∧ Fresh D outs ∧ k.Scoped (outs.map Prod.fst ++ D)
  | .cond ins cs outs k => ins ⊆ D ∧ cs.Scoped ∧ Fresh D outs ∧ k.Scoped (outs.map Prod.fst ++ D)
  | .dfg ins bins b outs k =>
    ins ⊆ D ∧ (Fresh [] bins ∧ b.Scoped (bins.map Prod.fst)) ∧ Fresh D outs ∧
      k.Scoped (outs.map Prod.fst ++ D)
  | .call _ ins outs k => ins ⊆ D ∧ Fresh D outs ∧ k.Scoped (outs.map Prod.fst ++ D)
def Cases.Scoped : Cases ν L → Prop
  | .nil => True
  | .cons bins b cs => (Fresh [] bins ∧ b.Scoped (bins.map Prod.fst)) ∧ cs.Scoped
end

/-- A region before the pass: no futures, and names are defined once, before they are read. -/
structure Def.Source (d : Def ν L) : Prop where
  ops : d.body.all Op.source = true
  once : Fresh [] d.bins
  inScope : d.body.Scoped (d.bins.map Prod.fst)

/-! ### Linear programs -/

/-- Operations that neither copy nor discard a future. -/
def Op.linear : Op L → Bool
  | .clone lz => !lz
  | .discard lz => !lz
  | .get lz _ => !lz
  | .const v => v.noFut
  | _ => true

variable [DecidableEq ν]

/-- New names, and those that may hold futures are read exactly once by what follows. -/
def LinOuts (D : List ν) (outs : List (ν × Bool)) (u : List ν) : Prop :=
  Fresh D outs ∧ ∀ n, (n, true) ∈ outs → u.count n = 1

mutual
/-- Every name that may hold futures is read exactly once. -/
def Body.Lin (D : List ν) : Body ν L → Prop
  | .ret _ => True
  | .op o _ outs k => o.linear = true ∧ LinOuts D outs k.uses ∧ k.Lin (outs.map Prod.fst ++ D)
  | .cond _ cs outs k => cs.Lin ∧ LinOuts D outs k.uses ∧ k.Lin (outs.map Prod.fst ++ D)
  | .dfg _ bins b outs k =>
    (LinOuts [] bins b.uses ∧ b.Lin (bins.map Prod.fst)) ∧ LinOuts D outs k.uses ∧
      k.Lin (outs.map Prod.fst ++ D)
  | .call _ _ outs k => LinOuts D outs k.uses ∧ k.Lin (outs.map Prod.fst ++ D)
def Cases.Lin : Cases ν L → Prop
  | .nil => True
  | .cons bins b cs => (LinOuts [] bins b.uses ∧ b.Lin (bins.map Prod.fst)) ∧ cs.Lin
end

def Def.Lin (d : Def ν L) : Prop := LinOuts [] d.bins d.body.uses ∧ d.body.Lin (d.bins.map Prod.fst)

end

/-- Every future was consumed once, or occurs once in the values at hand and was not consumed. -/
def Owned (H : Heap) (vs : List Val) : Prop :=
  ∀ h, usedOf H h + occL h vs = if h < H.length then 1 else 0

end Verif.LazyBool
