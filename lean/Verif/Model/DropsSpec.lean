import Verif.Model.Drops

/-!
# What a drop means

Stated without the operations that are inserted for it.
-/

namespace Verif.Drops

/-- `l` is part of the type. -/
inductive Ty.Has (l : Leaf) : Ty → Prop
  | leaf : Ty.Has l (.leaf l)
  | row {a b} : Ty.Has l a → Ty.Has l (.alt a b)
  | rest {a b} : Ty.Has l b → Ty.Has l (.alt a b)
  | head {a b} : Ty.Has l a → Ty.Has l (.cell a b)
  | tail {a b} : Ty.Has l b → Ty.Has l (.cell a b)
  | elem {n t} : Ty.Has l t → Ty.Has l (.arr n t)

/-- Nothing in the type is linear except arrays and futures of booleans. -/
def Ty.Droppable (t : Ty) : Prop := ∀ l, t.Has l → l.copyable = true ∨ l = .future .bool

/-- Values of leaves. There are no values of type variables when a program runs. -/
def Leaf.holds : Leaf → Val → Bool
  | .native, .data _ => true
  | .tbool, .data n => n < 2
  | .future _, .fut _ => true
  | .qubit, .lin _ => true
  | _, _ => false

/-- A row of `n` values. -/
def holdsAll (p : Val → Bool) : Nat → Val → Bool
  | 0, .nil => true
  | n + 1, .cons v w => p v && holdsAll p n w
  | _, _ => false

/-- The value has the type. -/
def Ty.holds : Ty → Val → Bool
  | .leaf l, v => l.holds v
  | .alt a _, .here v => a.holds v
  | .alt _ b, .there v => b.holds v
  | .unit, .nil => true
  | .cell a b, .cons v w => a.holds v && b.holds w
  | .arr n t, v => holdsAll t.holds n v
  | _, _ => false

/-- `v'` is `v` with booleans represented: as known booleans or as futures. -/
inductive Late : Val → Val → Prop
  | known {n} (h : n < 2) (m) : Late (.data n) (.here (.cons (.data m) .nil))
  | later {n} (h : n < 2) (i) : Late (.data n) (.there (.here (.cons (.fut i) .nil)))
  | data {n} : Late (.data n) (.data n)
  | fut {h} : Late (.fut h) (.fut h)
  | lin {q} : Late (.lin q) (.lin q)
  | here {v v'} : Late v v' → Late (.here v) (.here v')
  | there {v v'} : Late v v' → Late (.there v) (.there v')
  | nil : Late .nil .nil
  | cons {v v' w w'} : Late v v' → Late w w' → Late (.cons v w) (.cons v' w')

/-- How often the value holds future `h`. -/
def Val.count (h : Nat) : Val → Nat
  | .fut i => if i = h then 1 else 0
  | .here v => v.count h
  | .there v => v.count h
  | .cons v w => v.count h + w.count h
  | _ => 0

/-- Dropping a value uses up every future in it, once for each place, and does nothing else. -/
def dropSpec (t : Ty) (v : Val) (H : Heap) : Option Heap :=
  if t.holds v then some fun h => H h + v.count h else none

/-- The region, or a region inside it, drops a value of type `t`. -/
inductive Body.Drops {L : Type} (t : Ty) : Body L → Prop
  | here {x k} : Body.Drops t (.drop t x k)
  | op {l i o k} : Body.Drops t k → Body.Drops t (.op l i o k)
  | drop {u x k} : Body.Drops t k → Body.Drops t (.drop u x k)
  | discard {n u x k} : Body.Drops t k → Body.Drops t (.discard n u x k)
  | dfg {c x k} : Body.Drops t k → Body.Drops t (.dfg c x k)
  | left {x y a b o k} : Body.Drops t a → Body.Drops t (.cond x y a b o k)
  | right {x y a b o k} : Body.Drops t b → Body.Drops t (.cond x y a b o k)
  | cond {x y a b o k} : Body.Drops t k → Body.Drops t (.cond x y a b o k)
  | call {f i o k} : Body.Drops t k → Body.Drops t (.call f i o k)

/-- The region, or a region inside it, discards an array with elements of type `t`. -/
inductive Body.Discards {L : Type} (n : Nat) (t : Ty) : Body L → Prop
  | here {x k} : Body.Discards n t (.discard n t x k)
  | op {l i o k} : Body.Discards n t k → Body.Discards n t (.op l i o k)
  | drop {u x k} : Body.Discards n t k → Body.Discards n t (.drop u x k)
  | discard {m u x k} : Body.Discards n t k → Body.Discards n t (.discard m u x k)
  | dfg {c x k} : Body.Discards n t k → Body.Discards n t (.dfg c x k)
  | left {x y a b o k} : Body.Discards n t a → Body.Discards n t (.cond x y a b o k)
  | right {x y a b o k} : Body.Discards n t b → Body.Discards n t (.cond x y a b o k)
  | cond {x y a b o k} : Body.Discards n t k → Body.Discards n t (.cond x y a b o k)
  | call {f i o k} : Body.Discards n t k → Body.Discards n t (.call f i o k)

end Verif.Drops
