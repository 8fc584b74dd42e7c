import Verif.Model.Tket1

/-
What a correct use of the memory of the library is.
-/
namespace Verif.Tket1

/-- The object of an event. -/
def Ev.id : Ev → Nat
  | .alloc _ i => i
  | .use _ i => i
  | .free _ i => i

/-- An event is allowed after the events `pre`: objects are allocated once, and used and freed only while they
exist, as what they are. -/
def Allowed (pre : List Ev) : Ev → Prop
  | .alloc _ i => ∀ e ∈ pre, e.id ≠ i
  | .use k i => .alloc k i ∈ pre ∧ .free k i ∉ pre
  | .free k i => .alloc k i ∈ pre ∧ .free k i ∉ pre

/-- No use after free, no double free, no confusion of objects. -/
def Safe (t : List Ev) : Prop := ∀ pre e post, t = pre ++ e :: post → Allowed pre e

/-- Everything of these kinds is freed at the end. -/
def Clean (t : List Ev) (ks : List Kind) : Prop := ∀ k ∈ ks, ∀ i, .alloc k i ∈ t → .free k i ∈ t

/-- A string is returned if and only if the call succeeds, and it is a circuit. -/
def JsonAns.Good {C : Type} (a : JsonAns C) : Prop := if a.code = 0 then ∃ c, a.string = some (some c) else a.string = none

def Stmt.Good {C : Type} : Stmt C → Prop
  | .read _ a => a.Good
  | .into _ a => a.Good
  | _ => True

end Verif.Tket1
