import Verif.Model.Units

/-!
# Specification of the units of circuits and commands
-/

namespace Tket.Units

/-- The number of linear types before position `i`. -/
def linearBefore (types : List Ty) (i : Nat) : Nat := (types.take i).countP (·.linear)

/-- The items for a row of types: every linear port with its unit, given by the port and the number of linear
ports before it, and every other port that has a wire. -/
def expected (lin : Nat → Nat → Nat) (wire : Nat → Option (Nat × Nat)) (types : List Ty) : List Item :=
  (List.range types.length).filterMap fun i =>
    types[i]?.bind fun t =>
      if t.linear then some ⟨.linear (lin i (linearBefore types i)), i, t⟩
      else (wire i).map fun w => ⟨.wire w.1 w.2, i, t⟩

/-- All linear types come before all others. -/
def LinearFirst (types : List Ty) : Prop :=
  ∀ i t, types[i]? = some t → t.linear = true → linearBefore types i = i

end Tket.Units
