import Verif.Model.CallLinks

/-!
# Specification of the links of calls in modified functions
-/

namespace Tket.CallLinks

/-- Every call of the new function is linked to the function that it calls, and nothing else is. -/
def WellLinked (m : Made) : Prop := ∀ e, e ∈ m.links ↔ e ∈ m.needs

/-- The body contains a call, in nested regions too. -/
def hasCalls : Body → Bool
  | .nil => false
  | .other _ r => hasCalls r
  | .call _ _ _ => true
  | .indirect _ _ _ => true
  | .sub i r => hasCalls i || hasCalls r

/-- The callees that are not modified, in nested regions too. -/
def kept (p : Prog) : Body → List Nat
  | .nil => []
  | .other _ r => kept p r
  | .call f _ r => (if p.modifies f then [] else [f]) ++ kept p r
  | .indirect f _ r => (if p.modifies f || p.arrays ≠ 0 then [] else [f]) ++ kept p r
  | .sub i r => kept p i ++ kept p r

/-- No nested region is processed after a call, other than those that contain the call. `started`: there
was a call. -/
def Shape : Bool → Body → Prop
  | _, .nil => True
  | b, .other _ r => Shape b r
  | _, .call _ _ r => Shape true r
  | _, .indirect _ _ r => Shape true r
  | b, .sub i r => b = false ∧ Shape false i ∧ Shape (hasCalls i) r

/-- The bodies for which the links are right: as above, and no function that is not modified is called
twice. -/
def Safe (p : Prog) (b : Body) : Prop := Shape false b ∧ (kept p b).Nodup

/-- The functions that are called, in nested regions too. -/
def callsIn : Body → List Nat
  | .nil => []
  | .other _ r => callsIn r
  | .call f _ r => f :: callsIn r
  | .indirect f _ r => f :: callsIn r
  | .sub i r => callsIn i ++ callsIn r

/-- The functions that are called indirectly, in nested regions too. -/
def indirects : Body → List Nat
  | .nil => []
  | .other _ r => indirects r
  | .call _ _ r => indirects r
  | .indirect f _ r => f :: indirects r
  | .sub i r => indirects i ++ indirects r

/-- The functions that can be modified: those that do not lead back to themselves by calls of modified
functions, and, where there are controls, do not call unmodified functions indirectly. -/
inductive Fine (p : Prog) : Nat → Prop
  | mk (f : Nat) (hi : ∀ g ∈ indirects (p.body f), p.modifies g = true ∨ p.arrays = 0)
      (hc : ∀ g ∈ callsIn (p.body f), p.modifies g = true → Fine p g) : Fine p f

end Tket.CallLinks
