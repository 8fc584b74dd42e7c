import Verif.Model.OpMap

/-
Which functions have to be generated.
-/
namespace Verif.OpMap

variable {K F : Type}

/-- Operations that are needed for the given ones: these and all that the functions of needed ones ask for. -/
inductive Needed (body : K → Body K F) (ks : List K) : K → Prop
  | given {k} : k ∈ ks → Needed body ks k
  | asked {k r} : Needed body ks k → r ∈ (body k).requests → Needed body ks r

end Verif.OpMap
