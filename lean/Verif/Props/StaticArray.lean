import Verif.Lemmas.StaticArray

/-
C61: reading static arrays of booleans gives the same values after the replacement.
-/
namespace Verif.StaticArray

/-- Reading: on the replaced array, the code put in place of `get` returns what `get` returned
before, for element types without containers of `tket.bool` such as `array<tket.bool>`. -/
theorem C61_get_partial {t : Ty} {vs : List Val} {g : List Val → Nat → Val} (i : Nat)
    (hc : clean t = true) (hv : ∀ w ∈ vs, HasTy t w) (hg : getDest t = some g) :
    g (vs.map strip) i = shown (getOp vs i) := by
  have hopt : HasTy (optTy t) (getOp vs i) := by
    rw [optTy, HasTy, getOp]
    cases h : vs[i]? with
    | none => exact ⟨0, _, rfl, by rw [HasTyAt, HasTy]; exact ⟨[], rfl, by rw [HasTyRow]⟩⟩
    | some v =>
      refine ⟨1, _, rfl, ?_⟩
      rw [HasTyAt, HasTyAt, HasTy]
      refine ⟨_, rfl, ?_⟩
      rw [HasTyRow]
      exact ⟨v, [], rfl, hv v (List.mem_of_getElem? h), by rw [HasTyRow]⟩
  have hget : getOp (vs.map strip) i = strip (getOp vs i) := by
    rw [getOp, getOp, List.getElem?_map]
    cases vs[i]? with
    | none => rfl
    | some v => rfl
  rw [getDest] at hg
  cases hm : mentions t with
  | false =>
    rw [hm] at hg
    cases hg
    rw [hget]
    exact strip_shown (by simp [optTy, bare, bareAny, bare_of_mentions hm]) hopt
  | true =>
    rw [hm, if_pos rfl] at hg
    split at hg
    · cases hg
      show newToOld (optTy t) (getOp (vs.map strip) i) = _
      rw [hget]
      exact newToOld_strip (by simp [optTy, clean, cleanAll, hc]) hopt
    · cases hg

/-- The result has the type of the result in the new program. -/
theorem C61_get_typed_partial {t : Ty} {vs : List Val} {g : List Val → Nat → Val} (i : Nat)
    (hc : clean t = true) (hv : ∀ w ∈ vs, HasTy t w) (hg : getDest t = some g) :
    HasTy (outer (optTy t)) (g (vs.map strip) i) := by
  rw [C61_get_partial i hc hv hg]
  apply shown_typed
  rw [optTy, HasTy, getOp]
  cases h : vs[i]? with
  | none => exact ⟨0, _, rfl, by rw [HasTyAt, HasTy]; exact ⟨[], rfl, by rw [HasTyRow]⟩⟩
  | some v =>
    refine ⟨1, _, rfl, ?_⟩
    rw [HasTyAt, HasTyAt, HasTy]
    refine ⟨_, rfl, ?_⟩
    rw [HasTyRow]
    exact ⟨v, [], rfl, hv v (List.mem_of_getElem? h), by rw [HasTyRow]⟩

/-- The length does not change. -/
theorem C61_len (t : Ty) (vs : List Val) : lenOp (replaceConst t vs).2 = lenOp vs := by
  rw [replaceConst]
  split
  · simp [lenOp, stripAll_eq]
  · rfl

/-- Constants: the constant of a static array ends up with the type used everywhere else in the
program exactly if its type did not mention `tket.bool` or some element exists at the bottom; its
contents are then the stripped elements. -/
theorem C61_const_iff {t : Ty} {vs : List Val} (hv : ∀ w ∈ vs, HasTy t w) :
    ((replaceConst t vs).1 = inner t ↔ (mentions t = true → ¬ hollow (.sarr t) (.sarr vs))) ∧
    ((replaceConst t vs).1 = inner t → (replaceConst t vs).2 = vs.map strip) := by
  have hs : HasTy (.sarr t) (.sarr vs) := by rw [HasTy]; exact ⟨vs, rfl, hv⟩
  have hc := changed_iff hs
  rw [changed, mentions] at hc
  rw [replaceConst]
  cases ha : vs.any (changed t) with
  | true =>
    rw [ha] at hc
    refine ⟨⟨fun _ _ => (hc.1 rfl).2, fun _ => rfl⟩, fun _ => stripAll_eq vs⟩
  | false =>
    rw [ha] at hc
    rw [if_neg (by simp)]
    refine ⟨⟨fun he hm => ?_, fun h => ?_⟩, fun he => ?_⟩
    · have he : t = inner t := he
      rw [he, mentions_inner t] at hm
      cases hm
    · cases hm : mentions t with
      | false => exact (inner_same hm).symm
      | true => exact absurd (hc.2 ⟨hm, h hm⟩) (by simp)
    · have he : t = inner t := he
      have hm : mentions t = false := by rw [he]; exact mentions_inner t
      show vs = _
      rw [List.map_congr_left fun w hw => strip_same hm (hv w hw), List.map_id']

/-- Stripped elements have the new element type. -/
theorem C61_const_typed {t : Ty} {vs : List Val} (hv : ∀ w ∈ vs, HasTy t w) :
    ∀ w ∈ (replaceConst t vs).2, HasTy (replaceConst t vs).1 w := by
  rw [replaceConst]
  split
  · intro w hw
    simp only [stripAll_eq, List.mem_map] at hw
    obtain ⟨x, hx, rfl⟩ := hw
    exact strip_typed (hv x hx)
  · exact hv

/-- No `tket.bool` is left in the new element type. -/
theorem C61_no_bool_left (t : Ty) : mentions (inner t) = false := mentions_inner t

/-- The pass panics on reads of exactly the element types that mention `tket.bool` and contain a
function in a sum with a `tket.bool`. -/
theorem C61_build_iff (t : Ty) :
    (getDest t).isSome = true ↔ (mentions t = true → ¬ Stuck t) := by
  rw [← buildOk_iff, getDest]
  cases hm : mentions t with
  | false => simp
  | true => simp [optTy, buildOk, buildOkAll, mentionsAny, mentions, hm]

/-- Finding: an empty static array of `tket.bool` keeps its old constant, while the type of its
uses changes. -/
theorem C61_empty_constant :
    (replaceConst .obool []).1 = .obool ∧ outer (.sarr .obool) = .sarr nbool :=
  ⟨rfl, rfl⟩

/-- Finding: a static array of `array<tket.bool>`.  The elements read are arrays of native
booleans where the program expects arrays of `tket.bool`. -/
theorem C61_array_of_bool : ∃ g, getDest (.app .obool) = some g ∧
    outer (optTy (.app .obool)) = optTy (.app .obool) ∧
    g ([.app [.obool true]].map strip) 0 = .tag 1 (.row [.app [nval true]]) ∧
    shown (getOp [.app [.obool true]] 0) = .tag 1 (.row [.app [.obool true]]) ∧
    ¬ HasTy (optTy (.app .obool)) (g ([.app [.obool true]].map strip) 0) := by
  refine ⟨_, rfl, rfl, rfl, rfl, ?_⟩
  show ¬ HasTy (optTy (.app .obool)) (.tag 1 (.row [.app [nval true]]))
  intro h
  rw [optTy, HasTy] at h
  obtain ⟨i, w, he, hw⟩ := h
  cases he
  rw [HasTyAt, HasTyAt, HasTy] at hw
  obtain ⟨vs, he, hw⟩ := hw
  cases he
  rw [HasTyRow] at hw
  obtain ⟨v, vs', he, hw, _⟩ := hw
  cases he
  rw [HasTy] at hw
  obtain ⟨us, he, hw⟩ := hw
  cases he
  obtain ⟨b, hb⟩ := hw _ (List.mem_singleton.2 rfl)
  cases hb

/-- Finding: elements that pair a function with a `tket.bool` make the pass panic. -/
theorem C61_function_panics (m : Bool) : getDest (.sum [.row [.func m, .obool]]) = none := by
  cases m <;> rfl

/-! ### The hypotheses are met -/

/-- The element types of the tests of the pass, and a nested one. -/
example : clean (.sum [.row [], .row [.obool], .row [nbool], .row [.sarr .obool, .app (.atom 0)]])
    = true := rfl

example : ∃ g, getDest (.sum [.row [], .row [.obool], .row [nbool]]) = some g ∧
    g ([Val.tag 1 (.row [.obool true]), .tag 2 (.row [nval false])].map strip) 0
      = .tag 1 (.row [.tag 1 (.row [.obool true])]) := ⟨_, rfl, rfl⟩

example : HasTy (.sum [.row [], .row [.obool]]) (.tag 1 (.row [.obool true])) := by
  rw [HasTy]
  refine ⟨1, _, rfl, ?_⟩
  rw [HasTyAt, HasTyAt, HasTy]
  refine ⟨_, rfl, ?_⟩
  rw [HasTyRow]
  exact ⟨_, [], rfl, by rw [HasTy]; exact ⟨true, rfl⟩, by rw [HasTyRow]⟩

/-- A function in a sum without booleans is no problem. -/
example : (getDest (.sum [.row [.obool, .sum [.row [], .row [.func false]]]])).isSome = true := rfl

example : hollow (.sarr (.sarr .obool)) (.sarr [.sarr []]) := by
  rw [hollow]
  intro vs he w hw
  cases he
  rw [List.mem_singleton.1 hw, hollow]
  intro vs he w hw
  cases he
  cases hw

end Verif.StaticArray
