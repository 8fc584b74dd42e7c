import Verif.Lemmas.CallLinks

/-!
# C80: calls in modified functions are linked to the functions they call
-/

namespace Tket.CallLinks

/-- The calls of a function that is made are all linked to the functions that they call if and only if
the source calls no unmodified function twice and no nested region comes after a call. That the links are
always right is false, see below. -/
theorem C80_linked_iff_partial (p : Prog) (fuel f : Nat) (made : List Made)
    (h : resolve p fuel f = .ok made) (m : Made) (hm : m ∈ made) :
    WellLinked m ↔ Safe p (p.body m.source) := by
  unfold resolve at h
  split at h
  · cases h
  · rename_i s g hs
    cases h
    rcases modifyFn_made p fuel f _ s g hs m hm with h1 | h1
    · cases h1
    · exact h1

/-- Of each function that is made, the calls are the calls of the source that lead to unmodified
functions, in order, and calls of functions made before. -/
theorem C80_calls (p : Prog) (fuel f : Nat) (made : List Made)
    (h : resolve p fuel f = .ok made) :
    ∃ front m, made = front ++ [m] ∧ m.source = f ∧ olds m.needs = kept p (p.body f) ∧
      ∀ k a, (Fn.new k, a) ∈ m.needs → k < front.length := by
  unfold resolve at h
  split at h
  · cases h
  · rename_i s g hs
    cases h
    cases fuel with
    | zero => cases hs
    | succ fuel =>
      simp only [modifyFn] at hs
      split at hs
      · cases hs
      · rename_i u hu
        cases hs
        refine ⟨u.made, _, rfl, rfl, ?_, ?_⟩
        · have := (step_needs (modifyFn_ok p fuel) _ (lo := p.fnNodes) (Nat.le_refl _)
            (start_inv p ⟨0, [], [], 0, []⟩) hu).1
          simpa [olds] using this
        · intro k a hk
          have h1 := (step_keeps (modifyFn_ok p fuel) _ (lo := p.fnNodes) (Nat.le_refl _)
            (start_inv p ⟨0, [], [], 0, []⟩) hu).1.fresh k a hk
          have h2 := step_count (modifyFn_count p fuel) _ hu rfl
          omega

/-- A function is modified, with enough fuel, if and only if it does not lead to itself by calls of
modified functions and there are no indirect calls of unmodified functions under control. Otherwise the
code panics or does not end. -/
theorem C80_finishes_iff_partial (p : Prog) (f : Nat) :
    (∃ fuel made, resolve p fuel f = .ok made) ↔ Fine p f := by
  constructor
  · rintro ⟨fuel, made, h⟩
    unfold resolve at h
    split at h
    · cases h
    · rename_i s g hs
      exact modifyFn_fine fuel hs
  · intro h
    obtain ⟨n, hn⟩ := modifyFn_total h
    obtain ⟨⟨s, g⟩, hr⟩ := hn n (Nat.le_refl _) ⟨0, [], [], 0, []⟩
    refine ⟨n, s.made, ?_⟩
    unfold resolve
    rw [hr]

/-- A recursive function is not modified. -/
theorem C80_recursive (p : Prog) (f : Nat) (hm : p.modifies f = true)
    (hf : f ∈ callsIn (p.body f)) : ¬ Fine p f := by
  intro h
  induction h with
  | mk f _ _ ih => exact ih f hf hm hm hf

/-- The function that adds controls to an unmodified function cannot be built. -/
theorem C80_wrapper_panics (a k m : Nat) : wrapOk a k m = false := wrap_never a k m

/-! ## Examples -/

/-- A program: functions 0 to 4 with bodies as given; function 9 is not modified. -/
def example1 (arrays : Nat) (b0 b1 : Body) : Prog where
  body f := if f = 0 then b0 else if f = 1 then b1 else .nil
  modifies f := f < 9
  arrays := arrays
  inputs _ := 1
  outputs _ := 1
  outside := 2
  boundary := 3
  fnNodes := 4

/-- The links that are made, and those that are needed. -/
def links (p : Prog) (f : Nat) : Option (List (CallMap × List (Fn × Nat))) :=
  match resolve p 5 f with
  | .ok l => some (l.map fun m => (m.links, m.needs))
  | .error _ => none

/-- A function that calls two others, one of them in a nested region, is modified well. -/
example : links (example1 1 (.sub (.other 1 (.call 1 2 .nil)) (.call 9 0 .nil)) .nil) 0 =
    some [([], []), ([(.old 9, 11), (.new 0, 8)], [(.new 0, 8), (.old 9, 11)])] := by
  decide

example : ¬ Safe (example1 1 (.call 9 0 (.call 9 0 .nil)) .nil) (.call 9 0 (.call 9 0 .nil)) := by
  simp [Safe, kept, example1]

/-- Two calls of a function that is not modified: the first is not linked. -/
theorem C80_twice_wrong :
    links (example1 1 (.call 9 0 (.call 9 0 .nil)) .nil) 0 =
      some [([(.old 9, 5)], [(.old 9, 4), (.old 9, 5)])] := by
  decide

/-- A nested region after a call: the call is not linked. -/
theorem C80_nested_after_wrong :
    links (example1 1 (.other 5 (.call 1 0 (.sub (.other 1 .nil) .nil))) .nil) 0 =
      some [([], []), ([], [(.new 0, 9)])] := by
  decide

/-- The link of the call leads to a node of the nested region instead, which is no call. -/
theorem C80_nested_misdirected :
    links (example1 1 (.call 1 0 (.sub (.other 9 .nil) .nil)) .nil) 0 =
      some [([], []), ([(.new 0, 7)], [(.new 0, 4)])] := by
  decide

/-- An indirect call under control of a function that is not modified. -/
theorem C80_indirect_panics :
    resolve (example1 1 (.indirect 9 0 .nil) .nil) 5 0 = .error .panic := by
  rfl

/-- Without controls it is linked. -/
example : links (example1 0 (.indirect 9 0 .nil) .nil) 0 = some [([(.old 9, 4)], [(.old 9, 4)])] := by
  decide

/-- A recursive function. -/
example : ¬ Fine (example1 1 (.call 0 0 .nil) .nil) 0 :=
  C80_recursive _ _ rfl (by simp [example1, callsIn])

/-- A chain of calls. -/
example : Fine (example1 1 (.call 1 0 .nil) (.call 2 0 .nil)) 0 :=
  (C80_finishes_iff_partial _ _).1 ⟨5, _, rfl⟩

end Tket.CallLinks
