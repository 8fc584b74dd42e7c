import Verif.Model.Random

/-!
# Property C48: creating a random number context

The documented behaviour is not what is compiled; see `C48_documented_iff`. What remains is that
contexts which do not overlap behave like separate generators.
-/

namespace Verif.Random

variable {R : Type}

/-- Creating a context always succeeds, whatever happened before. -/
theorem C48_always_some (T : Runtime R) (s : Nat) : ∀ (cs ds : List Call) (r : R),
    (results T r (cs ++ .new s :: ds))[cs.length]? = some (.ctx true)
  | [], _, _ => rfl
  | _ :: cs, ds, _ => C48_always_some T s cs ds _

theorem documented_late (T : Runtime R) : ∀ (cs : List Call) (r : R),
    Documented true cs (results T r cs) ↔ ∀ c ∈ cs, c.isNew = false
  | [], _ => by simp [Documented, results]
  | c :: cs, r => by
    rw [results, Documented, Bool.true_or, documented_late T cs]
    cases c <;> simp [Call.isNew, step]

/-- The documented behaviour holds exactly for the histories which create at most one context. In
particular it is false for every history with a second creation, with every runtime. -/
theorem C48_documented_iff (T : Runtime R) : ∀ (cs : List Call) (r : R),
    Documented false cs (results T r cs) ↔ cs.countP Call.isNew ≤ 1
  | [], _ => by simp [Documented, results]
  | c :: cs, r => by
    rw [results, Documented, Bool.false_or]
    cases hc : c.isNew with
    | false =>
      rw [C48_documented_iff T cs, List.countP_cons, hc]
      simp
    | true =>
      rw [documented_late T cs, List.countP_cons, hc]
      have h : (step T r c).1 = .ctx true := by
        cases c <;> simp [Call.isNew] at hc
        rfl
      have h0 : List.countP Call.isNew cs + 1 ≤ 1 ↔ List.countP Call.isNew cs = 0 := by omega
      rw [h, if_pos rfl, h0, List.countP_eq_zero]
      simp

/-- A second creation is not refused: the documentation is wrong about every such program. -/
theorem C48_second_call_not_refused (T : Runtime R) (r : R) (s t : Nat) :
    ¬ Documented false [.new s, .new t] (results T r [.new s, .new t]) := by
  rw [C48_documented_iff]
  simp [List.countP_cons, Call.isNew]

/-- Two contexts that are live at the same time are not independent: creating the second one changes
what the first one returns. -/
theorem C48_contexts_interfere : ∃ T : Runtime Nat,
    results T 0 [.new 1, .new 5, .int 0] ≠ specResults T 0 [] [.new 1, .new 5, .int 0] :=
  ⟨⟨fun _ s => s, fun r => (r, r + 1), fun r => (r, r + 1), fun r b => (r % b, r + 1),
    fun r d => r + d⟩, by decide⟩

theorem oneAtATime_aux (T : Runtime R) (r0 : R) (hs : ∀ r r' s, T.seed r s = T.seed r' s) :
    ∀ (cs : List Call) (n : Nat) (live : Bool) (g : List R) (r : R), OneAtATime n live cs →
      g.length = n → (live = true → 0 < n ∧ g[n - 1]? = some r) →
      results T r cs = specResults T r0 g cs
  | [], _, _, _, _, _, _, _ => rfl
  | c :: cs, n, live, g, r, h, hn, hl => by
    rw [results, specResults]
    have use : ∀ r' : R, live = true → (g.set (n - 1) r').length = n ∧
        (true = true → 0 < n ∧ (g.set (n - 1) r')[n - 1]? = some r') := by
      intro r' hlive
      obtain ⟨h0, _⟩ := hl hlive
      exact ⟨by simpa using hn, fun _ => ⟨h0, by rw [List.getElem?_set_self (by omega)]⟩⟩
    have hget : live = true → g.getD (n - 1) r0 = r := by
      intro hlive
      rw [List.getD_eq_getElem?_getD, (hl hlive).2]
      rfl
    cases c with
    | new s =>
      simp only [OneAtATime] at h
      have := oneAtATime_aux T r0 hs cs (n + 1) true (g ++ [T.seed r0 s]) (T.seed r s) h.2
        (by simp [hn]) (fun _ => ⟨by omega, by
          rw [Nat.add_sub_cancel, ← hn, List.getElem?_concat_length, hs r r0]⟩)
      simp only [step, specStep, this]
    | delete k =>
      simp only [OneAtATime] at h
      have := oneAtATime_aux T r0 hs cs n false g r h.2 hn (by simp)
      simp only [step, specStep, this]
    | int k =>
      simp only [OneAtATime, Call.context, Option.some.injEq] at h
      obtain ⟨⟨hlive, rfl⟩, h⟩ := h
      have := oneAtATime_aux T r0 hs cs n true _ (T.int r).2 h (use _ hlive).1 (use _ hlive).2
      simp only [step, specStep, hget hlive, this]
    | float k =>
      simp only [OneAtATime, Call.context, Option.some.injEq] at h
      obtain ⟨⟨hlive, rfl⟩, h⟩ := h
      have := oneAtATime_aux T r0 hs cs n true _ (T.float r).2 h (use _ hlive).1 (use _ hlive).2
      simp only [step, specStep, hget hlive, this]
    | bounded k b =>
      simp only [OneAtATime, Call.context, Option.some.injEq] at h
      obtain ⟨⟨hlive, rfl⟩, h⟩ := h
      have := oneAtATime_aux T r0 hs cs n true _ (T.bounded r b).2 h (use _ hlive).1 (use _ hlive).2
      simp only [step, specStep, hget hlive, this]
    | advance k d =>
      simp only [OneAtATime, Call.context, Option.some.injEq] at h
      obtain ⟨⟨hlive, rfl⟩, h⟩ := h
      have := oneAtATime_aux T r0 hs cs n true _ (T.advance r d) h (use _ hlive).1 (use _ hlive).2
      simp only [step, specStep, hget hlive, this]

/-- Contexts that do not overlap are independent: every one returns what its own generator, created
with its seed, returns, provided that seeding determines the state of the runtime. What is missing
from the full property is the refusal of a second context, which the code does not do. -/
theorem C48_one_at_a_time_partial (T : Runtime R) (hs : ∀ r r' s, T.seed r s = T.seed r' s)
    (cs : List Call) (h : OneAtATime 0 false cs) (r : R) :
    results T r cs = specResults T r [] cs :=
  oneAtATime_aux T r hs cs 0 false [] r h rfl (by simp)

/-- A program with two contexts, one after the other. -/
example : OneAtATime 0 false
    [.new 42, .int 0, .bounded 0 10, .delete 0, .new 84, .advance 1 3, .float 1, .delete 1] := by
  simp [OneAtATime, Call.context]

example : results (R := Nat) ⟨fun _ s => s, fun r => (r, r + 1), fun r => (r, r + 1),
    fun r b => (r % b, r + 1), fun r d => r + d⟩ 7
    [.new 42, .int 0, .bounded 0 10, .delete 0, .new 84, .advance 1 3, .float 1, .delete 1] =
    [.ctx true, .num 42, .num 3, .unit, .ctx true, .unit, .num 87, .unit] := rfl

end Verif.Random
