import Verif.Model.CallLinksSpec
import Mathlib.Data.List.Basic
import Mathlib.Data.List.Nodup
import Mathlib.Tactic.Tauto

/-!
# Lemmas on the links of calls in modified functions
-/

namespace Tket.CallLinks


theorem mem_insert {m : CallMap} {f : Fn} {n : Nat} {e : Fn × Nat} :
    e ∈ CallMap.insert m f n ↔ e = (f, n) ∨ e ∈ m ∧ e.1 ≠ f := by
  simp [CallMap.insert]

theorem mem_update {m : CallMap} {g : Nat → Option Nat} {f : Fn} {n : Nat} :
    (f, n) ∈ CallMap.update m g ↔ ∃ k, (f, k) ∈ m ∧ g k = some n := by
  unfold CallMap.update
  simp only [List.mem_filterMap, Option.map_eq_some_iff, Prod.mk.injEq, Prod.exists]
  constructor
  · rintro ⟨a, b, h1, d, h2, rfl, rfl⟩
    exact ⟨b, h1, h2⟩
  · rintro ⟨k, h1, h2⟩
    exact ⟨f, k, h1, n, h2, rfl, rfl⟩

theorem nodeMap_some {o size next k n : Nat} :
    nodeMap o size next k = some n ↔ o ≤ k ∧ k < size ∧ n = next + (k - o) := by
  unfold nodeMap
  split
  · rename_i h
    simp only [Option.some.injEq]
    omega
  · rename_i h
    simp only [reduceCtorEq, false_iff]
    omega

/-- Facts on states that always hold. `lo` is the first number that is used for calls. -/
structure Inv (lo : Nat) (s : St) : Prop where
  /-- one entry for each key -/
  keys : ∀ f a b, (f, a) ∈ s.callMap → (f, b) ∈ s.callMap → a = b
  bound : ∀ f a, (f, a) ∈ s.needs → lo ≤ a ∧ a < s.next
  fresh : ∀ k a, (Fn.new k, a) ∈ s.needs → k < s.fresh
  freshMap : ∀ k a, (Fn.new k, a) ∈ s.callMap → k < s.fresh

/-- A call that is not linked, nor will be. -/
def Bad (s : St) : Prop := ∃ f a, (f, a) ∈ s.needs ∧ (f, a) ∉ s.callMap

/-- What is known of `modify_fn`. -/
structure Modifies (modify : Nat → St → Except Err (St × Fn)) : Prop where
  keep : ∀ f s t g, modify f s = .ok (t, g) →
    t.next = s.next ∧ t.callMap = s.callMap ∧ t.needs = s.needs ∧
      ∃ k, g = .new k ∧ s.fresh ≤ k ∧ k < t.fresh

theorem need_inv {lo : Nat} {s : St} (h : Inv lo s) (hlo : lo ≤ s.next) (g : Fn) (k : Nat)
    (hg : ∀ j, g = .new j → j < s.fresh) : Inv lo (s.need g k) where
  keys f a b h1 h2 := by
    simp only [St.need, mem_insert, Prod.mk.injEq] at h1 h2
    rcases h1 with ⟨rfl, rfl⟩ | ⟨h1, h1'⟩
    · rcases h2 with ⟨-, rfl⟩ | ⟨-, h2⟩
      · rfl
      · exact absurd rfl h2
    · rcases h2 with ⟨rfl, rfl⟩ | ⟨h2, -⟩
      · exact absurd rfl h1'
      · exact h.keys f a b h1 h2
  bound f a h1 := by
    simp only [St.need, List.mem_append, List.mem_singleton, Prod.mk.injEq] at h1 ⊢
    rcases h1 with h1 | ⟨rfl, rfl⟩
    · have := h.bound f a h1
      omega
    · omega
  fresh j a h1 := by
    simp only [St.need, List.mem_append, List.mem_singleton, Prod.mk.injEq] at h1 ⊢
    rcases h1 with h1 | ⟨h1, -⟩
    · exact h.fresh j a h1
    · exact hg j h1.symm
  freshMap j a h1 := by
    simp only [St.need, mem_insert, Prod.mk.injEq] at h1 ⊢
    rcases h1 with ⟨h1, -⟩ | ⟨h1, -⟩
    · exact hg j h1.symm
    · exact h.freshMap j a h1

theorem need_bad {lo : Nat} {s : St} (h : Inv lo s) (hb : Bad s) (g : Fn) (k : Nat) :
    Bad (s.need g k) := by
  obtain ⟨f, a, h1, h2⟩ := hb
  refine ⟨f, a, by simp [St.need, h1], ?_⟩
  simp only [St.need, mem_insert, Prod.mk.injEq, not_or, not_and]
  refine ⟨?_, fun hc => absurd hc h2⟩
  rintro rfl rfl
  exact absurd (h.bound _ _ h1).2 (Nat.lt_irrefl _)

/-- The state after insertion of a nested region. -/
def inserted (p : Prog) (s t : St) : St :=
  { next := s.next + (t.next - p.outside)
    callMap := t.callMap.update (nodeMap p.outside t.next s.next)
    needs := s.needs ++ CallMap.update t.needs (nodeMap p.outside t.next s.next)
    fresh := t.fresh
    made := t.made }

theorem inserted_inv {p : Prog} {lo : Nat} {s t : St} (hs : Inv lo s) (hlo : lo ≤ s.next)
    (ht : Inv (p.outside + p.boundary) t) (hf : s.fresh ≤ t.fresh) : Inv lo (inserted p s t) where
  keys f a b h1 h2 := by
    simp only [inserted, mem_update] at h1 h2
    obtain ⟨i, hi, ei⟩ := h1
    obtain ⟨j, hj, ej⟩ := h2
    have := ht.keys f i j hi hj
    subst this
    rw [ei] at ej
    exact Option.some.inj ej
  bound f a h1 := by
    simp only [inserted, List.mem_append, mem_update, nodeMap_some] at h1 ⊢
    rcases h1 with h1 | ⟨k, h1, h2⟩
    · have := hs.bound f a h1
      omega
    · omega
  fresh k a h1 := by
    simp only [inserted, List.mem_append, mem_update] at h1 ⊢
    rcases h1 with h1 | ⟨j, h1, h2⟩
    · exact Nat.lt_of_lt_of_le (hs.fresh k a h1) hf
    · exact ht.fresh k j h1
  freshMap k a h1 := by
    simp only [inserted, mem_update] at h1 ⊢
    obtain ⟨j, h1, h2⟩ := h1
    exact ht.freshMap k j h1

/-- Calls before a nested region lose their entries. -/
theorem inserted_bad_before {p : Prog} {lo : Nat} {s : St} (t : St) (hs : Inv lo s)
    (hn : s.needs ≠ []) : Bad (inserted p s t) := by
  obtain ⟨⟨f, a⟩, h1⟩ := List.exists_mem_of_ne_nil _ hn
  refine ⟨f, a, by simp [inserted, h1], ?_⟩
  simp only [inserted, mem_update, nodeMap_some, not_exists, not_and]
  intro k _ _ _
  have := hs.bound f a h1
  omega

/-- A call of the nested region without entry remains so. -/
theorem inserted_bad_inner {p : Prog} {s t : St} (ht : Inv (p.outside + p.boundary) t) (hb : Bad t) :
    Bad (inserted p s t) := by
  obtain ⟨f, a, h1, h2⟩ := hb
  have hb := ht.bound f a h1
  refine ⟨f, s.next + (a - p.outside), ?_, ?_⟩
  · simp only [inserted, List.mem_append, mem_update, nodeMap_some]
    exact .inr ⟨a, h1, by omega, by omega, rfl⟩
  · simp only [inserted, mem_update, nodeMap_some, not_exists, not_and]
    intro k hk _ _ he
    have : a = k := by omega
    subst this
    exact h2 hk

/-- The function that is called instead of `f` where it is not modified. -/
theorem callee_cases {p : Prog} {modify} (hm : Modifies modify) {f : Nat} {s t : St} {g : Fn}
    (h : callee p modify f s = .ok (t, g)) :
    t.next = s.next ∧ t.callMap = s.callMap ∧ t.needs = s.needs ∧ s.fresh ≤ t.fresh ∧
      (p.modifies f = false ∧ g = .old f ∨
        p.modifies f = true ∧ ∃ k, g = .new k ∧ s.fresh ≤ k ∧ k < t.fresh) := by
  unfold callee at h
  split at h
  · rename_i hf
    obtain ⟨h1, h2, h3, k, h4, h5, h6⟩ := hm.keep f s t g h
    exact ⟨h1, h2, h3, by omega, .inr ⟨hf, k, h4, h5, h6⟩⟩
  · rename_i hf
    cases h
    exact ⟨rfl, rfl, rfl, Nat.le_refl _, .inl ⟨by simpa using hf, rfl⟩⟩

theorem inv_of_eq {lo : Nat} {s t : St} (h : Inv lo s) (h1 : t.next = s.next)
    (h2 : t.callMap = s.callMap) (h3 : t.needs = s.needs) (h4 : s.fresh ≤ t.fresh) : Inv lo t where
  keys := by rw [h2]; exact h.keys
  bound := by rw [h3, h1]; exact h.bound
  fresh k a hk := Nat.lt_of_lt_of_le (h.fresh k a (h3 ▸ hk)) h4
  freshMap k a hk := Nat.lt_of_lt_of_le (h.freshMap k a (h2 ▸ hk)) h4

theorem wrap_never (a k m : Nat) : wrapOk a k m = false := by
  unfold wrapOk
  have : (List.range (a + k + 2)).all (fun i => decide (i + a < a + k + 1)) = false := by
    rw [List.all_eq_false]
    refine ⟨k + 1, by simp; omega, ?_⟩
    simp
    omega
  rw [this]
  simp

/-- An indirect call is processed like a call, or panics. -/
theorem step_indirect {p : Prog} {modify} {f k : Nat} {r : Body} {s t : St}
    (h : step p modify (.indirect f k r) s = .ok t) :
    (p.modifies f = true ∨ p.arrays = 0) ∧ step p modify (.call f k r) s = .ok t := by
  simp only [step] at h
  split at h
  · rename_i hc
    simp only [Bool.and_eq_true, Bool.not_eq_true', decide_eq_true_eq] at hc
    rw [wrap_never] at h
    simp at h
  · rename_i hc
    refine ⟨?_, h⟩
    simp only [Bool.and_eq_true, Bool.not_eq_true', decide_eq_true_eq] at hc
    by_cases hf : p.modifies f = true
    · exact .inl hf
    · exact .inr (by simpa [hf] using hc)

/-- The state after a call. -/
theorem step_call {p : Prog} {modify} (hm : Modifies modify) {f k : Nat} {r : Body} {s t : St}
    (h : step p modify (.call f k r) s = .ok t) :
    ∃ (s' : St) (g : Fn), step p modify r (s'.need g k) = .ok t ∧ s'.next = s.next ∧ s'.callMap = s.callMap ∧
      s'.needs = s.needs ∧ s.fresh ≤ s'.fresh ∧
      (p.modifies f = false ∧ g = .old f ∨
        p.modifies f = true ∧ ∃ k, g = .new k ∧ s.fresh ≤ k ∧ k < s'.fresh) := by
  simp only [step] at h
  cases hc : callee p modify f s with
  | error e => rw [hc] at h; cases h
  | ok r =>
    obtain ⟨s', g⟩ := r
    simp only [hc] at h
    obtain ⟨h1, h2, h3, h4, h5⟩ := callee_cases hm hc
    exact ⟨s', g, h, h1, h2, h3, h4, h5⟩

theorem step_sub {p : Prog} {modify} {i r : Body} {s t : St}
    (h : step p modify (.sub i r) s = .ok t) :
    ∃ u, step p modify i { s with next := p.outside + p.boundary, needs := [] } = .ok u ∧
      step p modify r (inserted p s u) = .ok t := by
  simp only [step] at h
  split at h
  · cases h
  · rename_i u hu
    exact ⟨u, hu, h⟩

/-- What a run keeps. -/
theorem step_keeps {p : Prog} {modify} (hm : Modifies modify) (b : Body) :
    ∀ {lo : Nat} {s t : St}, lo ≤ s.next → Inv lo s → step p modify b s = .ok t →
      Inv lo t ∧ s.next ≤ t.next ∧ s.fresh ≤ t.fresh ∧ (Bad s → Bad t) := by
  induction b with
  | nil =>
    intro lo s t hlo hs h
    cases h
    exact ⟨hs, Nat.le_refl _, Nat.le_refl _, id⟩
  | other k r ih =>
    intro lo s t hlo hs h
    have hs' : Inv lo { s with next := s.next + k } :=
      ⟨hs.keys, fun f a hf => by have := hs.bound f a hf; simp only; omega, hs.fresh, hs.freshMap⟩
    obtain ⟨h1, h2, h3, h4⟩ := ih (s := { s with next := s.next + k }) (by simp only; omega) hs' h
    simp only at h2
    exact ⟨h1, by omega, h3, h4⟩
  | call f k r ih =>
    intro lo s t hlo hs h
    obtain ⟨s', g, h0, h1, h2, h3, h4, h5⟩ := step_call hm h
    have hs' := inv_of_eq hs h1 h2 h3 h4
    have hg : ∀ j, g = .new j → j < s'.fresh := by
      rintro j rfl
      rcases h5 with ⟨-, h5⟩ | ⟨-, k, h5, h6, h7⟩
      · cases h5
      · cases h5; exact h7
    have hi := need_inv hs' (by omega) g k hg
    obtain ⟨i1, i2, i3, i4⟩ := ih (s := s'.need g k) (by simp only [St.need]; omega) hi h0
    refine ⟨i1, ?_, ?_, fun hb => i4 (need_bad hs' ?_ g k)⟩
    · simp only [St.need] at i2
      omega
    · simp only [St.need] at i3
      omega
    · unfold Bad at hb ⊢
      rw [h2, h3]
      exact hb
  | indirect f k r ih =>
    intro lo s t hlo hs h
    have h := (step_indirect h).2
    obtain ⟨s', g, h0, h1, h2, h3, h4, h5⟩ := step_call hm h
    have hs' := inv_of_eq hs h1 h2 h3 h4
    have hg : ∀ j, g = .new j → j < s'.fresh := by
      rintro j rfl
      rcases h5 with ⟨-, h5⟩ | ⟨-, k, h5, h6, h7⟩
      · cases h5
      · cases h5; exact h7
    have hi := need_inv hs' (by omega) g k hg
    obtain ⟨i1, i2, i3, i4⟩ := ih (s := s'.need g k) (by simp only [St.need]; omega) hi h0
    refine ⟨i1, ?_, ?_, fun hb => i4 (need_bad hs' ?_ g k)⟩
    · simp only [St.need] at i2
      omega
    · simp only [St.need] at i3
      omega
    · unfold Bad at hb ⊢
      rw [h2, h3]
      exact hb
  | sub i r ihi ihr =>
    intro lo s t hlo hs h
    obtain ⟨u, hu, hr⟩ := step_sub h
    have hs0 : Inv (p.outside + p.boundary) { s with next := p.outside + p.boundary, needs := [] } :=
      { keys := hs.keys, bound := fun _ _ hf => (by cases hf), fresh := fun _ _ hk => (by cases hk),
        freshMap := hs.freshMap }
    obtain ⟨u1, u2, u3, -⟩ := ihi (Nat.le_refl _) hs0 hu
    simp only at u2 u3
    have hi := inserted_inv (p := p) hs hlo u1 u3
    obtain ⟨r1, r2, r3, r4⟩ := ihr (s := inserted p s u) (by simp only [inserted]; omega) hi hr
    refine ⟨r1, ?_, ?_, fun hb => r4 ?_⟩
    · simp only [inserted] at r2
      omega
    · simp only [inserted] at r3
      omega
    · apply inserted_bad_before u hs
      obtain ⟨f, a, h1, -⟩ := hb
      intro he
      rw [he] at h1
      cases h1

/-- The functions of the program among those that are needed. -/
def olds (l : List (Fn × Nat)) : List Nat :=
  l.filterMap fun e => match e.1 with
    | .old f => some f
    | .new _ => none

theorem olds_update {l : List (Fn × Nat)} {g : Nat → Option Nat}
    (h : ∀ f a, (f, a) ∈ l → (g a).isSome) : olds (CallMap.update l g) = olds l := by
  induction l with
  | nil => rfl
  | cons e l ih =>
    obtain ⟨f, a⟩ := e
    have h1 := h f a (by simp)
    obtain ⟨b, hb⟩ := Option.isSome_iff_exists.1 h1
    have ih := ih fun f a hf => h f a (List.mem_cons_of_mem _ hf)
    unfold CallMap.update at ih ⊢
    rw [List.filterMap_cons]
    simp only [hb, Option.map_some]
    unfold olds at ih ⊢
    rw [List.filterMap_cons, List.filterMap_cons, ih]

theorem mem_olds {l : List (Fn × Nat)} {f : Nat} : f ∈ olds l ↔ ∃ a, (Fn.old f, a) ∈ l := by
  unfold olds
  rw [List.mem_filterMap]
  constructor
  · rintro ⟨⟨g, a⟩, h1, h2⟩
    cases g with
    | old x =>
      simp only [Option.some.injEq] at h2
      subst h2
      exact ⟨a, h1⟩
    | new x => cases h2
  · rintro ⟨a, h⟩
    exact ⟨(.old f, a), h, rfl⟩

theorem decide_started {l : CallMap} {b : Bool} (h : l = [] ↔ b = false) : decide (l ≠ []) = b := by
  cases b <;> simp_all

/-- The nodes that need functions, after a run. -/
theorem step_needs {p : Prog} {modify} (hm : Modifies modify) (b : Body) :
    ∀ {lo : Nat} {s t : St}, lo ≤ s.next → Inv lo s → step p modify b s = .ok t →
      olds t.needs = olds s.needs ++ kept p b ∧
      (t.needs = [] ↔ s.needs = [] ∧ hasCalls b = false) := by
  induction b with
  | nil =>
    intro lo s t hlo hs h
    cases h
    simp [kept, hasCalls]
  | other k r ih =>
    intro lo s t hlo hs h
    have hs' : Inv lo { s with next := s.next + k } :=
      ⟨hs.keys, fun f a hf => by have := hs.bound f a hf; simp only; omega, hs.fresh, hs.freshMap⟩
    exact ih (s := { s with next := s.next + k }) (by simp only; omega) hs' h
  | call f k r ih =>
    intro lo s t hlo hs h
    obtain ⟨s', g, h0, h1, h2, h3, h4, h5⟩ := step_call hm h
    have hs' := inv_of_eq hs h1 h2 h3 h4
    have hg : ∀ j, g = .new j → j < s'.fresh := by
      rintro j rfl
      rcases h5 with ⟨-, h5⟩ | ⟨-, k, h5, h6, h7⟩
      · cases h5
      · cases h5; exact h7
    have hi := need_inv hs' (by omega) g k hg
    obtain ⟨i1, i2⟩ := ih (s := s'.need g k) (by simp only [St.need]; omega) hi h0
    constructor
    · rw [i1]
      simp only [St.need, olds, List.filterMap_append, h3, kept]
      rcases h5 with ⟨h5, rfl⟩ | ⟨h5, j, rfl, -⟩
      · simp [h5]
      · simp [h5]
    · rw [i2]
      simp [St.need, hasCalls]
  | indirect f k r ih =>
    intro lo s t hlo hs h
    obtain ⟨ha, h⟩ := step_indirect h
    obtain ⟨s', g, h0, h1, h2, h3, h4, h5⟩ := step_call hm h
    have hs' := inv_of_eq hs h1 h2 h3 h4
    have hg : ∀ j, g = .new j → j < s'.fresh := by
      rintro j rfl
      rcases h5 with ⟨-, h5⟩ | ⟨-, k, h5, h6, h7⟩
      · cases h5
      · cases h5; exact h7
    have hi := need_inv hs' (by omega) g k hg
    obtain ⟨i1, i2⟩ := ih (s := s'.need g k) (by simp only [St.need]; omega) hi h0
    constructor
    · rw [i1]
      simp only [St.need, olds, List.filterMap_append, h3, kept]
      rcases h5 with ⟨h5, rfl⟩ | ⟨h5, j, rfl, -⟩
      · have : p.arrays = 0 := by simpa [h5] using ha
        simp [h5, this]
      · simp [h5]
    · rw [i2]
      simp [St.need, hasCalls]
  | sub i r ihi ihr =>
    intro lo s t hlo hs h
    obtain ⟨u, hu, hr⟩ := step_sub h
    have hs0 : Inv (p.outside + p.boundary) { s with next := p.outside + p.boundary, needs := [] } :=
      { keys := hs.keys, bound := fun _ _ hf => (by cases hf), fresh := fun _ _ hk => (by cases hk),
        freshMap := hs.freshMap }
    obtain ⟨u1, u2, u3, -⟩ := step_keeps hm i (lo := p.outside + p.boundary) (Nat.le_refl _) hs0 hu
    obtain ⟨v1, v2⟩ := ihi (Nat.le_refl _) hs0 hu
    simp only at u2 u3
    have hi := inserted_inv (p := p) hs hlo u1 u3
    obtain ⟨r1, r2⟩ := ihr (s := inserted p s u) (by simp only [inserted]; omega) hi hr
    have hsome : ∀ f a, (f, a) ∈ u.needs → (nodeMap p.outside u.next s.next a).isSome := by
      intro f a hf
      have := u1.bound f a hf
      rw [Option.isSome_iff_exists]
      exact ⟨_, nodeMap_some.2 ⟨by omega, this.2, rfl⟩⟩
    constructor
    · rw [r1]
      have : olds (inserted p s u).needs = olds s.needs ++ olds u.needs := by
        simp only [inserted, olds, List.filterMap_append]
        exact congrArg _ (olds_update hsome)
      rw [this, v1]
      simp [kept, olds]
    · rw [r2]
      have : CallMap.update u.needs (nodeMap p.outside u.next s.next) = [] ↔ u.needs = [] := by
        constructor
        · intro he
          cases hn : u.needs with
          | nil => rfl
          | cons e l =>
            obtain ⟨f, a⟩ := e
            have hmem : (f, a) ∈ u.needs := by rw [hn]; simp
            obtain ⟨b, hb⟩ := Option.isSome_iff_exists.1 (hsome f a hmem)
            have : (f, b) ∈ CallMap.update u.needs (nodeMap p.outside u.next s.next) :=
              mem_update.2 ⟨a, hmem, hb⟩
            rw [he] at this
            cases this
        · intro he
          rw [he]
          rfl
      simp only [inserted, List.append_eq_nil_iff, this, v2, hasCalls, Bool.or_eq_false_iff]
      tauto

/-- If the body is not safe, a call is not linked. -/
theorem step_bad {p : Prog} {modify} (hm : Modifies modify) (b : Body) :
    ∀ {lo : Nat} {s t : St}, lo ≤ s.next → Inv lo s → (olds s.needs).Nodup →
      step p modify b s = .ok t →
      ¬ (Shape (decide (s.needs ≠ [])) b ∧ (olds s.needs ++ kept p b).Nodup) → Bad t := by
  induction b with
  | nil =>
    intro lo s t hlo hs hnd h hn
    simp only [Shape, kept, List.append_nil, true_and] at hn
    exact absurd hnd hn
  | other k r ih =>
    intro lo s t hlo hs hnd h hn
    have hs' : Inv lo { s with next := s.next + k } :=
      ⟨hs.keys, fun f a hf => by have := hs.bound f a hf; simp only; omega, hs.fresh, hs.freshMap⟩
    exact ih (s := { s with next := s.next + k }) (by simp only; omega) hs' hnd h hn
  | call f k r ih =>
    intro lo s t hlo hs hnd h hn
    obtain ⟨s', g, h0, h1, h2, h3, h4, h5⟩ := step_call hm h
    have hs' := inv_of_eq hs h1 h2 h3 h4
    have hg : ∀ j, g = .new j → j < s'.fresh := by
      rintro j rfl
      rcases h5 with ⟨-, h5⟩ | ⟨-, k, h5, h6, h7⟩
      · cases h5
      · cases h5; exact h7
    have hi := need_inv hs' (by omega) g k hg
    have hlo' : lo ≤ (s'.need g k).next := by simp only [St.need]; omega
    rcases h5 with ⟨h5, rfl⟩ | ⟨h5, j, rfl, -⟩
    · have e1 : olds (s'.need (.old f) k).needs = olds s.needs ++ [f] := by
        simp [St.need, olds, h3]
      by_cases hf : f ∈ olds s.needs
      · apply (step_keeps hm r hlo' hi h0).2.2.2
        obtain ⟨a, ha⟩ := mem_olds.1 hf
        refine ⟨.old f, a, by simp [St.need, h3, ha], ?_⟩
        simp only [St.need, mem_insert, Prod.mk.injEq, true_and, ne_eq, not_true_eq_false, and_false,
          or_false]
        have := (hs.bound _ _ ha).2
        omega
      · refine ih hlo' hi ?_ h0 ?_
        · rw [e1, List.nodup_append]
          refine ⟨hnd, by simp, ?_⟩
          intro a ha b hb
          simp only [List.mem_singleton] at hb
          subst hb
          rintro rfl
          exact hf ha
        · rw [e1]
          simpa [Shape, kept, h5, St.need] using hn
    · have e1 : olds (s'.need (.new j) k).needs = olds s.needs := by
        simp [St.need, olds, h3]
      refine ih hlo' hi (e1 ▸ hnd) h0 ?_
      rw [e1]
      simpa [Shape, kept, h5, St.need] using hn
  | indirect f k r ih =>
    intro lo s t hlo hs hnd h hn
    obtain ⟨hma, h⟩ := step_indirect h
    obtain ⟨s', g, h0, h1, h2, h3, h4, h5⟩ := step_call hm h
    have hs' := inv_of_eq hs h1 h2 h3 h4
    have hg : ∀ j, g = .new j → j < s'.fresh := by
      rintro j rfl
      rcases h5 with ⟨-, h5⟩ | ⟨-, k, h5, h6, h7⟩
      · cases h5
      · cases h5; exact h7
    have hi := need_inv hs' (by omega) g k hg
    have hlo' : lo ≤ (s'.need g k).next := by simp only [St.need]; omega
    rcases h5 with ⟨h5, rfl⟩ | ⟨h5, j, rfl, -⟩
    · have e1 : olds (s'.need (.old f) k).needs = olds s.needs ++ [f] := by
        simp [St.need, olds, h3]
      by_cases hf : f ∈ olds s.needs
      · apply (step_keeps hm r hlo' hi h0).2.2.2
        obtain ⟨a, ha⟩ := mem_olds.1 hf
        refine ⟨.old f, a, by simp [St.need, h3, ha], ?_⟩
        simp only [St.need, mem_insert, Prod.mk.injEq, true_and, ne_eq, not_true_eq_false, and_false,
          or_false]
        have := (hs.bound _ _ ha).2
        omega
      · refine ih hlo' hi ?_ h0 ?_
        · rw [e1, List.nodup_append]
          refine ⟨hnd, by simp, ?_⟩
          intro a ha b hb
          simp only [List.mem_singleton] at hb
          subst hb
          rintro rfl
          exact hf ha
        · rw [e1]
          have : p.arrays = 0 := by simpa [h5] using hma
          simpa [Shape, kept, h5, St.need, this] using hn
    · have e1 : olds (s'.need (.new j) k).needs = olds s.needs := by
        simp [St.need, olds, h3]
      refine ih hlo' hi (e1 ▸ hnd) h0 ?_
      rw [e1]
      simpa [Shape, kept, h5, St.need] using hn
  | sub i r ihi ihr =>
    intro lo s t hlo hs hnd h hn
    obtain ⟨u, hu, hr⟩ := step_sub h
    have hs0 : Inv (p.outside + p.boundary) { s with next := p.outside + p.boundary, needs := [] } :=
      { keys := hs.keys, bound := fun _ _ hf => (by cases hf), fresh := fun _ _ hk => (by cases hk),
        freshMap := hs.freshMap }
    obtain ⟨u1, u2, u3, -⟩ := step_keeps hm i (lo := p.outside + p.boundary) (Nat.le_refl _) hs0 hu
    obtain ⟨v1, v2⟩ := step_needs hm i (Nat.le_refl _) hs0 hu
    simp only at u2 u3
    have hi := inserted_inv (p := p) hs hlo u1 u3
    have hlo' : lo ≤ (inserted p s u).next := by simp only [inserted]; omega
    by_cases hsn : s.needs = []
    · by_cases hin : Shape false i ∧ (kept p i).Nodup
      · have e0 : (inserted p s u).needs =
            CallMap.update u.needs (nodeMap p.outside u.next s.next) := by simp [inserted, hsn]
        have hsome : ∀ f a, (f, a) ∈ u.needs → (nodeMap p.outside u.next s.next a).isSome := by
          intro f a hf
          have := u1.bound f a hf
          rw [Option.isSome_iff_exists]
          exact ⟨_, nodeMap_some.2 ⟨by omega, this.2, rfl⟩⟩
        have e1 : olds (inserted p s u).needs = kept p i := by
          rw [e0, olds_update hsome, v1]
          simp [olds]
        have e2 : decide ((inserted p s u).needs ≠ []) = hasCalls i := by
          rw [e0]
          have : CallMap.update u.needs (nodeMap p.outside u.next s.next) = [] ↔ u.needs = [] := by
            constructor
            · intro he
              cases hnn : u.needs with
              | nil => rfl
              | cons e l =>
                obtain ⟨f, a⟩ := e
                have hmem : (f, a) ∈ u.needs := by rw [hnn]; simp
                obtain ⟨b, hb⟩ := Option.isSome_iff_exists.1 (hsome f a hmem)
                have : (f, b) ∈ CallMap.update u.needs (nodeMap p.outside u.next s.next) :=
                  mem_update.2 ⟨a, hmem, hb⟩
                rw [he] at this
                cases this
            · intro he
              rw [he]
              rfl
          exact decide_started (this.trans (v2.trans (by simp)))
        refine ihr hlo' hi (e1 ▸ hin.2) hr ?_
        rw [e1, e2]
        rintro ⟨c1, c2⟩
        apply hn
        rw [hsn]
        simp only [Shape, kept, olds, ne_eq, not_true_eq_false, decide_false, true_and,
          List.filterMap_nil, List.nil_append]
        exact ⟨⟨hin.1, c1⟩, c2⟩
      · apply (step_keeps hm r hlo' hi hr).2.2.2
        apply inserted_bad_inner u1
        refine ihi (Nat.le_refl _) hs0 (by simp [olds]) hu ?_
        simpa [olds] using hin
    · apply (step_keeps hm r hlo' hi hr).2.2.2
      exact inserted_bad_before u hs hsn

/-- If the body is safe, calls are linked. -/
theorem step_good {p : Prog} {modify} (hm : Modifies modify) (b : Body) :
    ∀ {lo : Nat} {s t : St}, lo ≤ s.next → Inv lo s → step p modify b s = .ok t →
      (∀ e, e ∈ s.callMap ↔ e ∈ s.needs) →
      Shape (decide (s.needs ≠ [])) b → (olds s.needs ++ kept p b).Nodup →
      ∀ e, e ∈ t.callMap ↔ e ∈ t.needs := by
  have hneed : ∀ {lo : Nat} {s s' : St} {f k : Nat} {g : Fn}, Inv lo s → s'.next = s.next →
      s'.callMap = s.callMap → s'.needs = s.needs → s.fresh ≤ s'.fresh →
      (p.modifies f = false ∧ g = .old f ∨
        p.modifies f = true ∧ ∃ k, g = .new k ∧ s.fresh ≤ k ∧ k < s'.fresh) →
      (∀ e, e ∈ s.callMap ↔ e ∈ s.needs) → (g = .old f → f ∉ olds s.needs) →
      ∀ e, e ∈ (s'.need g k).callMap ↔ e ∈ (s'.need g k).needs := by
    intro lo s s' f k g hs h1 h2 h3 h4 h5 he hf ⟨c, a⟩
    simp only [St.need, mem_insert, List.mem_append, List.mem_singleton, h2, h3, he, h1]
    constructor
    · rintro (h | ⟨h, -⟩)
      · exact .inr h
      · exact .inl h
    · rintro (h | h)
      · by_cases hc : c = g
        · exfalso
          subst hc
          rcases h5 with ⟨-, rfl⟩ | ⟨-, j, rfl, h6, -⟩
          · exact hf rfl (mem_olds.2 ⟨a, h⟩)
          · exact absurd (hs.fresh j a h) (by omega)
        · exact .inr ⟨h, hc⟩
      · exact .inl h
  induction b with
  | nil =>
    intro lo s t hlo hs h he _ _
    cases h
    exact he
  | other k r ih =>
    intro lo s t hlo hs h he hsh hnd
    have hs' : Inv lo { s with next := s.next + k } :=
      ⟨hs.keys, fun f a hf => by have := hs.bound f a hf; simp only; omega, hs.fresh, hs.freshMap⟩
    exact ih (s := { s with next := s.next + k }) (by simp only; omega) hs' h he hsh hnd
  | call f k r ih =>
    intro lo s t hlo hs h he hsh hnd
    obtain ⟨s', g, h0, h1, h2, h3, h4, h5⟩ := step_call hm h
    have hs' := inv_of_eq hs h1 h2 h3 h4
    have hg : ∀ j, g = .new j → j < s'.fresh := by
      rintro j rfl
      rcases h5 with ⟨-, h5⟩ | ⟨-, k, h5, h6, h7⟩
      · cases h5
      · cases h5; exact h7
    have hi := need_inv hs' (by omega) g k hg
    refine ih (s := s'.need g k) (by simp only [St.need]; omega) hi h0 ?_ ?_ ?_
    · refine hneed hs h1 h2 h3 h4 h5 he ?_
      rintro rfl
      rcases h5 with ⟨h5, -⟩ | ⟨-, j, h5, -⟩
      · simp only [kept, h5, Bool.false_eq_true, if_false] at hnd
        intro hc
        exact (List.nodup_append.1 hnd).2.2 f hc f (by simp) rfl
      · cases h5
    · simpa [Shape, St.need] using hsh
    · rcases h5 with ⟨h5, rfl⟩ | ⟨h5, j, rfl, -⟩
      · simpa [kept, h5, St.need, olds, h3] using hnd
      · simpa [kept, h5, St.need, olds, h3] using hnd
  | indirect f k r ih =>
    intro lo s t hlo hs h he hsh hnd
    obtain ⟨hma, h⟩ := step_indirect h
    obtain ⟨s', g, h0, h1, h2, h3, h4, h5⟩ := step_call hm h
    have hs' := inv_of_eq hs h1 h2 h3 h4
    have hg : ∀ j, g = .new j → j < s'.fresh := by
      rintro j rfl
      rcases h5 with ⟨-, h5⟩ | ⟨-, k, h5, h6, h7⟩
      · cases h5
      · cases h5; exact h7
    have hi := need_inv hs' (by omega) g k hg
    refine ih (s := s'.need g k) (by simp only [St.need]; omega) hi h0 ?_ ?_ ?_
    · refine hneed hs h1 h2 h3 h4 h5 he ?_
      rintro rfl
      rcases h5 with ⟨h5, -⟩ | ⟨-, j, h5, -⟩
      · have : p.arrays = 0 := by simpa [h5] using hma
        simp only [kept, h5, this, ne_eq, not_true_eq_false, decide_false, Bool.or_false,
          Bool.false_eq_true, if_false] at hnd
        intro hc
        exact (List.nodup_append.1 hnd).2.2 f hc f (by simp) rfl
      · cases h5
    · simpa [Shape, St.need] using hsh
    · rcases h5 with ⟨h5, rfl⟩ | ⟨h5, j, rfl, -⟩
      · have : p.arrays = 0 := by simpa [h5] using hma
        simpa [kept, h5, St.need, olds, h3, this] using hnd
      · simpa [kept, h5, St.need, olds, h3] using hnd
  | sub i r ihi ihr =>
    intro lo s t hlo hs h he hsh hnd
    obtain ⟨u, hu, hr⟩ := step_sub h
    have hs0 : Inv (p.outside + p.boundary) { s with next := p.outside + p.boundary, needs := [] } :=
      { keys := hs.keys, bound := fun _ _ hf => (by cases hf), fresh := fun _ _ hk => (by cases hk),
        freshMap := hs.freshMap }
    obtain ⟨u1, u2, u3, -⟩ := step_keeps hm i (lo := p.outside + p.boundary) (Nat.le_refl _) hs0 hu
    obtain ⟨v1, v2⟩ := step_needs hm i (Nat.le_refl _) hs0 hu
    simp only at u2 u3
    have hi := inserted_inv (p := p) hs hlo u1 u3
    have hlo' : lo ≤ (inserted p s u).next := by simp only [inserted]; omega
    simp only [Shape] at hsh
    obtain ⟨hsn, hsi, hsr⟩ := hsh
    have hsn : s.needs = [] := by simpa using hsn
    have hmap : s.callMap = [] := by
      rw [List.eq_nil_iff_forall_not_mem]
      intro e hm
      have := (he e).1 hm
      rw [hsn] at this
      cases this
    rw [hsn] at hnd
    simp only [olds, List.filterMap_nil, List.nil_append, kept] at hnd
    have hu' := ihi (Nat.le_refl _) hs0 hu (by simp [hmap]) (by simpa using hsi)
      (by simpa [olds] using (List.nodup_append.1 hnd).1)
    have e0 : (inserted p s u).needs =
        CallMap.update u.needs (nodeMap p.outside u.next s.next) := by simp [inserted, hsn]
    have hsome : ∀ f a, (f, a) ∈ u.needs → (nodeMap p.outside u.next s.next a).isSome := by
      intro f a hf
      have := u1.bound f a hf
      rw [Option.isSome_iff_exists]
      exact ⟨_, nodeMap_some.2 ⟨by omega, this.2, rfl⟩⟩
    have e1 : olds (inserted p s u).needs = kept p i := by
      rw [e0, olds_update hsome, v1]
      simp [olds]
    have e2 : decide ((inserted p s u).needs ≠ []) = hasCalls i := by
      rw [e0]
      have : CallMap.update u.needs (nodeMap p.outside u.next s.next) = [] ↔ u.needs = [] := by
        constructor
        · intro he
          cases hnn : u.needs with
          | nil => rfl
          | cons e l =>
            obtain ⟨f, a⟩ := e
            have hmem : (f, a) ∈ u.needs := by rw [hnn]; simp
            obtain ⟨b, hb⟩ := Option.isSome_iff_exists.1 (hsome f a hmem)
            have : (f, b) ∈ CallMap.update u.needs (nodeMap p.outside u.next s.next) :=
              mem_update.2 ⟨a, hmem, hb⟩
            rw [he] at this
            cases this
        · intro he
          rw [he]
          rfl
      exact decide_started (this.trans (v2.trans (by simp)))
    refine ihr hlo' hi hr ?_ ?_ ?_
    · rintro ⟨f, a⟩
      rw [e0]
      simp only [inserted, mem_update, hu']
    · rw [e2]
      exact hsr
    · rw [e1]
      exact hnd

/-- `modify_fn` meets what is assumed of it. -/
theorem modifyFn_ok (p : Prog) (fuel : Nat) : Modifies (modifyFn p fuel) := by
  induction fuel with
  | zero => exact ⟨fun f s t g h => by cases h⟩
  | succ fuel ih =>
    refine ⟨fun f s t g h => ?_⟩
    simp only [modifyFn] at h
    split at h
    · cases h
    · rename_i u hu
      cases h
      refine ⟨rfl, rfl, rfl, u.fresh, rfl, ?_, by simp⟩
      refine (step_keeps ih _ (lo := p.fnNodes) (Nat.le_refl _) ?_ hu).2.2.1
      exact { keys := fun _ _ _ h => (by cases h), bound := fun _ _ h => (by cases h),
              fresh := fun _ _ h => (by cases h), freshMap := fun _ _ h => (by cases h) }

/-- The functions that a run makes are those that `modify` makes. -/
theorem step_made {p : Prog} {modify} (P : Made → Prop)
    (hP : ∀ f s t g, modify f s = .ok (t, g) → ∀ m ∈ t.made, m ∈ s.made ∨ P m) (b : Body) :
    ∀ {s t : St}, step p modify b s = .ok t → ∀ m ∈ t.made, m ∈ s.made ∨ P m := by
  have hc : ∀ {f s t g}, callee p modify f s = .ok (t, g) → ∀ m ∈ t.made, m ∈ s.made ∨ P m := by
    intro f s t g h
    unfold callee at h
    split at h
    · exact hP f s t g h
    · cases h
      exact fun m hm => .inl hm
  induction b with
  | nil =>
    intro s t h
    cases h
    exact fun m hm => .inl hm
  | other k r ih =>
    intro s t h
    exact ih (s := { s with next := s.next + k }) h
  | call f k r ih =>
    intro s t h m hm
    simp only [step] at h
    split at h
    · cases h
    · rename_i s' g hs'
      rcases ih h m hm with h1 | h1
      · exact hc hs' m h1
      · exact .inr h1
  | indirect f k r ih =>
    intro s t h m hm
    have h := (step_indirect h).2
    simp only [step] at h
    split at h
    · cases h
    · rename_i s' g hs'
      rcases ih h m hm with h1 | h1
      · exact hc hs' m h1
      · exact .inr h1
  | sub i r ihi ihr =>
    intro s t h m hm
    obtain ⟨u, hu, hr⟩ := step_sub h
    rcases ihr hr m hm with h1 | h1
    · exact ihi hu m h1
    · exact .inr h1

/-- New functions are numbered in the order in which they are made. -/
theorem step_count {p : Prog} {modify : Nat → St → Except Err (St × Fn)}
    (hP : ∀ f s t g, modify f s = .ok (t, g) → s.fresh = s.made.length → t.fresh = t.made.length)
    (b : Body) : ∀ {s t : St}, step p modify b s = .ok t → s.fresh = s.made.length →
      t.fresh = t.made.length := by
  have hc : ∀ {f s t g}, callee p modify f s = .ok (t, g) → s.fresh = s.made.length →
      t.fresh = t.made.length := by
    intro f s t g h hs
    unfold callee at h
    split at h
    · exact hP f s t g h hs
    · cases h
      exact hs
  induction b with
  | nil =>
    intro s t h hs
    cases h
    exact hs
  | other k r ih =>
    intro s t h hs
    exact ih (s := { s with next := s.next + k }) h hs
  | call f k r ih =>
    intro s t h hs
    simp only [step] at h
    split at h
    · cases h
    · rename_i s' g hs'
      have h1 := hc hs' hs
      exact ih h h1
  | indirect f k r ih =>
    intro s t h hs
    have h := (step_indirect h).2
    simp only [step] at h
    split at h
    · cases h
    · rename_i s' g hs'
      have h1 := hc hs' hs
      exact ih h h1
  | sub i r ihi ihr =>
    intro s t h hs
    obtain ⟨u, hu, hr⟩ := step_sub h
    have h1 := ihi hu hs
    exact ihr hr h1

theorem modifyFn_count (p : Prog) (fuel : Nat) : ∀ f s t g, modifyFn p fuel f s = .ok (t, g) →
    s.fresh = s.made.length → t.fresh = t.made.length := by
  induction fuel with
  | zero => exact fun f s t g h => by cases h
  | succ fuel ih =>
    intro f s t g h hs
    simp only [modifyFn] at h
    split at h
    · cases h
    · rename_i u hu
      cases h
      have := step_count ih _ hu hs
      simp [this]

theorem start_inv (p : Prog) (s : St) : Inv p.fnNodes ⟨p.fnNodes, [], [], s.fresh, s.made⟩ where
  keys _ _ _ h := by cases h
  bound _ _ h := by cases h
  fresh _ _ h := by cases h
  freshMap _ _ h := by cases h

/-- The links of the functions that are made. -/
theorem modifyFn_made (p : Prog) (fuel : Nat) : ∀ f s t g, modifyFn p fuel f s = .ok (t, g) →
    ∀ m ∈ t.made, m ∈ s.made ∨ (WellLinked m ↔ Safe p (p.body m.source)) := by
  induction fuel with
  | zero => exact fun f s t g h => by cases h
  | succ fuel ih =>
    intro f s t g h m hm
    simp only [modifyFn] at h
    split at h
    · cases h
    · rename_i u hu
      cases h
      simp only [List.mem_append, List.mem_singleton] at hm
      rcases hm with hm | rfl
      · exact step_made _ ih _ hu m hm
      · right
        constructor
        · intro hw
          apply Classical.byContradiction
          intro hn
          obtain ⟨f, a, h1, h2⟩ := step_bad (modifyFn_ok p fuel) _ (lo := p.fnNodes) (Nat.le_refl _)
            (start_inv p s) (by simp [olds]) hu (by simpa [olds, Safe] using hn)
          exact h2 ((hw (f, a)).2 h1)
        · intro hsf
          exact step_good (modifyFn_ok p fuel) _ (lo := p.fnNodes) (Nat.le_refl _) (start_inv p s) hu
            (fun e => Iff.rfl) (by simpa using hsf.1) (by simpa [olds] using hsf.2)

/-- Runs end if those of the functions called do. -/
theorem step_total {p : Prog} {modify : Nat → St → Except Err (St × Fn)} (b : Body)
    (hi : ∀ f ∈ indirects b, p.modifies f = true ∨ p.arrays = 0)
    (hm : ∀ f ∈ callsIn b, p.modifies f = true → ∀ s, ∃ r, modify f s = .ok r) (s : St) :
    ∃ t, step p modify b s = .ok t := by
  have hc : ∀ f s, (p.modifies f = true → ∀ s, ∃ r, modify f s = .ok r) →
      ∃ r, callee p modify f s = .ok r := by
    intro f s h
    unfold callee
    split
    · rename_i hf
      exact h hf s
    · exact ⟨_, rfl⟩
  induction b generalizing s with
  | nil => exact ⟨s, rfl⟩
  | other k r ih => exact ih hi hm _
  | call f k r ih =>
    simp only [callsIn, List.mem_cons, forall_eq_or_imp, indirects] at hm hi
    obtain ⟨⟨t, g⟩, hr⟩ := hc f s hm.1
    simp only [step, hr]
    exact ih hi hm.2 _
  | indirect f k r ih =>
    simp only [callsIn, List.mem_cons, forall_eq_or_imp, indirects] at hm hi
    obtain ⟨⟨t, g⟩, hr⟩ := hc f s hm.1
    have : (!p.modifies f && decide (p.arrays ≠ 0)) = false := by
      rcases hi.1 with h | h <;> simp [h]
    simp only [step, this, hr, Bool.false_eq_true, if_false]
    exact ih hi.2 hm.2 _
  | sub i r ihi ihr =>
    simp only [callsIn, List.mem_append, indirects] at hm hi
    obtain ⟨u, hu⟩ := ihi (fun f hf => hi f (.inl hf)) (fun f hf => hm f (.inl hf))
      { s with next := p.outside + p.boundary, needs := [] }
    simp only [step, hu]
    exact ihr (fun f hf => hi f (.inr hf)) (fun f hf => hm f (.inr hf)) _

/-- What must have ended if a run has. -/
theorem step_ended {p : Prog} {modify : Nat → St → Except Err (St × Fn)} (b : Body) :
    ∀ {s t : St}, step p modify b s = .ok t →
      (∀ f ∈ indirects b, p.modifies f = true ∨ p.arrays = 0) ∧
      ∀ f ∈ callsIn b, p.modifies f = true → ∃ s r, modify f s = .ok r := by
  have hc : ∀ {f s r}, callee p modify f s = .ok r → p.modifies f = true → ∃ s r, modify f s = .ok r := by
    intro f s r h hf
    unfold callee at h
    rw [if_pos hf] at h
    exact ⟨s, r, h⟩
  induction b with
  | nil =>
    intro s t _
    simp [indirects, callsIn]
  | other k r ih =>
    intro s t h
    exact ih (s := { s with next := s.next + k }) h
  | call f k r ih =>
    intro s t h
    simp only [step] at h
    split at h
    · cases h
    · rename_i s' g hs'
      obtain ⟨h1, h2⟩ := ih h
      refine ⟨h1, ?_⟩
      simp only [callsIn, List.mem_cons, forall_eq_or_imp]
      exact ⟨hc hs', h2⟩
  | indirect f k r ih =>
    intro s t h
    obtain ⟨h0, h⟩ := step_indirect h
    simp only [step] at h
    split at h
    · cases h
    · rename_i s' g hs'
      obtain ⟨h1, h2⟩ := ih h
      simp only [callsIn, indirects, List.mem_cons, forall_eq_or_imp]
      exact ⟨⟨h0, h1⟩, hc hs', h2⟩
  | sub i r ihi ihr =>
    intro s t h
    obtain ⟨u, hu, hr⟩ := step_sub h
    obtain ⟨a1, a2⟩ := ihi hu
    obtain ⟨b1, b2⟩ := ihr hr
    simp only [callsIn, indirects, List.mem_append]
    exact ⟨fun f hf => hf.elim (a1 f) (b1 f), fun f hf => hf.elim (a2 f) (b2 f)⟩

/-- Functions that end with some fuel end with more. -/
theorem modifyFn_total {p : Prog} {f : Nat} (h : Fine p f) :
    ∃ n, ∀ fuel, n ≤ fuel → ∀ s, ∃ r, modifyFn p fuel f s = .ok r := by
  induction h with
  | mk f hi _ ih =>
    have : ∃ n, ∀ g ∈ callsIn (p.body f), p.modifies g = true →
        ∀ fuel, n ≤ fuel → ∀ s, ∃ r, modifyFn p fuel g s = .ok r := by
      generalize callsIn (p.body f) = l at ih
      induction l with
      | nil => exact ⟨0, by simp⟩
      | cons g l ihl =>
        obtain ⟨n, hn⟩ := ihl fun g hg => ih g (List.mem_cons_of_mem _ hg)
        by_cases hg : p.modifies g = true
        · obtain ⟨k, hk⟩ := ih g (by simp) hg
          refine ⟨max n k, ?_⟩
          intro x hx hm fuel hf
          rcases List.mem_cons.1 hx with rfl | hx
          · exact hk fuel (by omega)
          · exact hn x hx hm fuel (by omega)
        · refine ⟨n, ?_⟩
          intro x hx hm fuel hf
          rcases List.mem_cons.1 hx with rfl | hx
          · exact absurd hm hg
          · exact hn x hx hm fuel hf
    obtain ⟨n, hn⟩ := this
    refine ⟨n + 1, ?_⟩
    intro fuel hf s
    obtain ⟨k, rfl⟩ : ∃ k, fuel = k + 1 := ⟨fuel - 1, by omega⟩
    obtain ⟨t, ht⟩ := step_total (modify := modifyFn p k) (p.body f) hi
      (fun g hg hm => hn g hg hm k (by omega)) ⟨p.fnNodes, [], [], s.fresh, s.made⟩
    simp only [modifyFn, ht]
    exact ⟨_, rfl⟩

theorem modifyFn_fine {p : Prog} (fuel : Nat) : ∀ {f s r}, modifyFn p fuel f s = .ok r → Fine p f := by
  induction fuel with
  | zero => exact fun h => by cases h
  | succ fuel ih =>
    intro f s r h
    simp only [modifyFn] at h
    split at h
    · cases h
    · rename_i u hu
      obtain ⟨h1, h2⟩ := step_ended _ hu
      refine ⟨f, h1, fun g hg hm => ?_⟩
      obtain ⟨s, r, h3⟩ := h2 g hg hm
      exact ih h3

end Tket.CallLinks
