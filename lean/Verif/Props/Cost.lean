import Verif.Model.Cost
import Mathlib.Algebra.Order.Group.Int
import Mathlib.Tactic.Common
import Mathlib.Tactic.Linarith

/-!
# Properties C09, C13, C14: cost arithmetic
-/

namespace Tket.Cost

/-- Specification of the lexicographic order on equally long tuples: at the first position where
they differ, the left one is smaller. -/
def LexLT {α : Type} [LT α] (a b : List α) : Prop :=
  ∃ (k : Nat) (x y : α), a[k]? = some x ∧ b[k]? = some y ∧ x < y ∧ ∀ j, j < k → a[j]? = b[j]?

theorem lexLT_cons {α : Type} [LinearOrder α] {x y : α} {as bs : List α} :
    LexLT (x :: as) (y :: bs) ↔ x < y ∨ (x = y ∧ LexLT as bs) := by
  constructor
  · rintro ⟨k, u, v, h1, h2, h3, h4⟩
    cases k with
    | zero =>
      simp at h1 h2; subst h1 h2; exact Or.inl h3
    | succ k =>
      right
      refine ⟨by have := h4 0 (by omega); simpa using this, k, u, v, by simpa using h1,
        by simpa using h2, h3, ?_⟩
      intro j hj
      have := h4 (j + 1) (by omega)
      simpa using this
  · rintro (h | ⟨rfl, k, u, v, h1, h2, h3, h4⟩)
    · exact ⟨0, x, y, rfl, rfl, h, by simp⟩
    · refine ⟨k + 1, u, v, by simpa using h1, by simpa using h2, h3, ?_⟩
      intro j hj
      cases j with
      | zero => rfl
      | succ j => simpa using h4 j (by omega)

/-- **C13 (order).** Comparing two costs of the same length gives `lt` exactly when the first
differing component is smaller, `eq` exactly when they are equal, `gt` otherwise. -/
theorem C13_compare_lexicographic {α : Type} [LinearOrder α] (a b : List α)
    (h : a.length = b.length) :
    (cmp a b = .lt ↔ LexLT a b) ∧ (cmp a b = .eq ↔ a = b) ∧ (cmp a b = .gt ↔ LexLT b a) := by
  induction a generalizing b with
  | nil =>
    cases b with
    | nil => simp [cmp, LexLT]
    | cons => simp at h
  | cons x as ih =>
    cases b with
    | nil => simp at h
    | cons y bs =>
      have ih' := ih bs (by simpa using h)
      rw [lexLT_cons, lexLT_cons]
      unfold cmp
      rcases lt_trichotomy x y with hxy | hxy | hxy
      · have h1 : ¬ y < x := not_lt.2 (le_of_lt hxy)
        have h2 : ¬ x = y := ne_of_lt hxy
        have h3 : ¬ y = x := ne_of_gt hxy
        simp [hxy, h1, h2, h3]
      · subst hxy; simpa using ih'
      · have h1 : ¬ x < y := not_lt.2 (le_of_lt hxy)
        have h2 : ¬ x = y := ne_of_gt hxy
        have h3 : ¬ y = x := ne_of_lt hxy
        simp [hxy, h1, h2, h3]

/-- **C13 (order).** The comparison is a strict total order. -/
theorem C13_compare_total {α : Type} [LinearOrder α] (a b c : List α) (h : a.length = b.length)
    (h' : b.length = c.length) :
    (LexLT a b ∨ a = b ∨ LexLT b a) ∧ ¬ (LexLT a b ∧ LexLT b a) ∧ (LexLT a b → LexLT b c → LexLT a c) := by
  obtain ⟨h1, h2, h3⟩ := C13_compare_lexicographic a b h
  refine ⟨?_, ?_, ?_⟩
  · rcases hc : cmp a b with _ | _ | _
    · exact Or.inl (h1.1 hc)
    · exact Or.inr (Or.inl (h2.1 hc))
    · exact Or.inr (Or.inr (h3.1 hc))
  · rintro ⟨ha, hb⟩
    rw [← h1] at ha; rw [← h3] at hb
    rw [ha] at hb; cases hb
  · clear h1 h2 h3
    induction a generalizing b c with
    | nil => rintro ⟨k, x, y, h1, _⟩; simp at h1
    | cons x as ih =>
      cases b with
      | nil => simp at h
      | cons y bs =>
        cases c with
        | nil => simp at h'
        | cons z cs =>
          rw [lexLT_cons, lexLT_cons, lexLT_cons]
          rintro (h1 | ⟨rfl, h1⟩) (h2 | ⟨rfl, h2⟩)
          · exact Or.inl (lt_trans h1 h2)
          · exact Or.inl h1
          · exact Or.inl h2
          · exact Or.inr ⟨rfl, ih bs cs (by simpa using h) (by simpa using h') h1 h2⟩

/-- **C13 (monotone).** Adding the same cost to both sides preserves and reflects the order. -/
theorem C13_add_monotone (a b c : List Nat) (h : a.length = b.length) (hc : a.length ≤ c.length) :
    LexLT (add a c) (add b c) ↔ LexLT a b := by
  induction a generalizing b c with
  | nil =>
    cases b with
    | nil => simp [add]
    | cons => simp at h
  | cons x as ih =>
    cases b with
    | nil => simp at h
    | cons y bs =>
      cases c with
      | nil => simp at hc
      | cons z cs =>
        have := ih bs cs (by simpa using h) (by simpa using hc)
        unfold add at this ⊢
        simp only [List.zipWith_cons_cons]
        rw [lexLT_cons, lexLT_cons, this]
        simp

theorem asIsize_small {a : Nat} (h : a < half) : asIsize a = a := by simp [asIsize, h]

theorem satAdd_sub {a b : Nat} (ha : a < half) (hb : b < half) :
    satAddSigned b (asIsize a - asIsize b) = a := by
  rw [asIsize_small ha, asIsize_small hb]
  unfold satAddSigned
  have : (b : Int) + ((a : Int) - b) = a := by omega
  rw [this]
  have hf : a < full := lt_trans ha (by decide)
  simp [hf]

/-- **C13 (round trip).** For costs below `2^63`, adding back a cost difference restores the cost. -/
theorem C13_add_delta_sub_cost (a b : List Nat) (h : a.length = b.length)
    (ha : ∀ x ∈ a, x < half) (hb : ∀ x ∈ b, x < half) : addDelta b (subCost a b) = a := by
  induction a generalizing b with
  | nil =>
    cases b with
    | nil => rfl
    | cons => simp at h
  | cons x as ih =>
    cases b with
    | nil => simp at h
    | cons y bs =>
      have := ih bs (by simpa using h) (fun z hz => ha z (List.mem_cons_of_mem _ hz))
        (fun z hz => hb z (List.mem_cons_of_mem _ hz))
      unfold addDelta subCost at this ⊢
      simp only [List.zipWith_cons_cons]
      rw [this, satAdd_sub (ha x List.mem_cons_self) (hb y List.mem_cons_self)]

/-- **C13 (differences are ordered like costs).** Comparing the differences to a common reference is
comparing the costs. -/
theorem C13_sub_cost_order (a b c : List Nat) (h : a.length = b.length) (h' : a.length ≤ c.length)
    (ha : ∀ x ∈ a, x < half) (hb : ∀ x ∈ b, x < half) :
    LexLT (subCost a c) (subCost b c) ↔ LexLT a b := by
  induction a generalizing b c with
  | nil =>
    cases b with
    | nil => simp [subCost]; simp [LexLT]
    | cons => simp at h
  | cons x as ih =>
    cases b with
    | nil => simp at h
    | cons y bs =>
      cases c with
      | nil => simp at h'
      | cons z cs =>
        have := ih bs cs (by simpa using h) (by simpa using h')
          (fun w hw => ha w (List.mem_cons_of_mem _ hw))
          (fun w hw => hb w (List.mem_cons_of_mem _ hw))
        unfold subCost at this ⊢
        simp only [List.zipWith_cons_cons]
        rw [lexLT_cons, lexLT_cons, this, asIsize_small (ha x List.mem_cons_self),
          asIsize_small (hb y List.mem_cons_self)]
        constructor <;> rintro (h | ⟨h, h2⟩)
        · left; omega
        · right; exact ⟨by omega, h2⟩
        · left; omega
        · right; exact ⟨by omega, h2⟩

/-- The restriction to costs below `2^63` in the round trip is necessary. -/
theorem C13_round_trip_fails_above_half : ∃ a b : List Nat, a.length = b.length ∧
    (∀ x ∈ a, x < full) ∧ (∀ x ∈ b, x < full) ∧ addDelta b (subCost a b) ≠ a :=
  ⟨[half], [0], rfl, by decide, by decide, by decide⟩

example : addDelta [7, 3] (subCost [5, 9] [7, 3]) = [5, 9] ∧ LexLT [5, 9] [7, 3] ∧
    (∀ x ∈ [5, 9], x < half) :=
  ⟨by decide, ⟨0, 5, 7, rfl, rfl, by decide, by simp⟩, by decide⟩

/-- **C13 (sums).** The sum of costs with `n` components is the componentwise sum, and zero for no
costs. -/
theorem C13_sum_componentwise (n : Nat) (l : List (List Nat)) (hl : ∀ c ∈ l, c.length = n) :
    (sum n l).length = n ∧ ∀ i, i < n → (sum n l)[i]? = some ((l.map (fun c => c.getD i 0)).sum) := by
  have key : ∀ (l : List (List Nat)) (a : List Nat), a.length = n → (∀ c ∈ l, c.length = n) →
      (l.foldl add a).length = n ∧ ∀ i, i < n →
        (l.foldl add a)[i]? = some (a.getD i 0 + (l.map (fun c => c.getD i 0)).sum) := by
    intro l
    induction l with
    | nil =>
      intro a ha _
      refine ⟨ha, fun i hi => ?_⟩
      have : i < a.length := by omega
      simp [this]
    | cons c t ih =>
      intro a ha hl
      have hc := hl c List.mem_cons_self
      have hlen : (add a c).length = n := by simp [add, ha, hc]
      obtain ⟨h1, h2⟩ := ih (add a c) hlen (fun x hx => hl x (List.mem_cons_of_mem _ hx))
      refine ⟨h1, fun i hi => ?_⟩
      rw [List.foldl_cons, h2 i hi]
      have e1 : i < a.length := by omega
      have e2 : i < c.length := by omega
      simp [add, e1, e2, Nat.add_assoc]
  cases l with
  | nil =>
    refine ⟨by simp [sum], fun i hi => ?_⟩
    simp [sum, hi]
  | cons a t =>
    obtain ⟨h1, h2⟩ := key t a (hl a List.mem_cons_self) (fun x hx => hl x (List.mem_cons_of_mem _ hx))
    refine ⟨h1, fun i hi => ?_⟩
    simp only [sum]
    rw [h2 i hi]; simp

/-- **C13 (saturation).** Adding a delta clamps each component to the range of `usize`. -/
theorem C13_add_delta_clamps (a : Nat) (d : Int) :
    addDelta [a] [d] = [(max 0 (min ((full : Int) - 1) ((a : Int) + d))).toNat] := by
  simp only [addDelta, List.zipWith_cons_cons, List.zipWith_nil_right, satAddSigned]
  have hf : full = 18446744073709551616 := rfl
  congr 1
  split
  · omega
  · split <;> omega

example : sum 2 [[1, 2], [3, 4], [5, 6]] = [9, 12] := by decide

/-! ## C09: incrementally tracked costs -/

/-- Pointwise specification of replacing a part of cost `p` inside a circuit of cost `c` by a part
of cost `t`. -/
def Replaces (c p t c' : List Nat) : Prop :=
  c.length = p.length ∧ c.length = t.length ∧ c.length = c'.length ∧
    ∀ i (hc : i < c.length) (hp : i < p.length) (ht : i < t.length) (hc' : i < c'.length),
      p[i] ≤ c[i] ∧ c'[i] + p[i] = c[i] + t[i]

theorem Replaces.addDelta_eq {c p t c' : List Nat} (h : Replaces c p t c')
    (hc' : ∀ x ∈ c', x < half) (hp : ∀ x ∈ p, x < half) (ht : ∀ x ∈ t, x < half) :
    addDelta c (subCost t p) = c' := by
  obtain ⟨h1, h2, h3, h4⟩ := h
  apply List.ext_getElem
  · simp [addDelta, subCost]; omega
  · intro i hi hi'
    have hi1 : i < c.length := by omega
    obtain ⟨a, b⟩ := h4 i hi1 (by omega) (by omega) hi'
    simp only [addDelta, subCost, List.getElem_zipWith]
    rw [asIsize_small (ht _ (List.getElem_mem (by omega))),
      asIsize_small (hp _ (List.getElem_mem (by omega)))]
    have hlt : c'[i] < full := lt_trans (hc' _ (List.getElem_mem hi')) (by decide)
    unfold satAddSigned
    have : (c[i] : Int) + ((t[i]'(by omega) : Int) - (p[i]'(by omega) : Int)) = (c'[i] : Int) := by
      omega
    rw [this]
    simp [hlt]

/-- A search chain: the real cost changes by replacing parts, the tracked cost is updated with
`cost.add_delta(cost_delta)` (`badger.rs` 152-162, `badger/worker.rs` 74), where each rewrite
reports the difference `target.sub_cost(pattern)` (`rewrite/strategy.rs`). -/
inductive Chain : (real tracked : List Nat) → (real' tracked' : List Nat) → Prop
  | nil (c k) : Chain c k c k
  | step {c k c1 p t c' k'} : Replaces c p t c1 → (∀ x ∈ c1, x < half) → (∀ x ∈ p, x < half) →
      (∀ x ∈ t, x < half) → Chain c1 (addDelta k (subCost t p)) c' k' → Chain c k c' k'

/-- **C09.** If the tracked cost starts as the real cost, it equals the real cost after any chain of
rewrites (all costs below `2^63`). -/
theorem C09_tracked_cost_is_real {c c' k' : List Nat} (h : Chain c c c' k') : k' = c' := by
  suffices ∀ {c k c' k'}, Chain c k c' k' → k = c → k' = c' from this h rfl
  intro c k c' k' h
  induction h with
  | nil c k => exact id
  | step hr h1 h2 h3 _ ih =>
    intro hk
    subst hk
    exact ih (hr.addDelta_eq h1 h2 h3)

/-- A chain of two replacements where the first one increases the minor cost. -/
example : Chain [4, 9] [4, 9] [3, 9] [3, 9] := by
  refine Chain.step (c1 := [3, 10]) (p := [2, 2]) (t := [1, 3]) ?_ (by decide) (by decide)
    (by decide) (Chain.step (c1 := [3, 9]) (p := [3, 5]) (t := [3, 4]) ?_ (by decide) (by decide)
      (by decide) (Chain.nil _ _))
  all_goals
    refine ⟨rfl, rfl, rfl, ?_⟩
    intro i hc hp ht hc'
    match i with
    | 0 => exact ⟨by simp, rfl⟩
    | 1 => exact ⟨by simp, rfl⟩
    | (n + 2) => simp at hc

/-! ## C14: dividing costs -/

/-- **C14.** For every component, `n` parts cover the cost, and a non-zero cost is exceeded by less
than `n`: `div_cost` rounds up. -/
theorem C14_div_cost_covers (n : Nat) (hn : 0 < n) (a : List Nat) :
    (divCost n a).length = a.length ∧
    ∀ i (h : i < a.length) (h' : i < (divCost n a).length),
      a[i] ≤ n * (divCost n a)[i] ∧ (0 < a[i] → n * (divCost n a)[i] < a[i] + n) := by
  refine ⟨by simp [divCost], ?_⟩
  intro i h h'
  simp only [divCost, List.getElem_map, divComp]
  generalize a[i] = x
  have h1 := Nat.div_add_mod (x - 1) n
  have h2 := Nat.mod_lt (x - 1) hn
  rw [Nat.mul_add, Nat.mul_one]
  constructor <;> omega

/-- **C14 (finding).** "Rounded up" is off for zero: a zero cost is divided into parts of cost 1. -/
theorem C14_zero_divides_to_one (n : Nat) (_hn : 0 < n) : divCost n [0] = [1] := by
  simp [divCost, divComp]

example : divCost 3 [10, 2] = [4, 1] := by decide

end Tket.Cost
