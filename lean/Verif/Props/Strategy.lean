import Verif.Model.Strategy
import Verif.Float.Lemmas
import Mathlib.Algebra.BigOperators.Group.List.Basic
import Mathlib.Algebra.Order.Group.Int
import Mathlib.Tactic.Common
import Mathlib.Data.List.TakeWhile
import Mathlib.Tactic.Linarith

/-! # Properties C15, C16, C54: rewrite strategies -/

namespace Tket.Strategy

open Tket.Cost

/-- Two node lists have a node in common. -/
def Overlap (a b : List Nat) : Prop := ∃ n, n ∈ a ∧ n ∈ b

theorem touches_iff {xs ch : List Nat} : touches xs ch = true ↔ Overlap xs ch := by
  simp [touches, Overlap]

/-- What the greedy loop returns on a list sorted by delta. -/
theorem greedyLoop_spec (l : List Rewrite) : ∀ (changed : List Nat) (δ : Int),
    (greedyLoop l changed δ).1.Sublist l ∧
    (greedyLoop l changed δ).2 = δ + ((greedyLoop l changed δ).1.map (·.nodeDelta)).sum ∧
    (greedyLoop l changed δ).1.Pairwise (fun a b => ¬ Overlap a.nodes b.nodes) ∧
    (∀ a ∈ (greedyLoop l changed δ).1, ¬ Overlap a.nodes changed) ∧
    (l.Pairwise (fun a b => a.nodeDelta ≤ b.nodeDelta) → ∀ r ∈ l,
      r ∈ (greedyLoop l changed δ).1 ∨ Overlap r.nodes changed ∨
      ∃ a ∈ (greedyLoop l changed δ).1, a.nodeDelta ≤ r.nodeDelta ∧ Overlap a.nodes r.nodes) := by
  induction l with
  | nil => intro changed δ; simp [greedyLoop]
  | cons rw rest ih =>
    intro changed δ
    unfold greedyLoop
    by_cases ht : touches rw.nodes changed = true
    · simp only [ht, if_true]
      obtain ⟨h1, h2, h3, h4, h5⟩ := ih changed δ
      refine ⟨h1.trans (List.sublist_cons_self _ _), h2, h3, h4, ?_⟩
      intro hs r hr
      rcases List.mem_cons.1 hr with rfl | hr
      · exact Or.inr (Or.inl (touches_iff.1 ht))
      · exact h5 (List.pairwise_cons.1 hs).2 r hr
    · simp only [ht]
      obtain ⟨h1, h2, h3, h4, h5⟩ := ih (rw.nodes ++ changed) (δ + rw.nodeDelta)
      refine ⟨h1.cons_cons _, ?_, ?_, ?_, ?_⟩
      · simp only [Bool.false_eq_true, if_false, List.map_cons, List.sum_cons]
        rw [h2]; omega
      · simp only [Bool.false_eq_true, if_false, List.pairwise_cons]
        refine ⟨?_, h3⟩
        intro a ha hov
        obtain ⟨n, hn1, hn2⟩ := hov
        exact h4 a ha ⟨n, hn2, List.mem_append_left _ hn1⟩
      · intro a ha
        simp only [Bool.false_eq_true, if_false] at ha
        rcases List.mem_cons.1 ha with rfl | ha
        · intro hov; exact ht (touches_iff.2 hov)
        · rintro ⟨n, hn1, hn2⟩
          exact h4 a ha ⟨n, hn1, List.mem_append_right _ hn2⟩
      · intro hs r hr
        simp only [Bool.false_eq_true, if_false]
        rcases List.mem_cons.1 hr with rfl | hr
        · exact Or.inl List.mem_cons_self
        · rcases h5 (List.pairwise_cons.1 hs).2 r hr with h | ⟨n, hn1, hn2⟩ | ⟨a, ha, hle, hov⟩
          · exact Or.inl (List.mem_cons_of_mem _ h)
          · rcases List.mem_append.1 hn2 with hn2 | hn2
            · exact Or.inr (Or.inr ⟨rw, List.mem_cons_self, (List.pairwise_cons.1 hs).1 r hr,
                n, hn2, hn1⟩)
            · exact Or.inr (Or.inl ⟨n, hn1, hn2⟩)
          · exact Or.inr (Or.inr ⟨a, List.mem_cons_of_mem _ ha, hle, hov⟩)

instance : Std.Total (fun a b : Rewrite => a.nodeDelta ≤ b.nodeDelta) := ⟨fun _ _ => le_total _ _⟩
instance : IsTrans Rewrite (fun a b => a.nodeDelta ≤ b.nodeDelta) := ⟨fun _ _ _ h h' => le_trans h h'⟩

/-- **C15.** The greedy strategy applies a set of the given rewrites such that: each applied one
strictly reduces the node count; no two touch a common node; every reducing rewrite that was not
applied overlaps an applied one that reduces at least as much; the reported delta is the sum of
the applied deltas, so it is negative as soon as some given rewrite reduces the node count. -/
theorem C15_greedy_strategy (rws : List Rewrite) :
    (∀ r ∈ (greedy rws).applied, r ∈ rws ∧ r.nodeDelta < 0) ∧
    (greedy rws).applied.Pairwise (fun a b => ¬ Overlap a.nodes b.nodes) ∧
    (∀ r ∈ rws, r.nodeDelta < 0 → r ∈ (greedy rws).applied ∨
      ∃ a ∈ (greedy rws).applied, a.nodeDelta ≤ r.nodeDelta ∧ Overlap a.nodes r.nodes) ∧
    (greedy rws).delta = ((greedy rws).applied.map (·.nodeDelta)).sum ∧
    ((∃ r ∈ rws, r.nodeDelta < 0) → (greedy rws).delta < 0) := by
  set s := rws.insertionSort (fun a b => a.nodeDelta ≤ b.nodeDelta) with hs
  set l := s.takeWhile (fun rw => decide (rw.nodeDelta < 0)) with hl
  have happ : (greedy rws).applied = (greedyLoop l [] 0).1 := rfl
  have hdel : (greedy rws).delta = (greedyLoop l [] 0).2 := rfl
  have hsorted : s.Pairwise (fun a b => a.nodeDelta ≤ b.nodeDelta) :=
    List.pairwise_insertionSort _ rws
  have hperm : s.Perm rws := List.perm_insertionSort _ rws
  have hlsub : l.Sublist s := List.takeWhile_sublist _
  have hlmem : ∀ r, r ∈ s → r.nodeDelta < 0 → r ∈ l := by
    have : ∀ (t : List Rewrite), t.Pairwise (fun a b => a.nodeDelta ≤ b.nodeDelta) →
        ∀ r ∈ t, r.nodeDelta < 0 → r ∈ t.takeWhile (fun rw => decide (rw.nodeDelta < 0)) := by
      intro t
      induction t with
      | nil => simp
      | cons a t ih =>
        intro hp r hr hneg
        rw [List.pairwise_cons] at hp
        have ha : a.nodeDelta < 0 := by
          rcases List.mem_cons.1 hr with rfl | hr
          · exact hneg
          · exact lt_of_le_of_lt (hp.1 r hr) hneg
        rw [List.takeWhile_cons]
        simp only [ha, decide_true, if_true]
        rcases List.mem_cons.1 hr with rfl | hr
        · exact List.mem_cons_self
        · exact List.mem_cons_of_mem _ (ih hp.2 r hr hneg)
    exact this s hsorted
  have hlneg : ∀ r ∈ l, r.nodeDelta < 0 := by
    intro r hr
    have := List.mem_takeWhile_imp hr
    simpa using this
  obtain ⟨h1, h2, h3, h4, h5⟩ := greedyLoop_spec l [] 0
  have hneg : ∀ r ∈ (greedy rws).applied, r ∈ rws ∧ r.nodeDelta < 0 := by
    intro r hr
    rw [happ] at hr
    have hrl := h1.subset hr
    exact ⟨hperm.mem_iff.1 (hlsub.subset hrl), hlneg r hrl⟩
  have hmax : ∀ r ∈ rws, r.nodeDelta < 0 → r ∈ (greedy rws).applied ∨
      ∃ a ∈ (greedy rws).applied, a.nodeDelta ≤ r.nodeDelta ∧ Overlap a.nodes r.nodes := by
    intro r hr hrn
    have hrl := hlmem r (hperm.mem_iff.2 hr) hrn
    rcases h5 (hsorted.sublist hlsub) r hrl with h | ⟨n, _, hn⟩ | h
    · exact Or.inl h
    · simp at hn
    · exact Or.inr h
  have hsum : (greedy rws).delta = ((greedy rws).applied.map (·.nodeDelta)).sum := by
    rw [hdel, happ, h2]; simp
  refine ⟨hneg, by rw [happ]; exact h3, hmax, hsum, ?_⟩
  rintro ⟨r, hr, hrn⟩
  have hne : ∃ a, a ∈ (greedy rws).applied := by
    rcases hmax r hr hrn with h | ⟨a, ha, _⟩
    · exact ⟨r, h⟩
    · exact ⟨a, ha⟩
  rw [hsum]
  have hall : ∀ a ∈ (greedy rws).applied, a.nodeDelta < 0 := fun a ha => (hneg a ha).2
  generalize (greedy rws).applied = as at hne hall
  clear * - hne hall
  induction as with
  | nil => obtain ⟨a, ha⟩ := hne; simp at ha
  | cons a t ih =>
    rw [List.map_cons, List.sum_cons]
    have ha := hall a List.mem_cons_self
    cases t with
    | nil => simpa using ha
    | cons b t =>
      have := ih ⟨b, List.mem_cons_self⟩ (fun x hx => hall x (List.mem_cons_of_mem _ hx))
      linarith

/-- The two overlapping rewrites are not applied together. -/
example : (greedy [⟨[1, 2], [1, 2], -1, [], []⟩, ⟨[2, 3, 4], [2, 3, 4], -2, [], []⟩,
    ⟨[5], [5], 0, [], []⟩, ⟨[6, 7], [6, 7], -1, [], []⟩]).applied.map (·.nodes) =
    [[2, 3, 4], [6, 7]] := by decide

/-! ## Exhaustive strategies -/

theorem add_length {a b : List Int} : (add a b).length = min a.length b.length := by simp [add]

/-- Component-wise sum of a list of cost deltas with `n` components. -/
def vecSum (n : Nat) : List (List Int) → List Int
  | [] => List.replicate n 0
  | d :: ds => add d (vecSum n ds)

theorem add_assoc' (a b c : List Int) : add (add a b) c = add a (add b c) := by
  induction a generalizing b c with
  | nil => simp [add]
  | cons x as ih =>
    cases b with
    | nil => simp [add]
    | cons y bs =>
      cases c with
      | nil => simp [add]
      | cons z cs =>
        have := ih bs cs
        simp only [add, List.zipWith_cons_cons] at this ⊢
        rw [this]; congr 1; omega

theorem add_replicate_zero (n : Nat) (a : List Int) (h : a.length ≤ n) :
    add a (List.replicate n 0) = a := by
  induction a generalizing n with
  | nil => simp [add]
  | cons x as ih =>
    cases n with
    | zero => simp at h
    | succ n =>
      have := ih n (by simpa using h)
      simp only [add, List.replicate_succ, List.zipWith_cons_cons] at this ⊢
      rw [this]; congr 1; omega

theorem replicate_zero_add (n : Nat) (a : List Int) (h : a.length ≤ n) :
    add (List.replicate n 0) a = a := by
  induction a generalizing n with
  | nil => simp [add]
  | cons x as ih =>
    cases n with
    | zero => simp at h
    | succ n =>
      have := ih n (by simpa using h)
      simp only [add, List.replicate_succ, List.zipWith_cons_cons] at this ⊢
      rw [this]; congr 1; omega

theorem exhLoop_spec (n : Nat) (l : List (Rewrite × List Int)) :
    ∀ (changed : List Nat) (δ : List Int), δ.length = n → (∀ x ∈ l, x.2.length = n) →
    ∃ used : List (Rewrite × List Int), used.Sublist l ∧
      (exhLoop l changed δ).1 = used.map Prod.fst ∧
      (exhLoop l changed δ).2 = add δ (vecSum n (used.map Prod.snd)) ∧
      used.Pairwise (fun a b => ¬ Overlap a.1.inval b.1.inval) ∧
      (∀ a ∈ used, ¬ Overlap a.1.inval changed) ∧
      (∀ x ∈ l, x ∈ used ∨ Overlap x.1.inval changed ∨
        ∃ a ∈ used, Overlap a.1.inval x.1.inval) := by
  induction l with
  | nil =>
    intro changed δ hδ _
    exact ⟨[], List.Sublist.refl _, rfl, by simp [exhLoop, vecSum, add_replicate_zero n δ (by omega)],
      List.Pairwise.nil, by simp, by simp⟩
  | cons x rest ih =>
    obtain ⟨rw, d⟩ := x
    intro changed δ hδ hl
    have hd : d.length = n := hl (rw, d) List.mem_cons_self
    have hrest : ∀ x ∈ rest, x.2.length = n := fun x hx => hl x (List.mem_cons_of_mem _ hx)
    unfold exhLoop
    by_cases ht : (!changed.isEmpty && touches rw.inval changed) = true
    · simp only [ht, if_true]
      obtain ⟨used, h1, h2, h3, h4, h5, h6⟩ := ih changed δ hδ hrest
      refine ⟨used, h1.trans (List.sublist_cons_self _ _), h2, h3, h4, h5, ?_⟩
      intro x hx
      rcases List.mem_cons.1 hx with rfl | hx
      · exact Or.inr (Or.inl (touches_iff.1 (by simp only [Bool.and_eq_true] at ht; exact ht.2)))
      · exact h6 x hx
    · simp only [ht]
      obtain ⟨used, h1, h2, h3, h4, h5, h6⟩ := ih (rw.inval ++ changed) (add δ d)
        (by rw [add_length]; omega) hrest
      refine ⟨(rw, d) :: used, h1.cons_cons _, ?_, ?_, ?_, ?_, ?_⟩
      · simp [h2]
      · simp only [Bool.false_eq_true, if_false, h3, List.map_cons, vecSum]
        rw [add_assoc']
      · rw [List.pairwise_cons]
        refine ⟨?_, h4⟩
        rintro a ha ⟨k, hk1, hk2⟩
        exact h5 a ha ⟨k, hk2, List.mem_append_left _ hk1⟩
      · intro a ha
        rcases List.mem_cons.1 ha with rfl | ha
        · rintro ⟨k, hk1, hk2⟩
          apply ht
          have hne : changed ≠ [] := by rintro rfl; simp at hk2
          simp only [Bool.and_eq_true, Bool.not_eq_eq_eq_not, Bool.not_true, List.isEmpty_eq_false_iff]
          exact ⟨hne, touches_iff.2 ⟨k, hk1, hk2⟩⟩
        · rintro ⟨k, hk1, hk2⟩
          exact h5 a ha ⟨k, hk1, List.mem_append_right _ hk2⟩
      · intro x hx
        rcases List.mem_cons.1 hx with rfl | hx
        · exact Or.inl List.mem_cons_self
        · rcases h6 x hx with h | ⟨k, hk1, hk2⟩ | ⟨a, ha, hov⟩
          · exact Or.inl (List.mem_cons_of_mem _ h)
          · rcases List.mem_append.1 hk2 with hk2 | hk2
            · exact Or.inr (Or.inr ⟨(rw, d), List.mem_cons_self, k, hk2, hk1⟩)
            · exact Or.inr (Or.inl ⟨k, hk1, hk2⟩)
          · exact Or.inr (Or.inr ⟨a, List.mem_cons_of_mem _ ha, hov⟩)

theorem major_vecSum_nonpos (n : Nat) (ds : List (List Int)) (hl : ∀ d ∈ ds, d.length = n)
    (h : ∀ d ∈ ds, major d ≤ 0) : major (vecSum n ds) ≤ 0 := by
  induction ds with
  | nil => cases n <;> simp [vecSum, major, List.replicate_succ]
  | cons d ds ih =>
    have h1 := h d List.mem_cons_self
    have h2 := ih (fun x hx => hl x (List.mem_cons_of_mem _ hx))
      (fun x hx => h x (List.mem_cons_of_mem _ hx))
    simp only [vecSum]
    cases d with
    | nil => simp [add, major]
    | cons x xs =>
      cases hv : vecSum n ds with
      | nil => simp [add, major]
      | cons y ys =>
        rw [hv] at h2
        simp only [add, major, List.zipWith_cons_cons] at h1 h2 ⊢
        linarith

theorem leCost_total (a b : List Int) : leCost a b = true ∨ leCost b a = true := by
  induction a generalizing b with
  | nil => cases b <;> simp [leCost, Cost.cmp]
  | cons x as ih =>
    cases b with
    | nil => simp [leCost, Cost.cmp]
    | cons y bs =>
      have := ih bs
      simp only [leCost, Cost.cmp] at this ⊢
      rcases lt_trichotomy x y with h | h | h
      · simp [h]
      · subst h; simpa using this
      · simp [h]

theorem leCost_trans (a b c : List Int) (h1 : leCost a b = true) (h2 : leCost b c = true) :
    leCost a c = true := by
  induction a generalizing b c with
  | nil => cases c <;> simp [leCost, Cost.cmp]
  | cons x as ih =>
    cases b with
    | nil => simp [leCost, Cost.cmp] at h1
    | cons y bs =>
      cases c with
      | nil => simp [leCost, Cost.cmp] at h2
      | cons z cs =>
        have := ih bs cs
        simp only [leCost, Cost.cmp] at this h1 h2 ⊢
        rcases lt_trichotomy x y with h | h | h
        · rcases lt_trichotomy y z with h' | h' | h'
          · simp [lt_trans h h']
          · subst h'; simp [h]
          · simp [h', not_lt_of_gt h'] at h2
        · subst h
          rcases lt_trichotomy x z with h' | h' | h'
          · simp [h']
          · subst h'; simp at h1 h2 ⊢; simpa using this (by simpa using h1) (by simpa using h2)
          · simp [h', not_lt_of_gt h'] at h2
        · simp [h, not_lt_of_gt h] at h1

theorem leCost_of_lt {a b : List Int} (h : Cost.cmp a b = .lt) : leCost b a = false := by
  induction a generalizing b with
  | nil => cases b <;> simp_all [leCost, Cost.cmp]
  | cons x as ih =>
    cases b with
    | nil => simp [Cost.cmp] at h
    | cons y bs =>
      simp only [leCost, Cost.cmp] at h ih ⊢
      rcases lt_trichotomy x y with h' | h' | h'
      · simp [h', not_lt_of_gt h']
      · subst h'; simp at h ⊢; simpa using ih h
      · simp [h', not_lt_of_gt h'] at h

instance : Std.Total (fun a b : Rewrite × List Int => leCost a.2 b.2 = true) :=
  ⟨fun _ _ => leCost_total _ _⟩
instance : IsTrans (Rewrite × List Int) (fun a b => leCost a.2 b.2 = true) :=
  ⟨fun _ _ _ h h' => leCost_trans _ _ _ h h'⟩

/-- The rewrites the threshold lets through (specification). -/
def Allowed (r : Rewrite) : Prop := major (subCost r.post r.pre) ≤ 0

theorem mem_candidates {rws : List Rewrite} {x : Rewrite × List Int} :
    x ∈ candidates rws ↔ x.1 ∈ rws ∧ Allowed x.1 ∧ x.2 = subCost x.1.post x.1.pre := by
  unfold candidates
  rw [List.mem_insertionSort]
  simp only [List.mem_filterMap, underThreshold]
  constructor
  · rintro ⟨r, hr, h⟩
    by_cases hh : major (subCost r.post r.pre) ≤ 0
    · simp only [hh, decide_true, Bool.not_true, Bool.false_eq_true, if_false,
        Option.some.injEq] at h
      subst h
      exact ⟨hr, hh, rfl⟩
    · simp [hh] at h
  · rintro ⟨h1, h2, h3⟩
    refine ⟨x.1, h1, ?_⟩
    have hh : major (subCost x.1.post x.1.pre) ≤ 0 := h2
    simp only [hh, decide_true, Bool.not_true, Bool.false_eq_true, if_false]
    rw [← h3]

theorem candidates_perm (rws : List Rewrite) :
    ((candidates rws).map Prod.fst).Perm
      (rws.filter (fun r => decide (major (subCost r.post r.pre) ≤ 0))) := by
  unfold candidates
  refine (List.Perm.map Prod.fst (List.perm_insertionSort _ _)).trans ?_
  apply List.Perm.of_eq
  induction rws with
  | nil => rfl
  | cons r rs ih =>
    simp only [List.filterMap_cons, List.filter_cons, underThreshold] at ih ⊢
    by_cases h : major (subCost r.post r.pre) ≤ 0
    · simp [h]; simpa using ih
    · simp [h]; simpa using ih

/-- **C16 (exhaustive greedy).** There is one result per allowed rewrite. Each result applies a
non-empty list of given, allowed rewrites, starting with its own candidate, with pairwise disjoint
invalidation sets; its delta is the component-wise sum of the applied deltas and its major
component is not positive. The choice is maximal: every allowed rewrite with a larger delta than the
result's own candidate is applied too, unless it overlaps an applied one. -/
theorem C16_exhaustive_greedy (n : Nat) (rws : List Rewrite)
    (hn : ∀ r ∈ rws, r.pre.length = n ∧ r.post.length = n) :
    (((exhaustiveGreedy n rws).map (fun r => r.applied.head?)).Perm
      ((rws.filter (fun r => decide (major (subCost r.post r.pre) ≤ 0))).map some)) ∧
    ∀ res ∈ exhaustiveGreedy n rws,
      (∀ r ∈ res.applied, r ∈ rws ∧ Allowed r) ∧
      res.applied.Pairwise (fun a b => ¬ Overlap a.inval b.inval) ∧
      res.delta = vecSum n (res.applied.map (fun r => subCost r.post r.pre)) ∧
      major res.delta ≤ 0 ∧
      ∃ r₀ rest, res.applied = r₀ :: rest ∧ ∀ r ∈ rws, Allowed r →
        Cost.cmp (subCost r₀.post r₀.pre) (subCost r.post r.pre) = .lt →
        r ∈ res.applied ∨ ∃ a ∈ res.applied, Overlap a.inval r.inval := by
  have hlen : ∀ x ∈ candidates rws, x.2.length = n := by
    intro x hx
    obtain ⟨h1, _, h3⟩ := mem_candidates.1 hx
    obtain ⟨h4, h5⟩ := hn x.1 h1
    rw [h3]; simp [subCost, h4, h5]
  constructor
  · -- the head of the i-th result is the i-th candidate
    have hhead : (exhaustiveGreedy n rws).map (fun r => r.applied.head?) =
        ((candidates rws).map Prod.fst).map some := by
      unfold exhaustiveGreedy
      apply List.ext_getElem
      · simp
      · intro i h1 h2
        have hi : i < (candidates rws).length := by simpa using h2
        simp only [List.getElem_map, List.getElem_range]
        rw [List.drop_eq_getElem_cons hi]
        rcases hx : (candidates rws)[i] with ⟨rw, d⟩
        simp [exhLoop]
    rw [hhead]
    exact (candidates_perm rws).map some
  · intro res hres
    unfold exhaustiveGreedy at hres
    simp only [List.mem_map, List.mem_range] at hres
    obtain ⟨i, hi, rfl⟩ := hres
    have hdl : ∀ x ∈ (candidates rws).drop i, x.2.length = n :=
      fun x hx => hlen x (List.mem_of_mem_drop hx)
    obtain ⟨used, h1, h2, h3, h4, h5, h6⟩ := exhLoop_spec n ((candidates rws).drop i) []
      (List.replicate n 0) (by simp) hdl
    have hmem : ∀ x ∈ used, x ∈ candidates rws := fun x hx => List.mem_of_mem_drop (h1.subset hx)
    have hsnd : used.map Prod.snd = (used.map Prod.fst).map (fun r => subCost r.post r.pre) := by
      rw [List.map_map]
      apply List.map_congr_left
      intro x hx
      exact (mem_candidates.1 (hmem x hx)).2.2
    have hvl : (vecSum n (used.map Prod.snd)).length ≤ n := by
      have : ∀ ds : List (List Int), (vecSum n ds).length ≤ n := by
        intro ds
        induction ds with
        | nil => simp [vecSum]
        | cons d ds ih => simp only [vecSum, add_length]; omega
      exact this _
    have hdelta : (exhLoop ((candidates rws).drop i) [] (List.replicate n 0)).2 =
        vecSum n (used.map Prod.snd) := by
      rw [h3, replicate_zero_add n _ hvl]
    refine ⟨?_, ?_, ?_, ?_, ?_⟩
    · intro r hr
      simp only [h2, List.mem_map] at hr
      obtain ⟨x, hx, rfl⟩ := hr
      obtain ⟨a, b, _⟩ := mem_candidates.1 (hmem x hx)
      exact ⟨a, b⟩
    · simp only [h2]
      rw [List.pairwise_map]
      exact h4
    · simp only [hdelta, h2, hsnd]
    · simp only [hdelta]
      refine major_vecSum_nonpos n _ ?_ ?_
      · intro d hd
        obtain ⟨x, hx, rfl⟩ := List.mem_map.1 hd
        exact hlen x (hmem x hx)
      · intro d hd
        obtain ⟨x, hx, rfl⟩ := List.mem_map.1 hd
        obtain ⟨_, b, c⟩ := mem_candidates.1 (hmem x hx)
        rw [c]; exact b
    · have hsorted : (candidates rws).Pairwise (fun a b => leCost a.2 b.2 = true) :=
        List.pairwise_insertionSort _ _
      have hhd : ∃ us, used.map Prod.fst = ((candidates rws)[i]).1 :: us := by
        rw [← h2, List.drop_eq_getElem_cons hi]
        rcases hx : (candidates rws)[i] with ⟨rw, d⟩
        simp [exhLoop]
      obtain ⟨us, hus⟩ := hhd
      refine ⟨((candidates rws)[i]).1, us, by simp only [h2, hus], ?_⟩
      intro r hr hal hlt
      have hrc : (r, subCost r.post r.pre) ∈ candidates rws := mem_candidates.2 ⟨hr, hal, rfl⟩
      have hdrop : (r, subCost r.post r.pre) ∈ (candidates rws).drop i := by
        obtain ⟨j, hj, hje⟩ := List.getElem_of_mem hrc
        by_cases hij : i ≤ j
        · rw [List.mem_drop_iff_getElem]
          exact ⟨j - i, by omega, by rw [← hje]; congr 1; omega⟩
        · exfalso
          have hle := List.pairwise_iff_getElem.1 hsorted j i hj hi (by omega)
          rw [hje, (mem_candidates.1 (List.getElem_mem hi)).2.2] at hle
          simp only [leCost_of_lt hlt] at hle
          exact absurd hle (by simp)
      simp only [h2]
      rcases h6 _ hdrop with h | ⟨k, _, hk⟩ | ⟨a, ha, hov⟩
      · exact Or.inl (List.mem_map.2 ⟨_, h, rfl⟩)
      · simp at hk
      · exact Or.inr ⟨a.1, List.mem_map.2 ⟨_, ha, rfl⟩, hov⟩

/-- **C16 (threshold).** The threshold strategy emits, in order, exactly one result for each
rewrite allowed by the threshold, applying just that rewrite. -/
theorem C16_exhaustive_threshold (under : List Nat → List Nat → Bool) (rws : List Rewrite) :
    exhaustiveThreshold under rws =
      (rws.filter (fun r => under r.pre r.post)).map
        (fun r => ⟨[r], subCost r.post r.pre⟩) := by
  induction rws with
  | nil => rfl
  | cons r rs ih =>
    unfold exhaustiveThreshold at ih ⊢
    rw [List.filterMap_cons, List.filter_cons]
    by_cases h : under r.pre r.post = true
    · simp only [h, Bool.not_true, Bool.false_eq_true, if_false, if_true, List.map_cons]
      rw [← ih]
    · simp only [h, Bool.not_false, if_true, Bool.false_eq_true, if_false]
      exact ih

/-- Hypotheses of C16 on a concrete set of rewrites: the third one is not allowed, and the two
overlapping allowed ones are never applied together. -/
example :
    let rws : List Rewrite := [⟨[1, 2], [1, 2], 0, [2, 2], [1, 5]⟩, ⟨[2, 3], [2, 3], 0, [1, 3], [1, 1]⟩,
      ⟨[4], [4], 0, [0, 1], [1, 0]⟩, ⟨[5, 6], [5, 6], 0, [2, 2], [2, 0]⟩]
    (∀ r ∈ rws, r.pre.length = 2 ∧ r.post.length = 2) ∧
    (exhaustiveGreedy 2 rws).map (fun r => (r.applied.map (·.nodes), r.delta)) =
      [([[1, 2], [5, 6]], [-1, 1]), ([[2, 3], [5, 6]], [0, -4]), ([[5, 6]], [0, -2])] := by
  decide

/-! ### C54: the gamma strategy -/

section Gamma

open Tket.Dbl

/-- The default gamma is the number nearest to `1.0001`. -/
theorem C54_default_gamma : defaultGamma = mk false (10001 * unit) 10000 := by decide +kernel

/-- The default gamma as a multiple of `2 ^ -1074`. -/
@[irreducible] def gm : Nat := 0x100068db8bac71 * 2 ^ 1022

theorem defaultGamma_eq : defaultGamma = .fin false gm := by decide +kernel

theorem gm_gt : unit < gm := by decide +kernel

theorem gm_lt : gm * 9999 < 10000 * unit := by decide +kernel

theorem gm_lt' : gm * 3 ≤ 4 * unit := by decide +kernel

theorem under_fin {m p t : Nat} (hp : p < 2 ^ 64) (ht : t < 2 ^ 64) :
    gammaUnder (.fin false m) p t = true ↔
      rnd (t * unit) 1 < rnd (m * rnd (p * unit) 1) unit := by
  unfold gammaUnder
  rw [ofNat_eq ht, ofNat_eq hp]
  simp only [mul, bne_self_eq_false]
  unfold mk
  by_cases h : rnd (m * rnd (p * unit) 1) unit < top
  · rw [if_pos h]
    simp [lt, sval]
  · rw [if_neg h]
    have := rnd_int_lt_top ht
    refine iff_of_true rfl ?_
    omega

/-- Costs are compared as documented: an allowed rewrite has a cost below gamma times the cost of the
pattern, for all costs up to `2 ^ 53` and every finite positive gamma. A rewrite with such a cost is
rejected only if the product is rounded to that cost. -/
theorem C54_documented (m p t : Nat) (hp : p ≤ 2 ^ 53) (ht : t ≤ 2 ^ 53) :
    (gammaUnder (.fin false m) p t = true → t * unit < m * p) ∧
    (t * unit < m * p → gammaUnder (.fin false m) p t = false →
      mul (.fin false m) (ofNat p) = ofNat t) := by
  have ep : rnd (p * unit) 1 = p * unit := by
    have h1 := ofNat_small hp
    rw [ofNat_eq (show p < 2 ^ 64 by omega)] at h1
    injection h1
  have et : rnd (t * unit) 1 = t * unit := by
    have h1 := ofNat_small ht
    rw [ofNat_eq (show t < 2 ^ 64 by omega)] at h1
    injection h1
  have eq := under_fin (m := m) (show p < 2 ^ 64 by omega) (show t < 2 ^ 64 by omega)
  rw [ep, et] at eq
  have ext : rnd (t * unit * unit) unit = t * unit := rnd_exact unit_pos (dvd_unit ht)
  constructor
  · intro h
    refine Nat.lt_of_not_le (fun hle => ?_)
    have h1 := eq.1 h
    have h2 : rnd (m * (p * unit)) unit ≤ rnd (t * unit * unit) unit := by
      refine rnd_mono unit_pos unit_pos (Nat.mul_le_mul_right _ ?_)
      calc m * (p * unit) = m * p * unit := by ring
        _ ≤ _ := Nat.mul_le_mul_right _ hle
    rw [ext] at h2
    omega
  · intro h hno
    have h2 : rnd (t * unit * unit) unit ≤ rnd (m * (p * unit)) unit := by
      refine rnd_mono unit_pos unit_pos (Nat.mul_le_mul_right _ ?_)
      calc t * unit * unit ≤ m * p * unit := Nat.mul_le_mul_right _ (Nat.le_of_lt h)
        _ = m * (p * unit) := by ring
    rw [ext] at h2
    have h3 : ¬ t * unit < rnd (m * (p * unit)) unit := fun hx => by
      rw [eq.2 hx] at hno
      cases hno
    have h4 : rnd (m * (p * unit)) unit = t * unit := by omega
    rw [ofNat_small hp, ofNat_small ht]
    simp only [mul, bne_self_eq_false]
    unfold mk
    rw [h4, if_pos]
    have := rnd_int_lt_top (show t < 2 ^ 64 by omega)
    rwa [et] at this

theorem inf_under {s : Bool} {a b x y : Nat} (hm : a ≤ b)
    (h : lt (.fin false x) (mul (.inf s) (.fin false a)) = true) :
    lt (.fin false y) (mul (.inf s) (.fin false b)) = true := by
  simp only [mul] at h ⊢
  by_cases h0 : a = 0
  · rw [if_pos h0] at h
    simp [lt] at h
  · have h1 : ¬ b = 0 := by omega
    rw [if_neg h0] at h
    rw [if_neg h1]
    exact h

/-- What is allowed stays allowed for cheaper replacements and costlier patterns. -/
theorem C54_monotone (g : F64) (p t p' t' : Nat) (hp : p ≤ p') (ht : t' ≤ t) (hp' : p' < 2 ^ 64)
    (ht' : t < 2 ^ 64) (h : gammaUnder g p t = true) : gammaUnder g p' t' = true := by
  cases g with
  | nan =>
    unfold gammaUnder at h
    rw [ofNat_eq ht'] at h
    simp [mul, lt] at h
  | inf s =>
    unfold gammaUnder at h ⊢
    rw [ofNat_eq ht', ofNat_eq (show p < 2 ^ 64 by omega)] at h
    rw [ofNat_eq (show t' < 2 ^ 64 by omega), ofNat_eq hp']
    have hm : rnd (p * unit) 1 ≤ rnd (p' * unit) 1 :=
      rnd_mono (by omega) (by omega) (Nat.mul_le_mul_right _ (Nat.mul_le_mul_right _ hp))
    exact inf_under hm h
  | fin s m =>
    cases s with
    | true =>
      exfalso
      unfold gammaUnder at h
      rw [ofNat_eq ht', ofNat_eq (show p < 2 ^ 64 by omega)] at h
      simp only [mul] at h
      unfold mk at h
      by_cases hc : rnd (m * rnd (p * unit) 1) unit < top
      · rw [if_pos hc] at h
        simp [lt, sval] at h
        omega
      · rw [if_neg hc] at h
        simp [lt] at h
    | false =>
      rw [under_fin (by omega) (by omega)] at h ⊢
      have h1 : rnd (t' * unit) 1 ≤ rnd (t * unit) 1 :=
        rnd_mono (by omega) (by omega) (Nat.mul_le_mul_right _ (Nat.mul_le_mul_right _ ht))
      have h2 : rnd (p * unit) 1 ≤ rnd (p' * unit) 1 :=
        rnd_mono (by omega) (by omega) (Nat.mul_le_mul_right _ (Nat.mul_le_mul_right _ hp))
      have h3 : rnd (m * rnd (p * unit) 1) unit ≤ rnd (m * rnd (p' * unit) 1) unit :=
        rnd_mono unit_pos unit_pos (Nat.mul_le_mul_right _ (Nat.mul_le_mul_left _ h2))
      omega

/-- **C54 (partial).** With the default gamma, for patterns of cost between 1 and 10000, exactly the
rewrites that do not increase the cost are allowed. -/
theorem C54_gamma_threshold_partial (p t : Nat) (h1 : 1 ≤ p) (h2 : p ≤ 10000) (ht : t < 2 ^ 64) :
    gammaUnder defaultGamma p t = true ↔ t ≤ p := by
  have up : gammaUnder defaultGamma p p = true := by
    refine Classical.byContradiction (fun hno => ?_)
    have hno := Bool.eq_false_iff.2 hno
    rw [defaultGamma_eq] at hno
    have hlt : p * unit < gm * p := by
      rw [Nat.mul_comm gm]
      exact Nat.mul_lt_mul_of_pos_left gm_gt (by omega)
    have h := (C54_documented gm p p (by omega) (by omega)).2 hlt hno
    -- the product is not rounded to `p`
    rw [ofNat_small (show p ≤ 2 ^ 53 by omega)] at h
    simp only [mul, bne_self_eq_false] at h
    unfold mk at h
    split at h
    · injection h with _ h
      have hle := le_rnd (n := gm * (p * unit)) (d := unit) unit_pos
      rw [h] at hle
      have e : gm * (p * unit) = gm * p * unit := by ring
      rw [e] at hle
      have hle' : 2 ^ 53 * (gm * p) ≤ 2 ^ 53 * (p * unit) + gm * p + 2 ^ 52 := by
        refine Nat.le_of_mul_le_mul_right (c := unit) ?_ unit_pos
        calc 2 ^ 53 * (gm * p) * unit = 2 ^ 53 * (gm * p * unit) := by ring
          _ ≤ _ := hle
          _ = _ := by ring
      have hp : (2 ^ 53 * gm) * p ≤ (2 ^ 53 * unit + gm + 2 ^ 52) * p := by
        calc (2 ^ 53 * gm) * p = 2 ^ 53 * (gm * p) := by ring
          _ ≤ 2 ^ 53 * (p * unit) + gm * p + 2 ^ 52 := hle'
          _ ≤ 2 ^ 53 * (p * unit) + gm * p + 2 ^ 52 * p := by omega
          _ = _ := by ring
      have := Nat.le_of_mul_le_mul_right hp h1
      exact absurd this (by decide +kernel)
    · cases h
  have down : gammaUnder defaultGamma p (p + 1) = false := by
    by_cases hp : p = 10000
    · subst hp
      decide +kernel
    · refine Bool.eq_false_iff.2 (fun h => ?_)
      rw [defaultGamma_eq] at h
      have h' := (C54_documented gm p (p + 1) (by omega) (by omega)).1 h
      have g1 := gm_lt
      have g2 : (gm - unit) * p ≤ (gm - unit) * 9999 := Nat.mul_le_mul_left _ (by omega)
      have g3 := gm_gt
      rw [Nat.sub_mul, Nat.sub_mul] at g2
      have g4 : unit * p ≤ gm * p := Nat.mul_le_mul_right _ (Nat.le_of_lt g3)
      have g5 : unit * 9999 ≤ gm * 9999 := Nat.mul_le_mul_right _ (Nat.le_of_lt g3)
      have g6 : (p + 1) * unit = unit * p + unit := by ring
      omega
  constructor
  · intro h
    refine Nat.le_of_not_lt (fun hlt => ?_)
    rw [C54_monotone _ p t p (p + 1) (Nat.le_refl _) hlt (by omega) ht h] at down
    cases down
  · intro h
    exact C54_monotone _ p p p t (Nat.le_refl _) h (by omega) (by omega) up

/-- **C54 (finding).** Patterns of cost zero are never rewritten, even if the replacement has cost
zero too, and for costs above 10000 the cost may increase. -/
theorem C54_gamma_threshold_fails :
    (∀ t, t < 2 ^ 64 → gammaUnder defaultGamma 0 t = false) ∧
    ∃ p t, t > p ∧ gammaUnder defaultGamma p t = true := by
  refine ⟨?_, 10001, 10002, by decide, by decide +kernel⟩
  intro t ht
  have : mul defaultGamma (ofNat 0) = .fin false 0 := by decide +kernel
  unfold gammaUnder
  rw [this, ofNat_eq ht]
  simp [lt, sval]

/-- The hypotheses of the partial theorem are met, on both sides. -/
example : gammaUnder defaultGamma 10000 10000 = true ∧ gammaUnder defaultGamma 10000 10001 = false ∧
    gammaUnder (ofBits 0x4024000000000000) 3 29 = true := by
  decide +kernel

end Gamma

end Tket.Strategy
