import Verif.Lemmas.EccRun
import Verif.Props.Amplitude
import Mathlib.Algebra.Star.BigOperators
import Mathlib.Data.Fin.Tuple.Basic

/-
Circuits of isometries: outputs do not depend on inputs from which no path leads to them.
-/
namespace Verif.Matching

open Relation
open scoped BigOperators

variable {D R : Type} [Fintype D] [DecidableEq D] [CommSemiring R]

/-- New values for the outputs of a node. -/
def setOuts (v : Nat × Nat → D) (n k : Nat) (g : Fin k → D) (q : Nat × Nat) : D :=
  if h : q.1 = n ∧ q.2 < k then g ⟨q.2, h.2⟩ else v q

omit [Fintype D] [DecidableEq D] in
theorem setOuts_ne {v : Nat × Nat → D} {n k : Nat} {g : Fin k → D} {q : Nat × Nat} (h : q.1 ≠ n) :
    setOuts v n k g q = v q := by
  rw [setOuts, dif_neg (fun g => h g.1)]

omit [Fintype D] [DecidableEq D] in
theorem setOuts_at {v : Nat × Nat → D} {n k : Nat} {g : Fin k → D} (p : Fin k) :
    setOuts v n k g (n, p) = g p := by
  rw [setOuts, dif_pos ⟨rfl, p.2⟩]

omit [DecidableEq D] in
theorem sumOver_outs (n : Nat) (F : (Nat × Nat → D) → R) : ∀ (k : Nat) (v : Nat × Nat → D),
    sumOver ((List.range k).map fun p => (n, p)) F v = ∑ g : Fin k → D, F (setOuts v n k g) := by
  intro k
  induction k generalizing F with
  | zero =>
    intro v
    rw [List.range_zero, List.map_nil, sumOver, Fintype.sum_unique]
    congr 1
    funext q
    rw [setOuts, dif_neg (by omega)]
  | succ k ih =>
    intro v
    rw [List.range_succ, List.map_append, sumOver_append, ih, ← (Fin.snocEquiv fun _ => D).sum_comp,
      Fintype.sum_prod_type, Finset.sum_comm]
    refine Finset.sum_congr rfl fun g _ => ?_
    simp only [List.map_cons, List.map_nil, sumOver]
    refine Finset.sum_congr rfl fun d _ => ?_
    congr 1
    funext q
    rw [Function.update_apply]
    simp only [setOuts, Fin.snocEquiv]
    by_cases hq : q = (n, k)
    · subst hq
      simp [Fin.snoc]
    · rw [if_neg hq]
      by_cases h1 : q.1 = n ∧ q.2 < k
      · rw [dif_pos h1, dif_pos ⟨h1.1, by omega⟩]
        simp [Fin.snoc, h1.2]
      · rw [dif_neg h1, dif_neg]
        rintro ⟨h2, h3⟩
        have : q.2 = k := by
          by_contra hne
          exact h1 ⟨h2, by omega⟩
        exact hq (Prod.ext h2 this)

/-- One operation. -/
theorem run_cons (A : Weights D R) {c : Circ} {y : List D} {n : Nat} {l : List Nat} {v : Nat × Nat → D}
    (hn : ∀ s ∈ c.ins n, s.1 ≠ n) : run A c y (n :: l) v = ∑ g : Fin (A.arity (c.op n)) → D,
      A.weight (c.op n) (c.content n) ((c.ins n).map v) (List.ofFn g) *
        run A c y l (setOuts v n (A.arity (c.op n)) g) := by
  rw [run, sumOver_outs]
  refine Finset.sum_congr rfl fun g _ => ?_
  rw [entryAt]
  congr 2
  · refine List.map_congr_left fun s hs => setOuts_ne (hn s hs)
  · apply List.ext_getElem
    · simp
    · intro i h1 h2
      simp only [List.length_map, List.length_range] at h1
      simp only [List.getElem_map, List.getElem_range, List.getElem_ofFn]
      exact setOuts_at (⟨i, h1⟩ : Fin _)

variable [StarRing R]

open Classical in
/-- Inner products of results, for some of the outputs. -/
noncomputable def overlap (A : Weights D R) (c : Circ) (Φ : List D → Prop) (l : List Nat) (v v' : Nat × Nat → D) : R :=
  ∑ y : Fin (c.ins c.out).length → D,
    if Φ (List.ofFn y) then star (run A c (List.ofFn y) l v) * run A c (List.ofFn y) l v' else 0

theorem overlap_cons {A : Weights D R} {c : Circ} {Φ : List D → Prop} {n : Nat} {l : List Nat} {v v' : Nat × Nat → D}
    (hn : ∀ s ∈ c.ins n, s.1 ≠ n) : overlap A c Φ (n :: l) v v' =
      ∑ g : Fin (A.arity (c.op n)) → D, ∑ g' : Fin (A.arity (c.op n)) → D,
        star (A.weight (c.op n) (c.content n) ((c.ins n).map v) (List.ofFn g)) *
        A.weight (c.op n) (c.content n) ((c.ins n).map v') (List.ofFn g') *
        overlap A c Φ l (setOuts v n (A.arity (c.op n)) g) (setOuts v' n (A.arity (c.op n)) g') := by
  classical
  simp only [overlap, Finset.mul_sum]
  rw [Finset.sum_congr rfl fun g _ => Finset.sum_comm]
  rw [Finset.sum_comm]
  refine Finset.sum_congr rfl fun y _ => ?_
  split_ifs with hy
  · rw [run_cons A hn, run_cons A hn, star_sum, Finset.sum_mul]
    refine Finset.sum_congr rfl fun g _ => ?_
    rw [Finset.mul_sum]
    refine Finset.sum_congr rfl fun g' _ => ?_
    rw [star_mul']
    ring
  · simp

/-- Ports that the rest of a circuit reads. -/
def Live (c : Circ) (l : List Nat) (s : Nat × Nat) : Prop :=
  (∃ m, (m ∈ l ∨ m = c.out) ∧ s ∈ c.ins m) ∧ s.1 ∉ l

/-- The rest of a circuit, in a possible order. -/
inductive Tail (lin : Nat → Prop) (A : Weights D R) (c : TCirc) : List Nat → Prop
  | nil : Tail lin A c []
  | cons {n : Nat} {l : List Nat} (hn : n ∈ c.members) (hl : n ∉ l)
      (hio : n ≠ c.inp ∧ n ≠ c.out) (hiso : ParamOp A (c.op n) (c.content n) fun p => lin (c.ty n p))
      (used : ∀ p < A.arity (c.op n), ∃ m, (m ∈ l ∨ m = c.out) ∧ (n, p) ∈ c.ins m)
      (reads : ∀ s ∈ c.ins n, s.1 ≠ n ∧ s.1 ∉ l) (h : Tail lin A c l) : Tail lin A c (n :: l)

theorem Tail.members {lin : Nat → Prop} {A : Weights D R} {c : TCirc} {l : List Nat} (h : Tail lin A c l) {n : Nat} (hn : n ∈ l) : n ∈ c.members := by
  induction h with
  | nil => simp at hn
  | cons h1 _ _ _ _ _ _ ih =>
    rcases List.mem_cons.mp hn with rfl | h
    · exact h1
    · exact ih h

/-- Values with the same parameters. -/
def SameLive (lin : Nat → Prop) (c : TCirc) (l : List Nat) (v v' : Nat × Nat → D) : Prop :=
  ∀ s, Live c.toCirc l s → ¬ lin (c.ty s.1 s.2) → v s = v' s

omit [Fintype D] [DecidableEq D] [CommSemiring R] [StarRing R] in
theorem SameLive.params {lin : Nat → Prop} {c : TCirc} (ht : Typed lin c) {n : Nat} {l : List Nat}
    {v v' : Nat × Nat → D} (h : SameLive lin c (n :: l) v v') (hn : n ∈ c.members)
    (reads : ∀ s ∈ c.ins n, s.1 ≠ n ∧ s.1 ∉ l) : SameParams (c.op n) ((c.ins n).map v) ((c.ins n).map v') := by
  intro k hk
  rw [List.getElem?_map, List.getElem?_map]
  cases hs : (c.ins n)[k]? with
  | none => rfl
  | some s =>
    have hs' := List.mem_of_getElem? hs
    rw [Option.map_some, Option.map_some, h s ⟨⟨n, .inl (by simp), hs'⟩, by
      rw [List.mem_cons, not_or]; exact reads s hs'⟩ fun g => hk ((ht n hn k s hs).mpr g)]

omit [Fintype D] [DecidableEq D] [CommSemiring R] [StarRing R] in
/-- After an operation. -/
theorem SameLive.next {lin : Nat → Prop} {c : TCirc} {n k : Nat} {l : List Nat} {v v' : Nat × Nat → D}
    (h : SameLive lin c (n :: l) v v') {g g' : Fin k → D} (hg : ∀ p : Fin k, ¬ lin (c.ty n p) → g p = g' p)
    (hr : ∀ s, Live c.toCirc l s → s.1 = n → s.2 < k) :
    SameLive lin c l (setOuts v n k g) (setOuts v' n k g') := by
  intro s hs hl
  by_cases hne : s.1 = n
  · have hlt := hr s hs hne
    simp only [setOuts]
    rw [dif_pos ⟨hne, hlt⟩, dif_pos ⟨hne, hlt⟩]
    exact hg ⟨s.2, hlt⟩ (by rw [← hne]; exact hl)
  · rw [setOuts_ne hne, setOuts_ne hne]
    refine h s ⟨?_, ?_⟩ hl
    · obtain ⟨⟨m, hm, hsm⟩, _⟩ := hs
      exact ⟨m, hm.imp_left fun h => by simp [h], hsm⟩
    · rw [List.mem_cons, not_or]
      exact ⟨hne, hs.2⟩

theorem ofFn_eq_map {c : Circ} {v : Nat × Nat → D} (y : Fin (c.ins c.out).length → D) :
    (c.ins c.out).map v = List.ofFn y ↔ y = fun i => v ((c.ins c.out)[i]) := by
  constructor
  · intro h
    funext i
    have := congrArg (fun l => l[i.1]?) h
    simp only [List.getElem?_map, List.getElem?_ofFn, i.2, List.getElem?_eq_getElem, Option.map_some] at this
    simpa using this.symm
  · rintro rfl
    apply List.ext_getElem
    · simp
    · intro i h1 h2
      simp

open Classical in
/-- Isometries keep inner products. -/
theorem overlap_tail {lin : Nat → Prop} {A : Weights D R} {c : TCirc} (hwf : c.toCirc.WF) (ht : Typed lin c)
    (hr : InRange A c.toCirc) {Φ : List D → Prop} {l : List Nat} (hl : Tail lin A c l)
    (hΦ : ∀ v v' : Nat × Nat → D, (∀ q : Nat × Nat, q.1 ∉ l → v q = v' q) →
      (Φ ((c.ins c.out).map v) ↔ Φ ((c.ins c.out).map v'))) (v v' : Nat × Nat → D) (hv : SameLive lin c l v v') :
    overlap A c.toCirc Φ l v v' =
      if (∀ s, Live c.toCirc l s → v s = v' s) ∧ Φ ((c.ins c.out).map v) then 1 else 0 := by
  induction hl generalizing v v' with
  | nil =>
    rw [overlap]
    have hlive : (∀ s, Live c.toCirc [] s → v s = v' s) ↔ (c.ins c.out).map v = (c.ins c.out).map v' := by
      rw [List.map_inj_left]
      constructor
      · intro h s hs
        exact h s ⟨⟨_, .inr rfl, hs⟩, by simp⟩
      · rintro h s ⟨⟨m, hm, hs⟩, _⟩
        rcases hm with hm | rfl
        · simp at hm
        · exact h s hs
    rw [Finset.sum_eq_single (fun i => v ((c.ins c.out)[i]))]
    · have e : (c.ins c.out).map v = List.ofFn fun i : Fin (c.ins c.out).length => v ((c.ins c.out)[i]) :=
        (ofFn_eq_map _).mpr rfl
      simp only [run, hlive]
      rw [← e]
      by_cases h1 : Φ ((c.ins c.out).map v)
      · by_cases h2 : (c.ins c.out).map v = (c.ins c.out).map v'
        · simp [h1, h2]
        · have h2' : ¬ (c.ins c.out).map v' = (c.ins c.out).map v := fun h => h2 h.symm
          simp [h1, h2, h2']
      · simp [h1]
    · intro y _ hy
      have : ¬ (c.ins c.out).map v = List.ofFn y := fun h => hy ((ofFn_eq_map y).mp h)
      simp [run, this]
    · simp
  | @cons n l hn hnl hio hiso used reads htail ih =>
    rw [overlap_cons fun s hs => (reads s hs).1]
    have hlen := hwf.length n hn
    have hpar := hv.params ht hn reads
    have hla : ((c.ins n).map v).length = (c.op n).kinds.length := by rw [List.length_map, hlen]
    have hlb : ((c.ins n).map v').length = (c.op n).kinds.length := by rw [List.length_map, hlen]
    have hlive : ∀ s, Live c.toCirc l s → s.1 = n → s.2 < A.arity (c.op n) := by
      rintro s ⟨⟨m, hm, hsm⟩, _⟩ hne
      rw [← hne]
      refine (hr m ?_ s hsm).resolve_left ?_
      · rcases hm with hm | rfl
        · exact htail.members hm
        · exact hwf.out.1
      · rw [hne]; exact hio.1
    have key : ∀ g g' : Fin (A.arity (c.op n)) → D,
        (∀ p : Fin (A.arity (c.op n)), ¬ lin (c.ty n p) → g p = g' p) →
        overlap A c.toCirc Φ l (setOuts v n (A.arity (c.op n)) g) (setOuts v' n (A.arity (c.op n)) g') =
        if g = g' ∧ (∀ s, Live c.toCirc l s → s.1 ≠ n → v s = v' s) ∧ Φ ((c.ins c.out).map v) then 1 else 0 := by
      intro g g' hgg
      rw [ih (fun u u' hu => hΦ u u' fun q hq => hu q fun h => hq (by simp [h])) _ _ (hv.next hgg hlive)]
      have h1 : Φ ((c.ins c.out).map (setOuts v n (A.arity (c.op n)) g)) ↔ Φ ((c.ins c.out).map v) := by
        apply hΦ
        intro q hq
        exact setOuts_ne fun he => hq (by simp [he])
      have h2 : (∀ s, Live c.toCirc l s → setOuts v n (A.arity (c.op n)) g s = setOuts v' n (A.arity (c.op n)) g' s) ↔
          g = g' ∧ ∀ s, Live c.toCirc l s → s.1 ≠ n → v s = v' s := by
        constructor
        · intro h
          refine ⟨?_, ?_⟩
          · funext p
            have := h (n, p) ⟨used p p.2, hnl⟩
            rwa [setOuts_at, setOuts_at] at this
          · intro s hs hne
            have := h s hs
            rwa [setOuts_ne hne, setOuts_ne hne] at this
        · rintro ⟨rfl, h⟩ s hs
          by_cases hne : s.1 = n
          · have hlt := hlive s hs hne
            simp only [setOuts]
            rw [dif_pos ⟨hne, hlt⟩, dif_pos ⟨hne, hlt⟩]
          · rw [setOuts_ne hne, setOuts_ne hne]
            exact h s hs hne
      simp only [h1, h2, and_assoc]
    have key' : ∀ g g' : Fin (A.arity (c.op n)) → D,
        star (A.weight (c.op n) (c.content n) ((c.ins n).map v) (List.ofFn g)) *
          A.weight (c.op n) (c.content n) ((c.ins n).map v') (List.ofFn g') *
          overlap A c.toCirc Φ l (setOuts v n (A.arity (c.op n)) g) (setOuts v' n (A.arity (c.op n)) g') =
        star (A.weight (c.op n) (c.content n) ((c.ins n).map v) (List.ofFn g)) *
          A.weight (c.op n) (c.content n) ((c.ins n).map v') (List.ofFn g') *
        if g = g' ∧ (∀ s, Live c.toCirc l s → s.1 ≠ n → v s = v' s) ∧ Φ ((c.ins c.out).map v) then 1 else 0 := by
      intro g g'
      by_cases w1 : A.weight (c.op n) (c.content n) ((c.ins n).map v) (List.ofFn g) = 0
      · rw [w1, star_zero, zero_mul, zero_mul, zero_mul]
      · by_cases w2 : A.weight (c.op n) (c.content n) ((c.ins n).map v') (List.ofFn g') = 0
        · rw [w2, mul_zero, zero_mul, zero_mul]
        · rw [key g g' (hiso.det _ _ hla hlb hpar g g' w1 w2)]
    simp only [key']
    by_cases hall : (∀ s, Live c.toCirc l s → s.1 ≠ n → v s = v' s) ∧ Φ ((c.ins c.out).map v)
    · have e : ∀ g g' : Fin (A.arity (c.op n)) → D,
          (g = g' ∧ (∀ s, Live c.toCirc l s → s.1 ≠ n → v s = v' s) ∧ Φ ((c.ins c.out).map v)) ↔ g = g' :=
        fun g g' => ⟨fun h => h.1, fun h => ⟨h, hall⟩⟩
      simp only [e, mul_ite, mul_one, mul_zero, Finset.sum_ite_eq, Finset.mem_univ, if_true]
      rw [hiso.iso _ _ hla hlb hpar]
      congr 1
      rw [List.map_inj_left]
      simp only [hall.2, and_true, eq_iff_iff]
      constructor
      · rintro h s ⟨⟨m, hm, hs⟩, hns⟩
        rw [List.mem_cons, not_or] at hns
        rcases hm with hm | hm
        · rcases List.mem_cons.mp hm with rfl | hm
          · exact h s hs
          · exact hall.1 s ⟨⟨m, .inl hm, hs⟩, hns.2⟩ hns.1
        · exact hall.1 s ⟨⟨m, .inr hm, hs⟩, hns.2⟩ hns.1
      · intro h s hs
        exact h s ⟨⟨n, .inl (by simp), hs⟩, by
          rw [List.mem_cons, not_or]
          exact reads s hs⟩
    · have e : ∀ g g' : Fin (A.arity (c.op n)) → D,
          ¬ (g = g' ∧ (∀ s, Live c.toCirc l s → s.1 ≠ n → v s = v' s) ∧ Φ ((c.ins c.out).map v)) :=
        fun g g' h => hall h.2
      rw [if_neg]
      · simp only [e, if_false, mul_zero, Finset.sum_const_zero]
      · rintro ⟨h1, h2⟩
        refine hall ⟨?_, h2⟩
        rintro s ⟨⟨m, hm, hs⟩, hns⟩ hne
        refine h1 s ⟨⟨m, hm.imp_left fun h => by simp [h], hs⟩, ?_⟩
        rw [List.mem_cons, not_or]
        exact ⟨hne, hns⟩

/-- The value of a port matters only for what can be reached from it. -/
theorem overlap_skip {lin : Nat → Prop} {A : Weights D R} {c : TCirc} (hwf : c.toCirc.WF) (ht : Typed lin c)
    (hr : InRange A c.toCirc) {Φ : List D → Prop} {q : Nat × Nat} {B : List Nat}
    (hΦ : ∀ v v' : Nat × Nat → D, (∀ s : Nat × Nat, s ≠ q → s.1 ∉ B → (∃ m ∈ c.members, s ∈ c.ins m) → v s = v' s) →
      (Φ ((c.ins c.out).map v) ↔ Φ ((c.ins c.out).map v'))) :
    ∀ {l : List Nat}, Tail lin A c (l ++ B) → (∀ n ∈ l, q ∉ c.ins n) → q.1 ∉ l →
    ∀ {v v' u u' : Nat × Nat → D}, SameLive lin c (l ++ B) v v' → SameLive lin c (l ++ B) u u' → v q = v' q → u q = u' q →
    (∀ s : Nat × Nat, s ≠ q → s.1 ∉ l ++ B → (∃ m ∈ c.members, s ∈ c.ins m) → v s = u s ∧ v' s = u' s) →
    overlap A c.toCirc Φ (l ++ B) v v' = overlap A c.toCirc Φ (l ++ B) u u'
  | [], hB, _, _, v, v', u, u', hv, hu, h1, h2, h3 => by
    classical
    rw [List.nil_append] at *
    have hΦ' : ∀ v v' : Nat × Nat → D, (∀ s : Nat × Nat, s.1 ∉ B → v s = v' s) →
        (Φ ((c.ins c.out).map v) ↔ Φ ((c.ins c.out).map v')) :=
      fun v v' h => hΦ v v' fun s _ hs _ => h s hs
    rw [overlap_tail hwf ht hr hB hΦ' _ _ hv, overlap_tail hwf ht hr hB hΦ' _ _ hu]
    have e1 : Φ ((c.ins c.out).map v) ↔ Φ ((c.ins c.out).map u) :=
      hΦ v u fun s hq hs hm => (h3 s hq hs hm).1
    have e2 : (∀ s, Live c.toCirc B s → v s = v' s) ↔ ∀ s, Live c.toCirc B s → u s = u' s := by
      refine forall_congr' fun s => imp_congr_right fun hs => ?_
      by_cases hq : s = q
      · rw [hq]; exact ⟨fun _ => h2, fun _ => h1⟩
      · obtain ⟨⟨m, hm, hsm⟩, hnot⟩ := hs
        have hmm : m ∈ c.members := by
          rcases hm with hm | rfl
          · exact hB.members hm
          · exact hwf.out.1
        obtain ⟨g1, g2⟩ := h3 s hq hnot ⟨m, hmm, hsm⟩
        rw [g1, g2]
    simp only [e1, e2]
  | n :: l, hB, hread, hql, v, v', u, u', hv, hu, h1, h2, h3 => by
    rw [List.cons_append] at *
    cases hB with
    | cons hn hnl hio hiso used reads htail =>
      rw [List.mem_cons, not_or] at hql
      rw [overlap_cons fun s hs => (reads s hs).1, overlap_cons fun s hs => (reads s hs).1]
      have hins : ∀ s ∈ c.ins n, v s = u s ∧ v' s = u' s := by
        intro s hs
        refine h3 s (fun he => hread n (by simp) (he ▸ hs)) ?_ ⟨n, hn, hs⟩
        rw [List.mem_cons, not_or]
        exact reads s hs
      have hlen := hwf.length n hn
      have hpar := hv.params ht hn reads
      have hla : ((c.ins n).map v).length = (c.op n).kinds.length := by rw [List.length_map, hlen]
      have hlb : ((c.ins n).map v').length = (c.op n).kinds.length := by rw [List.length_map, hlen]
      have hlive : ∀ s, Live c.toCirc (l ++ B) s → s.1 = n → s.2 < A.arity (c.op n) := by
        rintro s ⟨⟨m, hm, hsm⟩, _⟩ hne
        rw [← hne]
        refine (hr m ?_ s hsm).resolve_left ?_
        · rcases hm with hm | rfl
          · exact htail.members hm
          · exact hwf.out.1
        · rw [hne]; exact hio.1
      have i1 : (c.ins n).map v = (c.ins n).map u := List.map_congr_left fun s hs => (hins s hs).1
      have i2 : (c.ins n).map v' = (c.ins n).map u' := List.map_congr_left fun s hs => (hins s hs).2
      refine Finset.sum_congr rfl fun g _ => Finset.sum_congr rfl fun g' _ => ?_
      rw [← i1, ← i2]
      by_cases w1 : A.weight (c.op n) (c.content n) ((c.ins n).map v) (List.ofFn g) = 0
      · rw [w1, star_zero, zero_mul, zero_mul, zero_mul]
      by_cases w2 : A.weight (c.op n) (c.content n) ((c.ins n).map v') (List.ofFn g') = 0
      · rw [w2, mul_zero, zero_mul, zero_mul]
      have hgg := hiso.det _ _ hla hlb hpar g g' w1 w2
      congr 1
      refine overlap_skip hwf ht hr hΦ htail (fun m hm => hread m (by simp [hm])) hql.2 (hv.next hgg hlive)
        (hu.next hgg hlive) ?_ ?_ ?_
      · rw [setOuts_ne hql.1, setOuts_ne hql.1, h1]
      · rw [setOuts_ne hql.1, setOuts_ne hql.1, h2]
      · intro s hq hs hm
        by_cases hne : s.1 = n
        · obtain ⟨m, hm, hsm⟩ := hm
          have hlt : s.2 < A.arity (c.op n) := by
            have := (hr m hm s hsm).resolve_left (hne ▸ hio.1)
            rwa [hne] at this
          simp only [setOuts, dif_pos (show s.1 = n ∧ s.2 < A.arity (c.op n) from ⟨hne, hlt⟩), and_self]
        · simp only [setOuts_ne hne]
          refine h3 s hq ?_ hm
          rw [List.mem_cons, not_or]
          exact ⟨hne, hs⟩

/-- Nodes without cycles can be put into an order. -/
theorem sorted_nodes {c : Circ} (hac : Acyclic c) : ∀ (k : Nat) {l : List Nat}, l.length = k → l.Nodup →
    (∀ n ∈ l, n ∈ c.members) → ∃ l' : List Nat, l'.Perm l ∧ l'.Pairwise fun a b => ∀ s ∈ c.ins a, s.1 ≠ b := by
  intro k
  induction k with
  | zero =>
    intro l hl _ _
    exact ⟨[], by rw [List.length_eq_zero_iff.mp hl], .nil⟩
  | succ k ih =>
    intro l hl hn hm
    let T := {y : Nat // y ∈ l}
    have hfin : Finite T := (List.finite_toSet l).to_subtype
    let Q : T → T → Prop := fun a b => TransGen (Feeds c) a.1 b.1
    have : IsTrans T Q := ⟨fun _ _ _ h1 h2 => TransGen.trans h1 h2⟩
    have : Std.Irrefl Q := ⟨fun a g => hac a.1 g⟩
    have hwf : WellFounded Q := Finite.wellFounded_of_trans_of_irrefl Q
    have hne : l ≠ [] := by rintro rfl; simp at hl
    obtain ⟨n, _, hmin⟩ := hwf.has_min Set.univ ⟨⟨l.head hne, List.head_mem hne⟩, trivial⟩
    obtain ⟨n, hnl⟩ := n
    obtain ⟨l', h1, h2⟩ := ih (l := l.erase n) (by rw [List.length_erase_of_mem hnl, hl]; rfl) (hn.erase n)
      fun m hm' => hm m (List.mem_of_mem_erase hm')
    refine ⟨n :: l', (h1.cons n).trans (List.perm_cons_erase hnl).symm, List.pairwise_cons.mpr ⟨?_, h2⟩⟩
    intro b hb s hs he
    have hbl : b ∈ l := List.mem_of_mem_erase (h1.mem_iff.mp hb)
    exact hmin ⟨b, hbl⟩ trivial (.single ⟨hm n hnl, s, hs, he⟩)

/-- The rest of a circuit of gates. -/
theorem Mixed.tail {lin : Nat → Prop} {A : Weights D R} {c : TCirc} (h : Mixed lin A.arity c)
    (hiso : ∀ n ∈ c.cmds, ParamOp A (c.op n) 0 fun p => lin (c.ty n p)) {L : List Nat} (hL : ∀ n, n ∈ L ↔ n ∈ c.cmds) (hn : L.Nodup)
    (hs : L.Pairwise fun a b => ∀ s ∈ c.ins a, s.1 ≠ b) : ∀ {l pre : List Nat}, L = pre ++ l → Tail lin A c l
  | [], _, _ => .nil
  | n :: l, pre, he => by
    have hcmd : n ∈ c.cmds := (hL n).mp (by rw [he]; simp)
    obtain ⟨m1, m2, m3⟩ := h.plain.cmd_mem hcmd
    have hself : ∀ s ∈ c.ins n, s.1 ≠ n := fun s hs he => h.proper.acyclic n (.single ⟨m1, s, hs, he⟩)
    rw [he] at hn hs
    have hn' := List.nodup_append.mp hn
    have hs' := List.pairwise_append.mp hs
    have htail := Mixed.tail h hiso hL (he ▸ hn) (he ▸ hs) (l := l) (pre := pre ++ [n]) (by rw [he]; simp)
    refine .cons m1 (List.nodup_cons.mp hn'.2.1).1 ⟨m2, m3⟩ ?_ ?_ ?_ htail
    · rw [h.proper.flat n m1]; exact hiso n hcmd
    · intro p hp
      obtain ⟨m, hm, hin⟩ := h.used n hcmd p hp
      refine ⟨m, ?_, hin⟩
      rcases (h.plain.members m).mp hm with hmc | rfl
      · left
        have hmL : m ∈ pre ++ n :: l := he ▸ (hL m).mpr hmc
        rcases List.mem_append.mp hmL with g | g
        · exact absurd rfl (hs'.2.2 m g n (by simp) _ hin)
        · rcases List.mem_cons.mp g with rfl | g
          · exact absurd rfl (hself _ hin)
          · exact g
      · exact .inr rfl
    · intro s hs''
      exact ⟨hself s hs'', fun g => (List.pairwise_cons.mp hs'.2.1).1 s.1 g s hs'' rfl⟩

/-- In circuits of isometries, values that always arrive at an output have a path to it. -/
theorem Mixed.path {lin : Nat → Prop} [Nontrivial R] [Nontrivial D] {A : Weights D R} {c : TCirc}
    (h : Mixed lin A.arity c) (hiso : ∀ n ∈ c.cmds, ParamOp A (c.op n) 0 fun p => lin (c.ty n p)) {i o : Nat} (ho : o < (c.ins c.out).length)
    (hsup : ∀ x y, y[o]? ≠ some (x i) → amplitude A c.toCirc x y = 0) : Dep c.toCirc i o := by
  classical
  by_contra hdep
  rw [Dep, not_or] at hdep
  obtain ⟨hbare, hpath⟩ := hdep
  obtain ⟨so, hso⟩ : ∃ s, (c.ins c.out)[o]? = some s := ⟨_, List.getElem?_eq_getElem ho⟩
  have hne : so ≠ (c.inp, i) := by rintro rfl; exact hbare hso
  have hsosrc := h.plain.sources _ h.proper.wf.out.1 so (List.mem_of_getElem? hso)
  have hcm : ∀ n ∈ c.cmds, n ∈ c.members := fun n hn => (h.plain.cmd_mem hn).1
  have hinner : c.toCirc.inner.Nodup := h.proper.nodup.filter _
  have hpast : ∀ n, n ∈ c.toCirc.inner → ReflTransGen (Feeds c.toCirc) n so.1 → so.1 ∈ c.cmds := by
    intro n hn hp
    refine hsosrc.resolve_right ?_
    rintro ⟨g, _⟩
    rw [g] at hp
    rcases ReflTransGen.cases_tail_iff _ _ _ |>.mp hp with hp | ⟨_, _, hp⟩
    · exact (h.plain.cmd_mem (h.plain.inner.mp hn)).2.1 hp.symm
    · exact h.plain.inp hp.1
  obtain ⟨l, hl1, hl2⟩ := sorted_nodes h.proper.acyclic _ (l := c.toCirc.inner.filter fun n =>
    ReflTransGen (Feeds c.toCirc) n so.1) rfl (hinner.filter _) fun n hn =>
      hcm n (h.plain.inner.mp (List.mem_filter.mp hn).1)
  obtain ⟨B, hB1, hB2⟩ := sorted_nodes h.proper.acyclic _ (l := c.toCirc.inner.filter fun n =>
    ¬ ReflTransGen (Feeds c.toCirc) n so.1) rfl (hinner.filter _) fun n hn =>
      hcm n (h.plain.inner.mp (List.mem_filter.mp hn).1)
  have hlm : ∀ n, n ∈ l ↔ n ∈ c.toCirc.inner ∧ ReflTransGen (Feeds c.toCirc) n so.1 := by
    intro n; rw [hl1.mem_iff, List.mem_filter, decide_eq_true_iff]
  have hBm : ∀ n, n ∈ B ↔ n ∈ c.toCirc.inner ∧ ¬ ReflTransGen (Feeds c.toCirc) n so.1 := by
    intro n; rw [hB1.mem_iff, List.mem_filter, decide_eq_true_iff]
  have hperm : (l ++ B).Perm c.toCirc.inner := by
    rw [List.perm_ext_iff_of_nodup _ hinner]
    · intro n
      rw [List.mem_append, hlm, hBm]
      tauto
    · refine List.Nodup.append (hl1.nodup_iff.mpr (hinner.filter _)) (hB1.nodup_iff.mpr (hinner.filter _)) ?_
      intro n h1 h2
      exact ((hBm n).mp h2).2 ((hlm n).mp h1).2
  have hLn : (l ++ B).Nodup := hperm.nodup_iff.mpr hinner
  have hLm : ∀ n, n ∈ l ++ B ↔ n ∈ c.cmds := fun n => hperm.mem_iff.trans h.plain.inner
  have hLs : (l ++ B).Pairwise fun a b => ∀ s ∈ c.ins a, s.1 ≠ b := by
    refine List.pairwise_append.mpr ⟨hl2, hB2, ?_⟩
    intro a ha b hb s hs he
    refine ((hBm b).mp hb).2 (.head ?_ ((hlm a).mp ha).2)
    exact ⟨hcm a (h.plain.inner.mp ((hlm a).mp ha).1), s, hs, he⟩
  have htail : Tail lin A c (l ++ B) := h.tail hiso hLm hLn hLs (pre := []) rfl
  have hamp : ∀ x y, amplitude A c.toCirc x y = run A c.toCirc y (l ++ B) fun s => x s.2 :=
    fun x y => C96_run A h.proper.sane hperm hLs x y
  have hΦm : ∀ (b : D) (v : Nat × Nat → D), ((c.ins c.out).map v)[o]? = some b ↔ v so = b := by
    intro b v
    rw [List.getElem?_map, hso, Option.map_some, Option.some.injEq]
  have hsoB : so.1 ∉ B := fun g => ((hBm _).mp g).2 .refl
  -- the two inputs
  obtain ⟨a, b, hab⟩ := exists_pair_ne D
  let x : Nat → D := fun _ => a
  let x' : Nat → D := fun j => if j = i then b else a
  have hsame : ∀ d : D, overlap A c.toCirc (fun y => y[o]? = some d) (l ++ B) (fun s => x s.2) (fun s => x s.2) =
      overlap A c.toCirc (fun y => y[o]? = some d) (l ++ B) (fun s => x' s.2) (fun s => x' s.2) := by
    intro d
    refine overlap_skip h.proper.wf h.proper.typed h.range (q := (c.inp, i)) ?_ htail ?_ ?_ (fun _ _ _ => rfl)
      (fun _ _ _ => rfl) rfl rfl ?_
    · intro v v' hv
      rw [hΦm, hΦm, hv so hne hsoB ⟨_, h.proper.wf.out.1, List.mem_of_getElem? hso⟩]
    · intro n hn hin
      obtain ⟨h1, h2⟩ := (hlm n).mp hn
      exact hpath ⟨n, h.plain.inner.mp h1, hin, so.1, so.2, hpast n h1 h2, h2, hso⟩
    · intro hin
      exact (h.plain.cmd_mem (h.plain.inner.mp ((hlm _).mp hin).1)).2.1 rfl
    · rintro s hq hs ⟨m, hm, hsm⟩
      have hinp : s.1 = c.inp := by
        rcases h.plain.sources m hm s hsm with g | g
        · exact absurd ((hLm _).mpr g) hs
        · exact g.1
      have : s.2 ≠ i := fun he => hq (Prod.ext hinp he)
      simp only [x, x', if_neg this, and_self]
  have hzero : ∀ (z : Nat → D) (d : D), d ≠ z i →
      overlap A c.toCirc (fun y => y[o]? = some d) (l ++ B) (fun s => z s.2) (fun s => z s.2) = 0 := by
    intro z d hd
    refine Finset.sum_eq_zero fun y _ => ?_
    split_ifs with hy
    · rw [← hamp, hsup z _ (by rw [hy]; simpa using hd), mul_zero]
    · rfl
  have hall : ∀ d : D, overlap A c.toCirc (fun y => y[o]? = some d) (l ++ B) (fun s => x' s.2) (fun s => x' s.2) = 0 := by
    intro d
    by_cases hd : d = a
    · refine hzero x' d ?_
      simp only [x', if_true]
      rw [hd]; exact hab
    · rw [← hsame]
      exact hzero x d hd
  have hone : overlap A c.toCirc (fun _ => True) (l ++ B) (fun s => x' s.2) (fun s => x' s.2) = 1 := by
    rw [overlap_tail h.proper.wf h.proper.typed h.range htail (fun _ _ _ => Iff.rfl) _ _ fun _ _ _ => rfl]
    simp
  have hsum : overlap A c.toCirc (fun _ => True) (l ++ B) (fun s => x' s.2) (fun s => x' s.2) =
      ∑ d : D, overlap A c.toCirc (fun y => y[o]? = some d) (l ++ B) (fun s => x' s.2) (fun s => x' s.2) := by
    simp only [overlap]
    rw [Finset.sum_comm]
    refine Finset.sum_congr rfl fun y _ => ?_
    have : (List.ofFn y)[o]? = some (y ⟨o, ho⟩) := by
      rw [List.getElem?_ofFn, dif_pos ho]
    simp only [this, Option.some.injEq, if_true, Finset.sum_ite_eq, Finset.mem_univ]
  rw [hone, Finset.sum_eq_zero fun d _ => hall d] at hsum
  exact one_ne_zero hsum

/-- Gates without parameters. -/
theorem Gates.param {lin : Nat → Prop} {A : Weights D R} {c : TCirc} (h : Gates lin A.arity c) {n : Nat}
    (hn : n ∈ c.cmds) (hiso : IsoOp A (c.op n) 0) : ParamOp A (c.op n) 0 fun p => lin (c.ty n p) := by
  refine ⟨fun a b ha hb _ => hiso a b ha hb, ?_⟩
  intro a b _ _ _ g g' _ _ p hp
  obtain ⟨m, hm, hs⟩ := h.used n hn p p.2
  obtain ⟨k, hk⟩ := List.getElem?_of_mem hs
  have hlt : k < (c.op m).kinds.length := by
    rw [← h.proper.wf.length m hm]
    exact (List.getElem?_eq_some_iff.mp hk).1
  refine absurd ((h.proper.typed m hm k _ hk).mp ?_) hp
  rw [List.getElem?_eq_getElem hlt, h.linear m hm _ (List.getElem_mem hlt)]

theorem Gates.path {lin : Nat → Prop} [Nontrivial R] [Nontrivial D] {A : Weights D R} {c : TCirc}
    (h : Gates lin A.arity c) (hiso : ∀ n ∈ c.cmds, IsoOp A (c.op n) 0) {i o : Nat} (ho : o < (c.ins c.out).length)
    (hsup : ∀ x y, y[o]? ≠ some (x i) → amplitude A c.toCirc x y = 0) : Dep c.toCirc i o :=
  h.mixed.path (fun n hn => h.param hn (hiso n hn)) ho hsup

end Verif.Matching
