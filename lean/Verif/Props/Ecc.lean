import Verif.Model.Ecc
import Mathlib.Data.List.Perm.Basic
import Mathlib.Tactic.Common

/-! # Properties C17, C18: equivalence classes and the rewriter built from them -/

namespace Tket.Ecc

variable {C Pt : Type}

/-! ## C18 -/

theorem positionMin_spec (size : C → Nat) (l : List C) (hne : l ≠ []) :
    ∃ i c, positionMin size l = some (i, size c) ∧ l[i]? = some c ∧
      (∀ d ∈ l, size c ≤ size d) ∧ (∀ j d, j < i → l[j]? = some d → size c < size d) := by
  induction l with
  | nil => exact absurd rfl hne
  | cons a t ih =>
    by_cases ht : t = []
    · subst ht
      exact ⟨0, a, by simp [positionMin], by simp, by simp, by simp⟩
    · obtain ⟨i, c, h1, h2, h3, h4⟩ := ih ht
      simp only [positionMin, h1]
      by_cases hlt : size c < size a
      · rw [if_pos hlt]
        refine ⟨i + 1, c, rfl, by simpa using h2, ?_, ?_⟩
        · intro d hd
          rcases List.mem_cons.1 hd with rfl | hd
          · exact Nat.le_of_lt hlt
          · exact h3 d hd
        · intro j d hj hd
          cases j with
          | zero => simp only [List.getElem?_cons_zero, Option.some.injEq] at hd; subst hd; exact hlt
          | succ j => exact h4 j d (by omega) (by simpa using hd)
      · rw [if_neg hlt]
        refine ⟨0, a, rfl, by simp, ?_, by simp⟩
        intro d hd
        rcases List.mem_cons.1 hd with rfl | hd
        · exact Nat.le_refl _
        · exact Nat.le_trans (Nat.not_lt.1 hlt) (h3 d hd)

theorem set_perm {l : List C} {i : Nat} {x y : C} (h : l[i]? = some x) :
    (x :: l.set i y).Perm (y :: l) := by
  induction l generalizing i with
  | nil => simp at h
  | cons a t ih =>
    cases i with
    | zero =>
      simp only [List.getElem?_cons_zero, Option.some.injEq] at h
      subst h
      simpa using List.Perm.swap y a t
    | succ i =>
      have := ih (i := i) (by simpa using h)
      rw [List.set_cons_succ]
      exact (List.Perm.swap a x _).trans ((this.cons a).trans (List.Perm.swap y a t))

theorem swapRemove_spec (l : List C) (i : Nat) (x : C) (h : l[i]? = some x) :
    ∃ r, swapRemove l i = some (x, r) ∧ (x :: r).Perm l := by
  have hne : l ≠ [] := by rintro rfl; simp at h
  have hi : i < l.length := by
    by_contra hc
    rw [List.getElem?_eq_none (by omega)] at h; simp at h
  unfold swapRemove
  rw [h, List.getLast?_eq_getLast_of_ne_nil hne]
  simp only
  have happ := List.dropLast_append_getLast hne
  by_cases hl : i + 1 = l.length
  · rw [if_pos hl]
    refine ⟨_, rfl, ?_⟩
    have hx : x = l.getLast hne := by
      rw [List.getLast_eq_getElem]
      have : l[i]? = some l[i] := List.getElem?_eq_getElem hi
      rw [this] at h
      simp only [Option.some.injEq] at h
      rw [← h]; congr 1; omega
    calc (x :: l.dropLast).Perm (l.dropLast ++ [x]) := (List.perm_append_singleton _ _).symm
      _ = l := by rw [hx]; exact happ
  · rw [if_neg hl]
    refine ⟨_, rfl, ?_⟩
    have hd : l.dropLast[i]? = some x := by
      rw [List.getElem?_dropLast, if_pos (by omega)]; exact h
    exact (set_perm hd).trans ((List.perm_append_singleton _ _).symm.trans (List.Perm.of_eq happ))

/-- **C18.** Building a class never panics. It fails exactly for the empty list; otherwise the class
holds exactly the given circuits, its representative is a smallest one, and the reported count is
the number of circuits given. -/
theorem C18_class_from_circuits (size : C → Nat) (circs : List C) :
    (circs = [] → fromCircuits size circs = some (.error ())) ∧
    (circs ≠ [] → ∃ e, fromCircuits size circs = some (.ok e) ∧ e.circuits.Perm circs ∧
      (∀ c ∈ circs, size e.rep ≤ size c) ∧ e.nCircuits = circs.length) := by
  constructor
  · rintro rfl; rfl
  · intro hne
    obtain ⟨i, c, h1, h2, h3, _⟩ := positionMin_spec size circs hne
    obtain ⟨r, h4, h5⟩ := swapRemove_spec circs i c h2
    refine ⟨⟨c, r⟩, ?_, h5, h3, ?_⟩
    · unfold fromCircuits
      have : circs.isEmpty = false := by simpa using hne
      simp [this, h1, h4]
    · have := h5.length_eq
      simpa [EqCircClass.nCircuits] using this

/-- Ties go to the first smallest circuit. -/
theorem C18_representative_is_first_smallest (size : C → Nat) (circs : List C) (e : EqCircClass C)
    (h : fromCircuits size circs = some (.ok e)) :
    ∃ i : Nat, circs[i]? = some e.rep ∧
      ∀ (j : Nat) (d : C), j < i → circs[j]? = some d → size e.rep < size d := by
  by_cases hne : circs = []
  · subst hne; simp [fromCircuits] at h
  · obtain ⟨i, c, h1, h2, h3, h4⟩ := positionMin_spec size circs hne
    obtain ⟨r, h5, _⟩ := swapRemove_spec circs i c h2
    have he : circs.isEmpty = false := by simpa using hne
    simp only [fromCircuits, he, Bool.false_eq_true, if_false, h1, h5, Option.map_some,
      Option.some.injEq, Except.ok.injEq] at h
    subst h
    exact ⟨i, h2, h4⟩

example : fromCircuits (fun s : String => s.length) ["abc", "x", "ab", "y", "long"] =
    some (.ok ⟨"x", ["abc", "long", "ab", "y"]⟩) := by decide

/-! ## C17 -/

/-- What one circuit at position `k` of the flattened class list may be rewritten to. -/
theorem rules_length (off : Nat) (eccs : List (EqCircClass C)) :
    (rewriteRules off eccs).length = (eccs.flatMap EqCircClass.circuits).length := by
  induction eccs generalizing off with
  | nil => rfl
  | cons e es ih =>
    simp only [rewriteRules, List.length_cons, List.length_append, List.length_replicate, ih,
      List.flatMap_cons, EqCircClass.circuits, EqCircClass.nCircuits, List.length_append]
    omega

/-- Exact content of the rule table: index `k` belongs to position `i` of some class that starts at
`b`; its targets are the positions `j ≠ i` of the same class with `i = 0` or `j = 0`. -/
theorem rules_spec (pre : List C) (eccs : List (EqCircClass C)) (k : Nat) (r : List Nat)
    (h : (rewriteRules pre.length eccs)[k]? = some r) :
    ∃ e ∈ eccs, ∃ b i, i < e.nCircuits ∧ pre.length + k = b + i ∧
      (∀ j, j < e.nCircuits → (pre ++ eccs.flatMap EqCircClass.circuits)[b + j]? = e.circuits[j]?) ∧
      (∀ id, id ∈ r ↔ ∃ j, j < e.nCircuits ∧ id = b + j ∧ j ≠ i ∧ (i = 0 ∨ j = 0)) := by
  induction eccs generalizing pre k with
  | nil => simp [rewriteRules] at h
  | cons e es ih =>
    have hblock : ∀ j, j < e.nCircuits →
        (pre ++ (e :: es).flatMap EqCircClass.circuits)[pre.length + j]? = e.circuits[j]? := by
      intro j hj
      rw [List.getElem?_append_right (by omega)]
      simp only [List.flatMap_cons, Nat.add_sub_cancel_left]
      rw [List.getElem?_append_left]
      simp only [EqCircClass.circuits, List.length_cons]
      simpa [EqCircClass.nCircuits] using hj
    unfold rewriteRules at h
    by_cases hk : k < e.nCircuits
    · refine ⟨e, List.mem_cons_self, pre.length, k, hk, rfl, hblock, ?_⟩
      cases k with
      | zero =>
        simp only [List.getElem?_cons_zero, Option.some.injEq] at h
        subst h
        intro id
        simp only [List.mem_range'_1, ne_eq, true_or, and_true]
        simp only [EqCircClass.nCircuits] at *
        constructor
        · intro hid; exact ⟨id - pre.length, by omega, by omega, by omega⟩
        · rintro ⟨j, h1, h2, h3⟩; omega
      | succ k =>
        have hk' : k < e.nCircuits - 1 := by omega
        rw [List.getElem?_cons_succ, List.getElem?_append_left (by simpa using hk'),
          List.getElem?_replicate, if_pos hk'] at h
        simp only [Option.some.injEq] at h
        subst h
        intro id
        simp only [List.mem_singleton]
        constructor
        · rintro rfl; exact ⟨0, by simp [EqCircClass.nCircuits], by omega, by omega, Or.inr rfl⟩
        · rintro ⟨j, h1, h2, h3, h4⟩; omega
    · have hk1 : k = (k - e.nCircuits) + e.nCircuits := by omega
      have hget : (rewriteRules (pre.length + e.nCircuits) es)[k - e.nCircuits]? = some r := by
        rw [← h]
        have hn : e.nCircuits = (e.nCircuits - 1) + 1 := by simp [EqCircClass.nCircuits]
        obtain ⟨m, hm⟩ : ∃ m, k = m + 1 := ⟨k - 1, by omega⟩
        subst hm
        rw [List.getElem?_cons_succ, List.getElem?_append_right (by simp; omega)]
        congr 1
        simp only [List.length_replicate]; omega
      have hlen : (pre ++ e.circuits).length = pre.length + e.nCircuits := by
        simp [EqCircClass.circuits, EqCircClass.nCircuits]
      obtain ⟨e', he', b, i, h1, h2, h3, h4⟩ := ih (pre ++ e.circuits) (k - e.nCircuits)
        (by rw [hlen]; exact hget)
      refine ⟨e', List.mem_cons_of_mem _ he', b, i, h1, by omega, ?_, h4⟩
      intro j hj
      have := h3 j hj
      rw [List.append_assoc] at this
      rw [List.flatMap_cons]; exact this

theorem filterM_spec (f : Nat → Option Bool) (l : List Nat) (h : ∀ x ∈ l, f x ≠ none) :
    ∃ r, filterM f l = some r ∧ ∀ x, x ∈ r ↔ x ∈ l ∧ f x = some true := by
  induction l with
  | nil => exact ⟨[], rfl, by simp⟩
  | cons a t ih =>
    obtain ⟨r, h1, h2⟩ := ih (fun x hx => h x (List.mem_cons_of_mem _ hx))
    have ha := h a List.mem_cons_self
    rcases hf : f a with _ | b
    · exact absurd hf ha
    · cases b with
      | true =>
        refine ⟨a :: r, by simp [filterM, hf, h1], ?_⟩
        intro x
        simp only [List.mem_cons, h2]
        constructor
        · rintro (rfl | ⟨h', h''⟩)
          · exact ⟨Or.inl rfl, hf⟩
          · exact ⟨Or.inr h', h''⟩
        · rintro ⟨rfl | h', h''⟩
          · exact Or.inl rfl
          · exact Or.inr ⟨h', h''⟩
      | false =>
        refine ⟨r, by simp [filterM, hf, h1], ?_⟩
        intro x
        simp only [List.mem_cons, h2]
        constructor
        · rintro ⟨h', h''⟩; exact ⟨Or.inr h', h''⟩
        · rintro ⟨rfl | h', h''⟩
          · rw [hf] at h''; simp at h''
          · exact ⟨h', h''⟩

theorem buildRules_spec (pattern : C → Option Pt) (empties : C → List Nat) (targets : List C)
    (l : List (C × List Nat)) (h : ∀ x ∈ l, ∀ id ∈ x.2, id < targets.length) :
    ∃ out, buildRules pattern empties targets l = some out ∧
      (∀ o ∈ out, ∃ x ∈ l, pattern x.1 = some o.1 ∧ o.2.1 = empties x.1 ∧
        ∀ id, id ∈ o.2.2 ↔ id ∈ x.2 ∧ admissible empties targets (empties x.1) id = some true) ∧
      (∀ x ∈ l, ∀ p, pattern x.1 = some p → ∃ o ∈ out, o.1 = p ∧ o.2.1 = empties x.1 ∧
        ∀ id, id ∈ o.2.2 ↔ id ∈ x.2 ∧ admissible empties targets (empties x.1) id = some true) := by
  induction l with
  | nil => exact ⟨[], rfl, by simp, by simp⟩
  | cons x t ih =>
    obtain ⟨c, r⟩ := x
    obtain ⟨out, h1, h2, h3⟩ := ih (fun x hx => h x (List.mem_cons_of_mem _ hx))
    rcases hp : pattern c with _ | p
    · refine ⟨out, by simp [buildRules, hp, h1], ?_, ?_⟩
      · intro o ho
        obtain ⟨x, hx, hh⟩ := h2 o ho
        exact ⟨x, List.mem_cons_of_mem _ hx, hh⟩
      · intro x hx p' hp'
        rcases List.mem_cons.1 hx with rfl | hx
        · rw [hp] at hp'; simp at hp'
        · exact h3 x hx p' hp'
    · have hadm : ∀ id ∈ r, admissible empties targets (empties c) id ≠ none := by
        intro id hid
        have := h (c, r) List.mem_cons_self id hid
        simp [admissible, List.getElem?_eq_getElem this]
      obtain ⟨ts, hts, hmem⟩ := filterM_spec _ r hadm
      refine ⟨(p, empties c, ts) :: out, by simp [buildRules, hp, h1, hts], ?_, ?_⟩
      · intro o ho
        rcases List.mem_cons.1 ho with rfl | ho
        · exact ⟨(c, r), List.mem_cons_self, hp, rfl, hmem⟩
        · obtain ⟨x, hx, hh⟩ := h2 o ho
          exact ⟨x, List.mem_cons_of_mem _ hx, hh⟩
      · intro x hx p' hp'
        rcases List.mem_cons.1 hx with rfl | hx
        · rw [hp] at hp'
          simp only [Option.some.injEq] at hp'
          exact ⟨_, List.mem_cons_self, hp', rfl, hmem⟩
        · obtain ⟨o, ho, hh⟩ := h3 x hx p' hp'
          exact ⟨o, List.mem_cons_of_mem _ ho, hh⟩

/-- In class `e`, the circuit at position `i` may be replaced by the one at position `j`: a different
member, where one of the two is the representative (position 0). -/
def Exchange (e : EqCircClass C) (i j : Nat) (c t : C) : Prop :=
  e.circuits[i]? = some c ∧ e.circuits[j]? = some t ∧ i ≠ j ∧ (i = 0 ∨ j = 0)

theorem mapM_getElem? {targets : List C} (ids : List Nat) (h : ∀ id ∈ ids, id < targets.length) :
    ∃ ts, ids.mapM (fun id => targets[id]?) = some ts ∧
      ∀ t, t ∈ ts ↔ ∃ id ∈ ids, targets[id]? = some t := by
  induction ids with
  | nil => exact ⟨[], rfl, by simp⟩
  | cons a t ih =>
    obtain ⟨ts, h1, h2⟩ := ih (fun id hid => h id (List.mem_cons_of_mem _ hid))
    have ha := h a List.mem_cons_self
    refine ⟨targets[a] :: ts, ?_, ?_⟩
    · rw [List.mapM_cons, List.getElem?_eq_getElem ha, h1]; rfl
    · intro x
      simp only [List.mem_cons, h2, exists_eq_or_imp, List.getElem?_eq_getElem ha, Option.some.injEq]
      constructor
      · rintro (rfl | h')
        · exact Or.inl rfl
        · exact Or.inr h'
      · rintro (rfl | h')
        · exact Or.inl rfl
        · exact Or.inr h'

/-- **C17.** Building the rewriter never panics. For every pattern the matcher can report, asking for
its targets does not panic, and there is a class member `c` the pattern was made from (with its empty
wires recorded) such that every target is a different member of the same class, one of the two being
the representative, and has all the wires empty that were removed from the pattern. Conversely every
such pair of class members, whose first has a pattern, is offered as a rewrite. -/
theorem C17_rewrites_stay_in_class (pattern : C → Option Pt) (empties : C → List Nat)
    (eccs : List (EqCircClass C)) :
    ∃ R, fromEccs pattern empties eccs = some R ∧
      (∀ p P, R.patterns[p]? = some P → ∃ ts pe, R.getTargets p = some ts ∧
        R.emptyWires[p]? = some pe ∧ ∃ e ∈ eccs, ∃ i c, pattern c = some P ∧ pe = empties c ∧
          e.circuits[i]? = some c ∧
          ∀ t ∈ ts, (∀ w ∈ pe, w ∈ empties t) ∧ ∃ j, Exchange e i j c t) ∧
      (∀ e ∈ eccs, ∀ i j c t P, Exchange e i j c t → pattern c = some P →
        (∀ w ∈ empties c, w ∈ empties t) →
        ∃ (p : Nat) (ts : List C), R.patterns[p]? = some P ∧ R.getTargets p = some ts ∧
          R.emptyWires[p]? = some (empties c) ∧ t ∈ ts) := by
  set targets := eccs.flatMap EqCircClass.circuits with htargets
  set l := targets.zip (rewriteRules 0 eccs) with hl
  have hrules : ∀ k r, (rewriteRules 0 eccs)[k]? = some r →
      ∃ e ∈ eccs, ∃ b i, i < e.nCircuits ∧ k = b + i ∧
      (∀ j, j < e.nCircuits → targets[b + j]? = e.circuits[j]?) ∧
      (∀ id, id ∈ r ↔ ∃ j, j < e.nCircuits ∧ id = b + j ∧ j ≠ i ∧ (i = 0 ∨ j = 0)) := by
    intro k r hr
    have := rules_spec [] eccs k r hr
    simpa using this
  have hin : ∀ (e : EqCircClass C) j, j < e.nCircuits → ∃ t, e.circuits[j]? = some t := by
    intro e j hj
    have : j < e.circuits.length := by simpa [EqCircClass.circuits, EqCircClass.nCircuits] using hj
    exact ⟨_, List.getElem?_eq_getElem this⟩
  have hlmem : ∀ x ∈ l, ∃ k : Nat, targets[k]? = some x.1 ∧ (rewriteRules 0 eccs)[k]? = some x.2 := by
    intro x hx
    obtain ⟨k, hk⟩ := List.getElem?_of_mem hx
    rw [hl, List.getElem?_zip_eq_some] at hk
    exact ⟨k, hk.1, hk.2⟩
  have hbound : ∀ x ∈ l, ∀ id ∈ x.2, id < targets.length := by
    intro x hx id hid
    obtain ⟨k, _, hk2⟩ := hlmem x hx
    obtain ⟨e, _, b, i, _, _, h3, h4⟩ := hrules k x.2 hk2
    obtain ⟨j, hj, rfl, _⟩ := (h4 id).1 hid
    obtain ⟨t, ht⟩ := hin e j hj
    have := h3 j hj
    rw [ht] at this
    exact (List.getElem?_eq_some_iff.1 this).1
  obtain ⟨out, h1, h2, h3⟩ := buildRules_spec pattern empties targets l hbound
  refine ⟨{ patterns := out.map (fun o => o.1), targets := targets,
            rules := out.map (fun o => o.2.2), emptyWires := out.map (fun o => o.2.1) }, ?_, ?_, ?_⟩
  · simp only [fromEccs, ← htargets, ← hl, h1, Option.map_some]
  · intro p P hP
    simp only [List.getElem?_map, Option.map_eq_some_iff] at hP
    obtain ⟨o, ho, rfl⟩ := hP
    obtain ⟨x, hx, hx1, hx2, hx3⟩ := h2 o (List.mem_of_getElem? ho)
    obtain ⟨k, hk1, hk2⟩ := hlmem x hx
    obtain ⟨e, he, b, i, hi, hki, hb, hr⟩ := hrules k x.2 hk2
    have hids : ∀ id ∈ o.2.2, id < targets.length := fun id hid => hbound x hx id ((hx3 id).1 hid).1
    obtain ⟨ts, hts, htm⟩ := mapM_getElem? o.2.2 hids
    refine ⟨ts, o.2.1, ?_, ?_, e, he, i, x.1, hx1, hx2, ?_, ?_⟩
    · simp only [Rewriter.getTargets, List.getElem?_map, ho, Option.map_some, Option.bind_some, hts]
    · simp [List.getElem?_map, ho]
    · rw [← hb i hi, ← hki]; exact hk1
    · intro t ht
      obtain ⟨id, hid, hidt⟩ := (htm t).1 ht
      obtain ⟨hid1, hid2⟩ := (hx3 id).1 hid
      obtain ⟨j, hj, rfl, hji, h0⟩ := (hr id).1 hid1
      constructor
      · simp only [admissible, hidt, Option.map_some, Option.some.injEq, List.all_eq_true,
          List.contains_iff_mem] at hid2
        rw [hx2]; exact hid2
      · exact ⟨j, by rw [← hb i hi, ← hki]; exact hk1, by rw [← hb j hj]; exact hidt,
          fun hh => hji hh.symm, h0⟩
  · rintro e he i j c t P ⟨hc, ht, hij, h0⟩ hP hsub
    -- locate the class
    have hi : i < e.nCircuits := by
      have := (List.getElem?_eq_some_iff.1 hc).1
      simpa [EqCircClass.circuits, EqCircClass.nCircuits] using this
    have hj : j < e.nCircuits := by
      have := (List.getElem?_eq_some_iff.1 ht).1
      simpa [EqCircClass.circuits, EqCircClass.nCircuits] using this
    obtain ⟨s1, s2, hs⟩ := List.append_of_mem he
    have hloc : ∀ (pre : List C) (es1 : List (EqCircClass C)) (off : Nat),
        (rewriteRules off (es1 ++ e :: s2))[(es1.flatMap EqCircClass.circuits).length + i]? =
        (rewriteRules (off + (es1.flatMap EqCircClass.circuits).length) (e :: s2))[i]? := by
      intro pre es1
      induction es1 with
      | nil => intro off; simp
      | cons a es1 ih =>
        intro off
        have hlen : ((a :: es1).flatMap EqCircClass.circuits).length =
            a.nCircuits + (es1.flatMap EqCircClass.circuits).length := by
          rw [List.flatMap_cons, List.length_append]
          simp [EqCircClass.circuits, EqCircClass.nCircuits]
        rw [hlen, List.cons_append]
        have := ih (off + a.nCircuits)
        have e1 : off + (a.nCircuits + (es1.flatMap EqCircClass.circuits).length) =
          off + a.nCircuits + (es1.flatMap EqCircClass.circuits).length := by omega
        rw [e1, ← this]
        conv_lhs => unfold rewriteRules
        have hn : 0 < a.nCircuits := by simp [EqCircClass.nCircuits]
        have e2 : a.nCircuits + (es1.flatMap EqCircClass.circuits).length + i =
          (a.nCircuits - 1 + ((es1.flatMap EqCircClass.circuits).length + i)) + 1 := by omega
        rw [e2, List.getElem?_cons_succ, List.getElem?_append_right (by simp)]
        simp
    set b := (s1.flatMap EqCircClass.circuits).length with hb
    have hblk : ∀ m, m < e.nCircuits → targets[b + m]? = e.circuits[m]? := by
      intro m hm
      rw [htargets, hs, List.flatMap_append, List.getElem?_append_right (by omega), ← hb,
        Nat.add_sub_cancel_left, List.flatMap_cons, List.getElem?_append_left]
      simpa [EqCircClass.circuits, EqCircClass.nCircuits] using hm
    have hrule : ∃ r, (rewriteRules 0 eccs)[b + i]? = some r ∧ b + j ∈ r := by
      rw [hs, hloc [] s1 0, Nat.zero_add]
      unfold rewriteRules
      cases i with
      | zero =>
        refine ⟨_, rfl, ?_⟩
        rw [List.mem_range'_1]; omega
      | succ i =>
        have hj0 : j = 0 := by rcases h0 with h0 | h0 <;> omega
        subst hj0
        have hi' : i < e.nCircuits - 1 := by omega
        refine ⟨[b], ?_, by simp⟩
        rw [List.getElem?_cons_succ, List.getElem?_append_left (by simpa using hi'),
          List.getElem?_replicate, if_pos hi']
    obtain ⟨r, hr1, hr2⟩ := hrule
    have hxl : (c, r) ∈ l := by
      apply List.mem_of_getElem? (i := b + i)
      rw [hl, List.getElem?_zip_eq_some]
      exact ⟨by rw [hblk i hi]; exact hc, hr1⟩
    obtain ⟨o, ho, ho1, ho2, ho3⟩ := h3 (c, r) hxl P hP
    obtain ⟨p, hp⟩ := List.getElem?_of_mem ho
    have hids : ∀ id ∈ o.2.2, id < targets.length :=
      fun id hid => hbound (c, r) hxl id ((ho3 id).1 hid).1
    obtain ⟨ts, hts, htm⟩ := mapM_getElem? o.2.2 hids
    have htj : targets[b + j]? = some t := by rw [hblk j hj]; exact ht
    refine ⟨p, ts, ?_, ?_, ?_, ?_⟩
    · simp [List.getElem?_map, hp, ho1]
    · simp only [Rewriter.getTargets, List.getElem?_map, hp, Option.map_some, Option.bind_some, hts]
    · simp [List.getElem?_map, hp, ho2]
    · rw [htm]
      refine ⟨b + j, (ho3 _).2 ⟨hr2, ?_⟩, htj⟩
      simp only [admissible, htj, Option.map_some, Option.some.injEq, List.all_eq_true,
        List.contains_iff_mem]
      exact hsub

/-- Two classes, of which one circuit has no pattern ("") and one target ("b") lacks an empty wire. -/
example :
    let pat : String → Option String := fun s => if s = "" then none else some s
    let emp : String → List Nat := fun s => if s = "a" then [1] else if s = "b" then [] else [1]
    (fromEccs pat emp [⟨"a", ["b", "c"]⟩, ⟨"", ["d"]⟩]).map
      (fun R => (R.patterns, R.rules, R.emptyWires, R.getTargets 0, R.getTargets 1)) =
    some (["a", "b", "c", "d"], [[2], [0], [0], [3]], [[1], [], [1], [1]], some ["c"], some ["a"]) := by
  rfl

end Tket.Ecc
