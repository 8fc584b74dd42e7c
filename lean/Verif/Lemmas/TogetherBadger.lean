import Verif.Lemmas.Together
import Verif.Props.Backtracking
import Mathlib.Data.Fintype.Card
import Mathlib.Order.WellFounded
import Mathlib.Data.Set.Finite.Lemmas

/-
States without hash are never expanded; and the topological walk.
-/
namespace Tket.Backtracking

open Tket.PQueue

variable {S C P : Type} [LinearOrder P]

theorem pushAll_keep (M : Space S C P) {Q : S → Prop} (ctx : C) (tb : Nat → TieBreak P)
    (l : List S) : ∀ (j : Nat) (q : PQ S P) (acc : List (Entry S P)),
    Inv q acc → (∀ e ∈ acc, Q e.state) → (∀ t ∈ l, M.hash t ctx ≠ none → Q t) →
    ∃ q' acc', pushAll M ctx tb j q l = some q' ∧ Inv q' acc' ∧ (∀ e ∈ acc', Q e.state) := by
  induction l with
  | nil => intro j q acc hi hg _; exact ⟨q, acc, rfl, hi, hg⟩
  | cons s rest ih =>
    intro j q acc hi hg hr
    unfold pushAll
    rcases push_cases hi (tb j) s (M.hash s ctx) (M.cost s ctx) with
      h | ⟨h', c', q', hh, hc, hp, hi', hlen, _⟩
    · rw [h]
      exact ih (j + 1) q acc hi hg (fun t ht => hr t (List.mem_cons_of_mem _ ht))
    · rw [hp]
      exact ih (j + 1) q' (⟨s, c', h'⟩ :: acc) hi' (by
        intro e he
        rcases List.mem_cons.1 he with rfl | he
        · exact hr s List.mem_cons_self (by rw [hh]; simp)
        · exact hg e he) (fun t ht => hr t (List.mem_cons_of_mem _ ht))

theorem finish_best {tb : TieBreak P} {l : Loop S C P} {flag : Bool} {r : Out S P}
    (h : finish tb l flag = .done r) : r.best = l.best := by
  unfold finish at h
  split at h
  · simp at h
  · simp only [Res.done.injEq] at h
    rw [← h]

theorem loop_keep (M : Space S C P) (o : Opts P) {Q : S → Prop}
    (hstep : ∀ s ctx, Q s → ∀ t ∈ (M.next s ctx).1, M.hash t (M.next s ctx).2 ≠ none → Q t) :
    ∀ (fuel : Nat) (l : Loop S C P) (acc : List (Entry S P)), Inv l.pq acc → (∀ e ∈ acc, Q e.state) →
    Q l.best → ∀ r, loop M o fuel l = .done r → Q r.best := by
  intro fuel
  induction fuel with
  | zero => intro l acc _ _ _ r h; simp [loop] at h
  | succ fuel ih =>
    intro l acc hi hg hb r h
    unfold loop at h
    simp only at h
    by_cases hq : l.pq.queue = []
    · rw [pop_nil _ hq] at h
      simp only at h
      rw [finish_best h]
      exact hb
    · obtain ⟨e, s, he, hmin, hacc, hlk, hr, hqq, _, _, _, hinv⟩ :=
        pop_spec hi (o.tb l.expanded.length 0) hq
      rw [show l.pq.pop (o.tb l.expanded.length 0) = (_, some ⟨s, e.2, e.1⟩) from Prod.ext rfl hr] at h
      simp only at h
      have hQs : Q s := hg _ hacc
      obtain ⟨q2, acc2, a1, a2, a3⟩ := pushAll_keep M (Q := Q) (M.next s l.ctx).2
        (o.tb l.expanded.length) (M.next s l.ctx).1 1 (l.pq.pop (o.tb l.expanded.length 0)).1 acc
        hinv hg (fun t ht => hstep s l.ctx hQs t ht)
      rw [a1] at h
      simp only at h
      have hb' : Q (if e.2 < l.bestCost then s else l.best) := by split <;> assumption
      split at h
      · rw [finish_best h]; exact hb'
      · split at h
        · split at h
          · rw [finish_best h]; exact hb'
          · exact ih _ acc2 a2 a3 hb' r h
        · exact ih _ acc2 a2 a3 hb' r h

/-- What is kept by successors with a hash holds of the result. -/
theorem optimise_keep (M : Space S C P) (o : Opts P) (fuel : Nat) {start : S} {ctx : C} {r : Out S P}
    (h : optimise M o fuel start ctx = .done r) {Q : S → Prop}
    (hstart : M.hash start ctx ≠ none → Q start)
    (hstep : ∀ s ctx, Q s → ∀ t ∈ (M.next s ctx).1, M.hash t (M.next s ctx).2 ≠ none → Q t) : Q r.best := by
  unfold optimise at h
  rcases hc : M.cost start ctx with _ | c
  · rw [hc] at h; simp at h
  · rw [hc] at h
    simp only at h
    rcases start_inv M o start ctx c hc with hp | ⟨q, e, hp, _, he, _, hh, _, hl⟩
    · rw [hc] at hp; rw [hp] at h; simp at h
    · rw [hc] at hp; rw [hp] at h
      simp only at h
      have hQ := hstart (by rw [hh]; simp)
      refine loop_keep M o hstep fuel _ [e] hl.pq ?_ hQ r h
      intro e' he'
      simp only [List.mem_singleton] at he'
      rw [he', he]
      exact hQ

end Tket.Backtracking

namespace Verif.Matching

open Relation

/-- No cycle leads to a node. -/
def Clear (c : Circ) (x : Nat) : Prop := ∀ n, TransGen (Feeds c) n n → ¬ ReflTransGen (Feeds c) n x

theorem clear_of_sources {c : Circ} {x : Nat} (h : ∀ a, Feeds c a x → Clear c a) : Clear c x := by
  intro n hn hp
  rcases ReflTransGen.cases_tail_iff _ _ _ |>.mp hp with rfl | ⟨y, hy, hyx⟩
  · obtain ⟨y, hy, hyx⟩ := TransGen.tail'_iff.mp hn
    exact h y hyx y (TransGen.head' hyx hy) .refl
  · exact h y hyx n hn hy

theorem visitRound_clear {c : Circ} {seen : List Nat} (h : ∀ x ∈ seen, Clear c x) :
    ∀ x ∈ visitRound c seen, Clear c x := by
  intro x hx
  rcases List.mem_append.mp hx with hx | hx
  · exact h x hx
  · have := (List.mem_filter.mp hx).2
    simp only [decide_eq_true_eq] at this
    apply clear_of_sources
    rintro a ⟨_, s, hs, rfl⟩
    exact h _ (this.2 s hs)

theorem rounds_clear {c : Circ} : ∀ (l : List Nat) (seen : List Nat), (∀ x ∈ seen, Clear c x) →
    ∀ x ∈ l.foldl (fun seen _ => visitRound c seen) seen, Clear c x
  | [], _, h => h
  | _ :: l, seen, h => rounds_clear l _ (visitRound_clear h)

/-- Visited nodes do not come after cycles. -/
theorem visited_clear {c : Circ} (hi : c.inp ∉ c.members) : ∀ x ∈ visited c, Clear c x := by
  apply rounds_clear
  intro x hx
  simp only [List.mem_singleton] at hx
  subst hx
  apply clear_of_sources
  intro a ha
  exact absurd ha.1 hi

/-- Rounds only add nodes. -/
theorem rounds_mono {c : Circ} : ∀ (l : List Nat) (seen : List Nat),
    ∀ x ∈ seen, x ∈ l.foldl (fun seen _ => visitRound c seen) seen
  | [], _, _, h => h
  | _ :: l, _, x, h => rounds_mono l _ x (List.mem_append_left _ h)

theorem rounds_fix {c : Circ} : ∀ (l : List Nat) (seen : List Nat), visitRound c seen = seen →
    l.foldl (fun seen _ => visitRound c seen) seen = seen
  | [], _, _ => rfl
  | _ :: l, seen, h => by
    rw [List.foldl_cons, h]
    exact rounds_fix l seen h

/-- Members that are not visited. -/
def unseen (c : Circ) (seen : List Nat) : List Nat := c.members.filter fun n => n ∉ seen

theorem unseen_lt {c : Circ} {seen : List Nat} (h : visitRound c seen ≠ seen) :
    (unseen c (visitRound c seen)).length < (unseen c seen).length := by
  have hne : (c.members.filter fun n => n ∉ seen ∧ ∀ s ∈ c.ins n, s.1 ∈ seen) ≠ [] := by
    intro h0
    apply h
    rw [visitRound, h0, List.append_nil]
  obtain ⟨x, hx⟩ := List.exists_mem_of_ne_nil _ hne
  have hx' := List.mem_filter.mp hx
  simp only [decide_eq_true_eq] at hx'
  have hsub : (unseen c (visitRound c seen)).Sublist (unseen c seen) := by
    apply List.monotone_filter_right
    intro n hn
    simp only [decide_eq_true_eq, visitRound, List.mem_append, not_or] at hn ⊢
    exact hn.1
  refine lt_of_le_of_ne hsub.length_le ?_
  intro heq
  have := hsub.eq_of_length heq
  have hxs : x ∈ unseen c seen := List.mem_filter.mpr ⟨hx'.1, by simpa using hx'.2.1⟩
  rw [← this] at hxs
  have h2 := (List.mem_filter.mp hxs).2
  simp only [decide_eq_true_eq, visitRound, List.mem_append, not_or] at h2
  exact h2.2 hx

/-- Enough rounds reach a fixed point. -/
theorem rounds_reach {c : Circ} : ∀ (l : List Nat) (seen : List Nat), (unseen c seen).length ≤ l.length →
    visitRound c (l.foldl (fun seen _ => visitRound c seen) seen) =
      l.foldl (fun seen _ => visitRound c seen) seen
  | [], seen, h => by
    by_contra hne
    have := unseen_lt hne
    simp only [List.foldl_nil] at this
    simp only [List.length_nil] at h
    omega
  | a :: l, seen, h => by
    by_cases hf : visitRound c seen = seen
    · rw [List.foldl_cons, hf, rounds_fix l seen hf, hf]
    · have := unseen_lt hf
      simp only [List.length_cons] at h
      exact rounds_reach l (visitRound c seen) (by omega)

/-- All nodes that no cycle leads to are visited. -/
theorem clear_visited {c : Circ} (hs : ∀ n ∈ c.members, ∀ s ∈ c.ins n, s.1 ∈ c.members ∨ s.1 = c.inp) {x : Nat}
    (hx : x ∈ c.members) (hc : Clear c x) : x ∈ visited c := by
  have hfix : visitRound c (visited c) = visited c := by
    apply rounds_reach
    simp only [List.length_range, unseen]
    exact List.length_filter_le _ _
  have hinp : c.inp ∈ visited c := rounds_mono _ _ _ (by simp)
  -- the nodes before x
  let T := {y : Nat // y ∈ c.members ∧ ReflTransGen (Feeds c) y x}
  have hfin : Finite T := by
    have : Set.Finite {y : Nat | y ∈ c.members} := List.finite_toSet c.members
    exact (this.subset (fun y hy => hy.1)).to_subtype
  let R : T → T → Prop := fun a b => TransGen (Feeds c) a.1 b.1
  have : IsTrans T R := ⟨fun _ _ _ h1 h2 => TransGen.trans h1 h2⟩
  have : Std.Irrefl R := ⟨fun a h => hc a.1 h a.2.2⟩
  have hwf : WellFounded R := Finite.wellFounded_of_trans_of_irrefl R
  have key : ∀ y : T, y.1 ∈ visited c := by
    intro y
    induction y using hwf.induction with
    | _ y ih =>
      by_contra hy
      apply hy
      rw [← hfix]
      refine List.mem_append_right _ (List.mem_filter.mpr ⟨y.2.1, ?_⟩)
      simp only [decide_eq_true_eq]
      refine ⟨hy, ?_⟩
      intro s hsy
      have hf : Feeds c s.1 y.1 := ⟨y.2.1, s, hsy, rfl⟩
      rcases hs y.1 y.2.1 s hsy with h | h
      · exact ih ⟨s.1, h, .head hf y.2.2⟩ (.single hf)
      · rw [h]; exact hinp
  exact key ⟨x, hx, .refl⟩

/-- There is a hash exactly if no cycle leads to the outputs. -/
theorem hashOf_iff {lin : Nat → Prop} {c : TCirc} (hc : Sane lin c) (value : TCirc → Nat) :
    hashOf value c ≠ none ↔ OutAcyclic c.toCirc := by
  rw [hashOf]
  constructor
  · intro h
    split at h
    · rename_i ho
      exact visited_clear hc.inp _ ho
    · simp at h
  · intro h
    rw [if_pos (clear_visited hc.wf.sources hc.wf.out.1 h)]
    simp

end Verif.Matching

namespace Verif.Matching

open Relation

/-- Values of nodes before the outputs are determined by the inputs. -/
theorem means_unique {V : Type} (sem : Op → Nat → List V → Nat → V) {lin : Nat → Prop} {c : TCirc}
    (hc : Sane lin c) (ho : OutAcyclic c.toCirc) {x : Nat → V} {y y' : List V} (h : Means sem c.toCirc x y)
    (h' : Means sem c.toCirc x y') : y = y' := by
  obtain ⟨v, hr, hi, rfl⟩ := h
  obtain ⟨v', hr', hi', rfl⟩ := h'
  let T := {y : Nat // y ∈ c.members ∧ TransGen (Feeds c.toCirc) y c.out}
  have hfin : Finite T := by
    have : Set.Finite {y : Nat | y ∈ c.members} := List.finite_toSet c.members
    exact (this.subset (fun y hy => hy.1)).to_subtype
  let R : T → T → Prop := fun a b => TransGen (Feeds c.toCirc) a.1 b.1
  have : IsTrans T R := ⟨fun _ _ _ h1 h2 => TransGen.trans h1 h2⟩
  have : Std.Irrefl R := ⟨fun a h => ho a.1 h a.2.2.to_reflTransGen⟩
  have hwf : WellFounded R := Finite.wellFounded_of_trans_of_irrefl R
  have key : ∀ y : T, ∀ p, v y.1 p = v' y.1 p := by
    intro y
    induction y using hwf.induction with
    | _ y ih =>
      intro p
      have h1 : y.1 ≠ c.inp := fun h => hc.inp (h ▸ y.2.1)
      have h2 : y.1 ≠ c.out := by
        intro h
        have := y.2.2
        rw [h] at this
        exact ho _ this .refl
      rw [hr _ y.2.1 h1 h2, hr' _ y.2.1 h1 h2]
      congr 1
      apply List.map_congr_left
      intro s hs
      have hf : Feeds c.toCirc s.1 y.1 := ⟨y.2.1, s, hs, rfl⟩
      rcases hc.wf.sources y.1 y.2.1 s hs with h | h
      · exact ih ⟨s.1, h, .head hf y.2.2⟩ (.single hf) s.2
      · rw [h, hi, hi']
  apply List.map_congr_left
  intro s hs
  have hf : Feeds c.toCirc s.1 c.out := ⟨hc.wf.out.1, s, hs, rfl⟩
  rcases hc.wf.sources _ hc.wf.out.1 s hs with h | h
  · exact key ⟨s.1, h, .single hf⟩ s.2
  · rw [h, hi, hi']

/-- Circuits without cycles compute something. -/
theorem means_total {V : Type} (sem : Op → Nat → List V → Nat → V) {lin : Nat → Prop} {c : TCirc}
    (hc : Proper lin c) (x : Nat → V) : ∃ y, Means sem c.toCirc x y := by
  let T := {y : Nat // y ∈ c.members}
  have hfin : Finite T := (List.finite_toSet c.members).to_subtype
  let R : T → T → Prop := fun a b => TransGen (Feeds c.toCirc) a.1 b.1
  have : IsTrans T R := ⟨fun _ _ _ h1 h2 => TransGen.trans h1 h2⟩
  have : Std.Irrefl R := ⟨fun a h => hc.acyclic a.1 h⟩
  have hwf : WellFounded R := Finite.wellFounded_of_trans_of_irrefl R
  let F : T → Nat → V := hwf.fix fun n rec p =>
    sem (c.op n.1) (c.content n.1) ((c.ins n.1).attach.map fun s =>
      if h : s.1.1 ∈ c.members then rec ⟨s.1.1, h⟩ (.single ⟨n.2, s.1, s.2, rfl⟩) s.1.2 else x s.1.2) p
  have hF : ∀ n : T, ∀ p, F n p = sem (c.op n.1) (c.content n.1) ((c.ins n.1).attach.map fun s =>
      if h : s.1.1 ∈ c.members then F ⟨s.1.1, h⟩ s.1.2 else x s.1.2) p := by
    intro n p
    exact congrFun (hwf.fix_eq _ n) p
  refine ⟨_, fun n p => if h : n ∈ c.members then F ⟨n, h⟩ p else x p, ?_, ?_, rfl⟩
  · intro n hn _ _ p
    simp only [dif_pos hn]
    rw [hF]
    congr 1
    exact List.attach_map_val (l := c.ins n) (f := fun s => if h : s.1 ∈ c.members then F ⟨s.1, h⟩ s.2 else x s.2)
  · intro i
    simp only [dif_neg hc.inp]

end Verif.Matching
