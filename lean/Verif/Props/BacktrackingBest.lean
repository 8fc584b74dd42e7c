import Verif.Props.Backtracking

/-!
# Property C53: what is known about the cheapest discovered circuit

`C53_discovered_better_state_not_returned` (Props/Backtracking) shows that `best` need not be the
cheapest discovered circuit.  Here: the first circuit of the best-N list is, for every capacity,
budget, clock and tie-breaking.
-/

namespace Tket.Backtracking

open Tket.PQueue

set_option linter.unusedSectionVars false

variable {S C P : Type} [LinearOrder P]

/-- Hash, cost and successors of the states that can be reached do not depend on the context, and
states with equal hashes have equal costs. -/
structure PureCost (M : Space S C P) (start : S) (hash : S → Nat) (cost : S → P)
    (next : S → List S) : Prop where
  hash_eq : ∀ s ctx, Reachable M start s → M.hash s ctx = some (hash s)
  cost_eq : ∀ s ctx, Reachable M start s → M.cost s ctx = some (cost s)
  next_eq : ∀ s ctx, Reachable M start s → (M.next s ctx).1 = next s
  same : ∀ s t, Reachable M start s → Reachable M start t → hash s = hash t → cost s = cost t

/-- The entries accepted after one more call. -/
def accOf (op : Op S P) (r : Option (Entry S P)) (acc : List (Entry S P)) : List (Entry S P) :=
  match op, r with
  | .push .., some e => e :: acc
  | _, _ => acc

theorem run_snoc (hist : History S P) (tb : TieBreak P) (op : Op S P) :
    ∀ (q q1 q2 : PQ S P) (acc acc1 : List (Entry S P)) (r : Option (Entry S P)),
    run q acc hist = some (q1, acc1) → step tb q1 op = some (q2, r) →
    run q acc (hist ++ [(tb, op)]) = some (q2, accOf op r acc1) := by
  induction hist with
  | nil =>
    intro q q1 q2 acc acc1 r h hs
    simp only [run, Option.some.injEq, Prod.mk.injEq] at h
    obtain ⟨rfl, rfl⟩ := h
    simp only [List.nil_append, run, hs]
    cases op <;> cases r <;> rfl
  | cons x rest ih =>
    obtain ⟨tb', op'⟩ := x
    intro q q1 q2 acc acc1 r h hs
    simp only [run, List.cons_append] at h ⊢
    cases hst : step tb' q op' with
    | none => rw [hst] at h; simp at h
    | some p =>
      obtain ⟨q', r'⟩ := p
      rw [hst] at h
      simp only at h ⊢
      cases op' <;> cases r' <;> exact ih _ _ _ _ _ _ h hs

/-- Every state of `l` has an accepted entry that is at least as cheap. -/
def Covered (cost : S → P) (acc : List (Entry S P)) (t : S) : Prop :=
  ∃ e ∈ acc, e.cost ≤ cost t

theorem pushAll_covers {M : Space S C P} {start : S} {hash : S → Nat} {cost : S → P}
    {next : S → List S} (hp : PureCost M start hash cost next) {m : Nat} {nb : Option Nat}
    (hm : 0 < m) (ctx : C) (tb : Nat → TieBreak P) (l : List S) :
    ∀ (j : Nat) (q : PQ S P) (acc : List (Entry S P)) (hist : History S P),
    Reach m nb hist q acc → (∀ e ∈ acc, Good M start e) → (∀ t ∈ l, Reachable M start t) →
    ∃ q' acc' hist', pushAll M ctx tb j q l = some q' ∧ Reach m nb hist' q' acc' ∧
      (∀ e ∈ acc', Good M start e) ∧ (∀ e ∈ acc, e ∈ acc') ∧ ∀ t ∈ l, Covered cost acc' t := by
  induction l with
  | nil => intro j q acc hist h hg _; exact ⟨q, acc, hist, rfl, h, hg, fun _ h => h, by simp⟩
  | cons s rest ih =>
    intro j q acc hist h hg hr
    have hrs := hr s List.mem_cons_self
    have hrest : ∀ t ∈ rest, Reachable M start t := fun t ht => hr t (List.mem_cons_of_mem _ ht)
    unfold pushAll
    rw [hp.hash_eq s ctx hrs, hp.cost_eq s ctx hrs]
    obtain ⟨c1, c2⟩ := C05_push_behaviour h (tb j) s (hash s) (cost s)
    by_cases hre : hash s ∈ acc.map Entry.hash ∨ m = 0 ∨
        (q.queue.length = m ∧ ∀ x ∈ q.queue, x.2 ≤ cost s)
    · rw [c1 hre]
      obtain ⟨q', acc', hist', a1, a2, a3, a4, a5⟩ := ih (j + 1) q acc hist h hg hrest
      refine ⟨q', acc', hist', a1, a2, a3, a4, ?_⟩
      intro t ht
      rcases List.mem_cons.1 ht with rfl | ht
      · have : Covered cost acc t := by
          rcases hre with hre | hre | ⟨h1, h2⟩
          · obtain ⟨e, he, heh⟩ := List.mem_map.1 hre
            obtain ⟨g1, cx, g2, g3⟩ := hg e he
            rw [hp.cost_eq _ cx g1] at g2
            rw [hp.hash_eq _ cx g1] at g3
            simp only [Option.some.injEq] at g2 g3
            exact ⟨e, he, by rw [← g2, hp.same _ _ g1 hrs (g3.trans heh)]⟩
          · omega
          · obtain ⟨hi, _⟩ := reach_inv h
            cases hq : q.queue with
            | nil => rw [hq] at h1; simp at h1; omega
            | cons x xs =>
              obtain ⟨st, _, hx⟩ := hi.qlk x (by rw [hq]; exact List.mem_cons_self)
              exact ⟨_, hx, h2 x (by rw [hq]; exact List.mem_cons_self)⟩
        obtain ⟨e, he, hc⟩ := this
        exact ⟨e, a4 e he, hc⟩
      · exact a5 t ht
    · obtain ⟨q', hq', _⟩ := c2 hre
      rw [hq']
      have hst : step (tb j) q (.push s (some (hash s)) (some (cost s))) = some (q', _) := hq'
      have hreach : Reach m nb (hist ++ [(tb j, .push s (some (hash s)) (some (cost s)))]) q'
          (⟨s, cost s, hash s⟩ :: acc) := run_snoc hist _ _ _ _ _ _ _ _ h hst
      obtain ⟨q2, acc2, hist2, a1, a2, a3, a4, a5⟩ := ih (j + 1) q' _ _ hreach (by
        intro e he
        rcases List.mem_cons.1 he with rfl | he
        · exact ⟨hrs, ctx, hp.cost_eq s ctx hrs, hp.hash_eq s ctx hrs⟩
        · exact hg e he) hrest
      refine ⟨q2, acc2, hist2, a1, a2, a3, fun e he => a4 e (List.mem_cons_of_mem _ he), ?_⟩
      intro t ht
      rcases List.mem_cons.1 ht with rfl | ht
      · exact ⟨_, a4 _ List.mem_cons_self, le_refl _⟩
      · exact a5 t ht

/-- What the loop keeps. -/
structure DInv (M : Space S C P) (start : S) (cost : S → P) (next : S → List S) (m : Nat)
    (nb : Option Nat) (l : Loop S C P) (acc : List (Entry S P)) : Prop where
  reach : ∃ hist, Reach m nb hist l.pq acc
  good : ∀ e ∈ acc, Good M start e
  first : Covered cost acc start
  succ : ∀ x ∈ l.expanded, ∀ t ∈ next x.1, Covered cost acc t

/-- The conclusion about a result. -/
def HeadBest (start : S) (cost : S → P) (next : S → List S) (r : Out S P) : Prop :=
  ∃ b rest, r.nBest = some (b :: rest) ∧ cost b ≤ cost start ∧
    ∀ x ∈ r.expanded, cost b ≤ cost x.1 ∧ ∀ t ∈ next x.1, cost b ≤ cost t

theorem finish_head {M : Space S C P} {start : S} {hash : S → Nat} {cost : S → P}
    {next : S → List S} (hp : PureCost M start hash cost next) {m n : Nat} (hn : 0 < n)
    {l : Loop S C P} {acc : List (Entry S P)} (hd : DInv M start cost next m (some n) l acc)
    (hx : ∀ x ∈ l.expanded, ∃ e ∈ acc, e.state = x.1) (tb : TieBreak P) (flag : Bool) (r : Out S P)
    (h : finish tb l flag = .done r) : HeadBest start cost next r := by
  obtain ⟨hist, hr⟩ := hd.reach
  obtain ⟨es, e1, e2, e3, e4, e5, e6⟩ := C04_best_n_correct hr tb
  unfold finish at h
  rw [e1] at h
  simp only [Res.done.injEq] at h
  subst h
  obtain ⟨w, hw, _⟩ := hd.first
  have hne : es ≠ [] := by
    intro he
    rw [he] at e5
    have := List.length_pos_of_mem hw
    simp only [List.length_nil] at e5
    omega
  cases hes : es with
  | nil => exact absurd hes hne
  | cons b rest =>
    subst hes
    have hmin : ∀ a ∈ acc, b.cost ≤ a.cost := by
      intro a ha
      by_cases hin : a ∈ b :: rest
      · rcases List.mem_cons.1 hin with rfl | hin
        · exact le_refl _
        · exact (List.pairwise_cons.1 e4).1 a hin
      · exact e6 a ha hin b List.mem_cons_self
    have hco : ∀ e ∈ acc, cost e.state = e.cost := by
      intro e he
      obtain ⟨g1, cx, g2, _⟩ := hd.good e he
      rw [hp.cost_eq _ cx g1] at g2
      simpa using g2
    have hcb := hco b (e2 b List.mem_cons_self)
    have hcov : ∀ t, Covered cost acc t → cost b.state ≤ cost t := by
      rintro t ⟨e, he, hle⟩
      rw [hcb]
      exact le_trans (hmin e he) hle
    refine ⟨b.state, rest.map Entry.state, rfl, hcov _ hd.first, ?_⟩
    intro x hxm
    refine ⟨?_, fun t ht => hcov t (hd.succ x hxm t ht)⟩
    obtain ⟨e, he, hes⟩ := hx x hxm
    exact hcov x.1 ⟨e, he, by rw [← hes, hco e he]⟩

theorem loop_head {M : Space S C P} {start : S} {hash : S → Nat} {cost : S → P}
    {next : S → List S} (hp : PureCost M start hash cost next) (o : Opts P) {n : Nat}
    (hm : 0 < o.queueSize) (hn : 0 < n) (fuel : Nat) :
    ∀ (l : Loop S C P) (acc : List (Entry S P)),
    DInv M start cost next o.queueSize (some n) l acc →
    (∀ x ∈ l.expanded, ∃ e ∈ acc, e.state = x.1) →
    ∀ r, loop M o fuel l = .done r → HeadBest start cost next r := by
  induction fuel with
  | zero => intro l acc _ _ r h; simp [loop] at h
  | succ fuel ih =>
    intro l acc hd hx r h
    obtain ⟨hist, hr⟩ := hd.reach
    obtain ⟨hi, _⟩ := reach_inv hr
    unfold loop at h
    by_cases hq : l.pq.queue = []
    · simp only [pop_nil _ hq] at h
      exact finish_head hp hn hd hx _ _ _ h
    · obtain ⟨e, st, he, hmin, hacc, hlk, hr', hqq, hmx, _, _, hinv⟩ :=
        pop_spec hi (o.tb l.expanded.length 0) hq
      have hpop : l.pq.pop (o.tb l.expanded.length 0) =
          ((l.pq.pop (o.tb l.expanded.length 0)).1, some ⟨st, e.2, e.1⟩) := Prod.ext rfl hr'
      have hgood := hd.good _ hacc
      have hreach1 : Reach o.queueSize (some n) (hist ++ [(o.tb l.expanded.length 0, .pop)])
          (l.pq.pop (o.tb l.expanded.length 0)).1 acc :=
        run_snoc hist _ .pop _ _ _ _ _ _ hr rfl
      obtain ⟨q2, acc2, hist2, a1, a2, a3, a4, a5⟩ := pushAll_covers hp hm
        (M.next st l.ctx).2 (o.tb l.expanded.length) (M.next st l.ctx).1 1 _ acc _ hreach1 hd.good
        (fun t ht => Reachable.step hgood.1 ⟨l.ctx, ht⟩)
      generalize (l.pq.pop (o.tb l.expanded.length 0)).1 = pq1 at hpop a1
      simp only [hpop, a1] at h
      have hd2 : DInv M start cost next o.queueSize (some n)
          (⟨q2, (M.next st l.ctx).2, if e.2 < l.bestCost then st else l.best,
            if e.2 < l.bestCost then e.2 else l.bestCost, (st, e.2) :: l.expanded⟩ : Loop S C P)
          acc2 := by
        refine ⟨⟨hist2, a2⟩, a3, ?_, ?_⟩
        · obtain ⟨w, hw, hc⟩ := hd.first; exact ⟨w, a4 w hw, hc⟩
        · intro x hxm t ht
          rcases List.mem_cons.1 hxm with rfl | hxm
          · exact a5 t (by rw [hp.next_eq st l.ctx hgood.1]; exact ht)
          · obtain ⟨w, hw, hc⟩ := hd.succ x hxm t ht; exact ⟨w, a4 w hw, hc⟩
      have hx2 : ∀ x ∈ (st, e.2) :: l.expanded, ∃ w ∈ acc2, w.state = x.1 := by
        intro x hxm
        rcases List.mem_cons.1 hxm with rfl | hxm
        · exact ⟨_, a4 _ hacc, rfl⟩
        · obtain ⟨w, hw, hc⟩ := hx x hxm; exact ⟨w, a4 w hw, hc⟩
      by_cases hclk : o.clock l.expanded.length = true
      · simp only [hclk, if_true] at h
        exact finish_head hp hn hd2 hx2 _ _ _ h
      · simp only [hclk] at h
        rcases hmv : o.maxVisited with _ | k
        · rw [hmv] at h
          exact ih _ acc2 hd2 hx2 r (by simpa using h)
        · rw [hmv] at h
          by_cases hk : k ≤ ((st, e.2) :: l.expanded).length
          · simp only [hk, if_true] at h
            exact finish_head hp hn hd2 hx2 _ _ _ (by simpa using h)
          · simp only [hk, if_false] at h
            exact ih _ acc2 hd2 hx2 r (by simpa using h)

/-- **C53 (partial).** If at least one best circuit is tracked, then however the search was stopped,
however small the queue and however ties were broken, the first circuit of the best-N list is at
least as cheap as the start, as every circuit that was expanded and as every successor of one,
including those that the queue refused or dropped.  Missing from the full statement: `best` itself
is only compared with the expanded circuits (`C06_result_reachable_not_worse`), and nothing is
known without tracking. -/
theorem C53_head_of_best_n_partial {M : Space S C P} {start : S} {hash : S → Nat} {cost : S → P}
    {next : S → List S} (hp : PureCost M start hash cost next) (o : Opts P) (n : Nat)
    (hnb : o.trackNBest = some n) (hn : 0 < n) (fuel : Nat) (ctx : C)
    (r : Out S P) (h : optimise M o fuel start ctx = .done r) :
    ∃ b rest, r.nBest = some (b :: rest) ∧ cost b ≤ cost start ∧
      ∀ x ∈ r.expanded, cost b ≤ cost x.1 ∧ ∀ t ∈ next x.1, cost b ≤ cost t := by
  unfold optimise at h
  have hc := hp.cost_eq start ctx Reachable.refl
  have hh := hp.hash_eq start ctx Reachable.refl
  rw [hc, hh] at h
  simp only at h
  have hreach : Reach o.queueSize (some n) [] (PQ.new o.queueSize (some n) : PQ S P) [] := rfl
  rw [hnb] at h
  obtain ⟨c1, c2⟩ := C05_push_behaviour hreach (o.tb 0 0) start (hash start) (cost start)
  by_cases hm : 0 < o.queueSize
  · obtain ⟨q', hq', _⟩ := c2 (by
      intro hr
      rcases hr with hr | hr | ⟨hr, _⟩
      · simp at hr
      · omega
      · simp [PQ.new] at hr; omega)
    rw [hq'] at h
    have hreach1 : Reach o.queueSize (some n)
        [(o.tb 0 0, .push start (some (hash start)) (some (cost start)))] q'
        [⟨start, cost start, hash start⟩] := run_snoc [] (o.tb 0 0)
          (.push start (some (hash start)) (some (cost start))) _ _ _ _ _ _ hreach hq'
    refine loop_head hp o hm hn fuel _ [⟨start, cost start, hash start⟩]
      ⟨⟨_, hreach1⟩, ?_, ?_, by simp⟩ (by simp) r h
    · intro e he
      simp only [List.mem_singleton] at he
      subst he
      exact ⟨Reachable.refl, ctx, hc, hh⟩
    · exact ⟨_, List.mem_singleton.2 rfl, le_refl _⟩
  · rw [c1 (Or.inr (Or.inl (by omega)))] at h
    simp at h

/-- The hypotheses are met by a search stopped after one step with a queue of one place, which
discovered 2 and returned 3. -/
example : PureCost countdown 3 id id (fun s => if s = 0 then [] else [s - 1, s, s - 1]) ∧
    ∃ r, optimise countdown (plainOpts 1 (some 1) (some 1)) 10 3 () = .done r ∧ r.best = 3 ∧
      r.nBest = some [2] :=
  ⟨⟨fun _ _ _ => rfl, fun _ _ _ => rfl, fun _ _ _ => rfl, fun _ _ _ _ h => h⟩,
    ⟨_, rfl, by decide, by decide⟩⟩

end Tket.Backtracking
