import Verif.Model.Backtracking
import Verif.Lemmas.PQueue
import Mathlib.Data.Finset.Card

/-! # Loop invariant of the backtracking optimiser -/

namespace Tket.Backtracking

open Tket.PQueue

set_option linter.unusedSectionVars false

variable {S C P : Type} [LinearOrder P]

/-- `t` is one of the successors `s` proposes in some context. -/
def Step (M : Space S C P) (s t : S) : Prop := ∃ ctx, t ∈ (M.next s ctx).1

/-- Reached by a finite chain of successor steps. -/
inductive Reachable (M : Space S C P) (start : S) : S → Prop
  | refl : Reachable M start start
  | step {s t} : Reachable M start s → Step M s t → Reachable M start t

/-- An accepted queue entry is reachable and carries its own cost and hash. -/
def Good (M : Space S C P) (start : S) (e : Entry S P) : Prop :=
  Reachable M start e.state ∧ ∃ ctx, M.cost e.state ctx = some e.cost ∧
    M.hash e.state ctx = some e.hash

theorem push_cases {q : PQ S P} {acc : List (Entry S P)} (hi : Inv q acc) (tb : TieBreak P) (s : S)
    (h : Option Nat) (c : Option P) :
    (q.push tb s h c = some (q, none)) ∨
    (∃ h' c' q', h = some h' ∧ c = some c' ∧ q.push tb s h c = some (q', some ⟨s, c', h'⟩) ∧
      Inv q' (⟨s, c', h'⟩ :: acc) ∧ q'.queue.length ≤ q.queue.length + 1 ∧
      q'.maxSize = q.maxSize) := by
  cases h with
  | none => left; rfl
  | some h =>
    cases c with
    | none => left; rfl
    | some c =>
      rcases pushUnchecked_spec hi tb s h c with ⟨h1, _⟩ | ⟨q', h1, h2, h3, _, h5⟩
      · left; exact h1
      · right
        refine ⟨h, c, q', rfl, rfl, h1, h2, ?_, h3⟩
        rcases h5 with ⟨_, h5⟩ | ⟨_, _, e, he, _, _, h5⟩
        · rw [h5]; simp
        · rw [h5]
          have := dropKey_length_of_mem hi.qnd he
          simp only [List.length_cons]; omega

theorem pushAll_spec (M : Space S C P) (start : S) (ctx : C) (tb : Nat → TieBreak P)
    (l : List S) : ∀ (j : Nat) (q : PQ S P) (acc : List (Entry S P)),
    Inv q acc → (∀ e ∈ acc, Good M start e) → (∀ t ∈ l, Reachable M start t) →
    ∃ q' acc', pushAll M ctx tb j q l = some q' ∧ Inv q' acc' ∧ (∀ e ∈ acc', Good M start e) ∧
      (∀ e ∈ acc, e ∈ acc') ∧
      q'.queue.length + acc.length ≤ q.queue.length + acc'.length := by
  induction l with
  | nil => intro j q acc hi hg _; exact ⟨q, acc, rfl, hi, hg, fun _ h => h, Nat.le_refl _⟩
  | cons s rest ih =>
    intro j q acc hi hg hr
    unfold pushAll
    rcases push_cases hi (tb j) s (M.hash s ctx) (M.cost s ctx) with
      h | ⟨h', c', q', hh, hc, hp, hi', hlen, _⟩
    · rw [h]
      exact ih (j + 1) q acc hi hg (fun t ht => hr t (List.mem_cons_of_mem _ ht))
    · rw [hp]
      obtain ⟨q2, acc2, a1, a2, a3, a4, a5⟩ := ih (j + 1) q' (⟨s, c', h'⟩ :: acc) hi' (by
        intro e he
        rcases List.mem_cons.1 he with rfl | he
        · exact ⟨hr s List.mem_cons_self, ctx, hc, hh⟩
        · exact hg e he) (fun t ht => hr t (List.mem_cons_of_mem _ ht))
      refine ⟨q2, acc2, a1, a2, a3, fun e he => a4 e (List.mem_cons_of_mem _ he), ?_⟩
      simp only [List.length_cons] at a5
      omega

/-- Loop invariant. -/
structure LInv (M : Space S C P) (start : S) (c0 : P) (l : Loop S C P)
    (acc : List (Entry S P)) : Prop where
  pq : Inv l.pq acc
  good : ∀ e ∈ acc, Good M start e
  count : l.expanded.length + l.pq.queue.length ≤ acc.length
  expAcc : ∀ x ∈ l.expanded, ∃ e ∈ acc, e.state = x.1 ∧ e.cost = x.2
  bestReach : Reachable M start l.best
  bestCost : ∃ ctx, M.cost l.best ctx = some l.bestCost
  bestLe : l.bestCost ≤ c0
  bestMin : ∀ x ∈ l.expanded, l.bestCost ≤ x.2
  bestIn : (l.best, l.bestCost) ∈ l.expanded ∨ (l.best = start ∧ l.bestCost = c0)

/-- One iteration: either the queue was empty, or an entry is expanded and the invariant is kept. -/
theorem iter_spec (M : Space S C P) (o : Opts P) {start : S} {c0 : P} {l : Loop S C P}
    {acc : List (Entry S P)} (hl : LInv M start c0 l acc) :
    (l.pq.queue = [] ∧ l.pq.pop (o.tb l.expanded.length 0) = (l.pq, none)) ∨
    ∃ pq e pq' l' acc', l.pq.pop (o.tb l.expanded.length 0) = (pq, some e) ∧
      pushAll M (M.next e.state l.ctx).2 (o.tb l.expanded.length) 1 pq (M.next e.state l.ctx).1
        = some pq' ∧
      l' = ⟨pq', (M.next e.state l.ctx).2, if e.cost < l.bestCost then e.state else l.best,
        if e.cost < l.bestCost then e.cost else l.bestCost, (e.state, e.cost) :: l.expanded⟩ ∧
      LInv M start c0 l' acc' := by
  by_cases hq : l.pq.queue = []
  · left; exact ⟨hq, pop_nil _ hq⟩
  · right
    obtain ⟨e, s, he, hmin, hacc, hlk, hr, hqq, _, _, _, hinv⟩ :=
      pop_spec hl.pq (o.tb l.expanded.length 0) hq
    have hgood := hl.good _ hacc
    obtain ⟨q2, acc2, a1, a2, a3, a4, a5⟩ := pushAll_spec M start (M.next s l.ctx).2
      (o.tb l.expanded.length) (M.next s l.ctx).1 1 (l.pq.pop (o.tb l.expanded.length 0)).1 acc
      hinv hl.good (fun t ht => Reachable.step hgood.1 ⟨l.ctx, ht⟩)
    refine ⟨_, ⟨s, e.2, e.1⟩, q2, _, acc2, Prod.ext rfl hr, a1, rfl, ?_⟩
    have hdl := dropKey_length_of_mem hl.pq.qnd he
    rw [hqq] at a5
    have hcnt := hl.count
    constructor
    · exact a2
    · exact a3
    · simp only [List.length_cons]; omega
    · intro x hx
      rcases List.mem_cons.1 hx with rfl | hx
      · exact ⟨_, a4 _ hacc, rfl, rfl⟩
      · obtain ⟨y, hy, hy2⟩ := hl.expAcc x hx
        exact ⟨y, a4 y hy, hy2⟩
    · simp only
      split
      · exact hgood.1
      · exact hl.bestReach
    · simp only
      split
      · obtain ⟨ctx, h1, _⟩ := hgood.2
        exact ⟨ctx, h1⟩
      · exact hl.bestCost
    · simp only
      split
      · rename_i h; exact le_of_lt (lt_of_lt_of_le h hl.bestLe)
      · exact hl.bestLe
    · intro x hx
      simp only
      rcases List.mem_cons.1 hx with rfl | hx
      · split
        · exact le_refl _
        · rename_i h; exact not_lt.1 h
      · split
        · rename_i h; exact le_of_lt (lt_of_lt_of_le h (hl.bestMin x hx))
        · exact hl.bestMin x hx
    · simp only
      split
      · left; exact List.mem_cons_self
      · rcases hl.bestIn with h | h
        · exact Or.inl (List.mem_cons_of_mem _ h)
        · exact Or.inr h

end Tket.Backtracking
