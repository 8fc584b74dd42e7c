import Verif.Lemmas.Backtracking
import Verif.Props.PQueue

/-!
# Properties C06, C07, C08, C52, C53: the backtracking search
-/

namespace Tket.Backtracking

open Tket.PQueue

set_option linter.unusedSectionVars false

variable {S C P : Type} [LinearOrder P]

theorem finish_spec {start : S} {c0 : P} {M : Space S C P}
    {l : Loop S C P} {acc : List (Entry S P)} (hl : LInv M start c0 l acc) (tb : TieBreak P)
    (flag : Bool) : ∃ nBest, finish tb l flag = .done ⟨l.best, l.bestCost, nBest, flag, l.expanded⟩ := by
  unfold finish PQ.intoAllTimeBest
  rcases hatb : l.pq.atb with _ | ⟨n, a⟩
  · exact ⟨none, rfl⟩
  · have hperm := tb.sort_perm a
    obtain ⟨es, h, _, _⟩ := drain_spec (tb.sort a) l.pq.lookup
      ((hperm.map Prod.fst).nodup_iff.2 (hl.pq.and n a hatb))
      (fun e he => hl.pq.alk n a hatb e (hperm.mem_iff.1 he))
    exact ⟨some (es.map Entry.state), by simp [h]⟩

/-- What the loop delivers from any state satisfying the invariant. -/
theorem loop_spec (M : Space S C P) (o : Opts P) {start : S} {c0 : P} (fuel : Nat) :
    ∀ (l : Loop S C P) (acc : List (Entry S P)), LInv M start c0 l acc →
    loop M o fuel l = .outOfFuel ∨
    ∃ r l' acc', loop M o fuel l = .done r ∧ LInv M start c0 l' acc' ∧ r.best = l'.best ∧
      r.bestCost = l'.bestCost ∧ r.expanded = l'.expanded ∧
      (∀ x ∈ l.expanded, x ∈ l'.expanded) ∧
      (∀ n, o.maxVisited = some n → l.expanded.length < max n 1 → r.expanded.length ≤ max n 1) ∧
      (r.timeoutFlag = false → l'.pq.queue = []) ∧
      ((∀ i, o.clock i = false) → o.maxVisited = none → r.timeoutFlag = false) := by
  induction fuel with
  | zero => intro l acc _; left; rfl
  | succ fuel ih =>
    intro l acc hl
    rcases iter_spec M o hl with ⟨hq, hpop⟩ | ⟨pq, e, pq', l', acc', hpop, hpush, rfl, hl'⟩
    · right
      obtain ⟨nb, hf⟩ := finish_spec hl (o.tb l.expanded.length 0) false
      refine ⟨⟨l.best, l.bestCost, nb, false, l.expanded⟩, l, acc, ?_, hl, rfl, rfl, rfl,
        fun _ h => h, ?_, fun _ => hq, fun _ _ => rfl⟩
      · unfold loop; simp only [hpop]; exact hf
      · intro n _ hlt; exact Nat.le_of_lt hlt
    · have hcont : ∀ (flag : Bool), ∃ nBest, finish (o.tb l.expanded.length 0)
          (⟨pq', (M.next e.state l.ctx).2, if e.cost < l.bestCost then e.state else l.best,
            if e.cost < l.bestCost then e.cost else l.bestCost,
            (e.state, e.cost) :: l.expanded⟩ : Loop S C P) flag = .done ⟨_, _, nBest, flag, _⟩ :=
        fun flag => finish_spec hl' _ flag
      have hsub : ∀ x ∈ l.expanded, x ∈ (e.state, e.cost) :: l.expanded :=
        fun x hx => List.mem_cons_of_mem _ hx
      by_cases hclk : o.clock l.expanded.length = true
      · right
        obtain ⟨nb, hf⟩ := hcont true
        refine ⟨⟨_, _, nb, true, (e.state, e.cost) :: l.expanded⟩, _, acc', ?_, hl', rfl, rfl, rfl,
          hsub, ?_, by simp, ?_⟩
        · unfold loop; simp only [hpop, hpush, hclk, if_true]; exact hf
        · intro n _ hlt; simp only [List.length_cons]; omega
        · intro hc; rw [hc] at hclk; simp at hclk
      · rcases hmv : o.maxVisited with _ | n
        · -- no visit budget
          rcases ih _ acc' hl' with h | ⟨r, l2, acc2, h1, h2, h3, h4, h5, h6, h7, h8, h9⟩
          · left
            unfold loop; simp only [hpop, hpush, hclk, hmv]; simpa using h
          · right
            refine ⟨r, l2, acc2, ?_, h2, h3, h4, h5, fun x hx => h6 x (hsub x hx), ?_, h8, ?_⟩
            · unfold loop; simp only [hpop, hpush, hclk, hmv]; simpa using h1
            · intro n hn; simp at hn
            · intro hc _; exact h9 hc hmv
        · by_cases hn : n ≤ ((e.state, e.cost) :: l.expanded).length
          · right
            obtain ⟨nb, hf⟩ := hcont true
            refine ⟨⟨_, _, nb, true, (e.state, e.cost) :: l.expanded⟩, _, acc', ?_, hl', rfl, rfl, rfl,
              hsub, ?_, by simp, by simp⟩
            · unfold loop; simp only [hpop, hpush, hclk, hmv, hn, if_true]; simpa using hf
            · intro n' hn' hlt; simp only [List.length_cons]; omega
          · rcases ih _ acc' hl' with h | ⟨r, l2, acc2, h1, h2, h3, h4, h5, h6, h7, h8, h9⟩
            · left
              unfold loop; simp only [hpop, hpush, hclk, hmv, hn, if_false]; simpa using h
            · right
              refine ⟨r, l2, acc2, ?_, h2, h3, h4, h5, fun x hx => h6 x (hsub x hx), ?_, h8, by simp⟩
              · unfold loop; simp only [hpop, hpush, hclk, hmv, hn, if_false]; simpa using h1
              · intro n' hn' hlt
                simp only [Option.some.injEq] at hn'
                subst hn'
                refine h7 n hmv ?_
                simp only [List.length_cons] at hn ⊢
                omega

/-- The state right before the loop satisfies the invariant. -/
theorem start_inv (M : Space S C P) (o : Opts P) (start : S) (ctx : C) (c : P)
    (hc : M.cost start ctx = some c) :
    (PQ.new o.queueSize o.trackNBest : PQ S P).push (o.tb 0 0) start (M.hash start ctx)
        (M.cost start ctx) = some (PQ.new o.queueSize o.trackNBest, none) ∨
    ∃ q e, (PQ.new o.queueSize o.trackNBest : PQ S P).push (o.tb 0 0) start (M.hash start ctx)
        (M.cost start ctx) = some (q, some e) ∧ q.queue.length ≤ 1 ∧ e.state = start ∧ e.cost = c ∧
      M.hash start ctx = some e.hash ∧ q.maxSize = o.queueSize ∧
      LInv M start c (⟨q, ctx, start, c, []⟩ : Loop S C P) [e] := by
  rcases push_cases (inv_new (S := S) (P := P) o.queueSize o.trackNBest) (o.tb 0 0) start
    (M.hash start ctx) (M.cost start ctx) with h | ⟨h', c', q', hh, hc', hp, hi', hlen, hmx⟩
  · left; exact h
  · right
    rw [hc] at hc'
    simp only [Option.some.injEq] at hc'
    subst hc'
    refine ⟨q', _, hp, by simpa [PQ.new] using hlen, rfl, rfl, hh, by simpa [PQ.new] using hmx, ?_⟩
    constructor
    · exact hi'
    · intro e he
      simp only [List.mem_singleton] at he
      subst he
      exact ⟨Reachable.refl, ctx, hc, hh⟩
    · simpa [PQ.new] using hlen
    · simp
    · exact Reachable.refl
    · exact ⟨ctx, hc⟩
    · exact le_refl _
    · simp
    · right; exact ⟨rfl, rfl⟩

/-- **C06.** Whatever the successor function, queue size, budget, clock behaviour and tie-breaking:
if the search returns, the returned state was reached from the start by successor steps, its cost
is not larger than the start's, it is one of the expanded states (or the start itself), and no
expanded state is cheaper. -/
theorem C06_result_reachable_not_worse (M : Space S C P) (o : Opts P) (fuel : Nat) (start : S)
    (ctx : C) (r : Out S P) (h : optimise M o fuel start ctx = .done r) :
    ∃ c0, M.cost start ctx = some c0 ∧ Reachable M start r.best ∧ r.bestCost ≤ c0 ∧
      (∃ ctx', M.cost r.best ctx' = some r.bestCost) ∧
      ((r.best, r.bestCost) ∈ r.expanded ∨ (r.best = start ∧ r.bestCost = c0)) ∧
      (∀ x ∈ r.expanded, r.bestCost ≤ x.2) := by
  unfold optimise at h
  rcases hc : M.cost start ctx with _ | c
  · rw [hc] at h; simp at h
  · rw [hc] at h
    simp only at h
    rcases start_inv M o start ctx c hc with hp | ⟨q, e, hp, _, _, _, _, _, hl⟩
    · rw [hc] at hp; rw [hp] at h; simp at h
    · rw [hc] at hp; rw [hp] at h
      simp only at h
      rcases loop_spec M o fuel _ _ hl with hf | ⟨r', l', acc', h1, h2, h3, h4, h5, _⟩
      · rw [hf] at h; simp at h
      · rw [h1] at h
        simp only [Res.done.injEq] at h
        subst h
        exact ⟨c, rfl, h3 ▸ h2.bestReach, h4 ▸ h2.bestLe, h3 ▸ h4 ▸ h2.bestCost,
          by rw [h3, h4, h5]; exact h2.bestIn, by rw [h4, h5]; exact h2.bestMin⟩

/-- **C06.** The search never panics. -/
theorem C06_search_never_panics (M : Space S C P) (o : Opts P) (fuel : Nat) (start : S) (ctx : C) :
    optimise M o fuel start ctx ≠ .panic := by
  unfold optimise
  rcases hc : M.cost start ctx with _ | c
  · simp
  · simp only
    rcases start_inv M o start ctx c hc with hp | ⟨q, e, hp, _, _, _, _, _, hl⟩
    · rw [hc] at hp; rw [hp]; simp
    · rw [hc] at hp; rw [hp]
      simp only
      rcases loop_spec M o fuel _ _ hl with hf | ⟨r', l', acc', h1, _⟩
      · rw [hf]; simp
      · rw [h1]; simp

/-- **C07 (visit budget).** With a visit budget `n`, at most `max n 1` states are expanded. -/
theorem C07_visit_budget (M : Space S C P) (o : Opts P) (fuel : Nat) (start : S) (ctx : C)
    (r : Out S P) (n : Nat) (hn : o.maxVisited = some n)
    (h : optimise M o fuel start ctx = .done r) : r.expanded.length ≤ max n 1 := by
  unfold optimise at h
  rcases hc : M.cost start ctx with _ | c
  · rw [hc] at h; simp at h
  · rw [hc] at h
    simp only at h
    rcases start_inv M o start ctx c hc with hp | ⟨q, e, hp, _, _, _, _, _, hl⟩
    · rw [hc] at hp; rw [hp] at h; simp at h
    · rw [hc] at hp; rw [hp] at h
      simp only at h
      rcases loop_spec M o fuel _ _ hl with hf | ⟨r', l', acc', h1, h2, h3, h4, h5, h6, h7, _⟩
      · rw [hf] at h; simp at h
      · rw [h1] at h
        simp only [Res.done.injEq] at h
        subst h
        exact h7 n hn (by simp)

theorem acc_length_le {M : Space S C P} {start : S} {F : Finset Nat}
    (hF : ∀ s ctx h, Reachable M start s → M.hash s ctx = some h → h ∈ F)
    {q : PQ S P} {acc : List (Entry S P)} (hi : PQueue.Inv q acc)
    (hg : ∀ e ∈ acc, Good M start e) : acc.length ≤ F.card := by
  have hsub : (acc.map Entry.hash).toFinset ⊆ F := by
    intro k hk
    rw [List.mem_toFinset] at hk
    obtain ⟨e, he, rfl⟩ := List.mem_map.1 hk
    obtain ⟨h1, ctx, _, h3⟩ := hg e he
    exact hF _ _ _ h1 h3
  have := Finset.card_le_card hsub
  rw [List.toFinset_card_of_nodup hi.accnd] at this
  simpa using this

theorem loop_terminates (M : Space S C P) (o : Opts P) {start : S} {c0 : P} {F : Finset Nat}
    (hF : ∀ s ctx h, Reachable M start s → M.hash s ctx = some h → h ∈ F) (fuel : Nat) :
    ∀ (l : Loop S C P) (acc : List (Entry S P)), LInv M start c0 l acc →
    F.card < l.expanded.length + fuel → loop M o fuel l ≠ .outOfFuel := by
  induction fuel with
  | zero =>
    intro l acc hl hlt
    have := acc_length_le hF hl.pq hl.good
    have := hl.count
    omega
  | succ fuel ih =>
    intro l acc hl hlt
    rcases iter_spec M o hl with ⟨hq, hpop⟩ | ⟨pq, e, pq', l', acc', hpop, hpush, rfl, hl'⟩
    · obtain ⟨nb, hf⟩ := finish_spec hl (o.tb l.expanded.length 0) false
      unfold loop; simp only [hpop]; rw [hf]; simp
    · have hrec := ih _ acc' hl' (by simp only [List.length_cons]; omega)
      obtain ⟨nb, hf⟩ := finish_spec hl' (o.tb l.expanded.length 0) true
      unfold loop
      simp only [hpop, hpush]
      split
      · rw [hf]; simp
      · split
        · split
          · rw [hf]; simp
          · exact hrec
        · exact hrec

/-- **C07 (termination).** If the states reachable from the start have finitely many hashes (all in
`F`), the search terminates after at most `F.card + 1` rounds, with or without budgets and
timeouts. -/
theorem C07_terminates (M : Space S C P) (o : Opts P) (start : S) (ctx : C) (F : Finset Nat)
    (hF : ∀ s ctx h, Reachable M start s → M.hash s ctx = some h → h ∈ F) (fuel : Nat)
    (hfuel : F.card < fuel) : optimise M o fuel start ctx ≠ .outOfFuel := by
  unfold optimise
  rcases hc : M.cost start ctx with _ | c
  · simp
  · simp only
    rcases start_inv M o start ctx c hc with hp | ⟨q, e, hp, _, _, _, _, _, hl⟩
    · rw [hc] at hp; rw [hp]; simp
    · rw [hc] at hp; rw [hp]
      simp only
      exact loop_terminates M o hF fuel _ _ hl (by simpa using hfuel)

/-! ## C08: the badger wrapper -/

/-- `BadgerOptimiser::badger` (`/repo/tket/src/optimiser/badger.rs` 204-222): the backtracking
optimiser followed by `.expect("optimisation failed")`. `none` is that panic (or one inside the
search). -/
def badger (M : Space S C P) (o : Opts P) (fuel : Nat) (start : S) (ctx : C) :
    Option (Res S P) :=
  match optimise M o fuel start ctx with
  | .failed => none
  | .panic => none
  | r => some r

/-- **C08 (partial).** With a positive queue size and a start circuit whose hash and cost can be
computed, badger does not panic. -/
theorem C08_badger_does_not_panic_partial (M : Space S C P) (o : Opts P) (fuel : Nat) (start : S)
    (ctx : C) (hq : 0 < o.queueSize) (hh : (M.hash start ctx).isSome)
    (hc : (M.cost start ctx).isSome) : badger M o fuel start ctx ≠ none := by
  obtain ⟨c, hc⟩ := Option.isSome_iff_exists.1 hc
  obtain ⟨h, hh⟩ := Option.isSome_iff_exists.1 hh
  have hreach : Reach o.queueSize o.trackNBest [] (PQ.new o.queueSize o.trackNBest : PQ S P) [] :=
    rfl
  obtain ⟨q', hp, _⟩ := (C05_push_behaviour hreach (o.tb 0 0) start h c).2 (by
    intro hr
    rcases hr with hr | hr | ⟨hr, _⟩
    · simp at hr
    · omega
    · simp [PQ.new] at hr; omega)
  have hnp := C06_search_never_panics M o fuel start ctx
  unfold badger
  have hopt : optimise M o fuel start ctx = loop M o fuel ⟨q', ctx, start, c, []⟩ := by
    unfold optimise
    rw [hc, hh]
    simp only
    rw [hp]
  have hl : optimise M o fuel start ctx ≠ .failed := by
    rcases start_inv M o start ctx c hc with hp' | ⟨q, e, hp', _, _, _, _, _, hl⟩
    · rw [hh, hc, hp] at hp'; simp at hp'
    · rw [hh, hc, hp] at hp'
      simp only [Option.some.injEq, Prod.mk.injEq] at hp'
      rw [hopt, hp'.1]
      rcases loop_spec M o fuel _ _ hl with hf | ⟨r', l', acc', h1, _⟩
      · rw [hf]; simp
      · rw [h1]; simp
  split
  · rename_i heq; exact absurd heq hl
  · rename_i heq; exact absurd heq hnp
  · simp

/-- **C08 (finding).** With `queue_size = 0` badger panics on every circuit. -/
theorem C08_badger_panics_on_zero_queue (M : Space S C P) (o : Opts P) (fuel : Nat) (start : S)
    (ctx : C) (hq : o.queueSize = 0) : badger M o fuel start ctx = none := by
  unfold badger optimise
  rcases hc : M.cost start ctx with _ | c
  · rfl
  · simp only
    rcases hh : M.hash start ctx with _ | h
    · rfl
    · have hreach : Reach o.queueSize o.trackNBest []
        (PQ.new o.queueSize o.trackNBest : PQ S P) [] := rfl
      have := (C05_push_behaviour hreach (o.tb 0 0) start h c).1 (Or.inr (Or.inl hq))
      rw [this]

/-! ## C52: exhaustive search finds the optimum -/

/-- The search space does not depend on the mutable context, every reachable state can be hashed
and costed, and distinct reachable states have distinct hashes. -/
structure Pure (M : Space S C P) (start : S) (hash : S → Nat) (cost : S → P)
    (next : S → List S) : Prop where
  hash_eq : ∀ s ctx, Reachable M start s → M.hash s ctx = some (hash s)
  cost_eq : ∀ s ctx, Reachable M start s → M.cost s ctx = some (cost s)
  next_eq : ∀ s ctx, Reachable M start s → (M.next s ctx).1 = next s
  inj : ∀ s t, Reachable M start s → Reachable M start t → hash s = hash t → s = t

/-- Extra invariant when no eviction can happen: accepted entries are queued or expanded, and the
successors of expanded states are accepted. -/
structure Closed (next : S → List S) (l : Loop S C P) (acc : List (Entry S P)) : Prop where
  split : ∀ e ∈ acc, (e.hash, e.cost) ∈ l.pq.queue ∨ (e.state, e.cost) ∈ l.expanded
  succ : ∀ x ∈ l.expanded, ∀ t ∈ next x.1, ∃ e ∈ acc, e.state = t

theorem pushAll_complete {M : Space S C P} {start : S} {hash : S → Nat} {cost : S → P}
    {next : S → List S} (hp : Pure M start hash cost next) {F : Finset Nat}
    (hF : ∀ s, Reachable M start s → hash s ∈ F) (ctx : C) (tb : Nat → TieBreak P)
    (l : List S) : ∀ (j : Nat) (q : PQ S P) (acc : List (Entry S P)),
    PQueue.Inv q acc → (∀ e ∈ acc, Good M start e) → (∀ t ∈ l, Reachable M start t) →
    F.card ≤ q.maxSize → q.queue.length ≤ acc.length →
    ∃ q' acc', pushAll M ctx tb j q l = some q' ∧ PQueue.Inv q' acc' ∧
      (∀ e ∈ acc', Good M start e) ∧ (∀ e ∈ acc, e ∈ acc') ∧
      (∀ x ∈ q.queue, x ∈ q'.queue) ∧ q'.maxSize = q.maxSize ∧
      (∀ e ∈ acc', e ∈ acc ∨ (e.hash, e.cost) ∈ q'.queue) ∧
      (∀ t ∈ l, ∃ e ∈ acc', e.state = t) ∧
      q'.queue.length + acc.length = q.queue.length + acc'.length := by
  induction l with
  | nil =>
    intro j q acc hi hg _ _ _
    exact ⟨q, acc, rfl, hi, hg, fun _ h => h, fun _ h => h, rfl, fun _ h => Or.inl h, by simp, rfl⟩
  | cons s rest ih =>
    intro j q acc hi hg hr hcard hlen
    have hrs := hr s List.mem_cons_self
    have hFc : ∀ s ctx h, Reachable M start s → M.hash s ctx = some h → h ∈ F := by
      intro s ctx h hrs hh
      rw [hp.hash_eq s ctx hrs] at hh
      simp only [Option.some.injEq] at hh
      exact hh ▸ hF s hrs
    unfold pushAll
    rw [hp.hash_eq s ctx hrs, hp.cost_eq s ctx hrs]
    have hpu : q.push (tb j) s (some (hash s)) (some (cost s)) =
      q.pushUnchecked (tb j) s (hash s) (cost s) := rfl
    rcases pushUnchecked_spec hi (tb j) s (hash s) (cost s) with ⟨h1, h2⟩ | ⟨q1, h1, h2, h3, h4, h5⟩
    · -- refused: must be a known hash
      rw [hpu, h1]
      have hknown : hash s ∈ acc.map Entry.hash := by
        by_contra hnot
        -- then acc together with this state still fits in F
        have hlt : acc.length < F.card := by
          have hsub : insert (hash s) (acc.map Entry.hash).toFinset ⊆ F := by
            intro k hk
            rw [Finset.mem_insert, List.mem_toFinset] at hk
            rcases hk with rfl | hk
            · exact hF s hrs
            · obtain ⟨e, he, rfl⟩ := List.mem_map.1 hk
              obtain ⟨a, c, _, b⟩ := hg e he
              exact hFc _ _ _ a b
          have := Finset.card_le_card hsub
          rw [Finset.card_insert_of_notMem (by simpa using hnot),
            List.toFinset_card_of_nodup hi.accnd, List.length_map] at this
          omega
        rcases h2 with h2 | ⟨h2, _⟩ | h2
        · omega
        · omega
        · exact hnot h2
      obtain ⟨q2, acc2, a1, a2, a3, a4, a5, a6, a7, a8, a9⟩ := ih (j + 1) q acc hi hg
        (fun t ht => hr t (List.mem_cons_of_mem _ ht)) hcard hlen
      refine ⟨q2, acc2, a1, a2, a3, a4, a5, a6, a7, ?_, a9⟩
      intro t ht
      rcases List.mem_cons.1 ht with rfl | ht
      · obtain ⟨e, he, heq⟩ := List.mem_map.1 hknown
        refine ⟨e, a4 e he, ?_⟩
        obtain ⟨h1, ctx', _, h3⟩ := hg e he
        rw [hp.hash_eq _ ctx' h1] at h3
        simp only [Option.some.injEq] at h3
        exact hp.inj _ _ h1 hrs (h3.trans heq)
      · exact a8 t ht
    · rw [hpu, h1]
      simp only
      -- no eviction: the queue had room
      have hroom : q.queue.length < q.maxSize ∧ q1.queue = (hash s, cost s) :: q.queue := by
        rcases h5 with h5 | ⟨_, hfull, _⟩
        · exact h5
        · exfalso
          have hg' : ∀ e ∈ (⟨s, cost s, hash s⟩ :: acc : List (Entry S P)), Good M start e := by
            intro e he
            rcases List.mem_cons.1 he with rfl | he
            · exact ⟨hrs, ctx, hp.cost_eq s ctx hrs, hp.hash_eq s ctx hrs⟩
            · exact hg e he
          have := acc_length_le hFc h2 hg'
          simp only [List.length_cons] at this
          omega
      obtain ⟨_, hq1⟩ := hroom
      obtain ⟨q2, acc2, a1, a2, a3, a4, a5, a6, a7, a8, a9⟩ := ih (j + 1) q1
        (⟨s, cost s, hash s⟩ :: acc) h2 (by
          intro e he
          rcases List.mem_cons.1 he with rfl | he
          · exact ⟨hrs, ctx, hp.cost_eq s ctx hrs, hp.hash_eq s ctx hrs⟩
          · exact hg e he) (fun t ht => hr t (List.mem_cons_of_mem _ ht)) (by rw [h3]; exact hcard)
          (by rw [hq1]; simp only [List.length_cons]; omega)
      refine ⟨q2, acc2, a1, a2, a3, fun e he => a4 e (List.mem_cons_of_mem _ he), ?_,
        by rw [a6, h3], ?_, ?_, ?_⟩
      · intro x hx; exact a5 x (by rw [hq1]; exact List.mem_cons_of_mem _ hx)
      · intro e he
        rcases a7 e he with h | h
        · rcases List.mem_cons.1 h with rfl | h
          · right; exact a5 _ (by rw [hq1]; exact List.mem_cons_self)
          · left; exact h
        · right; exact h
      · intro t ht
        rcases List.mem_cons.1 ht with rfl | ht
        · exact ⟨_, a4 _ List.mem_cons_self, rfl⟩
        · exact a8 t ht
      · rw [hq1] at a9; simp only [List.length_cons] at a9; omega

theorem loop_optimal {M : Space S C P} {start : S} {hash : S → Nat} {cost : S → P}
    {next : S → List S} (hp : Pure M start hash cost next) (o : Opts P) {F : Finset Nat}
    (hF : ∀ s, Reachable M start s → hash s ∈ F) (hclk : ∀ i, o.clock i = false)
    (hmv : o.maxVisited = none) {c0 : P} (fuel : Nat) :
    ∀ (l : Loop S C P) (acc : List (Entry S P)), LInv M start c0 l acc → Closed next l acc →
    F.card ≤ l.pq.maxSize → (∃ e ∈ acc, e.state = start) → ∀ r, loop M o fuel l = .done r →
    ∀ s, Reachable M start s → r.bestCost ≤ cost s := by
  induction fuel with
  | zero => intro l acc _ _ _ _ r h; simp [loop] at h
  | succ fuel ih =>
    intro l acc hl hcl hcard hstart r hr s hs
    by_cases hq : l.pq.queue = []
    · -- finished: the expanded states are closed under successors
      obtain ⟨nb, hf⟩ := finish_spec hl (o.tb l.expanded.length 0) false
      unfold loop at hr
      simp only [pop_nil _ hq] at hr
      rw [hf] at hr
      simp only [Res.done.injEq] at hr
      subst hr
      have hall : ∀ t, Reachable M start t → ∃ c, (t, c) ∈ l.expanded := by
        intro t ht
        have hacc : ∃ e ∈ acc, e.state = t := by
          induction ht with
          | refl => exact hstart
          | step hs' hst ih2 =>
            obtain ⟨e, he, rfl⟩ := ih2
            obtain ⟨ctx, hmem⟩ := hst
            rw [hp.next_eq _ ctx hs'] at hmem
            rcases hcl.split e he with h | h
            · rw [hq] at h; simp at h
            · exact hcl.succ _ h _ hmem
        obtain ⟨e, he, rfl⟩ := hacc
        rcases hcl.split e he with h | h
        · rw [hq] at h; simp at h
        · exact ⟨_, h⟩
      obtain ⟨c, hc⟩ := hall s hs
      have h1 := hl.bestMin _ hc
      obtain ⟨e, he, he1, he2⟩ := hl.expAcc _ hc
      obtain ⟨_, ctx, h3, _⟩ := hl.good e he
      simp only at he1 he2
      rw [he1, hp.cost_eq s ctx hs, he2] at h3
      simp only [Option.some.injEq] at h3
      simp only at h1
      rw [h3]; exact h1
    · obtain ⟨e, st, he, hmin, hacc, hlk, hr', hqq, hmx, _, _, hinv⟩ :=
        pop_spec hl.pq (o.tb l.expanded.length 0) hq
      have hgood := hl.good _ hacc
      have hrst : Reachable M start st := hgood.1
      have hdl := dropKey_length_of_mem hl.pq.qnd he
      have hcnt := hl.count
      obtain ⟨q2, acc2, a1, a2, a3, a4, a5, a6, a7, a8, a9⟩ := pushAll_complete hp hF
        (M.next st l.ctx).2 (o.tb l.expanded.length) (M.next st l.ctx).1 1
        (l.pq.pop (o.tb l.expanded.length 0)).1 acc hinv hl.good
        (fun t ht => Reachable.step hrst ⟨l.ctx, ht⟩) (by rw [hmx]; exact hcard)
        (by rw [hqq]; omega)
      rcases iter_spec M o hl with ⟨hq', _⟩ | ⟨pq, e', pq', l', acc', hpop, hpush, rfl, hl'⟩
      · exact absurd hq' hq
      · unfold loop at hr
        simp only [hpop, hpush, hclk, hmv] at hr
        have hpe : (pq, some e') = ((l.pq.pop (o.tb l.expanded.length 0)).1,
            some (⟨st, e.2, e.1⟩ : Entry S P)) := by
          rw [← hpop]; exact Prod.ext rfl hr'
        have hpe1 := (Prod.mk.inj hpe).1
        have hpe2 := Option.some.inj (Prod.mk.inj hpe).2
        subst hpe1 hpe2
        have hq2 : q2 = pq' := Option.some.inj (a1.symm.trans hpush)
        subst hq2
        -- transfer the invariant to the accumulated list `acc2`
        have hl2 : LInv M start c0 (⟨q2, (M.next st l.ctx).2,
            if e.2 < l.bestCost then st else l.best,
            if e.2 < l.bestCost then e.2 else l.bestCost, (st, e.2) :: l.expanded⟩ : Loop S C P)
            acc2 := by
          refine ⟨a2, a3, ?_, ?_, hl'.bestReach, hl'.bestCost, hl'.bestLe, hl'.bestMin, hl'.bestIn⟩
          · rw [hqq] at a9; simp only [List.length_cons]; omega
          · intro x hx
            rcases List.mem_cons.1 hx with rfl | hx
            · exact ⟨_, a4 _ hacc, rfl, rfl⟩
            · obtain ⟨y, hy, hy2⟩ := hl.expAcc x hx
              exact ⟨y, a4 y hy, hy2⟩
        refine ih _ acc2 hl2 ?_ (by rw [a6, hmx]; exact hcard) ?_ r (by simpa using hr) s hs
        · constructor
          · intro x hx
            rcases a7 x hx with h | h
            · rcases hcl.split x h with h | h
              · by_cases hxe : x.hash = e.1
                · right
                  have : x = ⟨st, e.2, e.1⟩ := acc_unique hl.pq.accnd (by assumption) hacc hxe
                  rw [this]; exact List.mem_cons_self
                · left; exact a5 _ (by rw [hqq]; exact mem_dropKey.2 ⟨h, hxe⟩)
              · right; exact List.mem_cons_of_mem _ h
            · left; exact h
          · intro x hx t ht
            rcases List.mem_cons.1 hx with rfl | hx
            · simp only at ht
              exact a8 t (by rw [hp.next_eq st l.ctx hrst]; exact ht)
            · obtain ⟨y, hy, hy2⟩ := hcl.succ x hx t ht
              exact ⟨y, a4 y hy, hy2⟩
        · obtain ⟨y, hy, hy2⟩ := hstart
          exact ⟨y, a4 y hy, hy2⟩

/-- **C52.** If the queue can hold all reachable states, no timeout or budget stops the search, and
hashes do not collide, the result has the minimal cost among *all* states reachable from the
start. -/
theorem C52_exhaustive_search_optimal {M : Space S C P} {start : S} {hash : S → Nat} {cost : S → P}
    {next : S → List S} (hp : Pure M start hash cost next) (o : Opts P) (F : Finset Nat)
    (hF : ∀ s, Reachable M start s → hash s ∈ F) (hcap : F.card ≤ o.queueSize)
    (hclk : ∀ i, o.clock i = false) (hmv : o.maxVisited = none) (fuel : Nat) (ctx : C)
    (r : Out S P) (h : optimise M o fuel start ctx = .done r) :
    ∀ s, Reachable M start s → r.bestCost ≤ cost s := by
  unfold optimise at h
  have hc := hp.cost_eq start ctx Reachable.refl
  rw [hc] at h
  simp only at h
  rcases start_inv M o start ctx _ hc with hp' | ⟨q, e, hp', h1, h2, h3, h4, h5, hl⟩
  · rw [hc] at hp'; rw [hp'] at h; simp at h
  · rw [hc] at hp'; rw [hp'] at h
    simp only at h
    refine loop_optimal hp o hF hclk hmv fuel _ _ hl ?_ (by rw [h5]; exact hcap)
      ⟨e, List.mem_singleton.2 rfl, h2⟩ r h
    constructor
    · intro x hx
      rw [List.mem_singleton] at hx
      subst hx
      left
      -- the freshly pushed entry is in the queue
      rw [hp.hash_eq start ctx Reachable.refl] at hp'
      have hreach : Reach o.queueSize o.trackNBest []
        (PQ.new o.queueSize o.trackNBest : PQ S P) [] := rfl
      have hpos : 0 < o.queueSize := lt_of_lt_of_le
        (Finset.card_pos.2 ⟨_, hF start Reachable.refl⟩) hcap
      obtain ⟨q', hq', hcase⟩ := (C05_push_behaviour hreach (o.tb 0 0) start (hash start)
        (cost start)).2 (by
          intro hr
          rcases hr with hr | hr | ⟨hr, _⟩
          · simp at hr
          · omega
          · simp [PQ.new] at hr; omega)
      rw [hq'] at hp'
      simp only [Option.some.injEq, Prod.mk.injEq] at hp'
      obtain ⟨rfl, rfl⟩ := hp'
      rcases hcase with ⟨_, hperm⟩ | ⟨hlen, _⟩
      · exact hperm.mem_iff.2 List.mem_cons_self
      · simp [PQ.new] at hlen; omega
    · simp

/-! ## Examples -/

/-- Count down from `n` to zero: successors of `k+1` are `k` (twice) and `k+1`. -/
def countdown : Space Nat Unit Nat where
  hash s _ := some s
  cost s _ := some s
  next s u := (if s = 0 then [] else [s - 1, s, s - 1], u)

def plainOpts (q : Nat) (mv nb : Option Nat) : Opts Nat :=
  ⟨q, fun _ => false, mv, nb, fun _ _ => .recent⟩

theorem countdown_reachable {n s : Nat} (h : Reachable countdown n s) : s ≤ n := by
  induction h with
  | refl => exact le_refl _
  | step _ hst ih =>
    obtain ⟨ctx, hm⟩ := hst
    simp only [countdown] at hm
    split at hm
    · simp at hm
    · simp only [List.mem_cons, List.not_mem_nil, or_false] at hm
      omega

/-- The hypotheses of C06, C07 and C52 are met by a concrete search. -/
example : (∃ r, optimise countdown (plainOpts 4 none (some 2)) 10 3 () = .done r ∧ r.best = 0 ∧
      r.nBest = some [0, 1] ∧ r.expanded.length = 4) ∧
    (∃ r, optimise countdown (plainOpts 4 (some 2) none) 10 3 () = .done r ∧ r.best = 2 ∧
      r.expanded.length = 2) ∧
    Pure countdown 3 id id (fun s => if s = 0 then [] else [s - 1, s, s - 1]) ∧
    (∀ s, Reachable countdown 3 s → s ∈ Finset.range 4) ∧ (Finset.range 4).card ≤ 4 := by
  refine ⟨⟨_, rfl, by decide, by decide, by decide⟩, ⟨_, rfl, by decide, by decide⟩,
    ⟨fun _ _ _ => rfl, fun _ _ _ => rfl, fun _ _ _ => rfl, fun _ _ _ _ h => h⟩, ?_, by decide⟩
  intro s hs
  exact Finset.mem_range.2 (Nat.lt_succ_of_le (countdown_reachable hs))

/-- **C53 (finding).** The returned state need not be the cheapest state *discovered*: a cheaper
successor that is still queued when the budget runs out is not returned as the best state (it only
shows up in the best-N list). -/
theorem C53_discovered_better_state_not_returned :
    ∃ r, optimise countdown (plainOpts 4 (some 1) (some 1)) 10 3 () = .done r ∧
      r.best = 3 ∧ r.nBest = some [2] :=
  ⟨_, rfl, by decide, by decide⟩

end Tket.Backtracking
