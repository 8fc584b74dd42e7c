import Verif.Lemmas.PQueue
import Mathlib.Data.List.Sort

/-!
# Properties C01-C05 and C51: the optimiser's state queue

All theorems quantify over every history of calls from a freshly created queue, with every
capacity, best-N setting, element type and tie-breaking behaviour of the priority queue.
-/

namespace Tket.PQueue

set_option linter.unusedSectionVars false

variable {S P : Type} [LinearOrder P]

/-- The queue state `q` arises from a new queue by the calls in `hist`, none of which panicked;
`acc` lists the entries the `push` calls returned (latest first). -/
def Reach (maxSize : Nat) (nBest : Option Nat) (hist : History S P) (q : PQ S P)
    (acc : List (Entry S P)) : Prop :=
  run (PQ.new maxSize nBest) [] hist = some (q, acc)

theorem reach_inv {m : Nat} {nb : Option Nat} {hist : History S P} {q : PQ S P}
    {acc : List (Entry S P)} (h : Reach m nb hist q acc) : Inv q acc ∧ q.maxSize = m := by
  obtain ⟨q', acc', h1, h2, h3, _⟩ := run_inv (inv_new (S := S) (P := P) m nb) hist
  rw [Reach, h1] at h
  simp only [Option.some.injEq, Prod.mk.injEq] at h
  obtain ⟨rfl, rfl⟩ := h
  exact ⟨h2, h3⟩

/-- **C01.** No history of calls panics; afterwards the queue is within its capacity, every queued
hash still has its circuit, a pop on a non-empty queue yields an entry, and extracting the best-N
list does not panic (it returns a list exactly when best-N tracking was requested). -/
theorem C01_no_dangling_entries (m : Nat) (nb : Option Nat) (hist : History S P) :
    ∃ q acc, Reach m nb hist q acc ∧ q.queue.length ≤ m ∧
      (∀ e ∈ q.queue, (q.lookup e.1).isSome) ∧
      (∀ tb, q.queue ≠ [] → (q.pop tb).2.isSome ∧ (q.popMax tb).2.isSome) ∧
      (∀ tb, ∃ r, q.intoAllTimeBest tb = some r ∧ (r.isSome ↔ nb.isSome)) := by
  obtain ⟨q, acc, h1, hi, h3, _⟩ := run_inv (inv_new (S := S) (P := P) m nb) hist
  refine ⟨q, acc, h1, ?_, ?_, ?_, ?_⟩
  · have := hi.qlen; rw [h3] at this; exact this
  · intro e he
    obtain ⟨s, hs, _⟩ := hi.qlk e he
    simp [hs]
  · intro tb hne
    obtain ⟨e, s, _, _, _, _, h, _⟩ := pop_spec hi tb hne
    obtain ⟨e', s', _, _, _, _, _, h', _⟩ := popMax_spec hi tb hne
    simp [h, h']
  · intro tb
    have hcap := run_atb_cap h1
    unfold PQ.intoAllTimeBest
    rcases hatb : q.atb with _ | ⟨n, l⟩
    · refine ⟨none, rfl, ?_⟩
      rw [hatb] at hcap
      cases nb <;> simp [PQ.new] at hcap ⊢
    · have hperm := tb.sort_perm l
      obtain ⟨es, h, _, _⟩ := drain_spec (tb.sort l) q.lookup
        ((hperm.map Prod.fst).nodup_iff.2 (hi.and n l hatb))
        (fun e he => hi.alk n l hatb e (hperm.mem_iff.1 he))
      refine ⟨some (es.map Entry.state), by simp [h], ?_⟩
      rw [hatb] at hcap
      cases nb <;> simp [PQ.new] at hcap ⊢

/-- **C02.** A pop on a non-empty queue returns a held entry of minimal cost (for `pop_max`:
maximal), with the state that was accepted under that hash, and removes exactly that entry. -/
theorem C02_pop_returns_extremal {m : Nat} {nb : Option Nat} {hist : History S P} {q : PQ S P}
    {acc : List (Entry S P)} (h : Reach m nb hist q acc) (tb : TieBreak P) (hne : q.queue ≠ []) :
    (∃ e ∈ acc, (q.pop tb).2 = some e ∧ (∀ x ∈ q.queue, e.cost ≤ x.2) ∧
      q.queue.Perm ((e.hash, e.cost) :: (q.pop tb).1.queue)) ∧
    (∃ e ∈ acc, (q.popMax tb).2 = some e ∧ (∀ x ∈ q.queue, x.2 ≤ e.cost) ∧
      q.queue.Perm ((e.hash, e.cost) :: (q.popMax tb).1.queue)) := by
  obtain ⟨hi, _⟩ := reach_inv h
  constructor
  · obtain ⟨e, s, he, hmin, hacc, _, hr, hq, _⟩ := pop_spec hi tb hne
    refine ⟨⟨s, e.2, e.1⟩, hacc, hr, hmin, ?_⟩
    rw [hq]; exact dropKey_perm_of_mem hi.qnd he
  · obtain ⟨e, s, he, hmax, _, hacc, _, hr, hq, _⟩ := popMax_spec hi tb hne
    refine ⟨⟨s, e.2, e.1⟩, hacc, hr, hmax, ?_⟩
    rw [hq]; exact dropKey_perm_of_mem hi.qnd he

/-- A pop on an empty queue returns nothing and changes nothing. -/
theorem C02_pop_empty (q : PQ S P) (tb : TieBreak P) (h : q.queue = []) :
    q.pop tb = (q, none) ∧ q.popMax tb = (q, none) :=
  ⟨pop_nil tb h, popMax_nil tb h⟩

/-- **C03.** Over any history, no hash is accepted twice. -/
theorem C03_hash_accepted_once {m : Nat} {nb : Option Nat} {hist : History S P} {q : PQ S P}
    {acc : List (Entry S P)} (h : Reach m nb hist q acc) : (acc.map Entry.hash).Nodup :=
  (reach_inv h).1.accnd

/-- **C05.** Exact behaviour of a push in every reachable state: it is refused (changing nothing)
exactly when the hash was accepted before, the capacity is zero, or the queue is full and no held
entry is strictly more expensive. Otherwise the pushed entry is returned; with room everything
else is kept, and in a full queue the single dropped entry has maximal cost and is strictly more
expensive than the new one. -/
theorem C05_push_behaviour {m : Nat} {nb : Option Nat} {hist : History S P} {q : PQ S P}
    {acc : List (Entry S P)} (h : Reach m nb hist q acc) (tb : TieBreak P) (s : S) (k : Nat)
    (c : P) :
    let refused := k ∈ acc.map Entry.hash ∨ m = 0 ∨
      (q.queue.length = m ∧ ∀ x ∈ q.queue, x.2 ≤ c)
    (refused → q.push tb s (some k) (some c) = some (q, none)) ∧
    (¬ refused → ∃ q', q.push tb s (some k) (some c) = some (q', some ⟨s, c, k⟩) ∧
      ((q.queue.length < m ∧ q'.queue.Perm ((k, c) :: q.queue)) ∨
       (q.queue.length = m ∧ ∃ w ∈ q.queue, (∀ x ∈ q.queue, x.2 ≤ w.2) ∧ c < w.2 ∧
          (w :: q'.queue).Perm ((k, c) :: q.queue)))) := by
  intro refused
  obtain ⟨hi, hm⟩ := reach_inv h
  have hpush : q.push tb s (some k) (some c) = q.pushUnchecked tb s k c := rfl
  rcases pushUnchecked_spec hi tb s k c with ⟨h1, h2⟩ | ⟨q', h1, _, _, h4, h5⟩
  · refine ⟨fun _ => by rw [hpush, h1], fun hn => ?_⟩
    exfalso; apply hn
    rw [hm] at h2
    tauto
  · refine ⟨fun hr => ?_, fun _ => ⟨q', by rw [hpush, h1], ?_⟩⟩
    · exfalso
      rw [hm] at h5
      rcases hr with hr | hr | ⟨hr1, hr2⟩
      · exact h4 hr
      · rcases h5 with ⟨h5, _⟩ | ⟨h5, _⟩ <;> omega
      · rcases h5 with ⟨h5, _⟩ | ⟨_, _, e, he, _, hc, _⟩
        · omega
        · exact absurd (hr2 e he) (not_le.2 hc)
    · rw [hm] at h5
      rcases h5 with ⟨h5, h6⟩ | ⟨_, h5, e, he, hmax, hc, hq⟩
      · left; exact ⟨h5, by rw [h6]⟩
      · right
        refine ⟨h5, e, he, hmax, hc, ?_⟩
        rw [hq]
        exact (List.Perm.swap _ _ _).trans (((dropKey_perm_of_mem hi.qnd he).symm).cons _)

/-- A push whose hash or cost cannot be computed is refused and changes nothing. -/
theorem C05_push_uncomputable (q : PQ S P) (tb : TieBreak P) (s : S) (hash : Option Nat)
    (cost : Option P) (h : hash = none ∨ cost = none) :
    q.push tb s hash cost = some (q, none) := by
  rcases h with rfl | rfl
  · rfl
  · cases hash <;> rfl

/-- **C04.** With best-N tracking, the final list consists of the states of some accepted entries
`es`: it is sorted by cost, has no repetition, has length `min N (number accepted)`, and no accepted
entry left out is strictly cheaper than one returned. -/
theorem C04_best_n_correct {m n : Nat} {hist : History S P} {q : PQ S P}
    {acc : List (Entry S P)} (h : Reach m (some n) hist q acc) (tb : TieBreak P) :
    ∃ es : List (Entry S P), q.intoAllTimeBest tb = some (some (es.map Entry.state)) ∧
      (∀ e ∈ es, e ∈ acc) ∧ (es.map Entry.hash).Nodup ∧
      es.Pairwise (fun a b => a.cost ≤ b.cost) ∧
      es.length = min n acc.length ∧
      (∀ a ∈ acc, a ∉ es → ∀ e ∈ es, e.cost ≤ a.cost) := by
  obtain ⟨hi, _⟩ := reach_inv h
  have hcap := run_atb_cap h
  rcases hatb : q.atb with _ | ⟨n', l⟩
  · rw [hatb] at hcap; simp [PQ.new] at hcap
  · rw [hatb] at hcap
    simp only [PQ.new, Option.map_some, Option.some.injEq] at hcap
    subst hcap
    have hperm := tb.sort_perm l
    obtain ⟨es, h1, h2, h3⟩ := drain_spec (tb.sort l) q.lookup
      ((hperm.map Prod.fst).nodup_iff.2 (hi.and _ l hatb))
      (fun e he => hi.alk _ l hatb e (hperm.mem_iff.1 he))
    have hmem : ∀ e, e ∈ es → (e.hash, e.cost) ∈ l := by
      intro e he
      apply hperm.mem_iff.1
      rw [← h3]
      exact List.mem_map.2 ⟨e, he, rfl⟩
    have hkeys : es.map Entry.hash = (tb.sort l).map Prod.fst := by
      rw [← h3, List.map_map]; rfl
    refine ⟨es, ?_, h2, ?_, ?_, ?_, ?_⟩
    · simp [PQ.intoAllTimeBest, hatb, h1]
    · rw [hkeys]; exact (hperm.map Prod.fst).nodup_iff.2 (hi.and _ l hatb)
    · have := tb.sort_sorted l
      rw [← h3, List.pairwise_map] at this
      exact this
    · have : es.length = (tb.sort l).length := by rw [← h3]; simp
      rw [this, hperm.length_eq, hi.alen _ l hatb]
    · intro a ha hna e he
      refine hi.abest _ l hatb a ha ?_ _ (hmem e he)
      intro hh
      have : a.hash ∈ es.map Entry.hash := by
        rw [hkeys]; exact (hperm.map Prod.fst).mem_iff.2 hh
      obtain ⟨x, hx, hxa⟩ := List.mem_map.1 this
      have : x = a := acc_unique hi.accnd (h2 x hx) ha hxa
      exact hna (this ▸ hx)

/-- **C51 (partial).** With best-N tracking the queue stores no circuit other than those still
queued or in the best-N list, so its memory is bounded by `capacity + N`. -/
theorem C51_memory_released_partial {m n : Nat} {hist : History S P} {q : PQ S P}
    {acc : List (Entry S P)} (h : Reach m (some n) hist q acc) :
    ∃ l, q.atb = some (n, l) ∧ l.length ≤ n ∧ q.queue.length ≤ m ∧
      ∀ k, (q.lookup k).isSome → k ∈ q.queue.map Prod.fst ∨ k ∈ l.map Prod.fst := by
  obtain ⟨hi, hm⟩ := reach_inv h
  have hcap := run_atb_cap h
  rcases hatb : q.atb with _ | ⟨n', l⟩
  · rw [hatb] at hcap; simp [PQ.new] at hcap
  · rw [hatb] at hcap
    simp only [PQ.new, Option.map_some, Option.some.injEq] at hcap
    subst hcap
    refine ⟨l, rfl, ?_, ?_, hi.rel _ l hatb⟩
    · rw [hi.alen _ l hatb]; exact Nat.min_le_left _ _
    · rw [← hm]; exact hi.qlen

/-! ## A concrete tie-breaking rule, for examples and counterexamples -/

/-- First entry of minimal cost w.r.t. `le`. -/
def pickBy (le : P → P → Bool) : List (Item P) → Option (Item P)
  | [] => none
  | a :: t =>
    match pickBy le t with
    | none => some a
    | some b => if le a.2 b.2 then some a else some b

theorem pickBy_nil_iff (le : P → P → Bool) (l : List (Item P)) : pickBy le l = none ↔ l = [] := by
  cases l with
  | nil => simp [pickBy]
  | cons a t =>
    simp only [pickBy, reduceCtorEq, iff_false]
    split
    · simp
    · split <;> simp

theorem pickBy_min (l : List (Item P)) (hl : l ≠ []) :
    ∃ e, pickBy (fun a b => decide (a ≤ b)) l = some e ∧ e ∈ l ∧ ∀ e' ∈ l, e.2 ≤ e'.2 := by
  induction l with
  | nil => simp at hl
  | cons a t ih =>
    by_cases ht : t = []
    · subst ht; exact ⟨a, by simp [pickBy], by simp, by simp⟩
    · obtain ⟨e, h1, h2, h3⟩ := ih ht
      simp only [pickBy, h1]
      by_cases hae : a.2 ≤ e.2
      · refine ⟨a, by simp [hae], by simp, ?_⟩
        intro e' he'
        rcases List.mem_cons.1 he' with rfl | he'
        · exact le_refl _
        · exact le_trans hae (h3 e' he')
      · refine ⟨e, by simp [hae], List.mem_cons_of_mem _ h2, ?_⟩
        intro e' he'
        rcases List.mem_cons.1 he' with rfl | he'
        · exact le_of_lt (not_le.1 hae)
        · exact h3 e' he'

theorem pickBy_max (l : List (Item P)) (hl : l ≠ []) :
    ∃ e, pickBy (fun a b => decide (b ≤ a)) l = some e ∧ e ∈ l ∧ ∀ e' ∈ l, e'.2 ≤ e.2 := by
  induction l with
  | nil => simp at hl
  | cons a t ih =>
    by_cases ht : t = []
    · subst ht; exact ⟨a, by simp [pickBy], by simp, by simp⟩
    · obtain ⟨e, h1, h2, h3⟩ := ih ht
      simp only [pickBy, h1]
      by_cases hae : e.2 ≤ a.2
      · refine ⟨a, by simp [hae], by simp, ?_⟩
        intro e' he'
        rcases List.mem_cons.1 he' with rfl | he'
        · exact le_refl _
        · exact le_trans (h3 e' he') hae
      · refine ⟨e, by simp [hae], List.mem_cons_of_mem _ h2, ?_⟩
        intro e' he'
        rcases List.mem_cons.1 he' with rfl | he'
        · exact le_of_lt (not_le.1 hae)
        · exact h3 e' he'

/-- Ties are broken towards the most recently pushed entry. -/
def TieBreak.recent : TieBreak P where
  min := pickBy (fun a b => decide (a ≤ b))
  max := pickBy (fun a b => decide (b ≤ a))
  sort := List.insertionSort (fun a b => a.2 ≤ b.2)
  min_nil := rfl
  max_nil := rfl
  min_some := pickBy_min
  max_some := pickBy_max
  sort_perm := fun l => List.perm_insertionSort _ l
  sort_sorted := fun l => by
    have : Std.Total (fun a b : Item P => a.2 ≤ b.2) := ⟨fun a b => le_total a.2 b.2⟩
    have : IsTrans (Item P) (fun a b : Item P => a.2 ≤ b.2) :=
      ⟨fun _ _ _ h h' => le_trans h h'⟩
    exact List.pairwise_insertionSort _ l

/-- A history exercising acceptance, refusal by duplicate hash, eviction and pops. -/
def exampleHistory : History String Nat :=
  [ (.recent, .push "a" (some 1) (some 5)), (.recent, .push "b" (some 2) (some 3)),
    (.recent, .push "a'" (some 1) (some 4)), (.recent, .push "c" (some 3) (some 1)),
    (.recent, .push "d" (some 4) (some 9)), (.recent, .pop), (.recent, .push "e" (some 5) (some 2)) ]

/-- The example history is reachable with capacity 2 and best-2 tracking: entries `a`, `b`, `c`,
`e` are accepted, and the best-2 list is `c, e`. -/
example : ∃ q acc, Reach 2 (some 2) exampleHistory q acc ∧ q.queue ≠ [] ∧
    acc.map Entry.state = ["e", "c", "b", "a"] ∧
    q.intoAllTimeBest .recent = some (some ["c", "e"]) := by
  refine ⟨_, _, rfl, ?_, ?_, ?_⟩ <;> decide

/-- **C01 (finding).** `truncate` (present in the source, currently unused) deletes circuits that
the best-N list still refers to, so the later extraction panics. -/
theorem C01_truncate_then_extract_panics :
    ∃ (hist : History String Nat) (q : PQ String Nat) (acc : List (Entry String Nat))
      (q' : PQ String Nat),
      Reach 2 (some 2) hist q acc ∧ q.truncate .recent 1 = some q' ∧
      q'.intoAllTimeBest .recent = none :=
  ⟨[(.recent, .push "a" (some 1) (some 5)), (.recent, .push "b" (some 2) (some 3))],
    _, _, _, rfl, rfl, by decide⟩

/-- Push `n` distinct states, popping each one immediately. -/
def leakHistory : Nat → History Nat Nat
  | 0 => []
  | n + 1 => (.recent, .push n (some n) (some 0)) :: (.recent, .pop) :: leakHistory n

theorem leak_run (n : Nat) : ∀ (q : PQ Nat Nat) (acc : List (Entry Nat Nat)),
    q.queue = [] → q.atb = none → q.maxSize = 1 → (∀ k, k < n → k ∉ q.seen ∧ q.lookup k = none) →
    ∃ q' acc', run q acc (leakHistory n) = some (q', acc') ∧ q'.queue = [] ∧
      (∀ k, k < n → q'.lookup k = some k) ∧ (∀ k, n ≤ k → q'.lookup k = q.lookup k) := by
  induction n with
  | zero =>
    intro q acc h _ _ _
    exact ⟨q, acc, rfl, h, fun k hk => absurd hk (Nat.not_lt_zero k), fun _ _ => rfl⟩
  | succ n ih =>
    intro q acc hq ha hm hs
    obtain ⟨hs1, hs2⟩ := hs n (Nat.lt_succ_self n)
    let q1 : PQ Nat Nat :=
      { q with queue := [], seen := n :: q.seen, lookup := lookupOrInsert q.lookup n n }
    have hpush : step .recent q (.push n (some n) (some 0)) =
        some ({ q1 with queue := [(n, 0)] }, some ⟨n, 0, n⟩) := by
      simp [step, PQ.push, PQ.pushUnchecked, PQ.checkAccepted, hm, hq, hs1, dpqPush, dropKey,
        PQ.pushAtb, ha, lookupOrInsert, hs2, q1]
    have hpop : step .recent { q1 with queue := [(n, 0)] } .pop = some (q1, some ⟨n, 0, n⟩) := by
      simp [step, PQ.pop, TieBreak.recent, pickBy, PQ.takeState, PQ.notInAtb, ha, dropKey,
        lookupOrInsert, hs2, q1]
    obtain ⟨q', acc', h1, h2, h3, h4⟩ := ih q1 (⟨n, 0, n⟩ :: acc) rfl ha hm (by
      intro k hk
      obtain ⟨a, b⟩ := hs k (by omega)
      have hkn : k ≠ n := by omega
      exact ⟨by simp [q1, a, hkn], by simp [q1, lookupOrInsert, b, hkn]⟩)
    refine ⟨q', acc', ?_, h2, ?_, ?_⟩
    · unfold leakHistory run
      rw [hpush]
      simp only
      unfold run
      rw [hpop]
      exact h1
    · intro k hk
      by_cases hkn : k = n
      · rw [hkn, h4 n (Nat.le_refl n)]
        simp [q1, lookupOrInsert, hs2]
      · exact h3 k (by omega)
    · intro k hk
      rw [h4 k (by omega)]
      have hkn : k ≠ n := by omega
      simp [q1, lookupOrInsert, hkn]

/-- **C51 (finding).** Without best-N tracking (the default) the claim fails: popped circuits are
never released, so an empty queue of capacity 1 can still store any number of circuits. -/
theorem C51_memory_leak_without_best_n (n : Nat) :
    ∃ (hist : History Nat Nat) (q : PQ Nat Nat) (acc : List (Entry Nat Nat)),
      Reach 1 none hist q acc ∧ q.queue = [] ∧ ∀ k, k < n → (q.lookup k).isSome := by
  obtain ⟨q, acc, h1, h2, h3, _⟩ := leak_run n (PQ.new 1 none) [] rfl rfl rfl
    (by intro k _; simp [PQ.new])
  exact ⟨_, q, acc, h1, h2, fun k hk => by rw [h3 k hk]; rfl⟩

end Tket.PQueue
