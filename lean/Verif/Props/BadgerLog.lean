import Verif.Model.BadgerLog
import Verif.Props.Backtracking
import Verif.Props.BadgerSplit
import Verif.Props.Parallel

/-!
# Property C103: the log of best circuits
-/

namespace Tket.BadgerLog

open Tket.PQueue Tket.Backtracking

set_option linter.unusedSectionVars false

variable {S C P : Type} [LinearOrder P]

/-- A writer that never fails. -/
def good : Option Writer := some (fun _ => true)

/-! ### Minima of a sequence -/

/-- The costs below all costs before them, and below `m`. -/
def minima : P → List P → List P
  | _, [] => []
  | m, c :: cs => if c < m then c :: minima c cs else minima m cs

theorem mem_minima : ∀ (cs : List P) (m x : P), x ∈ minima m cs ↔
    ∃ a b, cs = a ++ x :: b ∧ x < m ∧ ∀ y ∈ a, x < y
  | [], m, x => by simp [minima]
  | c :: cs, m, x => by
    rw [minima]
    constructor
    · intro h
      split_ifs at h with hc
      · rcases List.mem_cons.mp h with rfl | h
        · exact ⟨[], cs, rfl, hc, by simp⟩
        · obtain ⟨a, b, rfl, hx, ha⟩ := (mem_minima cs c x).mp h
          refine ⟨c :: a, b, rfl, lt_trans hx hc, ?_⟩
          intro y hy
          rcases List.mem_cons.mp hy with rfl | hy
          · exact hx
          · exact ha y hy
      · obtain ⟨a, b, rfl, hx, ha⟩ := (mem_minima cs m x).mp h
        refine ⟨c :: a, b, rfl, hx, ?_⟩
        intro y hy
        rcases List.mem_cons.mp hy with rfl | hy
        · exact lt_of_lt_of_le hx (not_lt.mp hc)
        · exact ha y hy
    · rintro ⟨a, b, he, hx, ha⟩
      cases a with
      | nil =>
        simp only [List.nil_append, List.cons.injEq] at he
        obtain ⟨rfl, rfl⟩ := he
        simp [hx]
      | cons c' a =>
        simp only [List.cons_append, List.cons.injEq] at he
        obtain ⟨rfl, rfl⟩ := he
        have hxc := ha c (by simp)
        have ha' : ∀ y ∈ a, x < y := fun y hy => ha y (by simp [hy])
        split_ifs with hc
        · exact List.mem_cons_of_mem _ ((mem_minima _ c x).mpr ⟨a, b, rfl, hxc, ha'⟩)
        · exact (mem_minima _ m x).mpr ⟨a, b, rfl, hx, ha'⟩

theorem minima_lt {cs : List P} {m x : P} (h : x ∈ minima m cs) : x < m := by
  obtain ⟨_, _, _, h, _⟩ := (mem_minima cs m x).mp h
  exact h

theorem minima_sorted : ∀ (cs : List P) (m : P), (m :: minima m cs).Pairwise (fun a b => b < a)
  | [], m => by simp [minima]
  | c :: cs, m => by
    rw [minima]
    split_ifs with hc
    · refine List.pairwise_cons.mpr ⟨?_, minima_sorted cs c⟩
      intro x hx
      rcases List.mem_cons.mp hx with rfl | hx
      · exact hc
      · exact lt_trans (minima_lt hx) hc
    · exact minima_sorted cs m

/-- The last minimum. -/
def lastMin (m : P) (cs : List P) : P := cs.foldl (fun m c => if c < m then c else m) m

theorem last_minima : ∀ (cs : List P) (m : P),
    (m :: minima m cs).getLast? = some (lastMin m cs)
  | [], m => by simp [minima, lastMin]
  | c :: cs, m => by
    rw [minima]
    split_ifs with hc
    · rw [List.getLast?_cons_cons, last_minima cs c]
      simp [lastMin, hc]
    · rw [last_minima cs m]
      simp [lastMin, hc]

/-! ### The loop -/

/-- What a writer makes of a run with a writer that does not fail. -/
structure Cut (w : Writer) (n : Nat) (full : Res S P × List P) (r : Res S P × List P) : Prop where
  same : (∀ i, n ≤ i → i < full.2.length → w i = true) → r = full
  cut : ∀ k, n ≤ k → k < full.2.length → w k = false → (∀ i, n ≤ i → i < k → w i = true) →
    r = (.panic, full.2.take k)

theorem Cut.refl {w : Writer} {n : Nat} {full : Res S P × List P} (h : full.2.length ≤ n) :
    Cut w n full full :=
  ⟨fun _ => rfl, fun k h1 h2 => by omega⟩

theorem finish_spec {tb : TieBreak P} {l : Loop S C P} {flag : Bool} {r : Out S P}
    (h : finish tb l flag = .done r) : r.expanded = l.expanded ∧ r.bestCost = l.bestCost := by
  unfold finish at h
  split at h
  · simp at h
  · simp only [Res.done.injEq] at h
    subst h
    exact ⟨rfl, rfl⟩

/-- The loop without log in terms of `iterate`. -/
theorem loop_succ (M : Space S C P) (o : Opts P) (fuel : Nat) (l : Loop S C P) :
    loop M o (fuel + 1) l =
      match l.pq.pop (o.tb l.expanded.length 0) with
      | (pq, none) => finish (o.tb l.expanded.length 0) { l with pq } false
      | (pq, some e) =>
        match iterate M o l pq e with
        | .inl r => r
        | .inr l' => loop M o fuel l' := by
  rw [loop]
  rcases l.pq.pop (o.tb l.expanded.length 0) with ⟨pq, _ | e⟩
  · rfl
  · simp only [iterate]
    rcases pushAll M (M.next e.state l.ctx).2 (o.tb l.expanded.length) 1 pq
      (M.next e.state l.ctx).1 with _ | pq'
    · rfl
    · simp only
      by_cases hc : o.clock l.expanded.length = true
      · simp [hc]
      · simp only [hc]
        rcases o.maxVisited with _ | m
        · rfl
        · simp only
          by_cases hm : m ≤ ((e.state, e.cost) :: l.expanded).length
          · simp only [Bool.false_eq_true, if_false, if_pos hm]
          · simp only [Bool.false_eq_true, if_false, if_neg hm]

theorem iterate_spec (M : Space S C P) (o : Opts P) (l : Loop S C P) (pq : PQ S P) (e : Entry S P) :
    (∀ l', iterate M o l pq e = .inr l' → l'.expanded = (e.state, e.cost) :: l.expanded ∧
      l'.bestCost = if e.cost < l.bestCost then e.cost else l.bestCost) ∧
    (∀ r, iterate M o l pq e = .inl (.done r) → r.expanded = (e.state, e.cost) :: l.expanded ∧
      r.bestCost = if e.cost < l.bestCost then e.cost else l.bestCost) := by
  unfold iterate
  simp only
  rcases pushAll M (M.next e.state l.ctx).2 (o.tb l.expanded.length) 1 pq
      (M.next e.state l.ctx).1 with _ | pq'
  · simp
  · simp only
    by_cases hc : o.clock l.expanded.length = true
    · simp only [hc, if_true, reduceCtorEq, false_implies, implies_true, Sum.inl.injEq, true_and]
      intro r h
      obtain ⟨h1, h2⟩ := finish_spec h
      exact ⟨h1, h2⟩
    · simp only [hc]
      rcases o.maxVisited with _ | m
      · simp only [Bool.false_eq_true, if_false, Sum.inr.injEq, reduceCtorEq, false_implies,
          implies_true, and_true]
        rintro l' rfl
        exact ⟨rfl, rfl⟩
      · simp only [Bool.false_eq_true, if_false]
        by_cases hm : m ≤ ((e.state, e.cost) :: l.expanded).length
        · simp only [if_pos hm, reduceCtorEq, false_implies, implies_true, Sum.inl.injEq, true_and]
          intro r h
          obtain ⟨h1, h2⟩ := finish_spec h
          exact ⟨h1, h2⟩
        · simp only [if_neg hm, Sum.inr.injEq, reduceCtorEq, false_implies,
            implies_true, and_true]
          rintro l' rfl
          exact ⟨rfl, rfl⟩

/-- The loop without log, the loop with any writer, and the rows. -/
theorem loop_log (M : Space S C P) (o : Opts P) (w : Writer) : ∀ (fuel : Nat) (l : Loop S C P)
    (rows : List P),
    loopLog M o none fuel l rows = (loop M o fuel l, rows) ∧
    (loopLog M o good fuel l rows).1 = loop M o fuel l ∧
    Cut w rows.length (loopLog M o good fuel l rows) (loopLog M o (some w) fuel l rows) ∧
    ∃ cs, (loopLog M o good fuel l rows).2 = rows ++ minima l.bestCost cs ∧
      ∀ r, loop M o fuel l = .done r →
        r.expanded.reverse.map Prod.snd = l.expanded.reverse.map Prod.snd ++ cs ∧
        r.bestCost = lastMin l.bestCost cs
  | 0, l, rows => by
    refine ⟨rfl, rfl, Cut.refl (by simp [loopLog]), [], by simp [loopLog, minima], ?_⟩
    intro r h
    simp [loop] at h
  | fuel + 1, l, rows => by
    rw [loop_succ, loopLog, loopLog, loopLog]
    rcases l.pq.pop (o.tb l.expanded.length 0) with ⟨pq, _ | e⟩
    · refine ⟨rfl, rfl, Cut.refl (by simp), [], by simp [minima], ?_⟩
      intro r h
      obtain ⟨h1, h2⟩ := finish_spec h
      simp [h1, h2, lastMin]
    · simp only
      -- the row of this iteration
      generalize hrow : (if e.cost < l.bestCost then [e.cost] else []) = row
      have hg : (if e.cost < l.bestCost then logBest good rows e.cost else some rows) =
            some (rows ++ row) := by
        rw [← hrow]
        split_ifs <;> simp [logBest, good]
      have hn : (if e.cost < l.bestCost then logBest none rows e.cost else some rows) =
          some rows := by
        split_ifs <;> rfl
      have hmin : ∀ cs, minima l.bestCost (e.cost :: cs) =
          row ++ minima (if e.cost < l.bestCost then e.cost else l.bestCost) cs := by
        intro cs
        rw [minima, ← hrow]
        split_ifs <;> rfl
      have hlast : ∀ cs, lastMin l.bestCost (e.cost :: cs) =
          lastMin (if e.cost < l.bestCost then e.cost else l.bestCost) cs := fun cs => rfl
      obtain ⟨hi1, hi2⟩ := iterate_spec M o l pq e
      rw [hg, hn]
      simp only
      by_cases hf : e.cost < l.bestCost ∧ w rows.length = false
      · -- the row fails
        have hw : (if e.cost < l.bestCost then logBest (some w) rows e.cost else some rows) =
            none := by
          rw [if_pos hf.1]
          simp [logBest, hf.2]
        rw [hw]
        simp only
        have hr : row = [e.cost] := by rw [← hrow, if_pos hf.1]
        have hcut : ∀ full : Res S P × List P, (∃ ext, full.2 = (rows ++ row) ++ ext) →
            Cut w rows.length full (.panic, rows) := by
          rintro full ⟨ext, he⟩
          constructor
          · intro h
            have := h rows.length (le_refl _) (by rw [he, hr]; simp)
            rw [hf.2] at this
            simp at this
          · intro k h1 h2 h3 h4
            have : k = rows.length := by
              by_contra hne
              have := h4 rows.length (le_refl _) (by omega)
              rw [hf.2] at this
              simp at this
            subst this
            rw [he]
            simp
        rcases hit : iterate M o l pq e with r | l'
        · refine ⟨rfl, rfl, hcut _ ⟨[], by simp⟩, [e.cost], ?_, ?_⟩
          · rw [hmin]; simp [minima]
          · rintro r' rfl
            obtain ⟨h1, h2⟩ := hi2 _ hit
            refine ⟨by simp [h1], ?_⟩
            rw [h2, hlast]; rfl
        · obtain ⟨ih1, ih2, ih3, cs, ih4, ih5⟩ := loop_log M o w fuel l' (rows ++ row)
          obtain ⟨h1, h2⟩ := hi1 _ hit
          refine ⟨(loop_log M o w fuel l' rows).1, ih2, hcut _ ⟨_, ih4⟩, e.cost :: cs, ?_, ?_⟩
          · rw [hmin, ← h2, ih4, List.append_assoc]
          · intro r hr
            obtain ⟨g1, g2⟩ := ih5 r hr
            refine ⟨by rw [g1, h1]; simp, ?_⟩
            rw [g2, h2, hlast]
      · have hw : (if e.cost < l.bestCost then logBest (some w) rows e.cost else some rows) =
            some (rows ++ row) := by
          rw [← hrow]
          by_cases hc : e.cost < l.bestCost
          · have : w rows.length = true := by simpa [hc] using hf
            simp [hc, logBest, this]
          · simp [hc]
        rw [hw]
        simp only
        rcases hit : iterate M o l pq e with r | l'
        · refine ⟨rfl, rfl, ⟨fun _ => rfl, ?_⟩, [e.cost], ?_, ?_⟩
          · intro k h1 h2 h3
            exfalso
            simp only [List.length_append, ← hrow] at h2
            split_ifs at h2 with hc
            · simp only [List.length_singleton] at h2
              have : k = rows.length := by omega
              subst this
              exact hf ⟨hc, h3⟩
            · simp at h2
              omega
          · rw [hmin]; simp [minima]
          · rintro r' rfl
            obtain ⟨h1, h2⟩ := hi2 _ hit
            refine ⟨by simp [h1], ?_⟩
            rw [h2, hlast]; rfl
        · obtain ⟨ih1, ih2, ih3, cs, ih4, ih5⟩ := loop_log M o w fuel l' (rows ++ row)
          obtain ⟨h1, h2⟩ := hi1 _ hit
          refine ⟨(loop_log M o w fuel l' rows).1, ih2, ⟨?_, ?_⟩, e.cost :: cs, ?_, ?_⟩
          · intro h
            refine ih3.same fun i g1 g2 => h i ?_ g2
            simp only [List.length_append] at g1
            omega
          · intro k g1 g2 g3 g4
            refine ih3.cut k ?_ g2 g3 fun i g5 g6 => g4 i ?_ g6
            · simp only [List.length_append, ← hrow]
              split_ifs with hc
              · simp only [List.length_singleton]
                by_contra hlt
                have : k = rows.length := by omega
                subst this
                exact hf ⟨hc, g3⟩
              · simpa using g1
            · simp only [List.length_append] at g5
              omega
          · rw [hmin, ← h2, ih4, List.append_assoc]
          · intro r hr
            obtain ⟨g1, g2⟩ := ih5 r hr
            refine ⟨by rw [g1, h1]; simp, ?_⟩
            rw [g2, h2, hlast]

theorem optimise_log (M : Space S C P) (o : Opts P) (w : Writer) (fuel : Nat) (start : S) (ctx : C) :
    optimiseLog M o none fuel start ctx = (optimise M o fuel start ctx, []) ∧
    (optimiseLog M o good fuel start ctx).1 = optimise M o fuel start ctx ∧
    Cut w 0 (optimiseLog M o good fuel start ctx) (optimiseLog M o (some w) fuel start ctx) ∧
    (M.cost start ctx = none → (optimiseLog M o good fuel start ctx).2 = []) ∧
    ∀ c, M.cost start ctx = some c →
      ∃ cs, (optimiseLog M o good fuel start ctx).2 = c :: minima c cs ∧
        ∀ r, optimise M o fuel start ctx = .done r →
          r.expanded.reverse.map Prod.snd = cs ∧ r.bestCost = lastMin c cs := by
  unfold optimiseLog optimise
  rcases hc : M.cost start ctx with _ | c
  · exact ⟨rfl, rfl, Cut.refl (by simp), fun _ => rfl, by simp⟩
  · have hn : logBest none ([] : List P) c = some [] := rfl
    have hg : logBest good ([] : List P) c = some [c] := rfl
    simp only [hn, hg]
    have hcut : ∀ (full : Res S P × List P) (f : List P → Res S P × List P),
        (∃ ext, full.2 = c :: ext) → (w 0 = true → Cut w 1 full (f [c])) →
        Cut w 0 full (match logBest (some w) ([] : List P) c with
          | none => (.panic, [])
          | some rows => f rows) := by
      rintro full f ⟨ext, he⟩ hx
      by_cases hw : w 0 = true
      · have : logBest (some w) ([] : List P) c = some [c] := by simp [logBest, hw]
        rw [this]
        refine ⟨fun h => (hx hw).same fun i _ h2 => h i (by omega) h2, fun k _ h2 h3 h4 => ?_⟩
        refine (hx hw).cut k ?_ h2 h3 fun i _ h6 => h4 i (by omega) h6
        by_contra hk
        have : k = 0 := by omega
        subst this
        rw [hw] at h3
        simp at h3
      · have : logBest (some w) ([] : List P) c = none := by simp [logBest, hw]
        rw [this]
        refine ⟨fun h => absurd (h 0 (by omega) (by rw [he]; simp)) hw, fun k _ h2 h3 h4 => ?_⟩
        have : k = 0 := by
          by_contra hk
          exact hw (h4 0 (by omega) (by omega))
        subst this
        simp
    rcases (PQ.new o.queueSize o.trackNBest).push (o.tb 0 0) start (M.hash start ctx) (some c) with
      _ | ⟨q, _ | e⟩
    · refine ⟨rfl, rfl, hcut _ (fun rows => (.panic, rows)) ⟨[], rfl⟩ fun _ => Cut.refl (by simp), by simp, ?_⟩
      intro c' hc'
      simp only [Option.some.injEq] at hc'
      subst hc'
      exact ⟨[], rfl, by simp⟩
    · refine ⟨rfl, rfl, hcut _ (fun rows => (.failed, rows)) ⟨[], rfl⟩
        fun _ => Cut.refl (by simp), by simp, ?_⟩
      intro c' hc'
      simp only [Option.some.injEq] at hc'
      subst hc'
      exact ⟨[], rfl, by simp⟩
    · obtain ⟨h1, h2, h3, cs, h4, h5⟩ := loop_log M o w fuel ⟨q, ctx, start, c, []⟩ [c]
      refine ⟨(loop_log M o w fuel ⟨q, ctx, start, c, []⟩ []).1, h2, hcut _
        (fun rows => loopLog M o (some w) fuel ⟨q, ctx, start, c, []⟩ rows) ⟨_, h4⟩ fun _ => h3,
        by simp, ?_⟩
      intro c' hc'
      simp only [Option.some.injEq] at hc'
      subst hc'
      exact ⟨cs, h4, by simpa using h5⟩

/-! ### Property theorems: one thread -/

/-- **C103 (no effect).** Without a file, and with one that can be written, the search gives what it
gives without a log. -/
theorem C103_no_effect (M : Space S C P) (o : Opts P) (fuel : Nat) (start : S) (ctx : C) :
    optimiseLog M o none fuel start ctx = (optimise M o fuel start ctx, []) ∧
    (optimiseLog M o good fuel start ctx).1 = optimise M o fuel start ctx :=
  ⟨(optimise_log M o (fun _ => true) fuel start ctx).1,
    (optimise_log M o (fun _ => true) fuel start ctx).2.1⟩

/-- **C103 (rows).** The file begins with the cost of the input and ends with the cost of the result,
costs decrease strictly, and the costs in it are those of the circuits that were cheaper than all
circuits visited before them. -/
theorem C103_rows (M : Space S C P) (o : Opts P) (fuel : Nat) (start : S) (ctx : C) (r : Out S P)
    (rows : List P) (h : optimiseLog M o good fuel start ctx = (.done r, rows)) :
    rows.Pairwise (fun a b => b < a) ∧ rows.head? = M.cost start ctx ∧
      rows.getLast? = some r.bestCost ∧
      ∀ x, x ∈ rows ↔ M.cost start ctx = some x ∨ ∃ a s b,
        r.expanded.reverse = a ++ (s, x) :: b ∧ (∀ y ∈ a, x < y.2) ∧
          ∀ c, M.cost start ctx = some c → x < c := by
  obtain ⟨_, h2, _, h4, h5⟩ := optimise_log M o (fun _ => true) fuel start ctx
  rw [h] at h2 h4 h5
  simp only at h2 h4 h5
  rcases hc : M.cost start ctx with _ | c
  · unfold optimise at h2
    rw [hc] at h2
    simp at h2
  · obtain ⟨cs, g1, g2⟩ := h5 c hc
    obtain ⟨g3, g4⟩ := g2 r h2.symm
    subst g1
    refine ⟨minima_sorted cs c, rfl, by rw [last_minima, g4], fun x => ?_⟩
    rw [List.mem_cons, mem_minima]
    simp only [Option.some.injEq]
    refine or_congr eq_comm ?_
    constructor
    · rintro ⟨a, b, he, hx, ha⟩
      rw [he] at g3
      obtain ⟨a', t, h6, h7, h8⟩ := List.map_eq_append_iff.mp g3
      obtain ⟨y, b', h9, h10, h11⟩ := List.map_eq_cons_iff.mp h8
      subst h10
      refine ⟨a', y.1, b', by rw [h6, h9], ?_, ?_⟩
      · intro z hz
        exact ha z.2 (by rw [← h7]; exact List.mem_map_of_mem hz)
      · rintro _ rfl
        exact hx
    · rintro ⟨a, st, b, he, ha, hx⟩
      refine ⟨a.map Prod.snd, b.map Prod.snd, ?_, hx c rfl, ?_⟩
      · rw [← g3, he]
        simp
      · intro y hy
        obtain ⟨z, hz, rfl⟩ := List.mem_map.mp hy
        exact ha z hz

/-- **C103 (rows of any run).** Also for runs that have not ended, and that end in a panic, costs
decrease strictly. -/
theorem C103_rows_decrease (M : Space S C P) (o : Opts P) (fuel : Nat) (start : S) (ctx : C) :
    (optimiseLog M o good fuel start ctx).2.Pairwise (fun a b => b < a) ∧
      (optimiseLog M o good fuel start ctx).2.head? = M.cost start ctx := by
  obtain ⟨_, _, _, h4, h5⟩ := optimise_log M o (fun _ => true) fuel start ctx
  rcases hc : M.cost start ctx with _ | c
  · rw [h4 hc]
    exact ⟨List.Pairwise.nil, rfl⟩
  · obtain ⟨cs, g1, _⟩ := h5 c hc
    rw [g1]
    exact ⟨minima_sorted cs c, rfl⟩

/-- **C103 (failing writes).** If the file can not be written, the search panics, at the first row that
fails, and its result is lost; it goes on exactly if all its rows can be written. -/
theorem C103_failure (M : Space S C P) (o : Opts P) (w : Writer) (fuel : Nat) (start : S) (ctx : C) :
    ((∀ i < (optimiseLog M o good fuel start ctx).2.length, w i = true) →
      optimiseLog M o (some w) fuel start ctx = optimiseLog M o good fuel start ctx) ∧
    ∀ k < (optimiseLog M o good fuel start ctx).2.length, w k = false → (∀ i < k, w i = true) →
      optimiseLog M o (some w) fuel start ctx =
        (.panic, (optimiseLog M o good fuel start ctx).2.take k) := by
  obtain ⟨_, _, h3, _⟩ := optimise_log M o w fuel start ctx
  exact ⟨fun h => h3.same fun i _ h2 => h i h2,
    fun k h1 h2 h4 => h3.cut k (Nat.zero_le _) h1 h2 fun i _ h6 => h4 i h6⟩

/-! ### Property theorems: many threads -/

/-- The log does not change what the threads do. -/
theorem C103_threads_no_effect {cfg : Parallel.Cfg S P} {w : Option Writer} {s : Parallel.Sys S P} :
    (∀ rows, LReachable cfg w (.live s rows) → Parallel.Reachable cfg s) ∧
    (Parallel.Reachable cfg s → (∀ w', w = some w' → ∀ i, w' i = true) →
      ∃ rows, LReachable cfg w (.live s rows)) := by
  constructor
  · intro rows h
    generalize hx : LState.live s rows = x at h
    induction h generalizing s rows with
    | init => cases hx; exact .init
    | step h hs ih =>
      subst hx
      cases hs with
      | other s' _ _ h' hb => exact .step (ih rows rfl) h'
      | best s' rows' _ st c rest hm hl hc hw =>
        have := Parallel.Step.mainBest (cfg := cfg) s' st c rest hm hl
        rw [Parallel.better, if_pos hc] at this
        exact .step (ih rows' rfl) this
  · intro h hw
    induction h with
    | init => exact ⟨_, .init⟩
    | @step s s' h hs ih =>
      obtain ⟨rows, ih⟩ := ih
      by_cases hb : s'.best = s.best
      · exact ⟨rows, .step ih (.other s s' rows hs hb)⟩
      · cases hs with
        | mainBest st c rest hm hl =>
          by_cases hc : c < s.best.2
          · have : ∃ rows', logBest w rows c = some rows' := by
              cases w with
              | none => exact ⟨_, rfl⟩
              | some w' => exact ⟨rows ++ [c], by simp [logBest, hw w' rfl]⟩
            obtain ⟨rows', hr⟩ := this
            refine ⟨rows', .step ih ?_⟩
            rw [Parallel.better, if_pos hc]
            exact .best s rows rows' st c rest hm hl hc hr
          · simp [Parallel.better, hc] at hb
        | _ => exact absurd (by simp only [Parallel.Sys.sendPush]; try split_ifs <;> rfl) hb

theorem getLast?_append_one {α : Type} (l : List α) (x : α) : (l ++ [x]).getLast? = some x := by
  simp

/-- **C103 (rows, threads with one queue).** Costs decrease strictly, from below the cost of the input;
the last one is that of the best circuit, and there is none exactly as long as the best circuit is
the input: unlike with one thread, the cost of the input is not in the file. -/
theorem C103_threads_rows {cfg : Parallel.Cfg S P} {w : Writer} {s : Parallel.Sys S P}
    {rows : List P} (h : LReachable cfg (some w) (.live s rows)) :
    (cfg.init.cost :: rows).Pairwise (fun a b => b < a) ∧
      (cfg.init.cost :: rows).getLast? = some s.best.2 ∧
      (rows = [] ↔ s.best.2 = cfg.init.cost) := by
  have key : (cfg.init.cost :: rows).Pairwise (fun a b => b < a) ∧
      (cfg.init.cost :: rows).getLast? = some s.best.2 := by
    generalize hx : LState.live s rows = x at h
    induction h generalizing s rows with
    | init => cases hx; exact ⟨by simp, rfl⟩
    | step h hs ih =>
      subst hx
      cases hs with
      | other s' _ _ h' hb => rw [hb]; exact ih rfl
      | best s' rows' _ st c rest hm hl hc hw =>
        obtain ⟨ih1, ih2⟩ := ih rfl
        have hr : rows = rows' ++ [c] := by
          unfold logBest at hw
          simp only at hw
          split_ifs at hw
          simpa using hw.symm
        subst hr
        rw [← List.cons_append]
        refine ⟨List.pairwise_append.mpr ⟨ih1, by simp, ?_⟩, by rw [getLast?_append_one]⟩
        intro a ha b hb
        simp only [List.mem_singleton] at hb
        subst hb
        refine lt_of_lt_of_le hc ?_
        -- the last one is the smallest
        obtain ⟨l, hl⟩ : ∃ l, cfg.init.cost :: rows' = l ++ [s'.best.2] :=
          List.getLast?_eq_some_iff.mp ih2
        rw [hl] at ha ih1
        rcases List.mem_append.mp ha with ha | ha
        · exact le_of_lt ((List.pairwise_append.mp ih1).2.2 a ha _ (by simp))
        · simp only [List.mem_singleton] at ha
          exact ha ▸ le_refl _
  refine ⟨key.1, key.2, ?_⟩
  constructor
  · rintro rfl
    simpa using key.2.symm
  · intro he
    cases rows with
    | nil => rfl
    | cons x xs =>
      exfalso
      have h1 := key.2
      rw [List.getLast?_cons_cons] at h1
      have h2 := List.mem_of_getLast? h1
      have := (List.pairwise_cons.mp key.1).1 _ h2
      rw [he] at this
      exact lt_irrefl _ this

/-- **C103 (failing writes, threads with one queue).** Better circuits are never the result after a row
that can not be written: the optimiser has panicked. -/
theorem C103_threads_failure {cfg : Parallel.Cfg S P} {w : Writer} {k : Nat} (hk : w k = false)
    {s : Parallel.Sys S P} {rows : List P} (h : LReachable cfg (some w) (.live s rows)) :
    rows.length ≤ k := by
  have : ∀ i < rows.length, w i = true := by
    generalize hx : LState.live s rows = x at h
    induction h generalizing s rows with
    | init => cases hx; simp
    | step h hs ih =>
      subst hx
      cases hs with
      | other s' _ _ h' hb => exact ih rfl
      | best s' rows' _ st c rest hm hl hc hw =>
        have ih := ih rfl
        unfold logBest at hw
        simp only at hw
        split_ifs at hw with hg
        simp only [Option.some.injEq] at hw
        subst hw
        intro i hi
        simp only [List.length_append, List.length_singleton] at hi
        by_cases h' : i < rows'.length
        · exact ih i h'
        · have : i = rows'.length := by omega
          subst this
          exact hg
  by_contra hlt
  rw [this k (by omega)] at hk
  simp at hk

/-- **C103 (rows, split circuits).** Two rows at most: the cost of the input, and that of the result if
it is smaller; the log does not change the result. -/
theorem C103_split_rows {O V : Type} [AddCommMonoid P] [IsOrderedAddMonoid P] [Inhabited V]
    {R : BadgerSplit.Rewriting O P} {sem : O → (Nat → V) → (Nat → V) → Prop}
    (hs : BadgerSplit.Sound R sem) (opts : Nat → Opts P) (fuel : Nat) (ord : Chunks.Order)
    (costOps : Chunks.CostOps P) {c : BadgerSplit.Circ O} {nIn : Nat} {outs : List Chunks.Src}
    (hg : Chunks.CircWF c.graph nIn outs c.nodes) :
    (splitLog R opts good fuel ord costOps c nIn outs).1 =
      BadgerSplit.badgerSplit R opts fuel ord costOps c nIn outs ∧
    ∀ r rows, splitLog R opts good fuel ord costOps c nIn outs = (.done r, rows) →
      rows.head? = some (c.cost R.opCost) ∧ rows.getLast? = some (r.cost R.opCost) ∧
      rows.Pairwise (fun a b => b < a) ∧ rows.length ≤ 2 := by
  have h0 : logBest good ([] : List P) (c.cost R.opCost) = some [c.cost R.opCost] := rfl
  unfold splitLog
  rw [h0]
  simp only
  cases hb : BadgerSplit.badgerSplit R opts fuel ord costOps c nIn outs with
  | running => simp
  | panic => simp
  | done r =>
    have hle := BadgerSplit.C75_cost (V := V) hs opts fuel ord costOps hg hb
    simp only
    by_cases hlt : r.cost R.opCost < c.cost R.opCost
    · rw [if_pos hlt]
      simp only [logBest, good, if_true]
      refine ⟨trivial, ?_⟩
      intro r' rows he
      simp only [Prod.mk.injEq, BadgerSplit.Outcome.done.injEq] at he
      obtain ⟨rfl, rfl⟩ := he
      simp [hlt]
    · rw [if_neg hlt]
      simp only
      refine ⟨trivial, ?_⟩
      intro r' rows he
      simp only [Prod.mk.injEq, BadgerSplit.Outcome.done.injEq] at he
      obtain ⟨rfl, rfl⟩ := he
      simp [le_antisymm hle (not_lt.mp hlt)]

/-- **C103 (failing writes, split circuits).** A first row that can not be written is a panic before
anything is optimised; a second one loses the better result. -/
theorem C103_split_failure {O : Type} [AddCommMonoid P] (R : BadgerSplit.Rewriting O P)
    (opts : Nat → Opts P) (w : Writer) (fuel : Nat) (ord : Chunks.Order) (costOps : Chunks.CostOps P)
    (c : BadgerSplit.Circ O) (nIn : Nat) (outs : List Chunks.Src) :
    (w 0 = false → splitLog R opts (some w) fuel ord costOps c nIn outs = (.panic, [])) ∧
    (w 0 = true → w 1 = false → ∀ r,
      BadgerSplit.badgerSplit R opts fuel ord costOps c nIn outs = .done r →
      r.cost R.opCost < c.cost R.opCost →
      splitLog R opts (some w) fuel ord costOps c nIn outs = (.panic, [c.cost R.opCost])) := by
  constructor
  · intro h
    simp [splitLog, logBest, h]
  · intro h0 h1 r hr hlt
    simp [splitLog, logBest, h0, h1, hr, hlt]

/-! ### Examples -/

/-- A search from 3 down to 0: four rows; with a writer that fails at the third row, a panic and two
rows. -/
example : (optimiseLog countdown (plainOpts 4 none none) good 10 3 ()).2 = [3, 2, 1, 0] ∧
    (∃ r, (optimiseLog countdown (plainOpts 4 none none) good 10 3 ()).1 = .done r ∧
      r.bestCost = 0) ∧
    (optimiseLog countdown (plainOpts 4 none none) (some (fun i => decide (i < 2))) 10 3 ()) =
      (.panic, [3, 2]) :=
  ⟨by decide, ⟨_, rfl, by decide⟩, rfl⟩

/-- A thread, and a circuit of cost 5 with a rewrite to one of cost 3. -/
def exampleCfg : Parallel.Cfg String Nat :=
  ⟨1, 4, none, false, fun _ c => if c = 5 then [("b", 3, some 2)] else [], ⟨"a", 5, 1⟩⟩

/-- A run with a row for the better circuit only; with a writer that fails, the same run ends in a
panic. -/
example : (∃ s, LReachable exampleCfg good (.live s [3]) ∧ s.best = ("b", 3)) ∧
    LReachable exampleCfg (some (fun _ => false)) (.panicked []) := by
  let tb : TieBreak Nat := TieBreak.recent
  have run : ∀ w : Option Writer, ∃ s rest, LReachable exampleCfg w (.live s []) ∧
      s.main = .running ∧ s.log = .newBest "b" 3 :: rest ∧ s.best = ("a", 5) := by
    intro w
    have r1 := LReachable.step (LReachable.init (cfg := exampleCfg) (w := w)) (.other _ _ _
      (Parallel.Step.pqRecv (cfg := exampleCfg) _ [⟨"a", 5, 1⟩] [] (fun _ => tb) tb _ _ rfl rfl
        (by simp) rfl) rfl)
    have r2 := LReachable.step r1 (.other _ _ _
      (Parallel.Step.pqSend (cfg := exampleCfg) _ 0 tb tb ⟨"a", 5, 1⟩ _ rfl rfl rfl rfl) rfl)
    have r3 := LReachable.step r2 (.other _ _ _
      (Parallel.Step.workerSend (cfg := exampleCfg) _ 0 ⟨"a", 5, 1⟩ rfl (by decide)) rfl)
    have r4 := LReachable.step r3 (.other _ _ _
      (Parallel.Step.pqRecv (cfg := exampleCfg) _ [⟨"b", 3, 2⟩] [] (fun _ => tb) tb _ _ rfl rfl
        (by simp) rfl) rfl)
    have r5 := LReachable.step r4 (.other _ _ _
      (Parallel.Step.mainBest (cfg := exampleCfg) _ "a" 5 _ (Or.inl rfl) rfl) rfl)
    have r6 := LReachable.step r5 (.other _ _ _
      (Parallel.Step.mainCount (cfg := exampleCfg) _ 1 _ rfl (Or.inr ⟨rfl, by simp [exampleCfg]⟩)) rfl)
    exact ⟨_, _, r6, rfl, rfl, rfl⟩
  constructor
  · obtain ⟨s, rest, h1, h2, h3, h4⟩ := run good
    exact ⟨_, .step h1 (.best s [] [3] "b" 3 rest (Or.inl h2) h3 (by rw [h4]; decide) rfl), rfl⟩
  · obtain ⟨s, rest, h1, h2, h3, h4⟩ := run (some (fun _ => false))
    exact .step h1 (.fails s [] "b" 3 rest (Or.inl h2) h3 (by rw [h4]; decide) rfl)

end Tket.BadgerLog
