import Verif.Model.Threads
import Verif.Props.Parallel

/-! Invariants of the circuits that the optimiser with several threads handles. -/

namespace Tket.Parallel

open Tket.PQueue

variable {S P : Type} [LinearOrder P]

/-- The same run without the circuits that have no hash. -/
def Cfg.hashed (cfg : Cfg S P) : Cfg S P :=
  { cfg with next := fun s p => (cfg.next s p).filter fun r => r.2.2.isSome }

theorem workerOut_hashed (cfg : Cfg S P) (mx : Option P) (w : Entry S P) :
    workerOut cfg.hashed.next mx w = workerOut cfg.next mx w := by
  simp only [workerOut, Cfg.hashed]
  rw [List.filterMap_filter]
  congr 1
  funext r
  rcases r with ⟨s, p, h⟩
  cases h <;> simp

theorem Step.hashed {cfg : Cfg S P} {s s' : Sys S P} (h : Step cfg s s') : Step cfg.hashed s s' := by
  cases h with
  | pqRecv msg rest tbs tb q' as hr hp hm he => exact .pqRecv _ msg rest tbs tb q' as hr hp hm he
  | pqClose rest hr hp => exact .pqClose _ rest hr hp
  | pqSend i tb tb' w q' hr hi hpop hu => exact .pqSend _ i tb tb' w q' hr hi hpop hu
  | workerSend i w hi hne =>
    have := Step.workerSend (cfg := cfg.hashed) s i w hi (by rw [workerOut_hashed]; exact hne)
    rwa [workerOut_hashed] at this
  | workerNone i w hi he => exact .workerNone _ i w hi (by rw [workerOut_hashed]; exact he)
  | workerStop i hi hr => exact .workerStop _ i hi hr
  | mainBest st c rest hm hl => exact .mainBest _ st c rest hm hl
  | mainCount n rest hl hm => exact .mainCount _ n rest hl hm
  | mainLimit n rest m hl hm hc hn => exact .mainLimit _ n rest m hl hm hc hn
  | mainLost hm hl hr => exact .mainLost _ hm hl hr
  | mainTimeout hm ht => exact .mainTimeout _ hm ht
  | mainDrained hm hl hr => exact .mainDrained _ hm hl hr
  | mainJoin hm hw => exact .mainJoin _ hm hw

theorem Reachable.hashed {cfg : Cfg S P} {s : Sys S P} (h : Reachable cfg s) : Reachable cfg.hashed s := by
  induction h with
  | init => exact Reachable.init (cfg := cfg.hashed)
  | step _ hs ih => exact ih.step hs.hashed

/-- What holds for the first circuit and is kept by rewrites with a hash holds for the result. -/
theorem reachable_keep {cfg : Cfg S P} {s : Sys S P} (h : Reachable cfg s) {Q : S → Prop} (h0 : Q cfg.init.state)
    (hstep : ∀ s p, Q s → ∀ t ∈ cfg.next s p, t.2.2 ≠ none → Q t.1) : Q s.best.1 := by
  have key : ∀ {t : S} {p : P}, Found cfg.hashed t p → Q t := by
    intro t p hf
    induction hf with
    | init => exact h0
    | step _ hm ih =>
      obtain ⟨h1, h2⟩ := List.mem_filter.mp hm
      exact hstep _ _ ih _ h1 (by intro h; simp only at h; simp [h] at h2)
  exact key (reachable_glob h.hashed).fBest

theorem Step.received {cfg : Cfg S P} {s s' : Sys S P} (h : Step cfg s s') {w : Entry S P} (hw : w ∈ s.received) :
    w ∈ s'.received := by
  cases h <;> first
    | exact hw
    | exact List.mem_append_right _ hw
    | (simp only [(sendPush_fields s _).2.2.2.2.2.2.1]; exact hw)

/-- A run that was told to stop may return, whatever it has received. -/
theorem finish_from {cfg : Cfg S P} (tb : TieBreak P) : ∀ n (s : Sys S P), measure cfg.cap s ≤ n →
    Reachable cfg s → s.main ≠ .running →
    ∃ s', Reachable cfg s' ∧ s'.main = .finished ∧ ∀ w ∈ s.received, w ∈ s'.received := by
  intro n
  induction n with
  | zero =>
    intro s hn hr hm
    by_cases hf : s.main = .finished
    · exact ⟨s, hr, hf, fun _ h => h⟩
    · obtain ⟨s', hs'⟩ := progress (reachable_glob hr) tb hm hf
      have := (measure_step (reachable_glob hr) hs' hm).2
      omega
  | succ n ih =>
    intro s hn hr hm
    by_cases hf : s.main = .finished
    · exact ⟨s, hr, hf, fun _ h => h⟩
    · obtain ⟨s', hs'⟩ := progress (reachable_glob hr) tb hm hf
      obtain ⟨m1, m2⟩ := measure_step (reachable_glob hr) hs' hm
      obtain ⟨t, h1, h2, h3⟩ := ih s' (by omega) (Reachable.step hr hs') m1
      exact ⟨t, h1, h2, fun w hw => h3 w (hs'.received hw)⟩

/-- Some execution returns a circuit that is not more expensive than a given rewrite of the input. -/
theorem improvement_returned (cfg : Cfg S P) (tb : TieBreak P) (hn : 0 < cfg.nThreads) (hcap : 0 < cfg.cap)
    (ht : cfg.timeout = true) {t : S} {q : P} {h : Nat}
    (hnext : (t, q, some h) ∈ cfg.next cfg.init.state cfg.init.cost) :
    ∃ s, Reachable cfg s ∧ s.main = .finished ∧ s.best.2 ≤ q := by
  have g0 := glob_init cfg
  obtain ⟨q1, as, he, hq1, _, _⟩ := enqueue_spec g0.q (fun _ => tb) tb [cfg.init]
  have r1 := Reachable.step Reachable.init
    (Step.pqRecv (cfg := cfg) (Sys.init cfg) [cfg.init] [] (fun _ => tb) tb q1 as rfl rfl (by simp) he)
  have hlen : q1.pq.queue ≠ [] := by
    simp only [QT.enqueue, QT.enqueueAll, QT.enqueueOne, QT.isNew, Sys.init, if_true] at he
    rcases pushUnchecked_spec (inv_new (S := S) (P := P) cfg.cap none) tb cfg.init.state
      cfg.init.hash cfg.init.cost with ⟨hp, hh⟩ | ⟨q', hp, _, hms, _, hq⟩
    · rcases hh with hh | ⟨hh, _⟩ | hh
      · simp [PQ.new] at hh; omega
      · simp [PQ.new] at hh; omega
      · simp at hh
    · rw [hp] at he
      simp only [Option.toList_some, List.append_nil] at he
      rw [updateMax_id tb rfl] at he
      simp only [Option.map_some, Option.some.injEq, Prod.mk.injEq] at he
      rw [← he.1]
      rcases hq with ⟨_, hq⟩ | ⟨_, hl, e, hee, _⟩
      · simp [hq]
      · simp [PQ.new] at hee
  obtain ⟨acc1, hinv1, hacc1⟩ := hq1.pq
  obtain ⟨e, st, hem, _, hin, _, hpop, hpq, _⟩ := pop_spec hinv1 tb hlen
  have hw : (⟨st, e.2, e.1⟩ : Entry S P) = cfg.init := by
    have := hacc1 _ hin
    simpa [Sys.init] using this
  rw [hw] at hpop
  have hidle : (List.replicate cfg.nThreads (Worker.idle : Worker S P))[0]? = some .idle := by
    simp [hn]
  have hum := updateMax_id (q := { q1 with pq := (q1.pq.pop tb).1 }) tb hq1.loc
  have r2 := Reachable.step r1 (Step.pqSend (cfg := cfg) _ 0 tb tb _ _ rfl hidle hpop hum)
  have hbusy : ((List.replicate cfg.nThreads (Worker.idle : Worker S P)).set 0
      (.busy cfg.init))[0]? = some (.busy cfg.init) := by
    rw [List.getElem?_set_self (by simpa using hn)]
  have hshared := (C12_max_cost_never_shared r2).1
  simp only at hshared
  have hmem : (⟨t, q, h⟩ : Entry S P) ∈ workerOut cfg.next q1.sharedMax cfg.init := by
    rw [hshared]
    exact List.mem_filterMap.mpr ⟨_, hnext, by simp⟩
  have r3 := Reachable.step r2 (Step.workerSend (cfg := cfg) _ 0 _ hbusy (List.ne_nil_of_mem hmem))
  obtain ⟨q2, as2, he2, _, _, _⟩ := enqueue_spec (reachable_glob r3).q (fun _ => tb) tb
    (workerOut cfg.next q1.sharedMax cfg.init)
  have r4 := Reachable.step r3 (Step.pqRecv (cfg := cfg) _ (workerOut cfg.next q1.sharedMax cfg.init) [] (fun _ => tb)
    tb q2 as2 rfl rfl (List.ne_nil_of_mem hmem) he2)
  have r5 := Reachable.step r4 (Step.mainTimeout _ rfl ht)
  obtain ⟨s, h1, h2, h3⟩ := finish_from tb _ _ (le_refl _) r5 (by simp)
  refine ⟨s, h1, h2, (C10_result_is_minimum h1 h2).2.2 ⟨t, q, h⟩ (h3 _ ?_)⟩
  refine (Step.mainTimeout (cfg := cfg) _ rfl ht).received ?_
  exact List.mem_append_left _ (List.mem_reverse.mpr hmem)

end Tket.Parallel

namespace Verif.Matching

/-- The same for circuits. -/
theorem returns_keep {P Δ : Type} [LinearOrder P] {value : TCirc → Nat} {add : P → Δ → P}
    {results : TCirc → List (TCirc × Δ)} {o : ThreadOpts} {c : TCirc} {cost : P}
    {cfg : Tket.Parallel.Cfg TCirc P} (hcfg : threadsCfg value add results o c cost = some cfg) {r : TCirc} {p : P}
    (hrun : Returns cfg r p) {Q : TCirc → Prop} (h0 : hashOf value c ≠ none → Q c)
    (hstep : ∀ s, Q s → ∀ t ∈ results s, hashOf value t.1 ≠ none → Q t.1) : Q r ∧ p ≤ cost := by
  obtain ⟨s, hs, hf, hb⟩ := hrun
  unfold threadsCfg at hcfg
  obtain ⟨h, hh, rfl⟩ := Option.map_eq_some_iff.mp hcfg
  constructor
  · have := Tket.Parallel.reachable_keep hs (Q := Q) (h0 (by rw [hh]; simp)) (by
      intro u q hu t ht hn
      obtain ⟨x, hx, rfl⟩ := List.mem_map.mp ht
      exact hstep u hu x hx hn)
    rwa [hb] at this
  · have := (Tket.Parallel.C10_result_is_minimum hs hf).2.1
    rwa [hb] at this

end Verif.Matching
