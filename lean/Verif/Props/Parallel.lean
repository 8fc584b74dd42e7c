import Verif.Lemmas.Parallel
import Verif.Props.PQueue

/-!
# Properties C10, C11, C12: the multi-threaded optimiser

`Reachable cfg s` quantifies over all interleavings of the main thread, the queue thread and any number
of workers (`Verif.Model.Parallel`). `s.received` lists every circuit the queue thread has received,
`s.announced` every best circuit it has announced (both latest first).
-/

namespace Tket.Parallel

open Tket.PQueue

set_option linter.unusedSectionVars false

variable {S P : Type} [LinearOrder P]

/-- **C10 (announcements).** In every reachable state the announcements are exactly the circuits that
were strictly cheaper than everything received before them; they are strictly decreasing, and the
last one is a minimum of all circuits received. -/
theorem C10_announcements {cfg : Cfg S P} {s : Sys S P} (h : Reachable cfg s) :
    s.announced = records s.received ∧
    s.announced.Pairwise (fun later earlier => later.2 < earlier.2) ∧
    (s.received ≠ [] → ∃ a w, s.announced.head? = some a ∧ w ∈ s.received ∧
      a = (w.state, w.cost) ∧ ∀ x ∈ s.received, w.cost ≤ x.cost) := by
  have g := reachable_glob h
  obtain ⟨r1, r2, r3, _⟩ := records_spec s.received
  rw [g.ann]
  refine ⟨rfl, r1, ?_⟩
  intro hne
  obtain ⟨a, ha, hmin⟩ := r3 hne
  obtain ⟨w, hw, hwa⟩ := r2 a (List.mem_of_mem_head? ha)
  refine ⟨a, w, ha, hw, hwa.symm, ?_⟩
  intro x hx
  have := hmin x hx
  rw [← hwa] at this
  exact this

/-- **C10 (result).** When the optimiser returns, its result was obtained from the input by rewrites,
is not more expensive than the input, nor than any circuit the queue has ever received. -/
theorem C10_result_is_minimum {cfg : Cfg S P} {s : Sys S P} (h : Reachable cfg s)
    (hf : s.main = .finished) :
    Found cfg s.best.1 s.best.2 ∧ s.best.2 ≤ cfg.init.cost ∧
      ∀ w ∈ s.received, s.best.2 ≤ w.cost := by
  have g := reachable_glob h
  refine ⟨g.fBest, g.lBest, ?_⟩
  intro w hw
  obtain ⟨r1, r2, r3, _⟩ := records_spec s.received
  obtain ⟨a, ha, hmin⟩ := r3 (List.ne_nil_of_mem hw)
  have hlog := (g.ph1 (Or.inr hf)).2
  rcases g.bAnn a (by rw [g.ann]; exact List.mem_of_mem_head? ha) with h' | h'
  · exact le_trans h' (hmin w hw)
  · rw [hlog] at h'; simp at h'

/-- **C10 (no lost or panicking work).** In every reachable state the queue thread can process any
message without panicking, and every circuit held by a worker or waiting in a channel was obtained
from the input by rewrites. -/
theorem C10_queue_thread_does_not_panic {cfg : Cfg S P} {s : Sys S P} (h : Reachable cfg s) :
    (∀ tbs tb ws, s.q.enqueue tbs tb ws ≠ none) ∧
    (∀ tb tb', s.q.pq.queue ≠ [] → (s.q.pq.pop tb).2 ≠ none ∧
      ({ s.q with pq := (s.q.pq.pop tb).1 } : QT S P).updateMax tb' ≠ none) ∧
    (∀ w, .busy w ∈ s.workers → Found cfg w.state w.cost) ∧
    (∀ m ∈ s.push, ∀ w ∈ m, Found cfg w.state w.cost) := by
  have g := reachable_glob h
  refine ⟨?_, ?_, g.fWork, g.fPush⟩
  · intro tbs tb ws
    obtain ⟨_, _, he, _⟩ := enqueue_spec g.q tbs tb ws
    rw [he]; simp
  · intro tb tb' hne
    obtain ⟨acc, hinv, _⟩ := g.q.pq
    obtain ⟨_, _, _, _, _, _, hp, _⟩ := pop_spec hinv tb hne
    rw [hp, updateMax_id _ (by exact g.q.loc)]
    simp

/-- **C11 (finding).** Without timeouts and without a circuit limit (the default options), the parallel
optimiser never returns, for any rewriter, circuit, number of threads and schedule. -/
theorem C11_never_returns_without_timeout {cfg : Cfg S P} (ht : cfg.timeout = false)
    (hc : cfg.maxCount = none) {s : Sys S P} (h : Reachable cfg s) :
    s.main = .running ∧ s.running = true := by
  have key : s.main = .running ∧ s.running = true ∧ [] ∉ s.push := by
    induction h with
    | init => simp [Sys.init]
    | step _ hs ih =>
      rename_i s0 s1 _
      obtain ⟨h1, h2, h3⟩ := ih
      cases hs with
      | pqRecv msg rest tbs tb q' as hr hp hm he =>
        exact ⟨h1, h2, fun hh => h3 (by rw [hp]; exact List.mem_cons_of_mem _ hh)⟩
      | pqClose rest hr hp => exact absurd (by rw [hp]; simp) h3
      | pqSend i tb tb' w q' hr hi hpop hu => exact ⟨h1, h2, h3⟩
      | workerSend i w hi hne =>
        obtain ⟨e1, e2, e3, e4, e5, e6, e7, e8⟩ :=
          sendPush_fields s0 (workerOut cfg.next s0.q.sharedMax w)
        refine ⟨by simpa [e5] using h1, by simpa [e2] using h2, ?_⟩
        intro hh
        rcases mem_sendPush hh with hh | hh
        · exact hne hh.symm
        · exact h3 hh
      | workerNone i w hi he => exact ⟨h1, h2, h3⟩
      | workerStop i hi hr => exact ⟨h1, h2, h3⟩
      | mainBest st c rest hm hl => exact ⟨h1, h2, h3⟩
      | mainCount n rest hl hm => exact ⟨h1, h2, h3⟩
      | mainLimit n rest m hl hm hcc hn => rw [hc] at hcc; simp at hcc
      | mainLost hm hl hr => rw [h2] at hr; simp at hr
      | mainTimeout hm htt => rw [ht] at htt; simp at htt
      | mainDrained hm hl hr => rw [h1] at hm; simp at hm
      | mainJoin hm hw => rw [h1] at hm; simp at hm
  exact ⟨key.1, key.2.1⟩

/-- The search is exhausted: nothing queued, nothing in flight, every worker waiting for work, and main
has read all messages. -/
def Exhausted (s : Sys S P) : Prop :=
  s.push = [] ∧ s.q.pq.queue = [] ∧ (∀ w ∈ s.workers, w = .idle) ∧ s.log = [] ∧
    s.running = true ∧ s.main = .running

/-- **C11 (finding).** Once the search is exhausted, without a timeout no thread can ever make another
step: the optimiser is deadlocked, even if a circuit limit is set. -/
theorem C11_deadlock_when_exhausted {cfg : Cfg S P} (ht : cfg.timeout = false) {s : Sys S P}
    (hs : Exhausted s) : ∀ s', ¬ Step cfg s s' := by
  obtain ⟨h1, h2, h3, h4, h5, h6⟩ := hs
  intro s' hst
  cases hst with
  | pqRecv msg rest tbs tb q' as hr hp hm he => rw [h1] at hp; simp at hp
  | pqClose rest hr hp => rw [h1] at hp; simp at hp
  | pqSend i tb tb' w q' hr hi hpop hu => rw [pop_nil tb h2] at hpop; simp at hpop
  | workerSend i w hi hne => have := h3 _ (List.mem_of_getElem? hi); simp at this
  | workerNone i w hi he => have := h3 _ (List.mem_of_getElem? hi); simp at this
  | workerStop i hi hr => rw [h5] at hr; simp at hr
  | mainBest st c rest hm hl => rw [h4] at hl; simp at hl
  | mainCount n rest hl hm => rw [h4] at hl; simp at hl
  | mainLimit n rest m hl hm hcc hn => rw [h4] at hl; simp at hl
  | mainLost hm hl hr => rw [h5] at hr; simp at hr
  | mainTimeout hm htt => rw [ht] at htt; simp at htt
  | mainDrained hm hl hr => rw [h6] at hm; simp at hm
  | mainJoin hm hw => rw [h6] at hm; simp at hm

/-- The deadlock is reachable for every circuit without rewrites, with any positive number of threads
and any positive queue size. -/
theorem C11_deadlock_reachable (cfg : Cfg S P) (hn : 0 < cfg.nThreads) (hcap : 0 < cfg.cap)
    (hc : cfg.maxCount = none) (hnext : ∀ s c, cfg.next s c = []) (tb : TieBreak P) :
    ∃ s, Reachable cfg s ∧ Exhausted s := by
  -- the queue thread receives the initial circuit
  have g0 := glob_init cfg
  obtain ⟨acc, hinv, _⟩ := g0.q.pq
  obtain ⟨q1, as, he, hq1, hrec, _⟩ := enqueue_spec g0.q (fun _ => tb) tb [cfg.init]
  have r1 := Reachable.step Reachable.init
    (Step.pqRecv (cfg := cfg) (Sys.init cfg) [cfg.init] [] (fun _ => tb) tb q1 as rfl rfl (by simp) he)
  have has : as = [(cfg.init.state, cfg.init.cost)] := by
    have : [cfg.init].reverse ++ (Sys.init cfg).received = [cfg.init] := by simp [Sys.init]
    rw [this] at hrec
    have h2 : records (Sys.init cfg).received = [] := by simp [Sys.init, records]
    rw [h2] at hrec
    simp only [records, List.not_mem_nil, false_implies, implies_true, if_true, List.append_nil] at hrec
    have := congrArg List.reverse hrec
    simpa using this.symm
  -- its queue now holds one circuit
  have hlen : q1.pq.queue.length = 1 := by
    simp only [QT.enqueue, QT.enqueueAll, QT.enqueueOne, QT.isNew, Sys.init, if_true] at he
    rcases pushUnchecked_spec (inv_new (S := S) (P := P) cfg.cap none) tb cfg.init.state
      cfg.init.hash cfg.init.cost with ⟨hp, hh⟩ | ⟨q', hp, _, hms, _, hq⟩
    · rcases hh with hh | ⟨hh, _⟩ | hh
      · simp [PQ.new] at hh; omega
      · simp [PQ.new] at hh; omega
      · simp at hh
    · rw [hp] at he
      simp only [Option.toList_some, List.append_nil] at he
      rw [updateMax_id tb rfl] at he
      simp only [Option.map_some, Option.some.injEq, Prod.mk.injEq] at he
      rw [← he.1]
      rcases hq with ⟨_, hq⟩ | ⟨_, hl, e, hee, _⟩
      · simp [hq, PQ.new]
      · simp [PQ.new] at hee
  obtain ⟨acc1, hinv1, _⟩ := hq1.pq
  have hne1 : q1.pq.queue ≠ [] := by intro h0; simp [h0] at hlen
  obtain ⟨e, st, hem, _, _, _, hpop, hpq, _⟩ := pop_spec hinv1 tb hne1
  have hdrop := dropKey_length_of_mem hinv1.qnd hem
  have hidle : (List.replicate cfg.nThreads (Worker.idle : Worker S P))[0]? = some .idle := by
    simp [hn]
  have hum := updateMax_id (q := { q1 with pq := (q1.pq.pop tb).1 }) tb hq1.loc
  -- worker 0 takes it, finds nothing
  have r2 := Reachable.step r1 (Step.pqSend (cfg := cfg) _ 0 tb tb _ _ rfl hidle hpop hum)
  have hbusy : ((List.replicate cfg.nThreads (Worker.idle : Worker S P)).set 0
      (.busy ⟨st, e.2, e.1⟩))[0]? = some (.busy ⟨st, e.2, e.1⟩) := by
    rw [List.getElem?_set_self (by simpa using hn)]
  have r3 := Reachable.step r2 (Step.workerNone (cfg := cfg) _ 0 _ hbusy
    (by simp [workerOut, hnext]))
  -- main reads the two log messages
  subst has
  have r4 := Reachable.step r3 (Step.mainBest (cfg := cfg) _ cfg.init.state cfg.init.cost
    [.stateCount q1.pq.seen.length] (Or.inl rfl) rfl)
  have r5 := Reachable.step r4 (Step.mainCount (cfg := cfg) _ q1.pq.seen.length [] rfl
    (Or.inr ⟨rfl, by intro m hm; rw [hc] at hm; simp at hm⟩))
  refine ⟨_, r5, rfl, ?_, ?_, rfl, rfl, rfl⟩
  · simp only [hpq]
    rw [← List.length_eq_zero_iff]; omega
  · intro w hw
    rcases mem_set_imp hw with hw | hw
    · exact hw
    · rcases mem_set_imp hw with hw | hw
      · exfalso
        subst hw
        -- position 0 was overwritten, everything else is idle
        have hnot : (Worker.busy ⟨st, e.2, e.1⟩ : Worker S P) ∉
            ((List.replicate cfg.nThreads (Worker.idle : Worker S P)).set 0
              (.busy ⟨st, e.2, e.1⟩)).set 0 .idle := by
          rw [List.set_set]
          intro hh
          rcases mem_set_imp hh with hh | hh
          · simp at hh
          · simp at hh
        exact hnot (by assumption)
      · have : w ∈ List.replicate cfg.nThreads (Worker.idle : Worker S P) := hw
        exact List.eq_of_mem_replicate this

/-- **C11 (partial).** Once the main thread has decided to stop (timeout or circuit limit), the optimiser
does return: no execution from there is infinite, and the only states without a further step are
those in which main has returned. What is missing for C11: nothing makes main stop when the search
space is exhausted (see the findings above). -/
theorem C11_terminates_after_stop_partial {cfg : Cfg S P} (tb : TieBreak P) {s : Sys S P}
    (h : Reachable cfg s) (hm : s.main ≠ .running) :
    (∀ f : Nat → Sys S P, f 0 = s → ¬ ∀ n, Step cfg (f n) (f (n + 1))) ∧
    ((∀ s', ¬ Step cfg s s') → s.main = .finished) := by
  constructor
  · intro f h0 hstep
    have hall : ∀ n, Reachable cfg (f n) ∧ (f n).main ≠ .running ∧
        measure cfg.cap (f n) + n ≤ measure cfg.cap (f 0) := by
      intro n
      induction n with
      | zero => rw [h0]; exact ⟨h, hm, le_refl _⟩
      | succ n ih =>
        obtain ⟨i1, i2, i3⟩ := ih
        obtain ⟨j1, j2⟩ := measure_step (reachable_glob i1) (hstep n) i2
        exact ⟨Reachable.step i1 (hstep n), j1, by omega⟩
    have := (hall (measure cfg.cap (f 0) + 1)).2.2
    omega
  · intro hns
    by_contra hf
    obtain ⟨s', hs'⟩ := progress (reachable_glob h) tb hm hf
    exact hns s' hs'

/-- With a timeout configured, some execution returns: the hypotheses of `C10_result_is_minimum` and of
`C11_terminates_after_stop_partial` are satisfiable, for every configuration. -/
theorem finished_reachable (cfg : Cfg S P) (tb : TieBreak P) (ht : cfg.timeout = true) :
    ∃ s, Reachable cfg s ∧ s.main = .finished := by
  have main : ∀ n (s : Sys S P), measure cfg.cap s ≤ n → Reachable cfg s → s.main ≠ .running →
      ∃ s, Reachable cfg s ∧ s.main = .finished := by
    intro n
    induction n with
    | zero =>
      intro s hn hr hm
      by_cases hf : s.main = .finished
      · exact ⟨s, hr, hf⟩
      · obtain ⟨s', hs'⟩ := progress (reachable_glob hr) tb hm hf
        have := (measure_step (reachable_glob hr) hs' hm).2
        omega
    | succ n ih =>
      intro s hn hr hm
      by_cases hf : s.main = .finished
      · exact ⟨s, hr, hf⟩
      · obtain ⟨s', hs'⟩ := progress (reachable_glob hr) tb hm hf
        obtain ⟨m1, m2⟩ := measure_step (reachable_glob hr) hs' hm
        exact ih s' (by omega) (Reachable.step hr hs') m1
  exact main _ _ (le_refl _) (Reachable.step Reachable.init (Step.mainTimeout (Sys.init cfg) rfl ht))
    (by simp)

example : ∃ s : Sys String Nat, Reachable
    ⟨2, 10, none, true, fun s c => if s = "a" then [("b", c - 1, some 2)] else [], ⟨"a", 5, 1⟩⟩ s ∧
    s.main = .finished := finished_reachable _ .recent rfl

/-- **C12 (finding).** The shared maximum is never published, in any execution: workers never see
queue pressure and never skip a circuit that the full queue is going to refuse. -/
theorem C12_max_cost_never_shared {cfg : Cfg S P} {s : Sys S P} (h : Reachable cfg s) :
    s.q.sharedMax = none ∧
    ∀ w : Entry S P, workerOut cfg.next s.q.sharedMax w =
      (cfg.next w.state w.cost).filterMap (fun r => r.2.2.map (fun k => ⟨r.1, r.2.1, k⟩)) := by
  have g := reachable_glob h
  refine ⟨g.q.shared, ?_⟩
  intro w
  rw [g.q.shared]
  simp [workerOut]

/-- **C12 (partial).** Circuits a worker skips when it reads the maximum of a full queue are indeed
refused by that queue. What is missing for C12: the maximum is never published. -/
theorem C12_skipped_would_be_refused_partial {cfg : Cfg S P} {s : Sys S P} (h : Reachable cfg s)
    (hfull : s.q.pq.queue.length = cfg.cap) (mx : Item P) (_hmem : mx ∈ s.q.pq.queue)
    (hmax : ∀ e ∈ s.q.pq.queue, e.2 ≤ mx.2) (w : Entry S P) (st : S) (k : Nat) (c : P)
    (hnext : (st, c, some k) ∈ cfg.next w.state w.cost)
    (hskip : (⟨st, c, k⟩ : Entry S P) ∉ workerOut cfg.next (some mx.2) w) (tb : TieBreak P) :
    s.q.pq.pushUnchecked tb st k c = some (s.q.pq, none) := by
  have hc : mx.2 ≤ c := by
    by_contra hlt
    apply hskip
    unfold workerOut
    rw [List.mem_filterMap]
    exact ⟨_, hnext, by simp [hlt]⟩
  have g := reachable_glob h
  obtain ⟨acc, hinv, _⟩ := g.q.pq
  rcases pushUnchecked_spec hinv tb st k c with ⟨hp, _⟩ | ⟨q', hp, _, _, _, hq⟩
  · exact hp
  · exfalso
    rcases hq with ⟨hlt, _⟩ | ⟨_, _, e, he, _, hce, _⟩
    · rw [g.q.cap] at hlt; omega
    · exact absurd (lt_of_le_of_lt hc hce) (not_lt_of_ge (hmax e he))

/-- A reachable full queue. -/
example : ∃ s : Sys String Nat, Reachable ⟨1, 1, none, false, fun _ _ => [], ⟨"a", 5, 1⟩⟩ s ∧
    s.q.pq.queue = [(1, 5)] :=
  ⟨_, Reachable.step Reachable.init (Step.pqRecv _ [⟨"a", 5, 1⟩] [] (fun _ => .recent) .recent _ _
    rfl rfl (by simp) rfl), rfl⟩

end Tket.Parallel
