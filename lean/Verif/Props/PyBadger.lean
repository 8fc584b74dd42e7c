import Verif.Model.PyBadger
import Verif.Props.BadgerSplit

/-!
# C87: the Badger pass of the Python package
-/

namespace Tket.PyBadger

open Tket.BadgerSplit Tket.Backtracking Tket.Chunks

variable {T C E : Type}

/-! ## The cycles -/

/-- **C87 (time).** The timeouts of the cycles add up to at most the time given, and to at most five
seconds less. -/
theorem C87_time (args : Args) (maxThreads nCx t : Nat) (ht : args.timeout = some t)
    {os : List Options} (h : allOptions args maxThreads nCx = some os) :
    (∀ o ∈ os, o.timeout.isSome) ∧
      (os.map (fun o => o.timeout.getD 0)).sum ≤ t ∧
      t ≤ (os.map (fun o => o.timeout.getD 0)).sum + 5 := by
  simp only [allOptions, ht, Option.getD_some, Option.map_eq_some_iff] at h
  obtain ⟨l, hl, rfl⟩ := h
  refine ⟨fun o ho => by obtain ⟨p, _, rfl⟩ := List.mem_map.1 ho; rfl, ?_⟩
  unfold splits at hl
  split at hl
  · simp only [Option.some.injEq] at hl; subst hl
    simp [cycleOptions]; omega
  · split at hl
    · simp only [Option.some.injEq] at hl; subst hl
      simp [cycleOptions]; omega
    · split at hl
      · simp only [Option.some.injEq] at hl; subst hl
        simp [cycleOptions]; omega
      · split at hl
        · simp only [Option.some.injEq] at hl; subst hl
          simp [cycleOptions]
        · simp at hl

/-- **C87 (threads).** Every cycle uses at least one and at most `max_threads` threads, and at most one
per fifty CX gates (but one in any case); the last cycle has a single thread, that is, it searches the
whole circuit. There are always cycles. -/
theorem C87_threads (args : Args) (maxThreads nCx : Nat) (hm : 0 < maxThreads) :
    ∃ os last, allOptions args maxThreads nCx = some (os ++ [last]) ∧ last.threads = 1 ∧
      ∀ o ∈ os ++ [last], 1 ≤ o.threads ∧ o.threads ≤ maxThreads ∧ o.threads ≤ max 1 (nCx / 50) ∧
        o.progressTimeout = args.progressTimeout ∧ o.maxCount = args.maxCount := by
  have hn : 1 ≤ numThreads nCx maxThreads ∧ numThreads nCx maxThreads ≤ maxThreads ∧
      numThreads nCx maxThreads ≤ max 1 (nCx / 50) := by
    unfold numThreads; split <;> omega
  generalize hk : numThreads nCx maxThreads = n at hn
  generalize ht : args.timeout.getD 30 = t
  obtain ⟨h1, h2, h3⟩ := hn
  have key : ∃ ps q, splits t n = some (ps ++ [q]) ∧ q.1 = 1 ∧
      ∀ p ∈ ps ++ [q], 1 ≤ p.1 ∧ p.1 ≤ n := by
    unfold splits
    by_cases c1 : 7 ≤ n
    · exact ⟨[(n, t / 2), (3, t / 10 * 3)], (1, t / 10 * 2), by simp [c1], rfl, by
        simp; omega⟩
    · by_cases c2 : 4 ≤ n
      · exact ⟨[(n, t / 2), (2, t / 10 * 3)], (1, t / 10 * 2), by simp [c1, c2], rfl, by
          simp; omega⟩
      · by_cases c3 : 1 < n
        · exact ⟨[(n, t / 2)], (1, t / 2), by simp [c1, c2, c3], rfl, by simp; omega⟩
        · exact ⟨[], (1, t), by
            have : n = 1 := by omega
            simp [this], rfl, by simp; omega⟩
  obtain ⟨ps, q, hs, hq, hb⟩ := key
  refine ⟨ps.map (cycleOptions args), cycleOptions args q, ?_, hq, ?_⟩
  · simp [allOptions, ht, hk, hs]
  · intro o ho
    rw [← List.map_singleton, ← List.map_append] at ho
    obtain ⟨p, hp, rfl⟩ := List.mem_map.1 ho
    obtain ⟨h4, h5⟩ := hb p hp
    exact ⟨h4, by simp only [cycleOptions]; omega, by simp only [cycleOptions]; omega, rfl, rfl⟩

example : allOptions ⟨none, some 100, none, none, none⟩ 8 1000 =
    some [⟨some 50, none, none, 8, true, 20⟩, ⟨some 30, none, none, 3, true, 20⟩,
      ⟨some 20, none, none, 1, true, 20⟩] := by decide

/-- **C87 (false: default timeout).** The documentation says that without a timeout the optimiser runs
for 15 minutes; it is at most 30 seconds. -/
theorem C87_default_timeout_wrong (args : Args) (maxThreads nCx : Nat) (ht : args.timeout = none)
    {os : List Options} (h : allOptions args maxThreads nCx = some os) :
    (os.map (fun o => o.timeout.getD 0)).sum ≤ 30 := by
  have := C87_time { args with timeout := some 30 } maxThreads nCx 30 rfl (os := os)
    (by
      have e : allOptions { args with timeout := some 30 } maxThreads nCx =
          allOptions args maxThreads nCx := by simp only [allOptions, ht]; rfl
      rw [e]; exact h)
  exact this.2.1

/-! ## Results -/

/-- What is needed of the parameters: everything keeps the meaning of circuits, and the optimiser does
not raise the cost (`C06_result_reachable_not_worse`, `C75_meaning`, `C75_cost`). -/
structure Faithful {M P : Type} [LE P] (env : Env T C E) (semT : T → M) (semC : C → M) (cost : C → P) :
    Prop where
  decode : ∀ t c, env.decode t = .ok c → semC c = semT t
  encode : ∀ c t, env.encode c = .ok t → semT t = semC c
  rebaseT : ∀ t t' e, env.rebase (.tket1 t) = (e, .tket1 t') → semT t' = semT t
  rebaseC : ∀ c c' e, env.rebase (.tket c) = (e, .tket c') → semC c' = semC c
  kind1 : ∀ t e c', env.rebase (.tket1 t) ≠ (e, .tket c')
  kind2 : ∀ c e t', env.rebase (.tket c) ≠ (e, .tket1 t')
  opt : ∀ o c c' k, env.opt o c = .done (c', k) → semC c' = semC c ∧ cost c' ≤ cost c

/-- The meaning of a Python object. -/
def meaning {M : Type} (semT : T → M) (semC : C → M) : PyCirc T C → M
  | .tket1 t => semT t
  | .tket c => semC c

/-- Both are `pytket` circuits, or both circuits of this library. -/
def SameKind : PyCirc T C → PyCirc T C → Prop
  | .tket1 _, .tket1 _ => True
  | .tket _, .tket _ => True
  | _, _ => False

theorem runCycles_sound {M P : Type} [Preorder P] {env : Env T C E} {semT : T → M} {semC : C → M}
    {cost : C → P} (hf : Faithful env semT semC cost) :
    ∀ (os : List Options) (c c' : C) (k : Nat), runCycles env.opt os c = .done (c', k) →
      semC c' = semC c ∧ cost c' ≤ cost c := by
  intro os
  induction os with
  | nil => intro c c' k h; simp only [runCycles, Outcome.done.injEq, Prod.mk.injEq] at h; simp [h.1]
  | cons o rest ih =>
    intro c c' k h
    simp only [runCycles] at h
    cases h1 : env.opt o c with
    | running => simp [h1] at h
    | panic => simp [h1] at h
    | done p =>
      obtain ⟨c1, k1⟩ := p
      simp only [h1] at h
      obtain ⟨e1, e2⟩ := hf.opt _ _ _ _ h1
      cases h2 : runCycles env.opt rest c1 with
      | running => simp [h2] at h
      | panic => simp [h2] at h
      | done p2 =>
        obtain ⟨c2, k2⟩ := p2
        simp only [h2, Outcome.done.injEq, Prod.mk.injEq] at h
        obtain ⟨e3, e4⟩ := ih _ _ _ h2
        rw [← h.1]
        exact ⟨e3.trans e1, le_trans e4 e2⟩

theorem optimiseCirc_sound {M P : Type} [Preorder P] {env : Env T C E} {semT : T → M} {semC : C → M}
    {cost : C → P} (hf : Faithful env semT semC cost) {args : Args} {m : Nat} {c c' : C} {k : Nat}
    (h : optimiseCirc env args m c = .done (c', k)) : semC c' = semC c ∧ cost c' ≤ cost c := by
  unfold optimiseCirc at h
  split at h
  · simp at h
  · exact runCycles_sound hf _ _ _ _ h

theorem updateCirc_sound {M P : Type} [Preorder P] {env : Env T C E} {semT : T → M} {semC : C → M}
    {cost : C → P} (hf : Faithful env semT semC cost) {args : Args} {m : Nat} {circ r : PyCirc T C}
    {k : Nat} (h : updateCirc env (optimiseCirc env args m) circ = .ok r k) :
    SameKind circ r ∧ meaning semT semC r = meaning semT semC circ ∧
      (∀ c c', circ = .tket c → r = .tket c' → cost c' ≤ cost c) := by
  cases circ with
  | tket c =>
    simp only [updateCirc, convert] at h
    cases h1 : optimiseCirc env args m c with
    | running => simp [h1] at h
    | panic => simp [h1] at h
    | done p =>
      obtain ⟨c1, k1⟩ := p
      simp only [h1, Ret.ok.injEq] at h
      obtain ⟨rfl, _⟩ := h
      obtain ⟨e1, e2⟩ := optimiseCirc_sound hf h1
      refine ⟨trivial, e1, ?_⟩
      intro a b ha hb
      cases ha; cases hb; exact e2
  | tket1 t =>
    simp only [updateCirc, convert] at h
    cases h0 : env.decode t with
    | error e => simp [h0] at h
    | ok c =>
      simp only [h0] at h
      cases h1 : optimiseCirc env args m c with
      | running => simp [h1] at h
      | panic => simp [h1] at h
      | done p =>
        obtain ⟨c1, k1⟩ := p
        simp only [h1] at h
        cases h2 : env.encode c1 with
        | error e => simp [h2, Except.map] at h
        | ok t' =>
          simp only [h2, Except.map, Ret.ok.injEq] at h
          obtain ⟨rfl, _⟩ := h
          refine ⟨trivial, ?_, by intro a b ha; cases ha⟩
          exact (hf.encode _ _ h2).trans ((optimiseCirc_sound hf h1).1.trans (hf.decode _ _ h0))

/-- **C87 (result).** The circuit returned has the kind and the meaning of the argument, for all
arguments, number of threads and timeouts, whatever each cycle of the optimiser does with its time; a
circuit of this library that is not rebased first never gets more expensive. -/
theorem C87_result {M P : Type} [Preorder P] {env : Env T C E} {semT : T → M} {semC : C → M}
    {cost : C → P} (hf : Faithful env semT semC cost) (args : Args) (circ r after : PyCirc T C) (k : Nat)
    (h : badgerOptimise env args circ = (.ok r k, after)) :
    SameKind circ r ∧ meaning semT semC r = meaning semT semC circ ∧
      (args.rebase = some false → ∀ c c', circ = .tket c → r = .tket c' → cost c' ≤ cost c) := by
  unfold badgerOptimise at h
  split at h
  · simp at h
  split at h
  · simp at h
  simp only at h
  split at h
  · rename_i hr
    cases hb : env.rebase circ with
    | mk e circ' =>
      rw [hb] at h
      cases e with
      | some e => simp at h
      | none =>
        simp only [Prod.mk.injEq] at h
        obtain ⟨e1, e2, _⟩ := updateCirc_sound hf h.1
        have hk : SameKind circ circ' ∧ meaning semT semC circ' = meaning semT semC circ := by
          cases circ with
          | tket1 t =>
            cases circ' with
            | tket1 t' => exact ⟨trivial, hf.rebaseT _ _ _ hb⟩
            | tket c' => exact absurd hb (hf.kind1 _ _ _)
          | tket c =>
            cases circ' with
            | tket1 t' => exact absurd hb (hf.kind2 _ _ _)
            | tket c' => exact ⟨trivial, hf.rebaseC _ _ _ hb⟩
        refine ⟨?_, e2.trans hk.2, ?_⟩
        · have h1 := hk.1
          cases circ <;> cases circ' <;> cases r <;> simp_all [SameKind]
        · intro hf'; simp [hf'] at hr
  · simp only [Prod.mk.injEq] at h
    obtain ⟨e1, e2, e3⟩ := updateCirc_sound hf h.1
    exact ⟨e1, e2, fun _ => e3⟩

/-- A sequence of cycles, each starting from the circuit the previous one returned, and the number of
circuits explored. -/
inductive Chain (opt : Options → C → Outcome (C × Nat)) : List Options → C → C → Nat → Prop
  | nil (c : C) : Chain opt [] c c 0
  | cons {o : Options} {os : List Options} {c c' c'' : C} {k k' : Nat} (h : opt o c = .done (c', k))
      (t : Chain opt os c' c'' k') : Chain opt (o :: os) c c'' (k + k')

/-- **C87 (cycles).** The cycles follow one another, each working on the result of the one before. -/
theorem C87_cycles (opt : Options → C → Outcome (C × Nat)) (os : List Options) (c c' : C) (k : Nat) :
    runCycles opt os c = .done (c', k) ↔ Chain opt os c c' k := by
  constructor
  · intro h
    induction os generalizing c k with
    | nil =>
      simp only [runCycles, Outcome.done.injEq, Prod.mk.injEq] at h
      rw [h.1, ← h.2]; exact .nil _
    | cons o rest ih =>
      simp only [runCycles] at h
      cases h1 : opt o c with
      | running => simp [h1] at h
      | panic => simp [h1] at h
      | done p =>
        obtain ⟨c1, k1⟩ := p
        simp only [h1] at h
        cases h2 : runCycles opt rest c1 with
        | running => simp [h2] at h
        | panic => simp [h2] at h
        | done p2 =>
          obtain ⟨c2, k2⟩ := p2
          simp only [h2, Outcome.done.injEq, Prod.mk.injEq] at h
          rw [← h.1, ← h.2]
          rw [← h.1] at ih
          exact .cons h1 (ih _ _ h2)
  · intro h
    induction h with
    | nil => rfl
    | cons h _ ih => simp [runCycles, h, ih]

/-- **C87 (argument).** With `rebase=False` the argument of the call is not changed. -/
theorem C87_argument_partial (env : Env T C E) (args : Args) (circ : PyCirc T C)
    (hr : args.rebase = some false) : (badgerOptimise env args circ).2 = circ := by
  unfold badgerOptimise
  split
  · rfl
  split
  · rfl
  simp [hr]

/-- A toy environment: circuits are pairs of a gate set flag and a number; the rebase pass changes the
flag of `pytket` circuits in place and refuses all other objects, as pytket does; circuits above ten
cannot be decoded. -/
def toy : Env (Bool × Nat) (Bool × Nat) Unit where
  rebase
    | .tket1 t => (none, .tket1 (true, t.2))
    | .tket c => (some (), .tket c)
  decode t := if t.2 ≤ 10 then .ok t else .error ()
  encode c := .ok c
  cx c := 50 * c.2
  opt o c := .done (c, o.threads * o.maxCount.getD 0)
  cpus := 8

theorem toy_faithful : Faithful toy Prod.snd Prod.snd (fun _ => 0) where
  decode t c h := by simp only [toy] at h; split at h <;> simp_all
  encode c t h := by simp only [toy, Except.ok.injEq] at h; rw [h]
  rebaseT t t' e h := by simp only [toy, Prod.mk.injEq, PyCirc.tket1.injEq] at h; rw [← h.2]
  rebaseC c c' e h := by simp only [toy, Prod.mk.injEq, PyCirc.tket.injEq] at h; rw [← h.2]
  kind1 t e c' h := by simp [toy] at h
  kind2 c e t' h := by simp [toy] at h
  opt o c c' k h := by
    simp only [toy, Outcome.done.injEq, Prod.mk.injEq] at h
    rw [← h.1]; exact ⟨rfl, Nat.le_refl _⟩

example : badgerOptimise toy ⟨some 4, some 20, none, some 3, some true⟩ (.tket1 (false, 5)) =
    (.ok (.tket1 (true, 5)) 21, .tket1 (true, 5)) := rfl

/-- **C87 (false: the argument is kept).** By default the circuit of the caller is itself rebased, in
addition to the result, and also if the call then raises an exception. -/
theorem C87_argument_changed :
    (∃ r k, badgerOptimise toy ⟨none, none, none, none, none⟩ (.tket1 (false, 5)) =
      (.ok r k, .tket1 (true, 5))) ∧
    badgerOptimise toy ⟨none, none, none, none, none⟩ (.tket1 (false, 11)) =
      (.raised (), .tket1 (true, 11)) :=
  ⟨⟨.tket1 (true, 5), 0, rfl⟩, rfl⟩

/-- **C87 (false: circuits of this library).** The rebase pass of pytket takes only pytket circuits, so
that the call with default arguments raises an exception for every `Tk2Circuit`. -/
theorem C87_default_refuses (env : Env T C E) (hp : ∀ c, (env.rebase (.tket c)).1.isSome)
    (args : Args) (hr : args.rebase = none) (hm : args.maxThreads ≠ some 0) (hc : env.cpus ≠ 0) (c : C) :
    ∃ e, (badgerOptimise env args (.tket c)).1 = .raised e := by
  unfold badgerOptimise
  rw [if_neg hm, if_neg hc]
  simp only [hr, Option.getD_none, if_true]
  have := hp c
  cases hb : env.rebase (.tket c) with
  | mk e c' =>
    rw [hb] at this
    cases e with
    | none => simp at this
    | some e => exact ⟨e, rfl⟩

example : ∀ c, (toy.rebase (.tket c)).1.isSome := fun _ => rfl

/-! ## Limits -/

theorem runCycles_count {opt : Options → C → Outcome (C × Nat)} {m : Nat}
    (hb : ∀ o c c' k, opt o c = .done (c', k) → o.maxCount = some m → k ≤ o.threads * max 1 m) :
    ∀ (os : List Options), (∀ o ∈ os, o.maxCount = some m) → ∀ (c c' : C) (k : Nat),
      runCycles opt os c = .done (c', k) → k ≤ (os.map Options.threads).sum * max 1 m := by
  intro os
  induction os with
  | nil => intro _ c c' k h; simp only [runCycles, Outcome.done.injEq, Prod.mk.injEq] at h; simp [← h.2]
  | cons o rest ih =>
    intro ho c c' k h
    simp only [runCycles] at h
    cases h1 : opt o c with
    | running => simp [h1] at h
    | panic => simp [h1] at h
    | done p =>
      obtain ⟨c1, k1⟩ := p
      simp only [h1] at h
      have e1 := hb _ _ _ _ h1 (ho o List.mem_cons_self)
      cases h2 : runCycles opt rest c1 with
      | running => simp [h2] at h
      | panic => simp [h2] at h
      | done p2 =>
        obtain ⟨c2, k2⟩ := p2
        simp only [h2, Outcome.done.injEq, Prod.mk.injEq] at h
        have e2 := ih (fun x hx => ho x (List.mem_cons_of_mem _ hx)) _ _ _ h2
        rw [← h.2, List.map_cons, List.sum_cons, Nat.add_mul]
        omega

/-- **C87 (circuits explored).** If every thread of the optimiser respects `max_circuit_count`
(`C07_visit_budget`), then the whole call explores at most `max_circuit_count` times `max_threads + 4`
circuits. -/
theorem C87_circuit_count_partial (env : Env T C E) (args : Args) (maxThreads m : Nat)
    (hm : args.maxCount = some m) (h0 : 0 < maxThreads)
    (hb : ∀ o c c' k, env.opt o c = .done (c', k) → o.maxCount = some m → k ≤ o.threads * max 1 m)
    (c c' : C) (k : Nat) (h : optimiseCirc env args maxThreads c = .done (c', k)) :
    k ≤ (maxThreads + 4) * max 1 m := by
  have hn : numThreads (env.cx c) maxThreads ≤ maxThreads := by unfold numThreads; split <;> omega
  unfold optimiseCirc at h
  cases ha : allOptions args maxThreads (env.cx c) with
  | none => simp [ha] at h
  | some os =>
    simp only [ha] at h
    simp only [allOptions, Option.map_eq_some_iff] at ha
    obtain ⟨l, hl, rfl⟩ := ha
    have := runCycles_count hb (l.map (cycleOptions args)) (by
      intro o ho; obtain ⟨p, _, rfl⟩ := List.mem_map.1 ho; exact hm) _ _ _ h
    refine Nat.le_trans this (Nat.mul_le_mul_right _ ?_)
    rw [List.map_map]
    generalize numThreads (env.cx c) maxThreads = n at hl hn
    unfold splits at hl
    split at hl
    · simp only [Option.some.injEq] at hl; subst hl; simp [cycleOptions]; omega
    · split at hl
      · simp only [Option.some.injEq] at hl; subst hl; simp [cycleOptions]; omega
      · split at hl
        · simp only [Option.some.injEq] at hl; subst hl; simp [cycleOptions]; omega
        · split at hl
          · simp only [Option.some.injEq] at hl; subst hl; simp [cycleOptions]
          · simp at hl

/-- **C87 (false: circuits explored).** The documentation says that the optimisation stops when
`max_circuit_count` circuits have been explored. The limit holds for every thread of every cycle; with
an optimiser whose threads respect it, eight threads explore twelve times as many. -/
theorem C87_circuit_count_wrong :
    (∀ o c c' k, toy.opt o c = .done (c', k) → o.maxCount = some 100 → k ≤ o.threads * 100) ∧
    badgerOptimise toy ⟨none, none, none, some 100, some false⟩ (.tket (true, 10)) =
      (.ok (.tket (true, 10)) 1200, .tket (true, 10)) := by
  refine ⟨?_, rfl⟩
  intro o c c' k h hm
  simp only [toy, hm, Outcome.done.injEq, Prod.mk.injEq, Option.getD_some] at h
  omega

/-! ## Searches that end after one step -/

section Search

variable {S Ctx P : Type} [LinearOrder P]

theorem loop_one {M : Space S Ctx P} {o : Opts P} {fuel : Nat} {l : Loop S Ctx P} {r : Out S P}
    (he : l.expanded = [])
    (hq : ∀ pq e, l.pq.pop (o.tb 0 0) = (pq, some e) → ¬ e.cost < l.bestCost)
    (hstop : o.clock 0 = true ∨ ∃ m, o.maxVisited = some m ∧ m ≤ 1)
    (h : loop M o fuel l = .done r) : r.best = l.best ∧ r.expanded.length ≤ 1 := by
  have hfin : ∀ (tb : Tket.PQueue.TieBreak P) (x : Loop S Ctx P) (f : Bool), finish tb x f = .done r →
      r.best = x.best ∧ r.expanded = x.expanded := by
    intro tb x f hx
    unfold finish at hx
    split at hx
    · simp at hx
    · simp only [Res.done.injEq] at hx; subst hx; exact ⟨rfl, rfl⟩
  cases fuel with
  | zero => simp [loop] at h
  | succ fuel =>
    simp only [loop, he, List.length_nil] at h
    cases hp : l.pq.pop (o.tb 0 0) with
    | mk pq e =>
      rw [hp] at h
      cases e with
      | none =>
        obtain ⟨h1, h2⟩ := hfin _ _ _ h
        exact ⟨h1, by simp [h2]⟩
      | some e =>
        have hc := hq pq e hp
        simp only [hc, if_false] at h
        split at h
        · simp at h
        · rcases hstop with hs | ⟨m, hs, hm⟩
          · simp only [hs, if_true] at h
            obtain ⟨h1, h2⟩ := hfin _ _ _ h
            exact ⟨h1, by simp [h2]⟩
          · split at h
            · obtain ⟨h1, h2⟩ := hfin _ _ _ h
              exact ⟨h1, by simp [h2]⟩
            · simp only [hs, List.length_cons, List.length_nil, hm, Nat.zero_add, if_true] at h
              obtain ⟨h1, h2⟩ := hfin _ _ _ h
              exact ⟨h1, by simp [h2]⟩

/-- **C87 (a search that ends at once).** A search that is stopped by its timeout in the first step, or
has a limit of one circuit, returns the circuit it started with: results count only when they are taken
from the queue. -/
theorem C87_search_without_effect (M : Space S Ctx P) (o : Opts P) (fuel : Nat) (start : S) (ctx : Ctx)
    (hstop : o.clock 0 = true ∨ ∃ m, o.maxVisited = some m ∧ m ≤ 1) {r : Out S P}
    (h : optimise M o fuel start ctx = .done r) : r.best = start ∧ r.expanded.length ≤ 1 := by
  unfold optimise at h
  cases hc : M.cost start ctx with
  | none => simp [hc] at h
  | some c =>
    rw [hc] at h
    simp only at h
    rcases start_inv M o start ctx c hc with h1 | ⟨q, e, h1, _, _, he, _, _, hinv⟩
    · rw [hc] at h1; rw [h1] at h; simp at h
    · rw [hc] at h1; rw [h1] at h
      simp only at h
      refine loop_one (l := ⟨q, ctx, start, c, []⟩) rfl ?_ hstop h
      intro pq e' hp
      by_cases hq : q.queue = []
      · have := Tket.PQueue.pop_nil (o.tb 0 0) hq
        simp only at hp
        rw [this] at hp; simp at hp
      · obtain ⟨e2, s, _, _, hacc, _, hr, _⟩ := Tket.PQueue.pop_spec hinv.pq (o.tb 0 0) hq
        simp only at hp hr
        rw [hp] at hr
        simp only [Option.some.injEq] at hr
        subst hr
        have h3 := List.mem_singleton.1 hacc
        rw [h3, he]
        simp

/-- With a limit of one circuit the search from 3 finds nothing, with a limit of two it does. -/
example : (∃ r, optimise countdown (plainOpts 4 (some 1) none) 10 3 () = .done r ∧ r.best = 3) ∧
    (∃ r, optimise countdown (plainOpts 4 (some 2) none) 10 3 () = .done r ∧ r.best = 2) :=
  ⟨⟨_, rfl, by decide⟩, ⟨_, rfl, by decide⟩⟩

variable {O : Type} [AddCommMonoid P]

theorem collect_without_effect (R : Rewriting O P) (opts : Nat → Opts P) (fuel : Nat)
    (hstop : ∀ i, (opts i).clock 0 = true ∨ ∃ m, (opts i).maxVisited = some m ∧ m ≤ 1) :
    ∀ (l cs : List (Circ O)) (i : Nat), collect R opts fuel i l = .done cs → cs = l := by
  intro l
  induction l with
  | nil => intro cs i h; simpa [collect] using h.symm
  | cons c rest ih =>
    intro cs i h
    simp only [collect] at h
    cases h1 : optimiseChunk R (opts i) fuel c with
    | running => simp [h1] at h
    | panic => simp [h1] at h
    | done c' =>
      simp only [h1] at h
      cases h2 : collect R opts fuel (i + 1) rest with
      | running => simp [h2] at h
      | panic => simp [h2] at h
      | done cs' =>
        simp only [h2, Outcome.done.injEq] at h
        have e2 := ih _ _ h2
        have e1 : c' = c := by
          unfold optimiseChunk at h1
          split at h1
          · simp at h1
          · simp at h1
          · simp at h1
          · rename_i r hr
            simp only [Outcome.done.injEq] at h1
            rw [← h1, (C87_search_without_effect _ _ _ _ _ (hstop i) hr).1]
        rw [← h, e1, e2]

/-- **C87 (cycles without effect).** The same for a cycle that splits the circuit: every chunk is put
back as it was taken out. -/
theorem C87_cycle_without_effect (R : Rewriting O P) (opts : Nat → Opts P) (fuel : Nat) (ord : Order)
    (costOps : CostOps P) (c : Circ O) (nIn : Nat) (outs : List Src)
    (hstop : ∀ i, (opts i).clock 0 = true ∨ ∃ m, (opts i).maxVisited = some m ∧ m ≤ 1)
    {r : Result O} (h : badgerSplit R opts fuel ord costOps c nIn outs = .done r) :
    ∃ parts : List (List Nat), parts.flatten = c.nodes ∧ r.chunks = parts.map (chunkCirc c) := by
  refine ⟨splitWithCost costOps (fun n => R.opCost (c.op n)) c.nodes,
    (C19_split_is_partition costOps _ c.nodes).1, ?_⟩
  unfold badgerSplit at h
  simp only at h
  split at h
  · simp at h
  · simp at h
  · rename_i cs hcs
    split at h
    · simp at h
    · simp only [Outcome.done.injEq] at h
      rw [← h]
      exact collect_without_effect R opts fuel hstop _ _ _ hcs

end Search

/-- **C87 (false: short timeouts).** With less than ten seconds the last two cycles of circuits with 200
or more CX gates have no time at all, and with one second no cycle of a circuit with 100 or more CX gates
has. Such cycles have no effect (`C87_cycle_without_effect`), while with a single thread the search runs
for the time given. -/
theorem C87_short_timeout_wrong (args : Args) (maxThreads nCx : Nat) :
    (∀ t, args.timeout = some t → t < 10 → 4 ≤ maxThreads → 200 ≤ nCx →
      ∃ o os, allOptions args maxThreads nCx = some (o :: os) ∧ os.length = 2 ∧
        ∀ x ∈ os, x.timeout = some 0) ∧
    (args.timeout = some 1 → 2 ≤ maxThreads → 100 ≤ nCx →
      ∃ os, allOptions args maxThreads nCx = some os ∧ ∀ x ∈ os, x.timeout = some 0) ∧
    (∀ t, args.timeout = some t → 0 < maxThreads → nCx < 100 →
      allOptions args maxThreads nCx = some [⟨some t, args.progressTimeout, args.maxCount, 1, true, 20⟩]) := by
  refine ⟨?_, ?_, ?_⟩
  · intro t ht h10 hm hn
    have hk : 4 ≤ numThreads nCx maxThreads := by unfold numThreads; split <;> omega
    have h0 : t / 10 = 0 := by omega
    by_cases h7 : 7 ≤ numThreads nCx maxThreads
    · refine ⟨_, [_, _], by simp [allOptions, splits, ht, h7]; exact ⟨rfl, rfl, rfl⟩, rfl, ?_⟩
      simp [cycleOptions, h0]
    · refine ⟨_, [_, _], by simp [allOptions, splits, ht, h7, hk]; exact ⟨rfl, rfl, rfl⟩, rfl, ?_⟩
      simp [cycleOptions, h0]
  · intro ht hm hn
    have hk : 2 ≤ numThreads nCx maxThreads := by unfold numThreads; split <;> omega
    have hs : ∃ l, splits 1 (numThreads nCx maxThreads) = some l ∧ ∀ p ∈ l, p.2 = 0 := by
      unfold splits
      split
      · exact ⟨_, rfl, by simp⟩
      · split
        · exact ⟨_, rfl, by simp⟩
        · rw [if_pos (by omega)]
          exact ⟨_, rfl, by simp⟩
    obtain ⟨l, hl, hl2⟩ := hs
    refine ⟨_, by simp only [allOptions, ht, Option.getD_some, hl]; rfl, ?_⟩
    intro x hx
    obtain ⟨p, hp, rfl⟩ := List.mem_map.1 hx
    simp [cycleOptions, hl2 p hp]
  · intro t ht hm hn
    have hk : numThreads nCx maxThreads = 1 := by unfold numThreads; split <;> omega
    simp [allOptions, splits, ht, hk, cycleOptions]

end Tket.PyBadger
