import Verif.Model.PyOptimiser
import Mathlib.Tactic.SplitIfs
import Verif.Props.PyBadger

/-
Property C104: the optimiser object of the Python package runs with the arguments given to it.
-/
namespace Tket.PyOptimiser

open Tket.PyBadger (Options PyCirc Env Ret Args updateCirc badgerOptimise)
open Tket.BadgerSplit (Outcome)

variable {T C E R M : Type}

/-! ## What is asked for -/

/-- The arguments of a call of `optimise`, for those that are given. -/
structure Asked where
  timeout : Option Nat := none
  progressTimeout : Option Nat := none
  maxCount : Option Nat := none
  threads : Option Nat := none
  split : Option Bool := none
  queueSize : Option Nat := none
  log : Option String := none

/-- Numbers fit into 64 bits and there is at least one thread. -/
def Asked.Legit (a : Asked) : Prop :=
  (∀ n, a.timeout = some n ∨ a.progressTimeout = some n ∨ a.maxCount = some n ∨ a.threads = some n ∨
    a.queueSize = some n → n < 2 ^ 64) ∧ a.threads ≠ some 0

def natArg (name : String) (o : Option Nat) : List (String × Val T C) := (o.map fun n => (name, .int n)).toList

/-- The keywords that say so. -/
def Asked.keywords (a : Asked) : List (String × Val T C) :=
  natArg "timeout" a.timeout ++ natArg "progress_timeout" a.progressTimeout ++
    natArg "max_circuit_count" a.maxCount ++ natArg "n_threads" a.threads ++
    (a.split.map fun b => ("split_circ", .bool b)).toList ++ natArg "queue_size" a.queueSize ++
    (a.log.map fun s => ("log_progress", .str s)).toList

/-- The options of the Rust library that are asked for; the size of the queue is `q` if none is given. -/
def Asked.options (a : Asked) (q : Nat) : Options :=
  ⟨a.timeout, a.progressTimeout, a.maxCount, a.threads.getD 1, a.split.getD false, a.queueSize.getD q⟩

/-! ## Lemmas -/

theorem lookup_iff {A B : Type} [BEq A] [LawfulBEq A] {l : List (A × B)} (h : (l.map Prod.fst).Nodup) (a : A) (b : B) :
    l.lookup a = some b ↔ (a, b) ∈ l := by
  induction l with
  | nil => simp
  | cons p l ih =>
    obtain ⟨x, y⟩ := p
    simp only [List.map_cons, List.nodup_cons] at h
    rw [List.lookup_cons]
    by_cases hx : a = x
    · subst hx
      simp only [BEq.rfl, Option.some.injEq, List.mem_cons, Prod.mk.injEq, true_and]
      constructor
      · intro h'; exact .inl h'.symm
      · rintro (h' | h')
        · exact h'.symm
        · exact absurd (List.mem_map.mpr ⟨_, h', rfl⟩) h.1
    · rw [beq_eq_false_iff_ne.mpr hx]
      simp only [List.mem_cons, Prod.mk.injEq, hx, false_and, false_or]
      exact ih h.2

theorem lookup_perm {A B : Type} [BEq A] [LawfulBEq A] {l m : List (A × B)} (hp : l.Perm m)
    (h : (m.map Prod.fst).Nodup) (a : A) : l.lookup a = m.lookup a := by
  apply Option.ext
  intro b
  rw [lookup_iff ((hp.map _).nodup_iff.mpr h), lookup_iff h]
  exact hp.mem_iff

theorem natArg_keys (name : String) (o : Option Nat) : ∀ p ∈ (natArg name o : List (String × Val T C)), p.1 = name := by
  cases o <;> simp [natArg]

theorem Asked.keys (a : Asked) :
    ((a.keywords : List (String × Val T C)).map Prod.fst).Sublist
      ["timeout", "progress_timeout", "max_circuit_count", "n_threads", "split_circ", "queue_size", "log_progress"] := by
  have h : ∀ (A : Type) (f : A → Val T C) (n : String) (o : Option A),
      (((o.map fun x => (n, f x)).toList).map Prod.fst).Sublist [n] := by
    intro A f n o
    cases o <;> simp
  simp only [Asked.keywords, List.map_append, natArg]
  exact ((((((h _ _ _ _).append (h _ _ _ _)).append (h _ _ _ _)).append (h _ _ _ _)).append (h _ _ _ _)).append
    (h _ _ _ _)).append (h _ _ _ _)

theorem Asked.nodup (a : Asked) : ((a.keywords : List (String × Val T C)).map Prod.fst).Nodup :=
  a.keys.nodup (by decide)

theorem Asked.lookup (a : Asked) :
    (a.keywords (T := T) (C := C)).lookup "timeout" = a.timeout.map (fun n : Nat => .int n) ∧
    (a.keywords (T := T) (C := C)).lookup "progress_timeout" = a.progressTimeout.map (fun n : Nat => .int n) ∧
    (a.keywords (T := T) (C := C)).lookup "max_circuit_count" = a.maxCount.map (fun n : Nat => .int n) ∧
    (a.keywords (T := T) (C := C)).lookup "n_threads" = a.threads.map (fun n : Nat => .int n) ∧
    (a.keywords (T := T) (C := C)).lookup "split_circ" = a.split.map .bool ∧
    (a.keywords (T := T) (C := C)).lookup "queue_size" = a.queueSize.map (fun n : Nat => .int n) ∧
    (a.keywords (T := T) (C := C)).lookup "log_progress" = a.log.map .str := by
  have h : ∀ (A : Type) (f : A → Val T C) (n m : String) (o : Option A),
      ((o.map fun x => (n, f x)).toList).lookup m = if m = n then o.map f else none := by
    intro A f n m o
    cases o with
    | none => simp
    | some x =>
      by_cases hm : m = n
      · subst hm; simp [List.lookup]
      · simp [List.lookup, hm, beq_eq_false_iff_ne.mpr hm]
  refine ⟨?_, ?_, ?_, ?_, ?_, ?_, ?_⟩ <;>
    simp only [Asked.keywords, natArg, List.lookup_append, h] <;> simp

theorem asNat_map (o : Option Nat) (h : ∀ n, o = some n → n < 2 ^ 64) :
    asNat (T := T) (C := C) (o.map fun n : Nat => .int n) = .ok o := by
  cases o with
  | none => rfl
  | some n =>
    have := h n rfl
    simp only [Option.map_some, asNat]
    rw [if_pos ⟨Int.natCast_nonneg n, by exact_mod_cast this⟩]
    simp

theorem asNat_int (n : Nat) (h : n < 2 ^ 64) : asNat (T := T) (C := C) (some (.int n)) = .ok (some n) :=
  asNat_map (some n) fun m hm => by
    rw [Option.some.injEq] at hm
    rw [← hm]
    exact h

theorem readArgs_ok {pos : List (Val T C)} {kw : List (String × Val T C)} {t p m n q : Option Nat} {b : Option Bool}
    {l : Option String} (h1 : asNat (valueOf params pos kw "timeout") = .ok t)
    (h2 : asNat (valueOf params pos kw "progress_timeout") = .ok p)
    (h3 : asNat (valueOf params pos kw "max_circuit_count") = .ok m)
    (h4 : asNonZero (valueOf params pos kw "n_threads") = .ok n)
    (h5 : asBool (valueOf params pos kw "split_circ") = .ok b)
    (h6 : asNat (valueOf params pos kw "queue_size") = .ok q)
    (h7 : asPath (valueOf params pos kw "log_progress") = .ok l) :
    readArgs pos kw = .ok (⟨t, p, m, n.getD 1, b.getD false, q.getD 100⟩, l) := by
  simp only [readArgs, h1, h2, h3, h4, h5, h6, h7]

theorem valueOf_at {names : List String} {pos : List (Val T C)} {name : String} {i : Nat}
    (h : names.idxOf name = i) : valueOf names pos [] name = pos[i]? := by
  simp only [valueOf, h, List.lookup_nil]
  cases pos[i]? <;> rfl

/-! ## Calls -/

/-- Keywords in any order: the search runs on the circuit with the options asked for; the queue has size 100 if none is
given. Only if the log file can not be created there is a panic. -/
theorem C104_keywords (env : Env T C E) (files : String → Bool) (circ : PyCirc T C) (a : Asked) (ha : a.Legit)
    {kw : List (String × Val T C)} (hkw : kw.Perm a.keywords) :
    pyOptimise env files [.circ circ] kw = .ret (updateCirc env (fun c =>
      if ∀ p, a.log = some p → files p = true then env.opt (a.options 100) c else .panic) circ) := by
  have hl : ∀ n, kw.lookup n = (a.keywords (T := T) (C := C)).lookup n := lookup_perm hkw a.nodup
  have hkeys : ∀ p ∈ kw, p.1 ∈ ["timeout", "progress_timeout", "max_circuit_count", "n_threads", "split_circ",
      "queue_size", "log_progress"] := by
    intro p hp
    exact a.keys.subset (List.mem_map.mpr ⟨p, hkw.mem_iff.mp hp, rfl⟩)
  obtain ⟨l1, l2, l3, l4, l5, l6, l7⟩ := a.lookup (T := T) (C := C)
  have hv : ∀ n, n ∈ ["timeout", "progress_timeout", "max_circuit_count", "n_threads", "split_circ",
      "queue_size", "log_progress"] → valueOf params [.circ circ] kw n = kw.lookup n := by
    intro n hn
    have h1 : ∀ n ∈ ["timeout", "progress_timeout", "max_circuit_count", "n_threads", "split_circ", "queue_size",
      "log_progress"], 1 ≤ params.idxOf n := by decide
    have : ([Val.circ circ] : List (Val T C))[params.idxOf n]? = none := List.getElem?_eq_none (h1 n hn)
    simp only [valueOf, this]
  have hc : valueOf params [.circ circ] kw "circ" = some (.circ circ) := rfl
  have hr : refused params 1 [.circ circ] kw = false := by
    simp only [refused, Bool.or_eq_false_iff]
    refine ⟨⟨⟨by simp [params], ?_⟩, ?_⟩, ?_⟩
    · rw [List.any_eq_false]
      intro p hp
      have := hkeys p hp
      simp only [Bool.not_eq_true', Bool.not_eq_false, List.contains_iff_mem]
      exact List.mem_cons_of_mem _ this
    · rw [List.any_eq_false]
      intro p hp h
      have := hkeys p hp
      rw [List.contains_iff_mem] at h
      simp only [List.length_cons, List.length_nil, params, List.take_succ_cons, List.take_zero,
        List.mem_singleton] at h
      rw [h] at this
      revert this
      decide
    · simp [params, hc]
      rfl
  obtain ⟨hn, h0⟩ := ha
  have hthreads : asNonZero (T := T) (C := C) (a.threads.map fun n : Nat => .int n) = .ok a.threads := by
    unfold asNonZero
    rw [asNat_map _ (fun n h => hn n (by simp [h]))]
    cases h : a.threads with
    | none => rfl
    | some n =>
      cases n with
      | zero => exact absurd h h0
      | succ n => rfl
  have hsplit : asBool (T := T) (C := C) (a.split.map .bool) = .ok a.split := by cases a.split <;> rfl
  have hlog : asPath (T := T) (C := C) (a.log.map .str) = .ok a.log := by cases a.log <;> rfl
  have hread : readArgs [.circ circ] kw = .ok (a.options 100, a.log) := by
    simp only [readArgs]
    rw [hv _ (by decide), hv _ (by decide), hv _ (by decide), hv _ (by decide), hv _ (by decide), hv _ (by decide),
      hv _ (by decide), hl, hl, hl, hl, hl, hl, hl, l1, l2, l3, l4, l5, l6, l7]
    rw [asNat_map a.timeout (fun n h => hn n (by simp [h])), asNat_map a.progressTimeout (fun n h => hn n (by simp [h])),
      asNat_map a.maxCount (fun n h => hn n (by simp [h])), asNat_map a.queueSize (fun n h => hn n (by simp [h])),
      hthreads, hsplit, hlog]
    rfl
  unfold pyOptimise
  rw [hr, hread, hc]
  simp only [Bool.false_eq_true, if_false]
  congr 2
  funext c
  cases h : a.log with
  | none => simp [runLogged]
  | some p => simp [runLogged]

/-- The documentation says that the size of the queue is 20 by default, as in the Rust library and in
`badger_optimise`; it is 100. -/
theorem C104_queue_default (env : Env T C E) (files : String → Bool) (c : C) :
    pyOptimise env files [.circ (.tket c)] [] =
      .ret (updateCirc env (env.opt ⟨none, none, none, 1, false, 100⟩) (.tket c)) ∧
    ∀ args p, (Tket.PyBadger.cycleOptions args p).queueSize = 20 := by
  refine ⟨?_, fun _ _ => rfl⟩
  have := C104_keywords env files (.tket c) {} ⟨by simp, by simp⟩ (kw := []) (List.Perm.refl _)
  rw [this]
  simp [Asked.options]

/-- Up to three positional arguments, the call means what the type stub says. -/
theorem C104_stub_partial (pos : List (Val T C)) (kw : List (String × Val T C)) (hpos : pos.length ≤ 3) :
    ∀ n ∈ stubParams, valueOf params pos kw n = valueOf stubParams pos kw n := by
  intro n hn
  have h : params.idxOf n = stubParams.idxOf n ∨ (3 ≤ params.idxOf n ∧ 3 ≤ stubParams.idxOf n) := by
    revert n
    decide
  unfold valueOf
  rcases h with h | ⟨h1, h2⟩
  · rw [h]
  · rw [List.getElem?_eq_none (by omega), List.getElem?_eq_none (by omega)]

/-- The fourth one is the number of threads in the type stub, but the function takes it as the number of circuits
after which the search stops, and uses one thread. -/
theorem C104_positional_wrong (env : Env T C E) (files : String → Bool) (circ : PyCirc T C) (t p : Val T C)
    {t' p' : Option Nat} (ht : asNat (some t) = .ok t') (hp : asNat (some p) = .ok p') (n : Nat) (hn : n < 2 ^ 64) :
    valueOf stubParams [.circ circ, t, p, .int n] [] "n_threads" = some (.int n) ∧
    pyOptimise env files [.circ circ, t, p, .int n] [] =
      .ret (updateCirc env (env.opt ⟨t', p', some n, 1, false, 100⟩) circ) := by
  refine ⟨valueOf_at (i := 3) (by decide), ?_⟩
  have hr : refused params 1 [.circ circ, t, p, .int n] [] = false := by
    simp [refused, params, valueOf]
  have hc : valueOf params [.circ circ, t, p, .int n] [] "circ" = some (.circ circ) := valueOf_at (i := 0) (by decide)
  have hread : readArgs [.circ circ, t, p, .int n] [] = .ok (⟨t', p', some n, 1, false, 100⟩, none) := by
    refine readArgs_ok (n := none) (b := none) (q := none) ?_ ?_ ?_ ?_ ?_ ?_ ?_
    · rw [valueOf_at (i := 1) (by decide)]; exact ht
    · rw [valueOf_at (i := 2) (by decide)]; exact hp
    · rw [valueOf_at (i := 3) (by decide)]; exact asNat_int n hn
    · rw [valueOf_at (i := 4) (by decide)]; rfl
    · rw [valueOf_at (i := 5) (by decide)]; rfl
    · rw [valueOf_at (i := 6) (by decide)]; rfl
    · rw [valueOf_at (i := 7) (by decide)]; rfl
  unfold pyOptimise
  rw [hr, hread, hc]
  simp only [Bool.false_eq_true, if_false]
  have : ∀ o, runLogged env files o none = env.opt o := fun _ => rfl
  rw [this]

/-- A call never panics for the arguments it is given, but for a log file that can not be created. -/
theorem C104_panics (env : Env T C E) (files : String → Bool) (pos : List (Val T C)) (kw : List (String × Val T C))
    (h : pyOptimise env files pos kw = .ret .panic) :
    (∃ p, valueOf params pos kw "log_progress" = some (.str p) ∧ files p = false) ∨
      ∃ o c, readArgs pos kw = .ok o ∧ env.opt o.1 c = .panic := by
  unfold pyOptimise at h
  split_ifs at h
  cases hread : readArgs pos kw with
  | error e => rw [hread] at h; simp at h
  | ok ol =>
    obtain ⟨o, log⟩ := ol
    rw [hread] at h
    simp only at h
    have hpath : asPath (valueOf params pos kw "log_progress") = .ok log := by
      unfold readArgs at hread
      simp only at hread
      repeat' split at hread
      all_goals first
        | (simp only [Except.ok.injEq, Prod.mk.injEq] at hread; rename_i hh; rw [hh, hread.2])
        | simp at hread
    have key : ∀ c, runLogged env files o log c = .panic →
        (∃ p, valueOf params pos kw "log_progress" = some (.str p) ∧ files p = false) ∨
          ∃ o' c, Except.ok (o, log) = (.ok o' : Except Exn (Options × Option String)) ∧ env.opt o'.1 c = .panic := by
      intro c hc
      cases log with
      | none => exact .inr ⟨_, c, rfl, hc⟩
      | some p =>
        simp only [runLogged] at hc
        split_ifs at hc with hf
        · exact .inr ⟨_, c, rfl, hc⟩
        · refine .inl ⟨p, ?_, by simpa using hf⟩
          rcases hvv : valueOf params pos kw "log_progress" with _ | v
          · rw [hvv] at hpath; simp [asPath] at hpath
          · rw [hvv] at hpath
            cases v <;> simp [asPath] at hpath
            rw [hpath]
    cases hcv : valueOf params pos kw "circ" with
    | none => rw [hcv] at h; simp at h
    | some v =>
      rw [hcv] at h
      cases v with
      | circ c0 =>
        simp only [Res.ret.injEq, updateCirc] at h
        split at h
        · simp at h
        · rename_i c1 _
          cases hrun : runLogged env files o log c1 with
          | running => rw [hrun] at h; simp at h
          | panic => exact key c1 hrun
          | done r =>
            rw [hrun] at h
            simp only at h
            split at h <;> simp at h
      | _ => simp at h

/-- Numbers that are negative or too large, and zero threads, raise an exception, also if given by position. -/
theorem C104_bad_numbers (env : Env T C E) (files : String → Bool) (pos : List (Val T C))
    (kw : List (String × Val T C)) (name : String) (n : Int)
    (hname : name ∈ ["timeout", "progress_timeout", "max_circuit_count", "n_threads", "queue_size"])
    (hv : valueOf params pos kw name = some (.int n)) (hn : n < 0 ∨ 2 ^ 64 ≤ n ∨ (name = "n_threads" ∧ n = 0)) :
    ∃ e, pyOptimise env files pos kw = .exn e := by
  have key : ∃ e, readArgs pos kw = .error e := by
    rcases hread : readArgs pos kw with e | r
    · exact ⟨e, rfl⟩
    · exfalso
      have hbad : (n < 0 ∨ 2 ^ 64 ≤ n) → asNat (valueOf params pos kw name) = .error .overflow := by
        intro h
        rw [hv]
        simp only [asNat]
        rw [if_neg (by omega)]
      have hbad' : asNonZero (valueOf params pos kw "n_threads") = .error .overflow ∨
          asNonZero (valueOf params pos kw "n_threads") = .error .value ∨ name ≠ "n_threads" := by
        by_cases hnm : name = "n_threads"
        · subst hnm
          rcases hn with h | h | ⟨_, h⟩
          · left; simp only [asNonZero, hbad (.inl h)]
          · left; simp only [asNonZero, hbad (.inr h)]
          · right; left
            rw [hv, h]
            simp [asNonZero, asNat]
        · exact .inr (.inr hnm)
      have hbad2 : name ≠ "n_threads" → asNat (valueOf params pos kw name) = .error .overflow := by
        intro h
        rcases hn with h' | h' | ⟨h', _⟩
        · exact hbad (.inl h')
        · exact hbad (.inr h')
        · exact absurd h' h
      unfold readArgs at hread
      simp only at hread
      repeat' split at hread
      all_goals first
        | (simp at hread; done)
        | skip
      simp only [List.mem_cons, List.not_mem_nil, or_false] at hname
      rcases hname with rfl | rfl | rfl | rfl | rfl
      · exact nomatch (hbad2 (by decide)).symm.trans ‹asNat (valueOf params pos kw "timeout") = .ok _›
      · exact nomatch (hbad2 (by decide)).symm.trans ‹asNat (valueOf params pos kw "progress_timeout") = .ok _›
      · exact nomatch (hbad2 (by decide)).symm.trans ‹asNat (valueOf params pos kw "max_circuit_count") = .ok _›
      · rcases hbad' with h | h | h
        · exact nomatch h.symm.trans ‹asNonZero (valueOf params pos kw "n_threads") = .ok _›
        · exact nomatch h.symm.trans ‹asNonZero (valueOf params pos kw "n_threads") = .ok _›
        · exact h rfl
      · exact nomatch (hbad2 (by decide)).symm.trans ‹asNat (valueOf params pos kw "queue_size") = .ok _›
  obtain ⟨e, he⟩ := key
  unfold pyOptimise
  split_ifs
  · exact ⟨_, rfl⟩
  · exact ⟨e, by rw [he]⟩

/-- A number for `split_circ`, a number for the log file, and a string for a number raise an exception. -/
theorem C104_bad_types (env : Env T C E) (files : String → Bool) (pos : List (Val T C))
    (kw : List (String × Val T C))
    (h : (∃ n, valueOf params pos kw "split_circ" = some (.int n)) ∨
      (∃ n, valueOf params pos kw "log_progress" = some (.int n)) ∨
      ∃ name ∈ ["timeout", "progress_timeout", "max_circuit_count", "n_threads", "queue_size"], ∃ s,
        valueOf params pos kw name = some (.str s)) :
    ∃ e, pyOptimise env files pos kw = .exn e := by
  have key : ∃ e, readArgs pos kw = .error e := by
    rcases hread : readArgs pos kw with e | r
    · exact ⟨e, rfl⟩
    · exfalso
      unfold readArgs at hread
      simp only at hread
      repeat' split at hread
      all_goals first
        | (simp at hread; done)
        | skip
      rcases h with ⟨n, h⟩ | ⟨n, h⟩ | ⟨name, hname, s, h⟩
      · exact nomatch ((congrArg asBool h : _ = .error .type)).symm.trans
          ‹asBool (valueOf params pos kw "split_circ") = .ok _›
      · exact nomatch ((congrArg asPath h : _ = .error .type)).symm.trans
          ‹asPath (valueOf params pos kw "log_progress") = .ok _›
      · have h1 : asNat (valueOf params pos kw name) = .error .type := congrArg asNat h
        simp only [List.mem_cons, List.not_mem_nil, or_false] at hname
        rcases hname with rfl | rfl | rfl | rfl | rfl
        · exact nomatch h1.symm.trans ‹asNat (valueOf params pos kw "timeout") = .ok _›
        · exact nomatch h1.symm.trans ‹asNat (valueOf params pos kw "progress_timeout") = .ok _›
        · exact nomatch h1.symm.trans ‹asNat (valueOf params pos kw "max_circuit_count") = .ok _›
        · have h2 : asNonZero (valueOf params pos kw "n_threads") = .error .type := by simp only [asNonZero, h1]
          exact nomatch h2.symm.trans ‹asNonZero (valueOf params pos kw "n_threads") = .ok _›
        · exact nomatch h1.symm.trans ‹asNat (valueOf params pos kw "queue_size") = .ok _›
  obtain ⟨e, he⟩ := key
  unfold pyOptimise
  split_ifs
  · exact ⟨_, rfl⟩
  · exact ⟨e, by rw [he]⟩

/-! ## Constructors -/

/-- The cost functions: none, `'cx'` and `'rz'`; `ValueError` for other strings, `TypeError` for other values. -/
theorem C104_cost (v : Option (Val T C)) (k : Cost) :
    (asCost v = .ok k ↔ (k = .cx ∧ (v = none ∨ v = some .none ∨ v = some (.str "cx"))) ∨
      (k = .rz ∧ v = some (.str "rz"))) ∧
    (asCost v = .error .value ↔ ∃ s, v = some (.str s) ∧ s ≠ "cx" ∧ s ≠ "rz") := by
  rcases v with _ | v
  · cases k <;> simp [asCost]
  · cases v with
    | str s =>
      by_cases h1 : s = "cx"
      · subst h1; cases k <;> simp [asCost]
      · by_cases h2 : s = "rz"
        · subst h2; cases k <;> simp [asCost]
        · simp [asCost, h1, h2]
    | _ => cases k <;> simp [asCost]

/-- Loading an optimiser is the same as loading a rewriter and making an optimiser with it, if both succeed. Otherwise
it panics where the constructor of the rewriter raises an exception. -/
theorem C104_load (make : String → Made R) (path : String) (cost : Option (Val T C)) :
    (∀ x, optimiserFrom make path cost = .ok x ↔ ∃ r, make path = .ok r ∧ newOptimiser r cost = .ok x) ∧
    (∀ k e, asCost cost = .ok k → make path = .exn e → optimiserFrom make path cost = .panic) := by
  constructor
  · intro x
    unfold optimiserFrom newOptimiser
    cases asCost cost with
    | error e => simp
    | ok k => cases make path <;> simp
  · intro k e hk hm
    simp only [optimiserFrom, hk, hm]

/-- A file with classes that can not be read or is not in order: `ValueError` for the rewriter, a panic for the
optimiser. -/
theorem C104_bad_classes (compile : String → Except M R) (path : String) (m : M) (h : compile path = .error m)
    (cost : Option (Val T C)) {k : Cost} (hk : asCost cost = .ok k) :
    eccCompile compile path = .exn .value ∧ optimiserFrom (eccCompile compile) path cost = .panic := by
  have h1 : eccCompile compile path = .exn .value := by simp only [eccCompile, h]
  exact ⟨h1, (C104_load _ _ _).2 k _ hk h1⟩

/-- A file that can not be read: `IOError` for the rewriter, a panic for the optimiser and for `badger_pass`. -/
theorem C104_missing_file (env : R × Cost → Env T C E) (load : String → Except M R) (path : String) (m : M)
    (h : load path = .error m) (a : PassArgs) (eccs : Option String) (cost : Option (Val T C)) {k : Cost}
    (hk : asCost cost = .ok k) :
    eccLoad load path = .exn .io ∧ optimiserFrom (eccLoad load) path cost = .panic ∧
    badgerPass env load eccs (some path) cost a = .panic := by
  have h1 : eccLoad load path = .exn .io := by simp only [eccLoad, h]
  have h2 : optimiserFrom (eccLoad load) path cost = .panic := (C104_load _ _ _).2 k _ hk h1
  exact ⟨h1, h2, by simp only [badgerPass, Option.orElse_some, h2]⟩

/-! ## The pass -/

/-- The pass calls `badger_optimise` with its arguments, for the given rewriter or else the default one; without a
rewriter it raises `ValueError`. -/
theorem C104_pass (env : R × Cost → Env T C E) (load : String → Except M R) (eccs rewriter : Option String)
    (cost : Option (Val T C)) (a : PassArgs) :
    (∀ f, badgerPass env load eccs rewriter cost a = .ok f ↔
      ∃ path r k, (rewriter = some path ∨ (rewriter = none ∧ eccs = some path)) ∧ load path = .ok r ∧
        asCost cost = .ok k ∧
        f = badgerOptimise (env (r, k)) ⟨a.maxThreads, a.timeout, a.progressTimeout, a.maxCount, some a.rebase⟩) ∧
    (rewriter = none → eccs = none → badgerPass env load eccs rewriter cost a = .exn .value) := by
  constructor
  · intro f
    have main : ∀ path, (match optimiserFrom (eccLoad load) path cost with
          | .exn e => Made.exn e
          | .panic => .panic
          | .ok opt => .ok (badgerOptimise (env opt)
              ⟨a.maxThreads, a.timeout, a.progressTimeout, a.maxCount, some a.rebase⟩)) = .ok f ↔
        ∃ r k, load path = .ok r ∧ asCost cost = .ok k ∧ f = badgerOptimise (env (r, k))
          ⟨a.maxThreads, a.timeout, a.progressTimeout, a.maxCount, some a.rebase⟩ := by
      intro path
      unfold optimiserFrom eccLoad
      cases asCost cost with
      | error e => simp
      | ok k => cases load path <;> simp [eq_comm]
    unfold badgerPass
    cases rewriter with
    | some p =>
      rw [Option.orElse_some]
      refine (main p).trans ?_
      constructor
      · rintro ⟨r, k, h⟩; exact ⟨p, r, k, .inl rfl, h⟩
      · rintro ⟨path, r, k, h | ⟨h, _⟩, h'⟩
        · cases h; exact ⟨r, k, h'⟩
        · simp at h
    | none =>
      cases eccs with
      | none => simp
      | some p =>
        rw [Option.orElse_none]
        refine (main p).trans ?_
        constructor
        · rintro ⟨r, k, h⟩; exact ⟨p, r, k, .inr ⟨rfl, rfl⟩, h⟩
        · rintro ⟨path, r, k, h | ⟨_, h⟩, h'⟩
          · simp at h
          · cases h; exact ⟨r, k, h'⟩
  · rintro rfl rfl
    rfl

/-- By default the pass does not rebase and leaves its argument alone, in contrast to `badger_optimise`, where the
default is to rebase: a pass of pytket that is given the arguments of a call of `badger_optimise` does something
else. -/
theorem C104_pass_default (env : R × Cost → Env T C E) (load : String → Except M R) (eccs rewriter : Option String)
    (cost : Option (Val T C)) (m t p n : Option Nat) {f}
    (hf : badgerPass env load eccs rewriter cost
      { maxThreads := m, timeout := t, progressTimeout := p, maxCount := n } = .ok f) (circ : PyCirc T C) :
    (f circ).2 = circ ∧
    ∀ (e : Env T C E) (args : Args), args.rebase = none →
      badgerOptimise e args circ = badgerOptimise e { args with rebase := some true } circ := by
  obtain ⟨path, r, k, _, _, _, rfl⟩ := ((C104_pass env load eccs rewriter cost _).1 f).mp hf
  refine ⟨Tket.PyBadger.C87_argument_partial _ _ _ rfl, ?_⟩
  intro e args h
  obtain ⟨m, t, p, n, b⟩ := args
  simp only at h
  subst h
  rfl

/-! ## Examples -/

example : ∃ a : Asked, a.Legit ∧ (a.keywords (T := Nat) (C := Nat)).length = 4 :=
  ⟨{ timeout := some 10, threads := some 4, split := some true, queueSize := some 50 },
    ⟨by rintro n (h | h | h | h | h) <;> simp at h <;> omega, by simp⟩, rfl⟩

/-- The stub's order makes a call with a queue size fail. -/
example (env : Env Nat Nat Unit) (files : String → Bool) (c : Nat) :
    pyOptimise env files [.circ (.tket c), .int 10, .int 5, .int 4, .bool true, .int 50] [] = .exn .type := rfl

example : asNat (T := Nat) (C := Nat) (some (.int 10)) = .ok (some 10) := rfl

example : optimiserFrom (T := Nat) (C := Nat) (eccLoad (M := Unit) fun p => if p = "a" then .ok 1 else .error ()) "b"
    none = .panic := rfl

end Tket.PyOptimiser
