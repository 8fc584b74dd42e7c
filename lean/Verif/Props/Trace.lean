import Verif.Model.Trace
import Verif.Props.Strategy

/-!
# C85: traces of rewrites
-/

namespace Tket.Trace

open Tket.Strategy

theorem readAll_nums (l : List Nat) (h : ∀ k ∈ l, k < 2 ^ 16) : readAll (l.map Json.num) = some l := by
  induction l with
  | nil => rfl
  | cons k l ih =>
    rw [List.forall_mem_cons] at h
    simp only [List.map_cons, readAll, ofJson, ih h.2, Nat.mod_eq_of_lt h.1, Option.map_some]

theorem run_enabled (evs : List Event) (l : List Nat) :
    run true evs (some (.arr (l.map Json.num))) = some (.arr ((l ++ evs.filterMap Event.entry).map Json.num)) := by
  induction evs generalizing l with
  | nil => simp [run]
  | cons e evs ih =>
    have hadd : ∀ k, run true evs (some (.arr (l.map Json.num ++ [.num k]))) =
        some (.arr ((l ++ k :: evs.filterMap Event.entry).map Json.num)) := by
      intro k
      have := ih (l ++ [k])
      simpa using this
    cases e with
    | enable => exact ih l
    | add k => exact hadd k
    | apply s => exact hadd 1
    | applyNotrace s => exact ih l

theorem run_off (evs : List Event) (m : Meta) (hm : m = none ∨ m = some .null) :
    (expected evs = none ∧ (run true evs m = none ∨ run true evs m = some .null)) ∨
      ∃ l, expected evs = some l ∧ run true evs m = some (.arr (l.map Json.num)) := by
  induction evs generalizing m with
  | nil => exact .inl ⟨rfl, hm⟩
  | cons e evs ih =>
    cases e with
    | enable =>
      right
      refine ⟨_, rfl, ?_⟩
      have : enable true m = some (.arr (([] : List Nat).map Json.num)) := by rcases hm with rfl | rfl <;> rfl
      simp only [run, step, this]
      rw [run_enabled]
      rfl
    | add k =>
      have : (add true k m).2 = some .null := by rcases hm with rfl | rfl <;> rfl
      simp only [run, step, this, expected]
      exact ih _ (.inr rfl)
    | apply s =>
      have : (apply true s m).2 = some .null := by rcases hm with rfl | rfl <;> rfl
      simp only [run, step, this, expected]
      exact ih _ (.inr rfl)
    | applyNotrace s => exact ih m hm

theorem mem_expected : ∀ (evs : List Event) (l : List Nat), expected evs = some l → ∀ k ∈ l,
    k = 1 ∨ Event.add k ∈ evs
  | [], l, h => by cases h
  | .enable :: evs, l, h => by
    cases h
    intro k hk
    obtain ⟨e, he, hk⟩ := List.mem_filterMap.1 hk
    cases e with
    | add j => cases hk; exact .inr (List.mem_cons_of_mem _ he)
    | apply s => cases hk; exact .inl rfl
    | enable => cases hk
    | applyNotrace s => cases hk
  | .add j :: evs, l, h => fun k hk => (mem_expected evs l h k hk).imp_right (List.mem_cons_of_mem _)
  | .apply s :: evs, l, h => fun k hk => (mem_expected evs l h k hk).imp_right (List.mem_cons_of_mem _)
  | .applyNotrace s :: evs, l, h => fun k hk => (mem_expected evs l h k hk).imp_right (List.mem_cons_of_mem _)

/-- C85: after any history of a new circuit, the trace has what was registered since tracing was first enabled,
in order; there is no trace if it was not enabled. -/
theorem C85_history (evs : List Event) (h : ∀ k, Event.add k ∈ evs → k < 2 ^ 16) :
    trace true (run true evs none) = some (expected evs) := by
  rcases run_off evs none (.inl rfl) with ⟨h1, h2 | h2⟩ | ⟨l, h1, h2⟩
  · rw [h1, h2]; rfl
  · rw [h1, h2]; rfl
  · rw [h1, h2]
    have : readAll (l.map Json.num) = some l := readAll_nums l fun k hk => by
      rcases mem_expected evs l h1 k hk with rfl | hk
      · decide
      · exact h k hk
    simp [trace, this]

/-- C85: without the feature nothing is stored and there is no trace. -/
theorem C85_no_feature (evs : List Event) (m : Meta) : run false evs m = m ∧ trace false m = some none := by
  refine ⟨?_, rfl⟩
  induction evs generalizing m with
  | nil => rfl
  | cons e evs ih => cases e <;> exact ih m

/-- C85: what is registered is reported as such: a new entry at the end, exactly if there is a trace. -/
theorem C85_add (m : Meta) (k : Nat) (hk : k < 2 ^ 16) (t : Option (List Nat)) (h : trace true m = some t) :
    (add true k m).1 = t.isSome ∧ trace true (add true k m).2 = some (t.map (· ++ [k])) := by
  cases m with
  | none => cases h; exact ⟨rfl, rfl⟩
  | some j =>
    cases j with
    | null => cases h; exact ⟨rfl, rfl⟩
    | num n => cases h; exact ⟨rfl, rfl⟩
    | other n => cases h; exact ⟨rfl, rfl⟩
    | arr l =>
      have key : ∀ (l : List Json) (r : List Nat), readAll l = some r → readAll (l ++ [.num k]) = some (r ++ [k]) := by
        intro l
        induction l with
        | nil => intro r hr; cases hr; simp only [List.nil_append, readAll, ofJson, Nat.mod_eq_of_lt hk, Option.map_some]
        | cons j l ih =>
          intro r hr
          simp only [List.cons_append, readAll] at hr ⊢
          cases hj : ofJson j with
          | none => rw [hj] at hr; cases hr
          | some n =>
            rw [hj] at hr
            cases hl : readAll l with
            | none => rw [hl] at hr; cases hr
            | some r' =>
              rw [hl] at hr
              cases hr
              simp [ih r' hl]
      have e : trace true (some (.arr l)) = (readAll l).map some := rfl
      rw [e] at h
      cases hl : readAll l with
      | none => rw [hl] at h; cases h
      | some r =>
        rw [hl] at h
        cases h
        have e2 : trace true (add true k (some (.arr l))).2 = (readAll (l ++ [.num k])).map some := rfl
        exact ⟨rfl, by rw [e2, key l r hl]; rfl⟩

theorem applyAll_run (l : List Rewrite) (m : Meta) : applyAll true l m = run true (l.map fun _ => .apply true) m := by
  induction l generalizing m with
  | nil => rfl
  | cons r l ih => exact ih _

/-- The total of the matches in a trace. -/
def total (t : List Nat) : Nat := t.sum

theorem filterMap_applies (l : List Rewrite) :
    (l.map fun _ => Event.apply true).filterMap Event.entry = List.replicate l.length 1 := by
  induction l with
  | nil => rfl
  | cons r l ih => simpa [Event.entry, List.replicate_succ] using ih

/-- C85: after the greedy strategy, the trace has one more entry for each rewrite that was applied. -/
theorem C85_greedy (rws : List Rewrite) (t : List Nat) (ht : ∀ k ∈ t, k < 2 ^ 16) :
    ∃ t', trace true (greedyMeta true rws (some (.arr (t.map Json.num)))) = some (some t') ∧
      t' = t ++ List.replicate (greedy rws).applied.length 1 ∧
      total t' = total t + (greedy rws).applied.length := by
  refine ⟨_, ?_, rfl, ?_⟩
  · rw [greedyMeta, applyAll_run, run_enabled, filterMap_applies]
    simp only [trace, Bool.not_true, Bool.false_eq_true, if_false]
    rw [readAll_nums]
    · rfl
    · intro k hk
      rcases List.mem_append.1 hk with hk | hk
      · exact ht k hk
      · rw [List.eq_of_mem_replicate hk]; decide
  · simp [total]

/-- C85: each result of the exhaustive threshold strategy has one more entry. -/
theorem C85_threshold (under : List Nat → List Nat → Bool) (rws : List Rewrite) (t : List Nat)
    (ht : ∀ k ∈ t, k < 2 ^ 16) (r : Result (List Int)) (hr : r ∈ exhaustiveThreshold under rws) :
    trace true (thresholdMeta true r (some (.arr (t.map Json.num)))) = some (some (t ++ [1])) := by
  obtain ⟨w, _, hw⟩ := List.mem_filterMap.1 hr
  split at hw
  · cases hw
  · cases hw
    rw [thresholdMeta, applyAll_run, run_enabled]
    simp only [trace, Bool.not_true, Bool.false_eq_true, if_false]
    rw [readAll_nums]
    · rfl
    · intro k hk
      rcases List.mem_append.1 hk with hk | hk
      · exact ht k hk
      · simp [Event.entry] at hk
        omega

theorem counter_spec (checked : Bool) (l : List Rewrite) (n : Nat) (hn : n < 2 ^ 16) :
    counter checked l n =
      if checked = true ∧ 2 ^ 16 ≤ n + l.length then none else some ((n + l.length) % 2 ^ 16) := by
  induction l generalizing n with
  | nil =>
    have : ¬ (checked = true ∧ 2 ^ 16 ≤ n + 0) := by omega
    rw [counter, List.length_nil, if_neg this, Nat.add_zero, Nat.mod_eq_of_lt hn]
  | cons r l ih =>
    simp only [counter, List.length_cons]
    by_cases h : n + 1 < 2 ^ 16
    · rw [if_pos h, ih _ h]
      have e : n + 1 + l.length = n + (l.length + 1) := by omega
      rw [e]
    · rw [if_neg h]
      have hn' : n = 2 ^ 16 - 1 := by omega
      subst hn'
      cases checked with
      | true => rw [if_pos rfl, if_pos ⟨rfl, by omega⟩]
      | false =>
        simp only [Bool.false_eq_true, if_false, false_and]
        rw [ih 0 (by decide)]
        simp only [Bool.false_eq_true, if_false, false_and]
        congr 1
        omega

theorem foldl_notrace (l : List Rewrite) (m : Meta) : l.foldl (fun m _ => (applyNotrace true m).2) m = m := by
  induction l with
  | nil => rfl
  | cons r l ih => exact ih

/-- C85 for the exhaustive greedy strategy: one more entry, with the number of rewrites that were applied, if that is
below 65536; otherwise the strategy panics or the number is reduced modulo 65536. -/
theorem C85_exhaustive_partial (checked : Bool) (r : Result (List Int)) (t : List Nat) (ht : ∀ k ∈ t, k < 2 ^ 16) :
    (exhaustiveMeta true checked r (some (.arr (t.map Json.num)))).map (trace true) =
      if checked = true ∧ 2 ^ 16 ≤ r.applied.length then none
      else some (some (some (t ++ [r.applied.length % 2 ^ 16]))) := by
  rw [exhaustiveMeta, counter_spec _ _ _ (by decide), foldl_notrace, Nat.zero_add]
  split
  · rfl
  · simp only [Option.map_some]
    congr 1
    have h : trace true (some (.arr (t.map Json.num))) = some (some t) := by
      simp [trace, readAll_nums t ht]
    exact (C85_add _ _ (Nat.mod_lt _ (by decide)) _ h).2

/-- Rewrites at different nodes, each removing one gate. -/
def many (n : Nat) : List Rewrite := (List.range n).map fun i => ⟨[i], [i], -1, [1], [0]⟩

theorem candidates_many (n : Nat) : candidates (many n) = (many n).map fun r => (r, [-1]) := by
  have h1 : ((many n).filterMap (fun rw =>
      if !underThreshold rw.pre rw.post then none else some (rw, Cost.subCost rw.post rw.pre))) =
      (many n).map fun r => (r, [-1]) := by
    rw [← List.filterMap_eq_map]
    apply List.filterMap_congr
    intro r hr
    obtain ⟨i, _, rfl⟩ := List.mem_map.1 hr
    rfl
  rw [candidates, h1]
  apply List.Pairwise.insertionSort_eq
  rw [List.pairwise_map]
  exact List.pairwise_of_forall (fun _ _ => rfl)

theorem exhLoop_many (l : List Nat) (changed : List Nat) (δ : List Int) (hd : l.Nodup)
    (hc : ∀ i ∈ l, i ∉ changed) :
    (exhLoop (l.map fun i => ((⟨[i], [i], -1, [1], [0]⟩ : Rewrite), [-1])) changed δ).1 =
      l.map fun i => ⟨[i], [i], -1, [1], [0]⟩ := by
  induction l generalizing changed δ with
  | nil => rfl
  | cons i l ih =>
    rw [List.nodup_cons] at hd
    rw [List.forall_mem_cons] at hc
    have : touches [i] changed = false := by simp [touches, hc.1]
    simp only [List.map_cons, exhLoop, this, Bool.and_false, Bool.false_eq_true, if_false]
    rw [ih _ _ hd.2]
    intro j hj hj'
    simp only [List.cons_append, List.nil_append, List.mem_cons] at hj'
    rcases hj' with rfl | hj'
    · exact hd.1 hj
    · exact hc.2 j hj hj'

theorem many_result (n : Nat) (hn : 0 < n) : ∃ r ∈ exhaustiveGreedy 1 (many n), r.applied.length = n := by
  have hlen : (candidates (many n)).length = n := by
    rw [candidates_many]; simp only [many, List.length_map, List.length_range]
  refine ⟨_, List.mem_map.2 ⟨0, by rw [List.mem_range, hlen]; exact hn, rfl⟩, ?_⟩
  rw [List.drop_zero, candidates_many]
  simp only [many, List.map_map, Function.comp_def]
  rw [exhLoop_many (List.range n) [] _ List.nodup_range (by simp), List.length_map, List.length_range]

/-- C85 fails of the code: with 65536 disjoint rewrites, all are applied in one result. With checks of overflow the
strategy panics, without them the trace says that nothing was matched. -/
theorem C85_exhaustive_wrong :
    ∃ r ∈ exhaustiveGreedy 1 (many (2 ^ 16)), r.applied.length = 2 ^ 16 ∧
      exhaustiveMeta true true r (some (.arr [])) = none ∧
      (exhaustiveMeta true false r (some (.arr []))).map (trace true) = some (some (some [0])) := by
  obtain ⟨r, hr, h⟩ := many_result (2 ^ 16) (by decide)
  have h1 := C85_exhaustive_partial true r [] (by simp)
  have h2 := C85_exhaustive_partial false r [] (by simp)
  rw [h] at h1 h2
  rw [if_pos ⟨rfl, Nat.le_refl _⟩] at h1
  rw [if_neg (by simp)] at h2
  exact ⟨r, hr, h, Option.map_eq_none_iff.1 h1, h2⟩

/-- C85: the total of the trace is the number of rewrites applied since tracing was enabled, if none of the
calls of `apply` failed. -/
theorem C85_matches_partial (evs : List Event) (hk : ∀ k, Event.add k ∈ evs → k < 2 ^ 16)
    (hs : Event.apply false ∉ evs) :
    ∃ t, trace true (run true (.enable :: evs) none) = some (some t) ∧ total t = (evs.map Event.matches).sum := by
  refine ⟨_, C85_history _ (by intro k h; exact hk k (by simpa using h)), ?_⟩
  clear hk
  induction evs with
  | nil => rfl
  | cons e evs ih =>
    have ih := ih (fun h => hs (List.mem_cons_of_mem _ h))
    simp only [total, List.map_cons, List.sum_cons] at ih ⊢
    cases e with
    | enable => simpa [List.filterMap_cons, Event.entry, Event.matches] using ih
    | add k => simpa [Event.entry, Event.matches] using ih
    | applyNotrace s => simpa [List.filterMap_cons, Event.entry, Event.matches] using ih
    | apply s =>
      cases s with
      | false => exact absurd (List.mem_cons_self ..) hs
      | true => simpa [Event.entry, Event.matches] using ih

/-- C85 fails of the code: a rewrite that could not be applied is in the trace. -/
theorem C85_failed_wrong :
    (apply true false (some (.arr []))).1 = false ∧
      trace true (apply true false (some (.arr []))).2 = some (some [1]) := ⟨rfl, rfl⟩

/-- C85 fails of the code: registering a rewrite leaves a mark in circuits for which tracing is not enabled, though
it is reported as ignored. -/
theorem C85_ignored_wrong (k : Nat) : add true k none = (false, some .null) := rfl

/-- C85: a trace that comes from elsewhere is read modulo 65536; reading panics exactly if there is something other
than numbers in it. -/
theorem C85_foreign (l : List Json) :
    (trace true (some (.arr l)) = none ↔ ∃ j ∈ l, ∀ n, j ≠ .num n) ∧
      ∀ ns : List Nat, l = ns.map Json.num → trace true (some (.arr l)) = some (some (ns.map (· % 2 ^ 16))) := by
  have e : trace true (some (.arr l)) = (readAll l).map some := rfl
  rw [e]
  constructor
  · rw [Option.map_eq_none_iff]
    induction l with
    | nil => simp [readAll]
    | cons j l ih =>
      cases j with
      | num n => simp [readAll, ofJson, ih rfl]
      | null => simp [readAll, ofJson]
      | arr l => simp [readAll, ofJson]
      | other n => simp [readAll, ofJson]
  · rintro ns rfl
    have : readAll (ns.map Json.num) = some (ns.map (· % 2 ^ 16)) := by
      clear e
      induction ns with
      | nil => rfl
      | cons n ns ih => simp only [List.map_cons, readAll, ofJson, ih, Option.map_some]
    rw [this]; rfl

/-- C85: enabling again keeps the trace. -/
theorem C85_enable_again (m : Meta) (t : List Nat) (h : trace true m = some (some t)) :
    enable true m = m := by
  cases m with
  | none => cases h
  | some j =>
    cases j with
    | arr l => rfl
    | null => cases h
    | num n => cases h
    | other n => cases h

example : trace true (run true [.apply true, .enable, .add 3, .apply true, .enable, .applyNotrace true] none) =
    some (some [3, 1]) := rfl

example : trace true (greedyMeta true (many 3) (some (.arr []))) = some (some [1, 1, 1]) := by
  decide +kernel

example : ∃ r ∈ exhaustiveGreedy 1 (many 3),
    (exhaustiveMeta true true r (some (.arr []))).map (trace true) = some (some (some [3])) := by
  refine ⟨⟨many 3, [-3]⟩, ?_, rfl⟩
  decide +kernel

end Tket.Trace
