import Verif.Lemmas.Tket1

/-
C74: memory of the tket1 library.
-/
namespace Verif.Tket1

/-- No program that uses the crate makes the library use or free an object that does not exist, whatever the
library answers. -/
theorem C74_safe {C : Type} (p : List (Stmt C)) : Safe (program p).mem.trace :=
  (program_ok (ks := []) p (.inl List.not_mem_nil)).1.mem.safe

/-- Every object is freed at most once. -/
theorem C74_freed_once {C : Type} (p : List (Stmt C)) (k : Kind) (i : Nat) : (program p).mem.trace.count (.free k i) ≤ 1 := by
  have hs := C74_safe p
  generalize (program p).mem.trace = t at hs
  apply Classical.byContradiction
  intro hc
  have hmem : Ev.free k i ∈ t := List.count_pos_iff.mp (by omega)
  obtain ⟨s, t', rfl, hns⟩ := List.eq_append_cons_of_mem hmem
  rw [List.count_append, List.count_cons_self, List.count_eq_zero_of_not_mem hns] at hc
  have hmem' : Ev.free k i ∈ t' := List.count_pos_iff.mp (by omega)
  obtain ⟨s', t'', rfl⟩ := List.append_of_mem hmem'
  exact (hs (s ++ .free k i :: s') (.free k i) t'' (by simp)).2 (by simp)

/-- At the end of a program no circuit and no pass of the library is left. -/
theorem C74_no_leak {C : Type} (p : List (Stmt C)) : Clean (program p).mem.trace [.circuit, .pass] := by
  obtain ⟨h1, h2⟩ := program_ok (ks := [.circuit, .pass]) p (.inl (by simp))
  apply h1.mem.clean
  rintro k i ⟨x, hx⟩
  rw [h2] at hx
  cases hx

/-- At the end of a program no string is left either. Missing are calls of the library that return a string that
is not a circuit, or a string together with an error. -/
theorem C74_no_string_leak_partial {C : Type} (p : List (Stmt C)) (hg : ∀ s ∈ p, s.Good) :
    Clean (program p).mem.trace [.circuit, .pass, .string] := by
  obtain ⟨h1, h2⟩ := program_ok (ks := [.circuit, .pass, .string]) p (.inr hg)
  apply h1.mem.clean
  rintro k i ⟨x, hx⟩
  rw [h2] at hx
  cases hx

/-- The string of a circuit that cannot be read is lost. -/
theorem C74_string_leaked :
    ∃ p : List (Stmt Unit), (program p).mem.trace =
      [.alloc .circuit 0, .use .circuit 0, .alloc .string 1, .use .string 1, .free .circuit 0] ∧
      ¬ Clean (program p).mem.trace [.string] := by
  refine ⟨[.create .circuit 0 .ok true, .read 0 ⟨0, some none⟩], rfl, ?_⟩
  intro h
  have : Ev.free .string 1 ∈ (program [.create .circuit 0 .ok true, .read 0 (⟨0, some none⟩ : JsonAns Unit)]).mem.trace :=
    h .string (by decide) 1 (by decide)
  revert this
  decide

/-- `tket1_pass` gives new circuits for all regions if every call of the library succeeds for every region, and
these are the circuits that the library wrote; otherwise it is an error. -/
theorem C74_regions_iff {C : Type} (as : List (RegionAns C)) (m : Mem) (cs : List C) :
    (regions as m).1 = .ok cs ↔
      as.map (fun a => a.json.string) = cs.map (fun c => some (some c)) ∧
      ∀ a ∈ as, a.circuit = .ok ∧ a.found = true ∧ a.pass = .ok ∧ a.passFound = true ∧ a.code = 0 ∧ a.json.code = 0 := by
  have hone : ∀ (a : RegionAns C) (m : Mem) (c : C), (region a m).1 = .ok c ↔
      a.json.string = some (some c) ∧ a.circuit = .ok ∧ a.found = true ∧ a.pass = .ok ∧ a.passFound = true ∧ a.code = 0 ∧ a.json.code = 0 := by
    intro a m c
    obtain ⟨ct, cf, pt, pf, code, ⟨jc, js⟩⟩ := a
    unfold region
    cases ct with
    | failed => simp [create]
    | zero => simp [create]
    | ok =>
      cases cf with
      | false => simp [create]
      | true =>
        cases pt with
        | failed => simp [create, runFromJson]
        | zero => simp [create, runFromJson]
        | ok =>
          cases pf with
          | false => simp [create, runFromJson]
          | true =>
            by_cases hcode : code = 0
            · subst hcode
              by_cases hj : jc = 0
              · subst hj
                rcases js with _ | _ | c'
                · simp [create, runFromJson, run, toSerial]
                · simp [create, runFromJson, run, toSerial]
                · simp [create, runFromJson, run, toSerial]
              · simp [create, runFromJson, run, toSerial, hj]
            · simp [create, runFromJson, run, hcode]
  induction as generalizing m cs with
  | nil =>
    unfold regions
    constructor
    · intro h
      cases h
      exact ⟨rfl, fun a h => (List.not_mem_nil h).elim⟩
    · rintro ⟨h, -⟩
      cases cs with
      | nil => rfl
      | cons c cs => cases h
  | cons a as ih =>
    unfold regions
    cases hr : region a m with
    | mk r m' =>
      cases r with
      | error e =>
        simp only
        constructor
        · intro h
          cases h
        · rintro ⟨h1, h2⟩
          cases cs with
          | nil => cases h1
          | cons c cs =>
            simp only [List.map_cons, List.cons.injEq] at h1
            have := (hone a m c).mpr ⟨h1.1, h2 a List.mem_cons_self⟩
            rw [hr] at this
            cases this
      | ok c =>
        have hc := (hone a m c).mp (by rw [hr])
        simp only
        cases hr' : regions as m' with
        | mk r' m'' =>
          cases r' with
          | error e =>
            simp only
            constructor
            · intro h
              cases h
            · rintro ⟨h1, h2⟩
              cases cs with
              | nil => cases h1
              | cons c' cs =>
                simp only [List.map_cons, List.cons.injEq] at h1
                have := (ih m' cs).mpr ⟨h1.2, fun b hb => h2 b (List.mem_cons_of_mem _ hb)⟩
                rw [hr'] at this
                cases this
          | ok cs' =>
            have hcs := (ih m' cs').mp (by rw [hr'])
            simp only
            constructor
            · intro h
              cases h
              refine ⟨by rw [List.map_cons, List.map_cons, hc.1, hcs.1], fun b hb => ?_⟩
              rcases List.mem_cons.mp hb with rfl | hb
              · exact hc.2
              · exact hcs.2 b hb
            · rintro ⟨h1, h2⟩
              cases cs with
              | nil => cases h1
              | cons c' cs =>
                simp only [List.map_cons, List.cons.injEq] at h1
                rw [hc.1] at h1
                cases h1.1
                have := (ih m' cs).mpr ⟨h1.2, fun b hb => h2 b (List.mem_cons_of_mem _ hb)⟩
                rw [hr'] at this
                cases this
                rfl

/-- After `tket1_pass` no circuit and no pass is left, also if it failed. -/
theorem C74_regions_memory {C : Type} (as : List (RegionAns C)) :
    Safe (regions as ⟨0, []⟩).2.trace ∧ Clean (regions as ⟨0, []⟩).2.trace [.circuit, .pass] := by
  have h0 : Ok [.circuit, .pass] ⟨0, []⟩ (fun _ _ => False) := by
    refine (EnvOk.init [.circuit, .pass]).mem.congr ?_
    intro k i
    constructor
    · rintro ⟨x, hx⟩
      cases hx
    · exact False.elim
  have h1 := Ok.regions as h0 (.inl (by simp))
  exact ⟨h1.safe, h1.clean (fun _ _ h => h)⟩

/-- The hypotheses are satisfiable. -/
example : ∃ p : List (Stmt Nat), (∀ s ∈ p, s.Good) ∧ (program p).mem.trace =
    [.alloc .circuit 0, .alloc .pass 1, .use .circuit 0, .use .pass 1, .use .circuit 0, .alloc .string 2, .use .string 2,
     .free .string 2, .alloc .circuit 3, .free .circuit 0, .free .circuit 3, .free .pass 1] := by
  refine ⟨[.create .circuit 0 .ok true, .create .pass 0 .ok true, .run 0 0 0, .read 0 ⟨0, some (some 7)⟩,
    .create .circuit 0 .ok true], ?_, rfl⟩
  intro s hs
  simp only [List.mem_cons, List.not_mem_nil, or_false] at hs
  rcases hs with rfl | rfl | rfl | rfl | rfl
  · exact trivial
  · exact trivial
  · exact trivial
  · exact ⟨7, rfl⟩
  · exact trivial

end Verif.Tket1
