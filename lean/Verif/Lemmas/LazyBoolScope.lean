import Verif.Lemmas.LazyBoolBal
import Mathlib.Data.List.Nodup

/-!
# The lowered program is linear
-/

namespace Verif.LazyBool

variable {W L ν : Type} [DecidableEq ν]

def Nm.base : Nm ν → ν
  | .raw n => n
  | .cp n _ => n

theorem rename_cp (lz : ν → Bool) (later : List ν) (n : ν) (i : Nat) : ∀ ns : List ν,
    (rename lz later ns).count (.cp n i) =
      if lz n = true ∧ later.count n ≤ i ∧ i < (ns ++ later).count n then 1 else 0
  | [] => by
    rw [rename, List.count_nil, List.nil_append, if_neg (by omega)]
  | m :: ns => by
    rw [rename, List.count_cons, rename_cp lz later n i ns, List.cons_append, List.count_cons]
    by_cases hm : m = n
    · subst hm
      have hle : later.count m ≤ (ns ++ later).count m := by rw [List.count_append]; omega
      cases hl : lz m with
      | true =>
        simp only [if_true, beq_self_eq_true, true_and]
        by_cases hi : (ns ++ later).count m = i
        · subst hi
          simp [hle]
        · have : ((Nm.cp m ((ns ++ later).count m) : Nm ν) == .cp m i) = false := by
            rw [beq_eq_false_iff_ne]
            intro hh
            injection hh with _ hh
            exact hi hh
          rw [this]
          simp only [Bool.false_eq_true, if_false, Nat.add_zero]
          split <;> split <;> omega
      | false => simp
    · have h1 : ((if lz m = true then Nm.cp m ((ns ++ later).count m) else Nm.raw m : Nm ν) == .cp n i)
          = false := by
        split <;> simp [hm]
      have h2 : (m == n) = false := by simp [hm]
      rw [h1, h2]
      simp

theorem rename_raw (lz : ν → Bool) (later : List ν) (n : ν) : ∀ ns : List ν,
    (rename lz later ns).count (.raw n) = if lz n = true then 0 else ns.count n
  | [] => by simp [rename]
  | m :: ns => by
    rw [rename, List.count_cons, rename_raw lz later n ns, List.count_cons]
    by_cases hm : m = n
    · subst hm
      cases hl : lz m <;> simp
    · have h1 : ((if lz m = true then Nm.cp m ((ns ++ later).count m) else Nm.raw m : Nm ν) == .raw n)
          = false := by
        split <;> simp [hm]
      have h2 : (m == n) = false := by simp [hm]
      rw [h1, h2]
      simp

def copied (lz : ν → Bool) : List (ν × Bool) → List (Nm ν)
  | [] => []
  | (n, _) :: ns => if lz n then .raw n :: copied lz ns else copied lz ns

theorem insertCopies_uses (lz : ν → Bool) (u : List ν) (k : Body (Nm ν) L) :
    ∀ outs : List (ν × Bool), (insertCopies lz u k outs).uses = copied lz outs ++ k.uses
  | [] => rfl
  | (n, f) :: outs => by
    rw [insertCopies, copied]
    split
    · rw [Body.uses, insertCopies_uses lz u k outs]; rfl
    · exact insertCopies_uses lz u k outs

theorem copied_cp (lz : ν → Bool) (n : ν) (i : Nat) : ∀ outs : List (ν × Bool),
    (copied lz outs).count (.cp n i) = 0
  | [] => rfl
  | (m, f) :: outs => by
    rw [copied]
    split
    · rw [List.count_cons, copied_cp lz n i outs]; simp
    · exact copied_cp lz n i outs

theorem copied_raw (lz : ν → Bool) (n : ν) : ∀ outs : List (ν × Bool),
    (copied lz outs).count (.raw n) = if lz n = true then (outs.map Prod.fst).count n else 0
  | [] => by simp [copied]
  | (m, f) :: outs => by
    rw [copied, List.map_cons, List.count_cons]
    by_cases hm : m = n
    · subst hm
      cases hl : lz m with
      | true => simp [copied_raw lz m outs, hl]
      | false => simp [copied_raw lz m outs, hl]
    · split
      · rw [List.count_cons, copied_raw lz n outs]
        simp [hm]
      · rw [copied_raw lz n outs]
        simp [hm]

theorem uses_cp (lz : ν → Bool) (n : ν) (i : Nat) : ∀ b : Body ν L,
    (linearize lz b).uses.count (.cp n i) = if lz n = true ∧ i < b.uses.count n then 1 else 0
  | .ret outs => by
    rw [linearize, Body.uses, Body.uses, rename_cp]
    simp
  | .op o ins outs k => by
    rw [linearize, Body.uses, Body.uses, List.count_append, insertCopies_uses, List.count_append,
      rename_cp, copied_cp, uses_cp lz n i k, List.count_append]
    cases lz n with
    | false => simp
    | true =>
      simp only [true_and]
      split <;> split <;> split <;> omega
  | .cond ins cs outs k => by
    rw [linearize, Body.uses, Body.uses, List.count_append, insertCopies_uses, List.count_append,
      rename_cp, copied_cp, uses_cp lz n i k, List.count_append]
    cases lz n with
    | false => simp
    | true =>
      simp only [true_and]
      split <;> split <;> split <;> omega
  | .dfg ins bins b outs k => by
    rw [linearize, Body.uses, Body.uses, List.count_append, insertCopies_uses, List.count_append,
      rename_cp, copied_cp, uses_cp lz n i k, List.count_append]
    cases lz n with
    | false => simp
    | true =>
      simp only [true_and]
      split <;> split <;> split <;> omega
  | .call key ins outs k => by
    rw [linearize, Body.uses, Body.uses, List.count_append, insertCopies_uses, List.count_append,
      rename_cp, copied_cp, uses_cp lz n i k, List.count_append]
    cases lz n with
    | false => simp
    | true =>
      simp only [true_and]
      split <;> split <;> split <;> omega

theorem uses_raw (lz : ν → Bool) (n : ν) : ∀ b : Body ν L, n ∉ b.defs.map Prod.fst →
    (linearize lz b).uses.count (.raw n) = if lz n = true then 0 else b.uses.count n
  | .ret outs, _ => by rw [linearize, Body.uses, Body.uses, rename_raw]
  | .op o ins outs k, h => by
    rw [Body.defs, List.map_append, List.mem_append, not_or] at h
    rw [linearize, Body.uses, Body.uses, List.count_append, insertCopies_uses, List.count_append,
      rename_raw, copied_raw, uses_raw lz n k h.2, List.count_append, List.count_eq_zero.mpr h.1]
    split <;> omega
  | .cond ins cs outs k, h => by
    rw [Body.defs, List.map_append, List.mem_append, not_or] at h
    rw [linearize, Body.uses, Body.uses, List.count_append, insertCopies_uses, List.count_append,
      rename_raw, copied_raw, uses_raw lz n k h.2, List.count_append, List.count_eq_zero.mpr h.1]
    split <;> omega
  | .dfg ins bins b outs k, h => by
    rw [Body.defs, List.map_append, List.mem_append, not_or] at h
    rw [linearize, Body.uses, Body.uses, List.count_append, insertCopies_uses, List.count_append,
      rename_raw, copied_raw, uses_raw lz n k h.2, List.count_append, List.count_eq_zero.mpr h.1]
    split <;> omega
  | .call key ins outs k, h => by
    rw [Body.defs, List.map_append, List.mem_append, not_or] at h
    rw [linearize, Body.uses, Body.uses, List.count_append, insertCopies_uses, List.count_append,
      rename_raw, copied_raw, uses_raw lz n k h.2, List.count_append, List.count_eq_zero.mpr h.1]
    split <;> omega

omit [DecidableEq ν] in
theorem Scoped.defs {n : ν} : ∀ {b : Body ν L} {D : List ν}, b.Scoped D → n ∈ D →
    n ∉ b.defs.map Prod.fst
  | .ret _, _, _, _ => by simp [Body.defs]
  | .op o ins outs k, D, h, hn => by
    simp only [Body.Scoped] at h
    rw [Body.defs, List.map_append, List.mem_append, not_or]
    exact ⟨fun hh => h.2.1.2 n hh hn, Scoped.defs h.2.2 (by simp [hn])⟩
  | .cond ins cs outs k, D, h, hn => by
    simp only [Body.Scoped] at h
    rw [Body.defs, List.map_append, List.mem_append, not_or]
    exact ⟨fun hh => h.2.2.1.2 n hh hn, Scoped.defs h.2.2.2 (by simp [hn])⟩
  | .dfg ins bins b outs k, D, h, hn => by
    simp only [Body.Scoped] at h
    rw [Body.defs, List.map_append, List.mem_append, not_or]
    exact ⟨fun hh => h.2.2.1.2 n hh hn, Scoped.defs h.2.2.2 (by simp [hn])⟩
  | .call key ins outs k, D, h, hn => by
    simp only [Body.Scoped] at h
    rw [Body.defs, List.map_append, List.mem_append, not_or]
    exact ⟨fun hh => h.2.1.2 n hh hn, Scoped.defs h.2.2 (by simp [hn])⟩

/-- Values that are not copied and may hold futures are used once after their definition. -/
def FitOuts (lz : ν → Bool) (outs : List (ν × Bool)) (u : List ν) : Prop :=
  ∀ n, (n, true) ∈ outs → lz n = false → u.count n = 1

def Fits (lz : ν → Bool) : Body ν L → Prop
  | .ret _ => True
  | .op _ _ outs k => FitOuts lz outs k.uses ∧ Fits lz k
  | .cond _ _ outs k => FitOuts lz outs k.uses ∧ Fits lz k
  | .dfg _ _ _ outs k => FitOuts lz outs k.uses ∧ Fits lz k
  | .call _ _ outs k => FitOuts lz outs k.uses ∧ Fits lz k

theorem fits_step {lz : ν → Bool} {D ins u : List ν} {outs ds : List (ν × Bool)} (hi : ins ⊆ D)
    (hF : Fresh D outs)
    (h : ∀ n, n ∉ D → (n, true) ∈ outs ++ ds → lz n = false → (ins ++ u).count n = 1) :
    FitOuts lz outs u ∧
      ∀ n, n ∉ outs.map Prod.fst ++ D → (n, true) ∈ ds → lz n = false → u.count n = 1 := by
  have h0 : ∀ n, n ∉ D → ins.count n = 0 := fun n hn => List.count_eq_zero.mpr fun hh => hn (hi hh)
  constructor
  · intro n hn hl
    have hnD : n ∉ D := hF.2 n (List.mem_map_of_mem (f := Prod.fst) hn)
    have := h n hnD (by simp [hn]) hl
    rw [List.count_append, h0 n hnD] at this
    omega
  · intro n hnD hn hl
    rw [List.mem_append, not_or] at hnD
    have := h n hnD.2 (by simp [hn]) hl
    rw [List.count_append, h0 n hnD.2] at this
    omega

theorem fits_of {lz : ν → Bool} : ∀ {b : Body ν L} {D : List ν}, b.Scoped D →
    (∀ n, n ∉ D → (n, true) ∈ b.defs → lz n = false → b.uses.count n = 1) → Fits lz b
  | .ret _, _, _, _ => trivial
  | .op o ins outs k, D, hs, h => by
    simp only [Body.Scoped] at hs
    simp only [Body.uses, Body.defs] at h
    obtain ⟨h1, h2⟩ := fits_step hs.1 hs.2.1 h
    exact ⟨h1, fits_of hs.2.2 h2⟩
  | .cond ins cs outs k, D, hs, h => by
    simp only [Body.Scoped] at hs
    simp only [Body.uses, Body.defs] at h
    obtain ⟨h1, h2⟩ := fits_step hs.1 hs.2.2.1 h
    exact ⟨h1, fits_of hs.2.2.2 h2⟩
  | .dfg ins bins b outs k, D, hs, h => by
    simp only [Body.Scoped] at hs
    simp only [Body.uses, Body.defs] at h
    obtain ⟨h1, h2⟩ := fits_step hs.1 hs.2.2.1 h
    exact ⟨h1, fits_of hs.2.2.2 h2⟩
  | .call key ins outs k, D, hs, h => by
    simp only [Body.Scoped] at hs
    simp only [Body.uses, Body.defs] at h
    obtain ⟨h1, h2⟩ := fits_step hs.1 hs.2.1 h
    exact ⟨h1, fits_of hs.2.2 h2⟩

theorem insert_lin {lz : ν → Bool} {u S : List ν} {k : Body (Nm ν) L}
    (hk : ∀ D' : List (Nm ν), (∀ m ∈ D', m.base ∈ S) → k.Lin D') :
    ∀ {outs : List (ν × Bool)} {D' : List (Nm ν)}, (outs.map Prod.fst).Nodup →
    (∀ n ∈ outs.map Prod.fst, n ∈ S) → (∀ m ∈ D', m.base ∈ S) →
    (∀ n ∈ outs.map Prod.fst, ∀ i, Nm.cp n i ∉ D') →
    (∀ n ∈ outs.map Prod.fst, lz n = true → ∀ i, i < u.count n → k.uses.count (.cp n i) = 1) →
    (insertCopies lz u k outs).Lin D'
  | [], D', _, _, h3, _, _ => hk D' h3
  | (n, f) :: outs, D', h1, h2, h3, h4, h5 => by
    simp only [List.map_cons, List.nodup_cons] at h1
    rw [insertCopies]
    split
    · next hl =>
      simp only [Body.Lin]
      have hmem : ∀ m : Nm ν, m ∈ (((List.range (u.count n)).map fun i => ((Nm.cp n i : Nm ν), true)).map
          Prod.fst) → ∃ i, i < u.count n ∧ m = .cp n i := by
        intro m hm
        simp only [List.map_map, List.mem_map, List.mem_range, Function.comp_def] at hm
        obtain ⟨i, hi, rfl⟩ := hm
        exact ⟨i, hi, rfl⟩
      refine ⟨rfl, ⟨⟨?_, ?_⟩, ?_⟩, ?_⟩
      · rw [List.map_map]
        exact List.Nodup.map (fun a b hab => by simpa using hab) List.nodup_range
      · intro m hm
        obtain ⟨i, _, rfl⟩ := hmem m hm
        exact h4 n (by simp) i
      · intro m hm
        obtain ⟨i, hi, rfl⟩ := hmem m (List.mem_map_of_mem (f := Prod.fst) hm)
        rw [insertCopies_uses, List.count_append, copied_cp, h5 n (by simp) hl i hi]
      · refine insert_lin hk h1.2 (fun m hm => h2 m (by simp [hm])) ?_ ?_
          (fun m hm => h5 m (by simp [hm]))
        · intro m hm
          rw [List.mem_append] at hm
          rcases hm with hm | hm
          · obtain ⟨i, _, rfl⟩ := hmem m hm
            exact h2 n (by simp)
          · exact h3 m hm
        · intro m hm i hh
          rw [List.mem_append] at hh
          rcases hh with hh | hh
          · obtain ⟨j, _, hj⟩ := hmem _ hh
            injection hj with hj
            exact h1.1 (hj ▸ hm)
          · exact h4 m (by simp [hm]) i hh
    · exact insert_lin hk h1.2 (fun m hm => h2 m (by simp [hm])) h3 (fun m hm => h4 m (by simp [hm]))
        (fun m hm => h5 m (by simp [hm]))

/-- The definitions of a statement, and the copies after it. -/
theorem outs_lin {lz : ν → Bool} {k : Body ν L} {D : List ν} {outs : List (ν × Bool)}
    (hF : Fresh D outs) (hs : k.Scoped (outs.map Prod.fst ++ D)) (hfit : FitOuts lz outs k.uses)
    (hk : ∀ D' : List (Nm ν), (∀ m ∈ D', m.base ∈ outs.map Prod.fst ++ D) → (linearize lz k).Lin D')
    {D' : List (Nm ν)} (hD : ∀ m ∈ D', m.base ∈ D) :
    LinOuts D' (rawOuts outs) (insertCopies lz k.uses (linearize lz k) outs).uses ∧
      (insertCopies lz k.uses (linearize lz k) outs).Lin ((rawOuts outs).map Prod.fst ++ D') := by
  have hmap : (rawOuts outs).map Prod.fst = (outs.map Prod.fst).map Nm.raw := by
    unfold rawOuts; simp
  refine ⟨⟨⟨?_, ?_⟩, ?_⟩, ?_⟩
  · rw [hmap]
    exact List.Nodup.map (fun a b hab => by simpa using hab) hF.1
  · intro m hm hh
    rw [hmap, List.mem_map] at hm
    obtain ⟨n, hn, rfl⟩ := hm
    exact hF.2 n hn (hD _ hh)
  · intro m hm
    unfold rawOuts at hm
    obtain ⟨⟨n, f⟩, hn, he⟩ := List.mem_map.mp hm
    simp only [Prod.mk.injEq] at he
    obtain ⟨rfl, rfl⟩ := he
    have hmem : n ∈ outs.map Prod.fst := List.mem_map_of_mem (f := Prod.fst) hn
    rw [insertCopies_uses, List.count_append, copied_raw,
      uses_raw lz n k (Scoped.defs hs (by rw [List.mem_append]; exact Or.inl hmem))]
    cases hl : lz n with
    | true => simp [List.count_eq_one_of_mem hF.1 hmem]
    | false => simp [hfit n hn hl]
  · refine insert_lin hk hF.1 (fun n hn => by simp only [List.mem_append]; exact Or.inl hn) ?_ ?_ ?_
    · intro m hm
      rw [List.mem_append] at hm ⊢
      rcases hm with hm | hm
      · rw [hmap, List.mem_map] at hm
        obtain ⟨n, hn, rfl⟩ := hm
        exact Or.inl hn
      · exact Or.inr (hD m hm)
    · intro n hn i hh
      rw [List.mem_append] at hh
      rcases hh with hh | hh
      · rw [hmap, List.mem_map] at hh
        obtain ⟨_, _, hh⟩ := hh
        cases hh
      · exact hF.2 n hn (hD _ hh)
    · intro n _ hl i hi
      rw [uses_cp, if_pos ⟨hl, hi⟩]

/-- A region of its own. -/
theorem region_lin {bins : List (ν × Bool)} {b : Body ν L} (hF : Fresh [] bins)
    (hs : b.Scoped (bins.map Prod.fst))
    (hk : ∀ lz : ν → Bool, Fits lz b → ∀ D' : List (Nm ν), (∀ m ∈ D', m.base ∈ bins.map Prod.fst) →
      (linearize lz b).Lin D') :
    LinOuts [] (rawOuts bins)
        (insertCopies (needs bins b) b.uses (linearize (needs bins b) b) bins).uses ∧
      (insertCopies (needs bins b) b.uses (linearize (needs bins b) b) bins).Lin
        ((rawOuts bins).map Prod.fst) := by
  have hneeds : ∀ n, (n, true) ∈ bins ++ b.defs → needs bins b n = false → b.uses.count n = 1 := by
    intro n hn hl
    unfold needs at hl
    simp only [hn, decide_true, Bool.true_and, decide_eq_false_iff_not, Decidable.not_not] at hl
    exact hl
  have := outs_lin (lz := needs bins b) (k := b) (D := []) (outs := bins) hF (by simpa using hs)
    (fun n hn hl => hneeds n (by simp [hn]) hl)
    (fun D' h => hk _ (fits_of hs fun n _ hn hl => hneeds n (by simp [hn]) hl) D' (by simpa using h))
    (D' := []) (by simp)
  simpa using this

mutual
theorem linearize_lin : ∀ (b : Body ν L) {D : List ν} {lz : ν → Bool}, b.Scoped D →
    b.all Op.linear = true → Fits lz b → ∀ {D' : List (Nm ν)}, (∀ m ∈ D', m.base ∈ D) →
    (linearize lz b).Lin D'
  | .ret _, _, _, _, _, _, _, _ => by simp [linearize, Body.Lin]
  | .op o ins outs k, D, lz, hs, ha, hf, D', hD => by
    simp only [Body.Scoped] at hs
    simp only [Body.all, Bool.and_eq_true] at ha
    simp only [linearize, Body.Lin]
    exact ⟨ha.1, outs_lin hs.2.1 hs.2.2 hf.1 (fun D' h => linearize_lin k hs.2.2 ha.2 hf.2 h) hD⟩
  | .cond ins cs outs k, D, lz, hs, ha, hf, D', hD => by
    simp only [Body.Scoped] at hs
    simp only [Body.all, Bool.and_eq_true] at ha
    simp only [linearize, Body.Lin]
    exact ⟨linearizeC_lin cs hs.2.1 ha.1,
      outs_lin hs.2.2.1 hs.2.2.2 hf.1 (fun D' h => linearize_lin k hs.2.2.2 ha.2 hf.2 h) hD⟩
  | .dfg ins bins b outs k, D, lz, hs, ha, hf, D', hD => by
    simp only [Body.Scoped] at hs
    simp only [Body.all, Bool.and_eq_true] at ha
    simp only [linearize, Body.Lin]
    exact ⟨region_lin hs.2.1.1 hs.2.1.2 fun lz h D' hD' => linearize_lin b hs.2.1.2 ha.1 h hD',
      outs_lin hs.2.2.1 hs.2.2.2 hf.1 (fun D' h => linearize_lin k hs.2.2.2 ha.2 hf.2 h) hD⟩
  | .call key ins outs k, D, lz, hs, ha, hf, D', hD => by
    simp only [Body.Scoped] at hs
    simp only [Body.all] at ha
    simp only [linearize, Body.Lin]
    exact outs_lin hs.2.1 hs.2.2 hf.1 (fun D' h => linearize_lin k hs.2.2 ha hf.2 h) hD
theorem linearizeC_lin : ∀ (cs : Cases ν L), cs.Scoped → cs.all Op.linear = true →
    (linearizeC cs).Lin
  | .nil, _, _ => by simp [linearizeC, Cases.Lin]
  | .cons bins b cs, hs, ha => by
    simp only [Cases.Scoped] at hs
    simp only [Cases.all, Bool.and_eq_true] at ha
    simp only [linearizeC, Cases.Lin]
    exact ⟨region_lin hs.1.1 hs.1.2 fun lz h D' hD' => linearize_lin b hs.1.2 ha.1 h hD',
      linearizeC_lin cs hs.2 ha.2⟩
end

/-! ### Replaced operations -/

theorem lowerOp_linear {o o' : Op L} (ho : o.source = true) (hl : lowerOp o = .inl o') :
    o'.linear = true := by
  cases o with
  | const v =>
    simp only [lowerOp, Sum.inl.injEq] at hl
    subst hl
    exact replace_noFut v ho
  | clone lz => cases lz <;> simp [lowerOp] at hl; subst hl; rfl
  | discard lz => cases lz <;> simp [lowerOp] at hl <;> subst hl <;> rfl
  | get lz size => cases lz <;> simp [lowerOp] at hl; subst hl; rfl
  | _ => simp_all [lowerOp, Op.source, Op.linear] <;> (subst hl; rfl)

theorem template_linear {o : Op L} {bins : List (Nat × Bool)} {b : Body Nat L}
    (hl : lowerOp o = .inr (bins, b)) :
    Fresh [] bins ∧ b.Scoped (bins.map Prod.fst) ∧ b.all Op.linear = true := by
  cases o with
  | clone lz =>
    cases lz <;> simp [lowerOp] at hl
    obtain ⟨rfl, rfl⟩ := hl
    simp [Fresh, copyDest, Body.Scoped, Body.all]
  | discard lz => cases lz <;> simp [lowerOp] at hl
  | get lz size =>
    cases lz <;> simp [lowerOp] at hl
    obtain ⟨rfl, rfl⟩ := hl
    simp [Fresh, getDest, copyDest, Body.Scoped, Cases.Scoped, Body.all, Cases.all, Op.linear]
  | _ =>
    simp [lowerOp] at hl <;>
    (obtain ⟨rfl, rfl⟩ := hl
     simp [Fresh, readDest, makeOpaqueDest, binDest, notDest, measureDest, measureResetDest, readCases,
       Body.Scoped, Cases.Scoped, Body.all, Cases.all, Op.linear])

mutual
theorem lowerOps_scoped : ∀ (b : Body Nat L) {D : List Nat}, b.all Op.source = true → b.Scoped D →
    (lowerOps b).Scoped D ∧ (lowerOps b).all Op.linear = true
  | .ret _, _, _, hs => ⟨hs, rfl⟩
  | .op o ins outs k, D, h, hs => by
    simp only [Body.all, Bool.and_eq_true] at h
    simp only [Body.Scoped] at hs
    obtain ⟨h1, h2⟩ := lowerOps_scoped k h.2 hs.2.2
    rw [lowerOps]
    cases hl : lowerOp o with
    | inl o' =>
      simp only [Body.all, Bool.and_eq_true, Body.Scoped]
      exact ⟨⟨hs.1, hs.2.1, h1⟩, lowerOp_linear h.1 hl, h2⟩
    | inr t =>
      obtain ⟨bins, b⟩ := t
      simp only [Body.all, Bool.and_eq_true, Body.Scoped]
      obtain ⟨g1, g2, g3⟩ := template_linear hl
      exact ⟨⟨hs.1, ⟨g1, g2⟩, hs.2.1, h1⟩, g3, h2⟩
  | .cond ins cs outs k, D, h, hs => by
    simp only [Body.all, Bool.and_eq_true, lowerOps, Body.Scoped] at *
    obtain ⟨h1, h2⟩ := lowerOps_scoped k h.2 hs.2.2.2
    obtain ⟨h3, h4⟩ := lowerOpsC_scoped cs h.1 hs.2.1
    exact ⟨⟨hs.1, h3, hs.2.2.1, h1⟩, h4, h2⟩
  | .dfg ins bins b outs k, D, h, hs => by
    simp only [Body.all, Bool.and_eq_true, lowerOps, Body.Scoped] at *
    obtain ⟨h1, h2⟩ := lowerOps_scoped k h.2 hs.2.2.2
    obtain ⟨h3, h4⟩ := lowerOps_scoped b h.1 hs.2.1.2
    exact ⟨⟨hs.1, ⟨hs.2.1.1, h3⟩, hs.2.2.1, h1⟩, h4, h2⟩
  | .call key ins outs k, D, h, hs => by
    simp only [Body.all, lowerOps, Body.Scoped] at *
    obtain ⟨h1, h2⟩ := lowerOps_scoped k h hs.2.2
    exact ⟨⟨hs.1, hs.2.1, h1⟩, h2⟩
theorem lowerOpsC_scoped : ∀ (cs : Cases Nat L), cs.all Op.source = true → cs.Scoped →
    (lowerOpsC cs).Scoped ∧ (lowerOpsC cs).all Op.linear = true
  | .nil, _, hs => ⟨hs, rfl⟩
  | .cons bins b cs, h, hs => by
    simp only [Cases.all, Bool.and_eq_true, lowerOpsC, Cases.Scoped] at *
    obtain ⟨h1, h2⟩ := lowerOps_scoped b h.1 hs.1.2
    obtain ⟨h3, h4⟩ := lowerOpsC_scoped cs h.2 hs.2
    exact ⟨⟨⟨hs.1.1, h1⟩, h3⟩, h2, h4⟩
end

theorem lower_lin {d : Def Nat L} (h : d.Source) : d.lower.Lin := by
  obtain ⟨h1, h2⟩ := lowerOps_scoped d.body h.ops h.inScope
  exact region_lin h.once h1 fun lz hf D' hD' => linearize_lin _ h1 h2 hf hD'

theorem owned_bal {H H' : Heap} {vs vs' : List Val} (h : Owned H vs)
    (hb : Bal H (fun i => occL i vs) H' (fun i => occL i vs')) : Owned H' vs' := by
  intro i
  have h1 := h i
  have h2 := hb i
  unfold avail at h2
  dsimp only at h2
  omega

end Verif.LazyBool
