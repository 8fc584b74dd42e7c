import Verif.Model.UnitsSpec

/-!
# Lemmas about units
-/

namespace Tket.Units

/-- The items of the rest of a row. -/
def items (lin : Nat → Nat → Nat) (wire : Nat → Option (Nat × Nat)) : List Ty → Nat → Nat → List Item
  | [], _, _ => []
  | t :: rest, pos, count =>
    if t.linear then ⟨.linear (lin pos count), pos, t⟩ :: items lin wire rest (pos + 1) (count + 1)
    else
      match wire pos with
      | some w => ⟨.wire w.1 w.2, pos, t⟩ :: items lin wire rest (pos + 1) count
      | none => items lin wire rest (pos + 1) count

/-- Does every linear port of the rest have a label? -/
def labelled (L : Labeller) : List Ty → Nat → Nat → Prop
  | [], _, _ => True
  | t :: rest, pos, count =>
    if t.linear then (L.linear pos count).isSome ∧ labelled L rest (pos + 1) (count + 1)
    else labelled L rest (pos + 1) count

/-- A step of the iterator. -/
theorem take_succ (L : Labeller) (k : Nat) (t : Ty) (rest : List Ty) (pos count : Nat) :
    take L (k + 1) ⟨t :: rest, pos, count⟩ =
      if t.linear then
        match L.linear pos count with
        | none => none
        | some u => (take L k ⟨rest, pos + 1, count + 1⟩).map (⟨.linear u, pos, t⟩ :: ·)
      else
        match L.wire pos with
        | some w => (take L k ⟨rest, pos + 1, count⟩).map (⟨.wire w.1 w.2, pos, t⟩ :: ·)
        | none => take L (k + 1) ⟨rest, pos + 1, count⟩ := by
  rw [take]
  simp only [next, makeValue]
  by_cases h : t.linear = true
  · simp only [h, if_true, checkedSub, Nat.le_add_left, Nat.add_sub_cancel]
    cases L.linear pos count <;> rfl
  · simp only [h, if_false, Bool.false_eq_true]
    cases L.wire pos with
    | none => simp only [take]
    | some w => obtain ⟨a, b⟩ := w; rfl

theorem take_items {L : Labeller} {lin : Nat → Nat → Nat} : ∀ (rest : List Ty) (k pos count : Nat),
    rest.length < k →
    (∀ i c u, L.linear i c = some u → u = lin i c) →
    (labelled L rest pos count → take L k ⟨rest, pos, count⟩ = some (items lin L.wire rest pos count)) ∧
      (¬ labelled L rest pos count → take L k ⟨rest, pos, count⟩ = none)
  | [], k, pos, count, hk, _ => by
    obtain ⟨k, rfl⟩ : ∃ j, k = j + 1 := ⟨k - 1, by simp at hk; omega⟩
    simp [labelled, take, next, items]
  | t :: rest, k, pos, count, hk, hl => by
    obtain ⟨k, rfl⟩ : ∃ j, k = j + 1 := ⟨k - 1, by simp at hk; omega⟩
    simp only [List.length_cons, Nat.add_lt_add_iff_right] at hk
    rw [take_succ]
    simp only [labelled, items]
    by_cases h : t.linear = true
    · simp only [h, if_true]
      obtain ⟨h1, h2⟩ := take_items rest k (pos + 1) (count + 1) hk hl
      cases hL : L.linear pos count with
      | none => simp
      | some u =>
        rw [hl _ _ _ hL]
        simp only [Option.isSome_some, true_and]
        exact ⟨fun a => by rw [h1 a]; rfl, fun a => by rw [h2 a]; rfl⟩
    · simp only [h, if_false, Bool.false_eq_true]
      cases hw : L.wire pos with
      | some w =>
        obtain ⟨h1, h2⟩ := take_items rest k (pos + 1) count hk hl
        exact ⟨fun a => by rw [h1 a]; rfl, fun a => by rw [h2 a]; rfl⟩
      | none => exact take_items rest (k + 1) (pos + 1) count (by omega) hl

theorem items_spec (lin : Nat → Nat → Nat) (wire : Nat → Option (Nat × Nat)) (rest : List Ty) :
    ∀ (done : List Ty),
    items lin wire rest done.length (done.countP (·.linear)) =
      (List.range' done.length rest.length).filterMap fun i =>
        (done ++ rest)[i]?.bind fun t =>
          if t.linear then some ⟨.linear (lin i (linearBefore (done ++ rest) i)), i, t⟩
          else (wire i).map fun w => ⟨.wire w.1 w.2, i, t⟩ := by
  induction rest with
  | nil => intro done; rfl
  | cons t rest ih =>
    intro done
    have ih := ih (done ++ [t])
    simp only [List.length_append, List.length_singleton, List.countP_append, List.append_assoc,
      List.singleton_append] at ih
    rw [List.length_cons, List.range'_succ, List.filterMap_cons]
    have e1 : (done ++ t :: rest)[done.length]? = some t := by simp
    have e2 : linearBefore (done ++ t :: rest) done.length = done.countP (·.linear) := by
      simp [linearBefore]
    simp only [e1, e2, Option.bind_some, items]
    by_cases h : t.linear = true
    · simp only [h, if_true, List.countP_singleton] at ih ⊢
      rw [ih]
    · simp only [h, if_false, Bool.false_eq_true, List.countP_singleton, Nat.add_zero] at ih ⊢
      rw [ih]
      cases wire done.length <;> rfl

theorem items_expected (lin : Nat → Nat → Nat) (wire : Nat → Option (Nat × Nat)) (types : List Ty) :
    items lin wire types 0 0 = expected lin wire types := by
  have := items_spec lin wire types []
  simp only [List.length_nil, List.countP_nil, List.nil_append] at this
  rw [this, expected, List.range_eq_range']

theorem labelled_spec (L : Labeller) (rest : List Ty) : ∀ (done : List Ty),
    labelled L rest done.length (done.countP (·.linear)) ↔
      ∀ i t, done.length ≤ i → (done ++ rest)[i]? = some t → t.linear = true →
        (L.linear i (linearBefore (done ++ rest) i)).isSome := by
  induction rest with
  | nil =>
    intro done
    simp only [labelled, List.append_nil, true_iff]
    intro i t hi h
    rw [List.getElem?_eq_none hi] at h
    cases h
  | cons t rest ih =>
    intro done
    have ih := ih (done ++ [t])
    simp only [List.length_append, List.length_singleton, List.countP_append, List.append_assoc,
      List.singleton_append] at ih
    have e1 : (done ++ t :: rest)[done.length]? = some t := by simp
    have e2 : linearBefore (done ++ t :: rest) done.length = done.countP (·.linear) := by
      simp [linearBefore]
    simp only [labelled]
    by_cases h : t.linear = true
    · simp only [h, if_true, List.countP_singleton] at ih ⊢
      rw [ih]
      constructor
      · rintro ⟨a, b⟩ i t' hi ht hl
        by_cases hi' : i = done.length
        · subst hi'; rw [e2]; exact a
        · exact b i t' (by omega) ht hl
      · intro a
        exact ⟨by have := a _ _ (Nat.le_refl _) e1 h; rwa [e2] at this, fun i t' hi => a i t' (by omega)⟩
    · simp only [h, if_false, Bool.false_eq_true, List.countP_singleton, Nat.add_zero] at ih ⊢
      rw [ih]
      constructor
      · intro b i t' hi ht hl
        by_cases hi' : i = done.length
        · subst hi'; rw [e1] at ht; cases ht; exact absurd hl h
        · exact b i t' (by omega) ht hl
      · intro a i t' hi
        exact a i t' (by omega)

theorem labelled_iff (L : Labeller) (types : List Ty) :
    labelled L types 0 0 ↔
      ∀ i t, types[i]? = some t → t.linear = true → (L.linear i (linearBefore types i)).isSome := by
  have := labelled_spec L types []
  simpa using this

theorem linearBefore_le (types : List Ty) (i : Nat) : linearBefore types i ≤ i :=
  Nat.le_trans List.countP_le_length (by simp; omega)

theorem linearBefore_succ {types : List Ty} {i : Nat} {t : Ty} (h : types[i]? = some t) :
    linearBefore types (i + 1) = linearBefore types i + if t.linear then 1 else 0 := by
  rw [linearBefore, List.take_add_one, h]
  simp [linearBefore, List.countP_singleton]

theorem linearBefore_length (types : List Ty) : linearBefore types types.length = types.countP (·.linear) := by
  simp [linearBefore]

theorem linearBefore_mono (types : List Ty) {i j : Nat} (h : i ≤ j) : linearBefore types i ≤ linearBefore types j := by
  unfold linearBefore
  exact List.Sublist.countP_le (by
    rw [← Nat.min_eq_left h, ← List.take_take]
    exact List.take_sublist _ _)

theorem linearBefore_lt {types : List Ty} {i : Nat} {t : Ty} (h : types[i]? = some t) (ht : t.linear = true) :
    linearBefore types i < types.countP (·.linear) := by
  have h1 := linearBefore_succ h
  have h2 : i + 1 ≤ types.length := (List.getElem?_eq_some_iff.1 h).1
  have h3 := linearBefore_mono types h2
  rw [linearBefore_length] at h3
  rw [ht] at h1
  simp only [if_true] at h1
  omega

/-- A labelled port of large index if the linear types do not come first. -/
theorem exists_late {types : List Ty} (h : ¬ LinearFirst types) :
    ∃ i t, types[i]? = some t ∧ t.linear = true ∧ types.countP (·.linear) ≤ i := by
  -- the difference between index and number only grows: take the last linear port
  have key : ∀ (n : Nat) (i : Nat) (t : Ty), types.length - i = n → types[i]? = some t → t.linear = true →
      linearBefore types i < i → ∃ i t, types[i]? = some t ∧ t.linear = true ∧ types.countP (·.linear) ≤ i := by
    intro n
    induction n using Nat.strongRecOn with
    | ind n ih =>
      intro i t hn hi ht hlt
      by_cases hex : ∃ j t', i < j ∧ types[j]? = some t' ∧ t'.linear = true ∧ linearBefore types j < j
      · obtain ⟨j, t', hj, h1, h2, h3⟩ := hex
        have : j < types.length := (List.getElem?_eq_some_iff.1 h1).1
        exact ih (types.length - j) (by omega) j t' rfl h1 h2 h3
      · refine ⟨i, t, hi, ht, ?_⟩
        -- no later linear port at all
        have none_later : ∀ j t', i < j → types[j]? = some t' → t'.linear = false := by
          intro j t' hj h1
          cases hl : t'.linear with
          | false => rfl
          | true =>
            exfalso
            apply hex
            -- the first linear port after `i` would be late as well
            have late : ∀ d, i + d < j + 1 → linearBefore types (i + d) < i + d := by
              intro d
              induction d with
              | zero => intro _; exact hlt
              | succ d ihd =>
                intro hd
                have hlen : i + d < types.length := by
                  have := (List.getElem?_eq_some_iff.1 h1).1; omega
                have := linearBefore_succ (types := types) (i := i + d) (List.getElem?_eq_getElem hlen)
                have hh := ihd (by omega)
                rw [← Nat.add_assoc, this]
                split <;> omega
            refine ⟨j, t', hj, h1, hl, ?_⟩
            have := late (j - i) (by omega)
            rwa [show i + (j - i) = j by omega] at this
        have : types.countP (·.linear) = linearBefore types (i + 1) := by
          rw [← List.take_append_drop (i + 1) types, List.countP_append]
          have : (types.drop (i + 1)).countP (·.linear) = 0 := by
            rw [List.countP_eq_zero]
            intro x hx
            obtain ⟨k, hk⟩ := List.getElem?_of_mem hx
            rw [List.getElem?_drop] at hk
            rw [none_later _ _ (by omega) hk]
            simp
          rw [this]
          simp [linearBefore]
        rw [this, linearBefore_succ hi, ht]
        simp only [if_true]
        omega
  have : ∃ i t, types[i]? = some t ∧ t.linear = true ∧ linearBefore types i ≠ i := by
    refine Classical.byContradiction fun hc => h fun i t h1 h2 => ?_
    refine Classical.byContradiction fun h3 => hc ⟨i, t, h1, h2, h3⟩
  obtain ⟨i, t, h1, h2, h3⟩ := this
  exact key _ i t rfl h1 h2 (by have := linearBefore_le types i; omega)

theorem process_length : ∀ (ins : List (Option Commands.Wire)) (outs : List Commands.Wire)
    (m : List (Commands.Wire × Nat)),
    (Commands.process ins outs m).2.1.length ≤ ins.length ∧ (Commands.process ins outs m).2.2.length ≤ outs.length
  | [], outs, m => by
    simp only [Commands.process, List.length_nil, Nat.le_refl, true_and]
    induction outs generalizing m with
    | nil => simp [Commands.allocate]
    | cons o os ih => simp only [Commands.allocate, List.length_cons, Nat.add_le_add_iff_right]; exact ih _
  | i :: is, [], m => by
    have := process_length is [] (Commands.terminate i m).2
    simp only [Commands.process, List.length_append, List.length_cons]
    refine ⟨?_, this.2⟩
    have h : (Commands.terminate i m).1.toList.length ≤ 1 := by
      cases (Commands.terminate i m).1 <;> simp
    omega
  | i :: is, o :: os, m => by
    simp only [Commands.process]
    split
    · rename_i m' _
      have := process_length is os m'
      simp only [List.length_cons]
      omega
    · rename_i u m' _
      have := process_length is os (Commands.insertWire o u m')
      simp only [List.length_cons]
      omega

end Tket.Units
