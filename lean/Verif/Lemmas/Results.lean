import Mathlib.Data.List.Basic
import Mathlib.Data.List.Perm.Subperm
import Mathlib.Data.List.Range
import Mathlib.Data.List.Nodup
import Verif.Model.ResultsSpec

/-
Lemmas about constant strings and results.
-/
namespace Verif.Results

/-! ### Decimal numbers -/

/-- The number with the decimal digits. -/
def undec (l : List Char) : Nat := l.foldl (fun a c => 10 * a + (c.toNat - 48)) 0

theorem digit_val : ∀ d, d < 10 → (Nat.digitChar d).toNat - 48 = d := by decide

theorem undec_toDigits (n : Nat) : undec (Nat.toDigits 10 n) = n := by
  induction n using Nat.strongRecOn with
  | ind n ih =>
    by_cases h : n < 10
    · rw [Nat.toDigits_of_lt_base h]
      simp [undec, digit_val n h]
    · have h' : 10 ≤ n := Nat.le_of_not_lt h
      rw [Nat.toDigits_of_base_le (by decide) h']
      have := ih (n / 10) (by omega)
      rw [undec] at this
      rw [undec, List.foldl_append, this]
      simp only [List.foldl_cons, List.foldl_nil]
      rw [digit_val _ (Nat.mod_lt _ (by decide))]
      omega

theorem toDigits_inj {a b : Nat} (h : Nat.toDigits 10 a = Nat.toDigits 10 b) : a = b := by
  rw [← undec_toDigits a, h, undec_toDigits]

theorem symbol_inj {w : World} {pre str : Str} {bytes : List Nat} {i j : Nat}
    (h : symbol w pre str bytes i = symbol w pre str bytes j) : i = j := by
  unfold symbol at h
  exact toDigits_inj (List.append_cancel_left h)

/-! ### The search -/

theorem find_some_mem {m : Globals} {n : Str} {v : Option (List Nat)} (h : find m n = some v) :
    n ∈ m.map Prod.fst := by
  induction m with
  | nil => simp [find] at h
  | cons a m ih =>
    obtain ⟨k, x⟩ := a
    rw [find] at h
    by_cases hk : k = n
    · simp [hk]
    · rw [if_neg hk] at h
      simp only [List.map_cons, List.mem_cons]
      exact Or.inr (ih h)

theorem find_append {m m' : Globals} {n : Str} {v : Option (List Nat)} (h : find m n = some v) :
    find (m ++ m') n = some v := by
  induction m with
  | nil => simp [find] at h
  | cons a m ih =>
    obtain ⟨k, x⟩ := a
    rw [find] at h
    rw [List.cons_append, find]
    by_cases hk : k = n
    · rw [if_pos hk] at h ⊢; exact h
    · rw [if_neg hk] at h ⊢; exact ih h

theorem find_append_none {m : Globals} {n : Str} {v : Option (List Nat)} (h : find m n = none) :
    find (m ++ [(n, v)]) n = some v := by
  induction m with
  | nil => simp [find]
  | cons a m ih =>
    obtain ⟨k, x⟩ := a
    rw [find] at h
    rw [List.cons_append, find]
    by_cases hk : k = n
    · rw [if_pos hk] at h; simp at h
    · rw [if_neg hk] at h ⊢; exact ih h

/-- If the search runs out of steps, all names it tried are taken. -/
theorem search_none {w : World} {pre str : Str} {bytes : List Nat} {m : Globals} :
    ∀ {fuel i : Nat}, search w pre str bytes m fuel i = .outOfFuel →
      ∀ j, i ≤ j → j < i + fuel → symbol w pre str bytes j ∈ m.map Prod.fst
  | 0, i, _, j, h1, h2 => by omega
  | fuel + 1, i, h, j, h1, h2 => by
    rw [search] at h
    cases hf : find m (symbol w pre str bytes i) with
    | none => rw [hf] at h; simp at h
    | some v =>
      rw [hf] at h
      simp only at h
      by_cases hv : v = some bytes
      · rw [if_pos hv] at h; simp at h
      · rw [if_neg hv] at h
        by_cases hij : i = j
        · subst hij; exact find_some_mem hf
        · exact search_none h j (by omega) (by omega)

/-- The search ends: there are more names than variables. -/
theorem search_ends (w : World) (pre str : Str) (bytes : List Nat) (m : Globals) :
    search w pre str bytes m (m.length + 1) 0 ≠ .outOfFuel := by
  intro h
  have hall := search_none h
  have hnd : ((List.range (m.length + 1)).map (symbol w pre str bytes)).Nodup :=
    List.nodup_range.map (fun a b hab => symbol_inj hab)
  have hsub : (List.range (m.length + 1)).map (symbol w pre str bytes) ⊆ m.map Prod.fst := by
    intro x hx
    obtain ⟨j, hj, rfl⟩ := List.mem_map.mp hx
    exact hall j (Nat.zero_le _) (by simpa using List.mem_range.mp hj)
  have := (List.subperm_of_subset hnd hsub).length_le
  simp only [List.length_map, List.length_range] at this
  omega

/-- What the search gives: a variable with the value; earlier variables are as before. -/
theorem search_ok {w : World} {pre str : Str} {bytes : List Nat} {m m' : Globals} {n : Str} :
    ∀ {fuel i : Nat}, search w pre str bytes m fuel i = .ok m' n →
      find m' n = some (some bytes) ∧
      (m' = m ∧ find m n = some (some bytes) ∨
        find m n = none ∧ m' = m ++ [(n, some bytes)])
  | 0, i, h => by simp [search] at h
  | fuel + 1, i, h => by
    rw [search] at h
    cases hf : find m (symbol w pre str bytes i) with
    | none =>
      rw [hf] at h
      simp only [Emitted.ok.injEq] at h
      obtain ⟨h1, h2⟩ := h
      subst h1 h2
      exact ⟨find_append_none hf, Or.inr ⟨hf, rfl⟩⟩
    | some v =>
      rw [hf] at h
      simp only at h
      by_cases hv : v = some bytes
      · rw [if_pos hv] at h
        simp only [Emitted.ok.injEq] at h
        obtain ⟨h1, h2⟩ := h
        subst h1 h2
        rw [hv] at hf
        exact ⟨hf, Or.inl ⟨rfl, hf⟩⟩
      · rw [if_neg hv] at h
        exact search_ok h

/-- In the module that results, the search stops at the same name. -/
theorem search_again {w : World} {pre str : Str} {bytes : List Nat} {m m' : Globals} {n : Str} :
    ∀ {fuel i : Nat}, search w pre str bytes m fuel i = .ok m' n →
      ∀ {m'' : Globals} {fuel' : Nat}, fuel ≤ fuel' →
        (∀ k v, find m' k = some v → find m'' k = some v) →
        search w pre str bytes m'' fuel' i = .ok m'' n
  | 0, i, h => by simp [search] at h
  | fuel + 1, i, h => by
    intro hle hm
    rename_i m'' fuel'
    obtain ⟨f, rfl⟩ : ∃ f, fuel' = f + 1 := ⟨fuel' - 1, by omega⟩
    have hr := search_ok h
    rw [search] at h
    rw [search]
    cases hf : find m (symbol w pre str bytes i) with
    | none =>
      rw [hf] at h
      simp only [Emitted.ok.injEq] at h
      obtain ⟨h1, h2⟩ := h
      subst h2
      rw [hm _ _ hr.1]
      simp
    | some v =>
      have hf' : find m' (symbol w pre str bytes i) = some v := by
        rcases hr.2 with ⟨e, _⟩ | ⟨_, e⟩
        · rw [e]; exact hf
        · rw [e]; exact find_append hf
      rw [hf] at h
      rw [hm _ _ hf']
      simp only at h ⊢
      by_cases hv : v = some bytes
      · rw [if_pos hv] at h ⊢
        simp only [Emitted.ok.injEq] at h
        rw [h.2]
      · rw [if_neg hv] at h ⊢
        exact search_again h (by omega) hm

/-- Emission succeeds exactly for strings of less than 256 bytes. -/
theorem emitString_cases (w : World) (m : Globals) (r : Request) :
    (r.content w).length ≤ 256 ∧ (∃ m' n, emitString w m r.str r.pre r.strPre = .ok m' n ∧
      find m' n = some (some (r.content w)) ∧
      (m' = m ∧ find m n = some (some (r.content w)) ∨
        find m n = none ∧ m' = m ++ [(n, some (r.content w))])) ∨
    256 < (r.content w).length ∧ emitString w m r.str r.pre r.strPre = .tooLong := by
  by_cases hl : (w.enc (r.strPre ++ r.str)).length < 256
  · left
    refine ⟨by simp only [Request.content, List.length_cons]; omega, ?_⟩
    have he : emitString w m r.str r.pre r.strPre
        = search w r.pre r.str (r.content w) m (m.length + 1) 0 := by
      simp only [emitString, Request.content]
      rw [if_pos hl]
    rw [he]
    cases hs : search w r.pre r.str (r.content w) m (m.length + 1) 0 with
    | ok m' n => exact ⟨m', n, rfl, search_ok hs⟩
    | tooLong =>
      exfalso
      have : ∀ fuel i, search w r.pre r.str (r.content w) m fuel i ≠ .tooLong := by
        intro fuel
        induction fuel with
        | zero => intro i; simp [search]
        | succ f ih =>
          intro i
          rw [search]
          cases find m (symbol w r.pre r.str (r.content w) i) with
          | none => simp
          | some v =>
            simp only
            by_cases hv : v = some (r.content w)
            · rw [if_pos hv]; simp
            · rw [if_neg hv]; exact ih _
      exact this _ _ hs
    | outOfFuel => exact absurd hs (search_ends _ _ _ _ _)
  · right
    refine ⟨by simp only [Request.content, List.length_cons]; omega, ?_⟩
    simp only [emitString]
    rw [if_neg hl]

theorem emitString_keeps {w : World} {m m' : Globals} {str pre strPre n : Str}
    (h : emitString w m str pre strPre = .ok m' n) {k : Str} {v : Option (List Nat)}
    (hk : find m k = some v) : find m' k = some v := by
  rcases emitString_cases w m ⟨str, pre, strPre⟩ with ⟨_, m1, n1, h1, _, h2⟩ | ⟨_, h1⟩
  · rw [h] at h1
    injection h1 with h1 h1'
    subst h1 h1'
    rcases h2 with ⟨e, _⟩ | ⟨_, e⟩
    · rw [e]; exact hk
    · rw [e]; exact find_append hk
  · rw [h] at h1; simp at h1

theorem emitMany_keeps {w : World} : ∀ {rs : List Request} {m m' : Globals} {ns : List Str},
    emitMany w m rs = some (m', ns) → ∀ k v, find m k = some v → find m' k = some v
  | [], m, m', ns, h, k, v, hk => by
    simp only [emitMany, Option.some.injEq, Prod.mk.injEq] at h
    rw [← h.1]; exact hk
  | r :: rs, m, m', ns, h, k, v, hk => by
    rw [emitMany] at h
    cases he : emitString w m r.str r.pre r.strPre with
    | ok m1 n1 =>
      rw [he] at h
      simp only at h
      cases h2 : emitMany w m1 rs with
      | none => rw [h2] at h; simp at h
      | some p =>
        obtain ⟨m2, ns2⟩ := p
        rw [h2] at h
        simp only [Option.map_some, Option.some.injEq, Prod.mk.injEq] at h
        rw [← h.1]
        exact emitMany_keeps h2 k v (emitString_keeps he hk)
    | tooLong => rw [he] at h; simp at h
    | outOfFuel => rw [he] at h; simp at h

/-- All variables hold what was asked for, at the end. -/
theorem emitMany_content {w : World} : ∀ {rs : List Request} {m m' : Globals} {ns : List Str},
    emitMany w m rs = some (m', ns) →
      ns.map (find m') = rs.map (fun r => some (some (r.content w)))
  | [], m, m', ns, h => by
    simp only [emitMany, Option.some.injEq, Prod.mk.injEq] at h
    rw [← h.2]; rfl
  | r :: rs, m, m', ns, h => by
    rw [emitMany] at h
    cases he : emitString w m r.str r.pre r.strPre with
    | ok m1 n1 =>
      rw [he] at h
      simp only at h
      cases h2 : emitMany w m1 rs with
      | none => rw [h2] at h; simp at h
      | some p =>
        obtain ⟨m2, ns2⟩ := p
        rw [h2] at h
        simp only [Option.map_some, Option.some.injEq, Prod.mk.injEq] at h
        obtain ⟨e1, e2⟩ := h
        subst e1 e2
        simp only [List.map_cons]
        rw [emitMany_content h2]
        congr 1
        apply emitMany_keeps h2
        rcases emitString_cases w m r with ⟨_, m1', n1', h1, h3, _⟩ | ⟨_, h1⟩
        · rw [he] at h1
          injection h1 with h1 h1'
          subst h1 h1'
          exact h3
        · rw [he] at h1; simp at h1
    | tooLong => rw [he] at h; simp at h
    | outOfFuel => rw [he] at h; simp at h

/-! ### Memory -/

theorem leBytes_length : ∀ (k n : Nat), (leBytes k n).length = k
  | 0, _ => rfl
  | k + 1, n => by simp [leBytes, leBytes_length k]

theorem leVal_leBytes : ∀ (k n : Nat), n < 256 ^ k → leVal (leBytes k n) = n
  | 0, n, h => by simp at h; simp [leBytes, leVal, h]
  | k + 1, n, h => by
    rw [leBytes, leVal, leVal_leBytes k (n / 256)]
    · omega
    · rw [Nat.pow_succ] at h
      exact Nat.div_lt_of_lt_mul (by omega)

theorem bytesAt_put : ∀ (l l' : List Nat) (r : Nat → Nat),
    bytesAt (put (l ++ l') r) l.length = l
  | [], _, _ => rfl
  | b :: l, l', r => by
    rw [List.length_cons, bytesAt]
    congr 1
    exact bytesAt_put l l' r

theorem put_shift : ∀ (l l' : List Nat) (r : Nat → Nat),
    (fun i => put (l ++ l') r (i + l.length)) = put l' r
  | [], _, _ => rfl
  | b :: l, l', r => by
    have := put_shift l l' r
    funext i
    have h := congrFun this i
    exact h

theorem readArr_put (k : Nat) : ∀ (ns : List Nat) (r : Nat → Nat), (∀ n ∈ ns, n < 256 ^ k) →
    readArr k ns.length (put (ns.flatMap (leBytes k)) r) = ns
  | [], _, _ => rfl
  | n :: ns, r, h => by
    rw [List.length_cons, readArr, List.flatMap_cons]
    have h1 := bytesAt_put (leBytes k n) (ns.flatMap (leBytes k)) r
    have h2 := put_shift (leBytes k n) (ns.flatMap (leBytes k)) r
    rw [leBytes_length] at h1 h2
    rw [h1, h2, leVal_leBytes k n (h n (by simp)),
      readArr_put k ns r (fun x hx => h x (List.mem_cons_of_mem _ hx))]

end Verif.Results
