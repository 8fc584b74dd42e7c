import Verif.Model.Registers
import Mathlib.Data.List.Sort
import Mathlib.Data.List.Range
import Mathlib.Data.List.Forall2
import Mathlib.Tactic.Common

/-! # Lemmas about register names and output permutations -/

namespace Verif.Registers

theorem mapM_of_forall {α β : Type} {f : α → Option β} {g : α → β} :
    ∀ {l : List α}, (∀ x ∈ l, f x = some (g x)) → l.mapM f = some (l.map g)
  | [], _ => rfl
  | x :: l, h => by
    rw [List.mapM_cons, h x (by simp), mapM_of_forall fun y hy => h y (List.mem_cons_of_mem _ hy)]
    rfl

theorem mapM_total {α β : Type} {f : α → Option β} :
    ∀ {l : List α}, (∀ x ∈ l, ∃ y, f x = some y) → ∃ r, l.mapM f = some r
  | [], _ => ⟨[], rfl⟩
  | x :: l, h => by
    obtain ⟨y, hy⟩ := h x (by simp)
    obtain ⟨r, hr⟩ := mapM_total fun z hz => h z (List.mem_cons_of_mem _ hz)
    exact ⟨y :: r, by rw [List.mapM_cons, hy, hr]; rfl⟩

theorem forall_of_mapM {α β : Type} {f : α → Option β} :
    ∀ {l : List α} {r : List β}, l.mapM f = some r → List.Forall₂ (fun x y => f x = some y) l r
  | [], r, h => by
    simp only [List.mapM_nil, Option.pure_def, Option.some.injEq] at h
    subst h; exact .nil
  | x :: l, r, h => by
    rw [List.mapM_cons] at h
    cases hx : f x with
    | none => rw [hx] at h; simp at h
    | some y =>
      cases hl : l.mapM f with
      | none => rw [hx, hl] at h; simp at h
      | some ys =>
        rw [hx, hl] at h
        simp only [Option.bind_eq_bind, Option.bind_some, Option.pure_def, Option.some.injEq] at h
        subst h
        exact .cons hx (forall_of_mapM hl)

/-! ### Names -/

theorem scan_spec {register : String} : ∀ {us : List Unit'} {last m : Option Nat},
    scan register us last = some m →
    (∀ u ∈ us, u.name = register →
      ∃ i rest k, u.index = i :: rest ∧ m = some k ∧ asU16 i ≤ k) ∧
    (∀ l, last = some l → ∃ k, m = some k ∧ l ≤ k)
  | [], last, m, h => by
    simp only [scan, Option.some.injEq] at h
    subst h
    exact ⟨by simp, fun l hl => ⟨l, hl, Nat.le_refl _⟩⟩
  | u :: us, last, m, h => by
    unfold scan at h
    split at h
    · rename_i hne
      obtain ⟨h1, h2⟩ := scan_spec h
      refine ⟨?_, h2⟩
      intro v hv hn
      rcases List.mem_cons.1 hv with rfl | hv
      · exact absurd hn hne
      · exact h1 v hv hn
    · rename_i heq
      split at h
      · exact absurd h (by simp)
      · rename_i i rest hidx
        obtain ⟨h1, h2⟩ := scan_spec h
        obtain ⟨k, hk, hle⟩ := h2 _ rfl
        refine ⟨?_, ?_⟩
        · intro v hv hn
          rcases List.mem_cons.1 hv with rfl | hv
          · exact ⟨i, rest, k, hidx, hk, Nat.le_trans (Nat.le_max_right _ _) hle⟩
          · exact h1 v hv hn
        · rintro l rfl
          exact ⟨k, hk, Nat.le_trans (Nat.le_max_left _ _) hle⟩

theorem scan_total {register : String} {b : Nat} : ∀ {us : List Unit'} {last : Option Nat},
    (∀ u ∈ us, u.name = register → ∃ i rest, u.index = i :: rest ∧ asU16 i < b) →
    (∀ l, last = some l → l < b) →
    ∃ m, scan register us last = some m ∧ ∀ k, m = some k → k < b
  | [], last, _, hl => ⟨last, rfl, hl⟩
  | u :: us, last, h, hl => by
    unfold scan
    split
    · exact scan_total (fun v hv => h v (List.mem_cons_of_mem _ hv)) hl
    · rename_i heq
      obtain ⟨i, rest, hi, hb⟩ := h u (by simp) (by simpa using heq)
      rw [hi]
      refine scan_total (fun v hv => h v (List.mem_cons_of_mem _ hv)) ?_
      rintro l hl'
      obtain rfl := Option.some.inj hl'
      apply Nat.max_lt.2 ⟨_, hb⟩
      cases last with
      | none => exact Nat.lt_of_le_of_lt (Nat.zero_le _) hb
      | some l => exact hl l rfl

/-- The names handed out, as long as the counter does not wrap around. -/
def names (g : Gen) (n : Nat) : List Unit' :=
  (List.range n).map fun k => ⟨g.register, [((g.next + k : Nat) : Int)]⟩

theorem names_succ (g : Gen) (n : Nat) :
    names g (n + 1) = ⟨g.register, [(g.next : Int)]⟩ :: names ⟨g.next + 1, g.register⟩ n := by
  unfold names
  rw [List.range_succ_eq_map, List.map_cons, List.map_map]
  congr 1
  apply List.map_congr_left
  intro k _
  simp only [Function.comp]
  congr 3
  omega

theorem take_checked : ∀ {n : Nat} {g g' : Gen} {us : List Unit'},
    Gen.take true n g = some (us, g') → g.next < 65536 → us = names g n ∧ g.next + n < 65536
  | 0, g, g', us, h, hb => by
    simp only [Gen.take, Option.some.injEq, Prod.mk.injEq] at h
    rw [← h.1]
    exact ⟨rfl, by omega⟩
  | n + 1, g, g', us, h, hb => by
    unfold Gen.take Gen.step incU16 at h
    by_cases hlt : g.next + 1 < 65536
    · simp only [hlt, if_true] at h
      split at h
      · exact absurd h (by simp)
      · rename_i us1 g2 h1
        simp only [Option.some.injEq, Prod.mk.injEq] at h
        obtain ⟨e1, e2⟩ := take_checked h1 hlt
        rw [← h.1, e1, names_succ]
        exact ⟨rfl, by simp only at e2; omega⟩
    · simp [hlt] at h

theorem take_total {checks : Bool} : ∀ {n : Nat} {g : Gen}, g.next + n < 65536 →
    ∃ g', Gen.take checks n g = some (names g n, g')
  | 0, g, _ => ⟨g, rfl⟩
  | n + 1, g, h => by
    have hlt : g.next + 1 < 65536 := by omega
    obtain ⟨g', h1⟩ := take_total (checks := checks) (n := n) (g := ⟨g.next + 1, g.register⟩)
      (by simp only; omega)
    refine ⟨g', ?_⟩
    unfold Gen.take Gen.step incU16
    simp only [hlt, if_true, h1, names_succ]

theorem names_nodup (g : Gen) (n : Nat) : (names g n).Nodup := by
  unfold names
  refine List.Nodup.map ?_ List.nodup_range
  intro a b h
  simp only [Unit'.mk.injEq, List.cons.injEq, and_true, true_and] at h
  omega

theorem asU16_small {i : Int} (h0 : 0 ≤ i) (h1 : i < 65536) : (asU16 i : Int) = i := by
  unfold asU16
  rw [Int.emod_eq_of_lt h0 h1]
  omega

/-- Names above every scanned index are new. -/
theorem names_fresh {g : Gen} {n : Nat} {existing : List Unit'} (hb : g.next + n < 65536)
    (h : ∀ u ∈ existing, u.name = g.register → ∃ i rest, u.index = i :: rest ∧ asU16 i < g.next) :
    ∀ u ∈ names g n, u ∉ existing := by
  intro u hu hex
  obtain ⟨k, hk, rfl⟩ := List.mem_map.1 hu
  have hk := List.mem_range.1 hk
  obtain ⟨i, rest, h1, h2⟩ := h _ hex rfl
  simp only [List.cons.injEq] at h1
  obtain ⟨rfl, _⟩ := h1
  have := asU16_small (i := ((g.next + k : Nat) : Int)) (by omega) (by omega)
  omega

/-! ### Permutations -/

variable {R : Type} [DecidableEq R]

theorem lastPos_get {r : R} : ∀ {l : List R} {i : Nat}, lastPos r l = some i → l[i]? = some r
  | [], i, h => by simp [lastPos] at h
  | x :: xs, i, h => by
    unfold lastPos at h
    split at h
    · rename_i j hj
      obtain rfl := Option.some.inj h
      simpa using lastPos_get hj
    · split at h
      · rename_i hx
        obtain rfl := Option.some.inj h
        simp [hx]
      · exact absurd h (by simp)

theorem lastPos_mem {r : R} : ∀ {l : List R}, r ∈ l → ∃ i, lastPos r l = some i
  | [], h => by simp at h
  | x :: xs, h => by
    unfold lastPos
    cases hx : lastPos r xs with
    | some i => exact ⟨i + 1, rfl⟩
    | none =>
      rcases List.mem_cons.1 h with rfl | h
      · exact ⟨0, by simp⟩
      · obtain ⟨i, hi⟩ := lastPos_mem h
        rw [hi] at hx
        exact absurd hx (by simp)

theorem lastPos_none {r : R} {l : List R} (h : r ∉ l) : lastPos r l = none := by
  cases hl : lastPos r l with
  | none => rfl
  | some i =>
    have := lastPos_get hl
    exact absurd (List.mem_of_getElem? this) h

theorem mem_extendOutputs {r : R} : ∀ {all outs : List R},
    r ∈ extendOutputs outs all ↔ r ∈ outs ∨ r ∈ all
  | [], outs => by simp [extendOutputs]
  | x :: xs, outs => by
    unfold extendOutputs
    split
    · rename_i hx
      rw [mem_extendOutputs]
      constructor
      · rintro (h | h)
        · exact Or.inl h
        · exact Or.inr (List.mem_cons_of_mem _ h)
      · rintro (h | h)
        · exact Or.inl h
        · rcases List.mem_cons.1 h with rfl | h
          · exact Or.inl hx
          · exact Or.inr h
    · rw [mem_extendOutputs]
      simp only [List.mem_append, List.mem_cons, List.not_mem_nil, or_false]
      tauto

theorem extendOutputs_nodup : ∀ {all outs : List R}, outs.Nodup → (extendOutputs outs all).Nodup
  | [], outs, h => h
  | x :: xs, outs, h => by
    unfold extendOutputs
    split
    · exact extendOutputs_nodup h
    · rename_i hx
      refine extendOutputs_nodup (List.nodup_append.2 ⟨h, by simp, ?_⟩)
      rintro a ha b hb rfl
      simp only [List.mem_cons, List.not_mem_nil, or_false] at hb
      exact hx (hb ▸ ha)

/-- Every pair of the permutation written by the encoder is a pair of equal registers. -/
theorem finalPermutation_eq {outs all : List R} (h : ∀ r ∈ outs, r ∈ all) :
    finalPermutation outs all = some ((extendOutputs outs all).map fun r => (r, r)) := by
  unfold finalPermutation
  refine mapM_of_forall fun r hr => ?_
  have hmem : r ∈ all := by
    rcases mem_extendOutputs.1 hr with h1 | h1
    · exact h r h1
    · exact h1
  obtain ⟨i, hi⟩ := lastPos_mem hmem
  simp only [hi, lastPos_get hi]

theorem trackAll_nodup : ∀ {rs known : List R}, (known ++ rs).Nodup →
    trackAll known rs = known ++ rs
  | [], known, _ => by simp [trackAll]
  | r :: rs, known, h => by
    have hr : r ∉ known := by
      intro hm
      have := List.nodup_append.1 h
      exact this.2.2 r hm r (by simp) rfl
    unfold trackAll
    rw [if_neg hr, trackAll_nodup (by simpa using h)]
    simp

theorem indexOf_get {r : R} : ∀ {l : List R} {i : Nat}, indexOf r l = some i → l[i]? = some r
  | [], i, h => by simp [indexOf] at h
  | x :: xs, i, h => by
    unfold indexOf at h
    split at h
    · rename_i hx
      obtain rfl := Option.some.inj h
      simp [hx]
    · cases hj : indexOf r xs with
      | none => rw [hj] at h; simp at h
      | some j =>
        rw [hj] at h
        simp only [Option.map_some, Option.some.injEq] at h
        subst h
        simpa using indexOf_get hj

theorem indexOf_mem {r : R} : ∀ {l : List R}, r ∈ l → ∃ i, indexOf r l = some i
  | [], h => by simp at h
  | x :: xs, h => by
    unfold indexOf
    split
    · exact ⟨0, rfl⟩
    · rename_i hx
      rcases List.mem_cons.1 h with rfl | h
      · exact absurd rfl hx
      · obtain ⟨i, hi⟩ := indexOf_mem h
        exact ⟨i + 1, by rw [hi]; rfl⟩

theorem indexOf_of_get {r : R} {l : List R} {i : Nat} (hn : l.Nodup) (h : l[i]? = some r) :
    indexOf r l = some i := by
  obtain ⟨j, hj⟩ := indexOf_mem (List.mem_of_getElem? h)
  have hj' := indexOf_get hj
  obtain ⟨hi1, hi2⟩ := List.getElem?_eq_some_iff.1 h
  obtain ⟨hj1, hj2⟩ := List.getElem?_eq_some_iff.1 hj'
  have : j = i := (List.Nodup.getElem_inj_iff hn).1 (hj2.trans hi2.symm)
  rw [hj, this]

theorem treeInsert_perm {k v : Nat} : ∀ {m : List (Nat × Nat)}, k ∉ m.map Prod.fst →
    (treeInsert k v m).Perm ((k, v) :: m)
  | [], _ => List.Perm.refl _
  | e :: es, h => by
    unfold treeInsert
    split
    · exact List.Perm.refl _
    · split
      · rename_i heq
        exact absurd (by simp [heq]) h
      · have := treeInsert_perm (k := k) (v := v) (m := es)
          (fun hm => h (by simp only [List.map_cons, List.mem_cons]; exact Or.inr hm))
        exact (List.Perm.cons e this).trans (List.Perm.swap _ _ _)

theorem treeInsert_keys {k v x : Nat} : ∀ {m : List (Nat × Nat)},
    x ∈ (treeInsert k v m).map Prod.fst → x = k ∨ x ∈ m.map Prod.fst
  | [], h => by simpa [treeInsert] using h
  | e :: es, h => by
    unfold treeInsert at h
    split at h
    · simpa using h
    · split at h
      · simp only [List.map_cons, List.mem_cons] at h ⊢
        tauto
      · simp only [List.map_cons, List.mem_cons] at h ⊢
        rcases h with h | h
        · exact Or.inr (Or.inl h)
        · rcases treeInsert_keys h with h | h
          · exact Or.inl h
          · exact Or.inr (Or.inr h)

theorem treeInsert_sorted {k v : Nat} : ∀ {m : List (Nat × Nat)},
    (m.map Prod.fst).Pairwise (· < ·) → ((treeInsert k v m).map Prod.fst).Pairwise (· < ·)
  | [], _ => by simp [treeInsert]
  | e :: es, h => by
    have h' := List.pairwise_cons.1 h
    unfold treeInsert
    split
    · rename_i hlt
      simp only [List.map_cons]
      refine List.pairwise_cons.2 ⟨?_, h⟩
      intro a ha
      rcases List.mem_cons.1 ha with rfl | ha
      · exact hlt
      · exact Nat.lt_trans hlt (h'.1 a ha)
    · split
      · rename_i heq
        simp only [List.map_cons, heq]
        exact h
      · simp only [List.map_cons]
        refine List.pairwise_cons.2 ⟨?_, treeInsert_sorted h'.2⟩
        intro a ha
        rcases treeInsert_keys ha with rfl | ha
        · omega
        · exact h'.1 a ha

/-- The positions of a pair of registers. -/
theorem reorder_spec {known : List R} (hk : known.Nodup) :
    ∀ {perm : List (R × R)} {m : List (Nat × Nat)},
    (∀ p ∈ perm, p.1 ∈ known ∧ p.2 ∈ known) → (perm.map Prod.snd).Nodup →
    (m.map Prod.fst).Pairwise (· < ·) →
    (∀ p ∈ perm, ∀ j ∈ m.map Prod.fst, known[j]? ≠ some p.2) →
    ∃ m', reorder known perm m = some m' ∧ (m'.map Prod.fst).Pairwise (· < ·) ∧
      ∀ j i, (j, i) ∈ m' ↔ (j, i) ∈ m ∨
        ∃ p ∈ perm, known[j]? = some p.2 ∧ known[i]? = some p.1
  | [], m, _, _, hs, _ => ⟨m, rfl, hs, by simp⟩
  | (a, b) :: perm, m, h1, h2, h3, h4 => by
    obtain ⟨ha, hb⟩ := h1 (a, b) (by simp)
    obtain ⟨i0, hi0⟩ := indexOf_mem ha
    obtain ⟨j0, hj0⟩ := indexOf_mem hb
    have hi0' := indexOf_get hi0
    have hj0' := indexOf_get hj0
    have hfresh : j0 ∉ m.map Prod.fst := fun hm => h4 (a, b) (by simp) j0 hm hj0'
    have hp := treeInsert_perm (v := i0) hfresh
    simp only [List.map_cons, List.nodup_cons] at h2
    obtain ⟨m', e1, e2, e3⟩ := reorder_spec hk (perm := perm) (m := treeInsert j0 i0 m)
      (fun p hp => h1 p (List.mem_cons_of_mem _ hp)) h2.2 (treeInsert_sorted h3) (by
        intro p hpm j hj hget
        rcases treeInsert_keys hj with rfl | hj
        · rw [hj0'] at hget
          have : b = p.2 := Option.some.inj hget
          exact h2.1 (this ▸ List.mem_map_of_mem hpm)
        · exact h4 p (List.mem_cons_of_mem _ hpm) j hj hget)
    refine ⟨m', ?_, e2, ?_⟩
    · unfold reorder
      simp only [hi0, hj0, e1]
    · intro j i
      rw [e3, hp.mem_iff]
      simp only [List.mem_cons, Prod.mk.injEq, exists_eq_or_imp]
      constructor
      · rintro ((⟨rfl, rfl⟩ | h) | h)
        · exact Or.inr (Or.inl ⟨hj0', hi0'⟩)
        · exact Or.inl h
        · exact Or.inr (Or.inr h)
      · rintro (h | ⟨x, y⟩ | h)
        · exact Or.inl (Or.inr h)
        · have := indexOf_of_get hk x
          rw [hj0] at this
          have e4 := Option.some.inj this
          have := indexOf_of_get hk y
          rw [hi0] at this
          have e5 := Option.some.inj this
          exact Or.inl (Or.inl ⟨e4.symm, e5.symm⟩)
        · exact Or.inr h

/-- A list sorted by `<` containing exactly the numbers below `k`. -/
theorem sorted_eq_range {l : List Nat} {k : Nat} (hs : l.Pairwise (· < ·))
    (h : ∀ j, j ∈ l ↔ j < k) : l = List.range k := by
  have hn : l.Nodup := hs.imp fun h => Nat.ne_of_lt h
  have hp : l.Perm (List.range k) := (List.perm_ext_iff_of_nodup hn List.nodup_range).2 fun j => by
    rw [h, List.mem_range]
  exact hp.eq_of_pairwise (fun a b _ _ h1 h2 => absurd h2 (Nat.lt_asymm h1)) hs
    List.pairwise_lt_range

/-- What the decoder makes of a permutation whose outputs are the first `k` registers. -/
theorem decodeQubits_spec {regs : List R} {perm : List (R × R)} {k : Nat} (hn : regs.Nodup)
    (h1 : ∀ p ∈ perm, p.1 ∈ regs ∧ p.2 ∈ regs) (h2 : (perm.map Prod.snd).Nodup)
    (hk : ∀ (j : Nat) r, regs[j]? = some r → (r ∈ perm.map Prod.snd ↔ j < k)) (hkl : k ≤ regs.length) :
    ∃ out, decodeQubits regs perm = some out ∧ out.length = regs.length ∧
      ∀ (j : Nat) r, regs[j]? = some r →
        (∀ a, (a, r) ∈ perm → out[j]? = some a) ∧ (r ∉ perm.map Prod.snd → out[j]? = some r) := by
  have ht : trackAll [] regs = regs := by simpa using trackAll_nodup (known := []) (by simpa using hn)
  obtain ⟨m, e1, e2, e3⟩ := reorder_spec hn (m := []) h1 h2 (by simp) (by simp)
  have hkeys : m.map Prod.fst = List.range k := by
    refine sorted_eq_range e2 fun j => ?_
    constructor
    · intro hj
      obtain ⟨⟨j', i⟩, hm, rfl⟩ := List.mem_map.1 hj
      rcases (e3 j' i).1 hm with h | ⟨p, hp, hx, _⟩
      · exact absurd h (by simp)
      · exact (hk j' p.2 hx).1 (List.mem_map_of_mem hp)
    · intro hj
      have hlt : j < regs.length := Nat.lt_of_lt_of_le hj hkl
      have hget : regs[j]? = some regs[j] := List.getElem?_eq_getElem hlt
      obtain ⟨p, hp, hpe⟩ := List.mem_map.1 ((hk j _ hget).2 hj)
      obtain ⟨i, hi⟩ := List.mem_iff_getElem?.1 (h1 p hp).1
      exact List.mem_map.2 ⟨(j, i), (e3 j i).2 (Or.inr ⟨p, hp, by rw [hget, hpe], hi⟩), rfl⟩
  have hml : m.length = k := by
    have := congrArg List.length hkeys
    simpa using this
  have hmj : ∀ j, j < k → ∃ i, m[j]? = some (j, i) := by
    intro j hj
    have hlt : j < m.length := by omega
    refine ⟨m[j].2, ?_⟩
    rw [List.getElem?_eq_getElem hlt]
    have : (m.map Prod.fst)[j]? = some j := by
      rw [hkeys, List.getElem?_range hj]
    rw [List.getElem?_map, List.getElem?_eq_getElem hlt] at this
    simp only [Option.map_some, Option.some.injEq] at this
    congr 1
    exact Prod.ext this rfl
  have hpos : ∀ j, j < regs.length → ∃ r, regs[((m.map Prod.snd)[j]?).getD j]? = some r ∧
      ∀ x, regs[j]? = some x → (∀ a, (a, x) ∈ perm → r = a) ∧ (x ∉ perm.map Prod.snd → r = x) := by
    intro j hj
    by_cases hjk : j < k
    · obtain ⟨i, hi⟩ := hmj j hjk
      have hmem := List.mem_of_getElem? hi
      rcases (e3 j i).1 hmem with h | ⟨p, hp, hx, hy⟩
      · exact absurd h (by simp)
      · refine ⟨p.1, ?_, ?_⟩
        · rw [List.getElem?_map, hi]
          exact hy
        · intro x hxx
          rw [hx] at hxx
          obtain rfl := Option.some.inj hxx
          refine ⟨?_, fun hno => absurd (List.mem_map_of_mem hp) hno⟩
          intro a ha
          have := List.inj_on_of_nodup_map h2 hp ha rfl
          rw [this]
    · refine ⟨regs[j], ?_, ?_⟩
      · have : (m.map Prod.snd)[j]? = none := by
          rw [List.getElem?_eq_none_iff, List.length_map]
          omega
        rw [this]
        exact List.getElem?_eq_getElem hj
      · intro x hx
        rw [List.getElem?_eq_getElem hj] at hx
        have hx' := Option.some.inj hx
        refine ⟨?_, fun _ => hx'⟩
        intro a ha
        have := (hk j x (by rw [List.getElem?_eq_getElem hj, hx'])).1
          (List.mem_map.2 ⟨(a, x), ha, rfl⟩)
        omega
  obtain ⟨out, hout⟩ := mapM_total (f := fun i => regs[((m.map Prod.snd)[i]?).getD i]?)
    (l := List.range regs.length) fun i hi => by
      obtain ⟨r, hr, _⟩ := hpos i (List.mem_range.1 hi)
      exact ⟨r, hr⟩
  have hf := forall_of_mapM hout
  refine ⟨out, ?_, ?_, ?_⟩
  · unfold decodeQubits outputPermutation knownQubits
    simp only [ht, e1, Option.map_some, hout]
  · rw [← hf.length_eq, List.length_range]
  · intro j r hr
    obtain ⟨hj, _⟩ := List.getElem?_eq_some_iff.1 hr
    obtain ⟨y, hy1, hy2⟩ := hpos j hj
    have hget := (List.forall₂_iff_get.1 hf).2 j (by simpa using hj)
      (by rw [← hf.length_eq, List.length_range]; exact hj)
    simp only [List.get_eq_getElem, List.getElem_range, hy1, Option.some.injEq] at hget
    have ho : out[j]? = some y := by
      rw [hget]
      exact List.getElem?_eq_getElem _
    rw [ho]
    obtain ⟨z1, z2⟩ := hy2 r hr
    exact ⟨fun a ha => by rw [z1 a ha], fun hno => by rw [z2 hno]⟩

end Verif.Registers
