import Verif.Model.Commutation
import Mathlib.Algebra.BigOperators.Group.List.Basic
import Mathlib.Algebra.BigOperators.Group.List.Lemmas
import Mathlib.Data.List.Perm.Basic
import Mathlib.Data.List.Nodup
import Mathlib.Data.List.Basic
import Mathlib.Tactic.Common

/-!
# Lemmas about the greedy commutation pass
-/

namespace Tket.Commutation

/-- The labels of the two commands on a shared qubit exist and commute. -/
def Compat (a b : Cmd) (q : Nat) : Prop :=
  ∃ p p', a.label q = some p ∧ b.label q = some p' ∧ p.commutesWith p' = true

/-- A meaning for the commands, in any monoid, for which operations commute when their labels agree on the
qubits they share. -/
structure Meaning (cmds : List Cmd) (M : Type) [Monoid M] where
  sem : Cmd → M
  comm : ∀ a ∈ cmds, ∀ b ∈ cmds, a ≠ b → (∀ q ∈ a.qubits, q ∈ b.qubits → Compat a b q) →
    Commute (sem a) (sem b)

def den {M : Type} [Monoid M] (sem : Cmd → M) (l : List Cmd) : M := (l.map sem).prod

theorem den_append {M : Type} [Monoid M] (sem : Cmd → M) (a b : List Cmd) :
    den sem (a ++ b) = den sem a * den sem b := by simp [den]

/-- A slice holds every command on all its qubits. -/
structure Coh (n : Nat) (cmds : List Cmd) (s : Slice) : Prop where
  own : ∀ q c, s q = some c → q ∈ c.qubits ∧ ∀ q' ∈ c.qubits, s q' = some c
  bound : ∀ q c, s q = some c → q < n
  mem : ∀ q c, s q = some c → c ∈ cmds

theorem coh_empty (n : Nat) (cmds : List Cmd) : Coh n cmds (fun _ => none) :=
  ⟨by simp, by simp, by simp⟩

theorem mem_cmdsOf {n : Nat} {s : Slice} {c : Cmd} : c ∈ cmdsOf n s ↔ ∃ q < n, s q = some c := by
  unfold cmdsOf
  rw [List.mem_reverse, List.mem_dedup, List.mem_reverse, List.mem_filterMap]
  simp

theorem nodup_cmdsOf (n : Nat) (s : Slice) : (cmdsOf n s).Nodup := by
  unfold cmdsOf
  rw [List.nodup_reverse]
  exact List.nodup_dedup _

def sliceDen {M : Type} [Monoid M] (n : Nat) (sem : Cmd → M) (s : Slice) : M := den sem (cmdsOf n s)

section
variable {M : Type} [Monoid M] {n : Nat} {cmds : List Cmd} (m : Meaning cmds M)

theorem commute_slice {s : Slice} {c : Cmd} (h : ∀ o ∈ cmdsOf n s, Commute (m.sem c) (m.sem o)) :
    Commute (m.sem c) (sliceDen n m.sem s) := by
  unfold sliceDen den
  apply Commute.list_prod_right
  intro x hx
  obtain ⟨o, ho, rfl⟩ := List.mem_map.1 hx
  exact h o ho

theorem coh_disjoint {s : Slice} (hs : Coh n cmds s) {a b : Cmd} (ha : a ∈ cmdsOf n s)
    (hb : b ∈ cmdsOf n s) (hne : a ≠ b) : ∀ q ∈ a.qubits, q ∉ b.qubits := by
  intro q h1 h2
  obtain ⟨qa, _, ea⟩ := mem_cmdsOf.1 ha
  obtain ⟨qb, _, eb⟩ := mem_cmdsOf.1 hb
  have e1 := (hs.own qa a ea).2 q h1
  have e2 := (hs.own qb b eb).2 q h2
  rw [e1] at e2
  exact hne (by simpa using e2)

theorem mem_of_cmdsOf {s : Slice} (hs : Coh n cmds s) {a : Cmd} (ha : a ∈ cmdsOf n s) : a ∈ cmds := by
  obtain ⟨q, _, e⟩ := mem_cmdsOf.1 ha
  exact hs.mem q a e

theorem coh_add {s : Slice} (hs : Coh n cmds s) {c : Cmd} (hc : c ∈ cmds)
    (hb : ∀ q ∈ c.qubits, q < n) (he : ∀ q ∈ c.qubits, s q = none) : Coh n cmds (addToSlice s c) where
  own := by
    intro q o h
    unfold addToSlice at h ⊢
    by_cases hq : q ∈ c.qubits
    · simp only [hq, if_true, Option.some.injEq] at h
      subst h
      exact ⟨hq, fun q' hq' => by simp [hq']⟩
    · simp only [hq, if_false] at h
      obtain ⟨h1, h2⟩ := hs.own q o h
      refine ⟨h1, fun q' hq' => ?_⟩
      have : q' ∉ c.qubits := by
        intro hc'
        have := h2 q' hq'
        rw [he q' hc'] at this; simp at this
      simp [this, h2 q' hq']
  bound := by
    intro q o h
    unfold addToSlice at h
    by_cases hq : q ∈ c.qubits
    · exact hb q hq
    · simp only [hq, if_false] at h; exact hs.bound q o h
  mem := by
    intro q o h
    unfold addToSlice at h
    by_cases hq : q ∈ c.qubits
    · simp only [hq, if_true, Option.some.injEq] at h; rw [← h]; exact hc
    · simp only [hq, if_false] at h; exact hs.mem q o h

theorem mem_cmdsOf_add {s : Slice} {c : Cmd} (hb : ∀ q ∈ c.qubits, q < n) (hne : c.qubits ≠ [])
    (he : ∀ q ∈ c.qubits, s q = none) (o : Cmd) :
    o ∈ cmdsOf n (addToSlice s c) ↔ o ∈ cmdsOf n s ∨ o = c := by
  rw [mem_cmdsOf, mem_cmdsOf]
  unfold addToSlice
  constructor
  · rintro ⟨q, hq, h⟩
    by_cases hqc : q ∈ c.qubits
    · simp only [hqc, if_true, Option.some.injEq] at h; exact Or.inr h.symm
    · simp only [hqc, if_false] at h; exact Or.inl ⟨q, hq, h⟩
  · rintro (⟨q, hq, h⟩ | rfl)
    · refine ⟨q, hq, ?_⟩
      have : q ∉ c.qubits := fun hc => by rw [he q hc] at h; simp at h
      simp [this, h]
    · obtain ⟨q, hq⟩ := List.exists_mem_of_ne_nil _ hne
      exact ⟨q, hb q hq, by simp [hq]⟩

/-- Adding a command to a slice with free slots. -/
theorem sliceDen_add {s : Slice} (hs : Coh n cmds s) {c : Cmd} (hc : c ∈ cmds)
    (hb : ∀ q ∈ c.qubits, q < n) (hne : c.qubits ≠ []) (he : ∀ q ∈ c.qubits, s q = none) :
    sliceDen n m.sem (addToSlice s c) = sliceDen n m.sem s * m.sem c := by
  have hcoh := coh_add hs hc hb he
  have hnc : c ∉ cmdsOf n s := by
    intro h
    obtain ⟨q, _, e⟩ := mem_cmdsOf.1 h
    have := (hs.own q c e).1
    rw [he q this] at e; simp at e
  have hperm : (cmdsOf n (addToSlice s c)).Perm (cmdsOf n s ++ [c]) := by
    rw [List.perm_ext_iff_of_nodup (nodup_cmdsOf _ _)]
    · intro o
      rw [mem_cmdsOf_add hb hne he]; simp
    · rw [List.nodup_append]
      refine ⟨nodup_cmdsOf _ _, by simp, ?_⟩
      rintro a ha b hb' rfl
      simp only [List.mem_singleton] at hb'
      subst hb'
      exact hnc ha
  have hpair : ((cmdsOf n (addToSlice s c)).map m.sem).Pairwise Commute := by
    rw [List.pairwise_map]
    have := (nodup_cmdsOf n (addToSlice s c))
    refine List.Pairwise.imp_of_mem ?_ this
    intro a b ha hb' hab
    refine m.comm a (mem_of_cmdsOf hcoh ha) b (mem_of_cmdsOf hcoh hb') hab (fun q h1 h2 => ?_)
    exact absurd h2 (coh_disjoint hcoh ha hb' hab q h1)
  unfold sliceDen den
  rw [(hperm.map m.sem).prod_eq' hpair]
  simp

/-! ## Sequences of slices -/

/-- Product of the first `k` slices. -/
def pp (σ : Nat → M) : Nat → M
  | 0 => 1
  | k + 1 => pp σ k * σ k

theorem pp_congr {σ τ : Nat → M} {k : Nat} (h : ∀ j < k, σ j = τ j) : pp σ k = pp τ k := by
  induction k with
  | zero => rfl
  | succ k ih => simp only [pp]; rw [ih (fun j hj => h j (by omega)), h k (by omega)]

/-- Appending at an early position what commutes with everything later. -/
theorem pp_insert {σ τ : Nat → M} {x : M} {f N : Nat} (hf : f < N) (h1 : ∀ k, k ≠ f → τ k = σ k)
    (h2 : τ f = σ f * x) (h3 : ∀ k, f < k → Commute x (σ k)) : pp τ N = pp σ N * x := by
  induction N with
  | zero => omega
  | succ N ih =>
    simp only [pp]
    by_cases hN : f = N
    · subst hN
      rw [pp_congr (fun j hj => h1 j (by omega)), h2, mul_assoc]
    · rw [ih (by omega), h1 N (Ne.symm hN), mul_assoc, mul_assoc, (h3 N (by omega)).eq]

/-- Moving something from position `i` to `d`. -/
theorem pp_move {σ τ : Nat → M} {x : M} {d i N : Nat} (hd : d < i) (hi : i < N)
    (h1 : ∀ k, k ≠ d → k ≠ i → τ k = σ k) (h2 : τ d = σ d * x) (h3 : σ i = τ i * x)
    (h4 : ∀ k, d < k → k ≤ i → Commute x (τ k)) : pp τ N = pp σ N := by
  have key : ∀ k, (k ≤ d → pp τ k = pp σ k) ∧ (d < k → k ≤ i → pp τ k = pp σ k * x) ∧
      (i < k → pp τ k = pp σ k) := by
    intro k
    induction k with
    | zero => exact ⟨fun _ => rfl, fun h => by omega, fun h => by omega⟩
    | succ k ih =>
      obtain ⟨a, b, c⟩ := ih
      refine ⟨fun h => ?_, fun h h' => ?_, fun h => ?_⟩
      · simp only [pp]; rw [a (by omega), h1 k (by omega) (by omega)]
      · simp only [pp]
        by_cases hk : k = d
        · subst hk; rw [a (le_refl _), h2, mul_assoc]
        · rw [b (by omega) (by omega), mul_assoc, (h4 k (by omega) (by omega)).eq,
            h1 k hk (by omega), mul_assoc]
      · simp only [pp]
        by_cases hk : k = i
        · subst hk
          rw [b hd (le_refl _), mul_assoc, (h4 k hd (le_refl _)).eq, h3]
        · rw [c (by omega), h1 k (by omega) hk]
  exact (key N).2.2 hi

end

/-- Column `q` of the first `k` slices. -/
def col (σ : Nat → Slice) (q : Nat) : Nat → List Cmd
  | 0 => []
  | k + 1 => col σ q k ++ (σ k q).toList

theorem col_congr {σ τ : Nat → Slice} {q k : Nat} (h : ∀ j < k, σ j q = τ j q) :
    col σ q k = col τ q k := by
  induction k with
  | zero => rfl
  | succ k ih => simp only [col]; rw [ih (fun j hj => h j (by omega)), h k (by omega)]

theorem mem_col {σ : Nat → Slice} {q k : Nat} {c : Cmd} : c ∈ col σ q k ↔ ∃ j < k, σ j q = some c := by
  induction k with
  | zero => simp [col]
  | succ k ih =>
    simp only [col, List.mem_append, ih, Option.mem_toList]
    constructor
    · rintro (⟨j, hj, h⟩ | h)
      · exact ⟨j, by omega, h⟩
      · exact ⟨k, by omega, h⟩
    · rintro ⟨j, hj, h⟩
      by_cases hk : j = k
      · subst hk; exact Or.inr h
      · exact Or.inl ⟨j, by omega, h⟩

theorem col_insert {σ τ : Nat → Slice} {q f N : Nat} {c : Cmd} (hf : f < N)
    (h1 : ∀ k, k ≠ f → τ k q = σ k q) (h2 : τ f q = some c) (h0 : σ f q = none)
    (h3 : ∀ k, f < k → σ k q = none) : col τ q N = col σ q N ++ [c] := by
  induction N with
  | zero => omega
  | succ N ih =>
    simp only [col]
    by_cases hN : f = N
    · subst hN
      rw [col_congr (fun j hj => h1 j (by omega)), h2, h0]; simp
    · rw [ih (by omega), h1 N (Ne.symm hN), h3 N (by omega)]; simp

/-- Columns around a move: everything between the two positions keeps its place after the moved command. -/
theorem col_move {σ τ : Nat → Slice} {q d i N : Nat} {c : Cmd} (hd : d < i) (hi : i < N)
    (h1 : ∀ k, k ≠ d → k ≠ i → τ k q = σ k q) (h2 : σ d q = none) (h2' : τ d q = some c)
    (h3 : σ i q = some c) (h3' : τ i q = none) :
    ∃ B C, col σ q N = col σ q d ++ B ++ c :: C ∧ col τ q N = col σ q d ++ c :: B ++ C ∧
      col σ q i = col σ q d ++ B ∧
      (∀ o, B.head? = some o ↔ ∃ k, d < k ∧ k < i ∧ σ k q = some o ∧ ∀ j, d < j → j < k → σ j q = none)
      ∧ (B = [] ↔ ∀ k, d < k → k < i → σ k q = none) := by
  have a : ∀ k, d < k → k ≤ i → ∃ B, col σ q k = col σ q d ++ B ∧ col τ q k = col σ q d ++ c :: B ∧
      (∀ o, B.head? = some o ↔ ∃ k', d < k' ∧ k' < k ∧ σ k' q = some o ∧
        ∀ j, d < j → j < k' → σ j q = none) ∧ (B = [] ↔ ∀ k', d < k' → k' < k → σ k' q = none) := by
    intro k
    induction k with
    | zero => intro h; omega
    | succ k ih =>
      intro h h'
      by_cases hk : k = d
      · subst hk
        refine ⟨[], ?_, ?_, ?_, ?_⟩
        · simp [col, h2]
        · simp only [col, h2']
          rw [col_congr (fun j hj => h1 j (by omega) (by omega))]; simp
        · intro o
          constructor
          · intro h; simp at h
          · rintro ⟨k', h1, h2, _⟩; omega
        · constructor
          · intro _ k' h1 h2; omega
          · intro _; rfl
      · obtain ⟨B, b1, b2, b3, b4⟩ := ih (by omega) (by omega)
        refine ⟨B ++ (σ k q).toList, ?_, ?_, ?_, ?_⟩
        · simp [col, b1]
        · simp [col, b2, h1 k hk (by omega)]
        · intro o
          cases hB : B with
          | nil =>
            have hn := b4.1 hB
            simp only [List.nil_append]
            constructor
            · intro ho
              cases hs : σ k q with
              | none => rw [hs] at ho; simp at ho
              | some x =>
                rw [hs] at ho
                simp only [Option.toList_some, List.head?_cons] at ho
                exact ⟨k, by omega, by omega, by rw [hs]; exact ho, fun j h1 h2 => hn j h1 h2⟩
            · rintro ⟨k', k1, k2, k3, _⟩
              by_cases hkk : k' = k
              · subst hkk; rw [k3]; rfl
              · rw [hn k' k1 (by omega)] at k3; simp at k3
          | cons b B' =>
            simp only [List.cons_append, List.head?_cons]
            have := b3 o
            rw [hB] at this
            simp only [List.head?_cons] at this
            rw [this]
            constructor
            · rintro ⟨k', k1, k2, k3, k4⟩; exact ⟨k', k1, by omega, k3, k4⟩
            · rintro ⟨k', k1, k2, k3, k4⟩
              by_cases hkk : k' = k
              · subst hkk
                have hne : ¬ B = [] := by rw [hB]; simp
                exact absurd (b4.2 k4) hne
              · exact ⟨k', k1, by omega, k3, k4⟩
        · constructor
          · intro he
            rw [List.append_eq_nil_iff] at he
            intro k' k1 k2
            by_cases hkk : k' = k
            · subst hkk
              cases hs : σ k' q with
              | none => rfl
              | some x => rw [hs] at he; simp at he
            · exact b4.1 he.1 k' k1 (by omega)
          · intro hn
            rw [b4.2 (fun k' k1 k2 => hn k' k1 (by omega)), hn k (by omega) (by omega)]; rfl
  obtain ⟨B, b1, b2, b3, b4⟩ := a i hd (le_refl _)
  have c : ∀ k, i < k → ∃ C, col σ q k = col σ q d ++ B ++ c :: C ∧ col τ q k = col σ q d ++ c :: B ++ C := by
    intro k
    induction k with
    | zero => intro h; omega
    | succ k ih =>
      intro h
      by_cases hk : k = i
      · subst hk
        exact ⟨[], by simp [col, b1, h3], by simp [col, b2, h3']⟩
      · obtain ⟨C, c1, c2⟩ := ih (by omega)
        exact ⟨C ++ (σ k q).toList, by simp [col, c1], by simp [col, c2, h1 k (by omega) hk]⟩
  obtain ⟨C, c1, c2⟩ := c N hi
  exact ⟨B, C, c1, c2, b1, b3, b4⟩

end Tket.Commutation
