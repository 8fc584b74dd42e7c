import Verif.Lemmas.Commutation

/-!
# Invariant of the greedy commutation pass
-/

namespace Tket.Commutation

/-- Slice `k`. -/
def sl (slices : List Slice) (k : Nat) : Slice := slices.getD k (fun _ => none)

theorem commutesAt_some {c : Cmd} {s : Slice} : ∀ {qs : List Nat} {new : List (Nat × Cmd)},
    commutesAt c s qs = some new →
    (∀ q ∈ qs, ∀ o, s q = some o → Compat c o q) ∧ (∀ e ∈ new, s e.1 = some e.2) ∧
    (∀ q ∈ qs, ∀ o, s q = some o → (q, o) ∈ new) := by
  intro qs
  induction qs with
  | nil =>
    intro new h
    simp only [commutesAt, Option.some.injEq] at h
    subst h
    simp
  | cons q qs ih =>
    intro new h
    unfold commutesAt at h
    cases hs : s q with
    | none =>
      rw [hs] at h
      obtain ⟨a, b, d⟩ := ih h
      refine ⟨?_, b, ?_⟩
      · intro q' hq' o ho
        rcases List.mem_cons.1 hq' with rfl | hq'
        · rw [hs] at ho; simp at ho
        · exact a q' hq' o ho
      · intro q' hq' o ho
        rcases List.mem_cons.1 hq' with rfl | hq'
        · rw [hs] at ho; simp at ho
        · exact d q' hq' o ho
    | some o =>
      rw [hs] at h
      simp only at h
      cases h1 : c.label q with
      | none => rw [h1] at h; simp at h
      | some p =>
        cases h2 : o.label q with
        | none => rw [h1, h2] at h; simp at h
        | some p' =>
          rw [h1, h2] at h
          simp only at h
          by_cases hp : p.commutesWith p' = true
          · rw [if_pos hp] at h
            cases hr : commutesAt c s qs with
            | none => rw [hr] at h; simp at h
            | some r =>
              rw [hr] at h
              simp only [Option.map_some, Option.some.injEq] at h
              subst h
              obtain ⟨a, b, d⟩ := ih hr
              refine ⟨?_, ?_, ?_⟩
              · intro q' hq' o' ho
                rcases List.mem_cons.1 hq' with rfl | hq'
                · rw [hs] at ho
                  simp only [Option.some.injEq] at ho
                  subst ho
                  exact ⟨p, p', h1, h2, hp⟩
                · exact a q' hq' o' ho
              · intro e he
                rcases List.mem_cons.1 he with rfl | he
                · exact hs
                · exact b e he
              · intro q' hq' o' ho
                rcases List.mem_cons.1 hq' with rfl | hq'
                · rw [hs] at ho
                  simp only [Option.some.injEq] at ho
                  subst ho
                  exact List.mem_cons_self
                · exact List.mem_cons_of_mem _ (d q' hq' o' ho)
          · rw [if_neg hp] at h; simp at h

theorem extend_eq {c : Cmd} {s : Slice} {qs : List Nat} {new : List (Nat × Cmd)}
    (h : commutesAt c s qs = some new) (prev : Nat → Option Cmd) {q : Nat} (hq : q ∈ qs) :
    extend prev new q = match s q with
      | some o => some o
      | none => prev q := by
  obtain ⟨_, b, d⟩ := commutesAt_some h
  unfold extend
  cases hf : new.find? (fun e => e.1 = q) with
  | none =>
    cases hs : s q with
    | none => rfl
    | some o =>
      have := List.find?_eq_none.1 hf _ (d q hq o hs)
      simp at this
  | some e =>
    have h1 := List.find?_some hf
    have h2 := b e (List.mem_of_find?_eq_some hf)
    simp only [decide_eq_true_eq] at h1
    rw [h1] at h2
    rw [h2]

/-- The first entry on `q` at or after slice `b`, up to slice `i`. -/
def FirstAt (σ : Nat → Slice) (b i q : Nat) (o : Cmd) : Prop :=
  ∃ k, b ≤ k ∧ k ≤ i ∧ σ k q = some o ∧ ∀ j, b ≤ j → j < k → σ j q = none

def PassTo (σ : Nat → Slice) (c : Cmd) (b i : Nat) : Prop :=
  ∀ k, b ≤ k → k ≤ i → ∀ q ∈ c.qubits, ∀ o, σ k q = some o → Compat c o q

def NextsOk (σ : Nat → Slice) (c : Cmd) (b i : Nat) (nx : Nat → Option Cmd) : Prop :=
  ∀ q ∈ c.qubits, ∀ o, nx q = some o ↔ FirstAt σ b i q o

/-- What a destination found by `available_slice` satisfies. -/
structure Dest (σ : Nat → Slice) (c : Cmd) (i d : Nat) (nx : Nat → Option Cmd) : Prop where
  le : d ≤ i
  empty : ∀ q ∈ c.qubits, σ d q = none
  pass : PassTo σ c (d + 1) i
  nexts : NextsOk σ c (d + 1) i nx

theorem firstAt_step {σ : Nat → Slice} {k i q : Nat} {o : Cmd} (hk : k ≤ i) :
    FirstAt σ k i q o ↔ (match σ k q with
      | some o' => o' = o
      | none => FirstAt σ (k + 1) i q o) := by
  cases hs : σ k q with
  | some o' =>
    simp only
    constructor
    · rintro ⟨k', h1, h2, h3, h4⟩
      by_cases he : k' = k
      · subst he; rw [hs] at h3; simpa using h3
      · have := h4 k (le_refl _) (by omega)
        rw [hs] at this; simp at this
    · rintro rfl
      exact ⟨k, le_refl _, hk, hs, fun j h1 h2 => by omega⟩
  | none =>
    simp only
    constructor
    · rintro ⟨k', h1, h2, h3, h4⟩
      by_cases he : k' = k
      · subst he; rw [hs] at h3; simp at h3
      · exact ⟨k', by omega, h2, h3, fun j h5 h6 => h4 j (by omega) h6⟩
    · rintro ⟨k', h1, h2, h3, h4⟩
      refine ⟨k', by omega, h2, h3, fun j h5 h6 => ?_⟩
      by_cases he : j = k
      · subst he; exact hs
      · exact h4 j (by omega) h6

theorem availGo_spec {slices : List Slice} {c : Cmd} {i : Nat} :
    ∀ (k : Nat) (prev : Nat → Option Cmd) (best : Option (Nat × (Nat → Option Cmd))), k ≤ i + 1 →
    PassTo (sl slices) c k i → NextsOk (sl slices) c k i prev →
    (∀ d nx, best = some (d, nx) → Dest (sl slices) c i d nx) →
    ∀ d nx, availGo slices c k prev best = some (d, nx) → Dest (sl slices) c i d nx := by
  intro k
  induction k with
  | zero => intro prev best _ _ _ hb d nx h; exact hb d nx h
  | succ k ih =>
    intro prev best hk hp hn hb d nx h
    unfold availGo at h
    simp only at h
    change (if ∀ q ∈ c.qubits, sl slices k q = none then availGo slices c k prev (some (k, prev))
      else if k = 0 then best else match commutesAt c (sl slices k) c.qubits with
        | some new => availGo slices c k (extend prev new) best
        | none => best) = some (d, nx) at h
    by_cases he : ∀ q ∈ c.qubits, sl slices k q = none
    · rw [if_pos he] at h
      refine ih prev (some (k, prev)) (by omega) ?_ ?_ ?_ d nx h
      · intro k' h1 h2 q hq o ho
        by_cases hkk : k' = k
        · subst hkk; rw [he q hq] at ho; simp at ho
        · exact hp k' (by omega) h2 q hq o ho
      · intro q hq o
        rw [firstAt_step (by omega), he q hq]
        exact hn q hq o
      · intro d' nx' hbest
        simp only [Option.some.injEq, Prod.mk.injEq] at hbest
        obtain ⟨rfl, rfl⟩ := hbest
        exact ⟨by omega, he, hp, hn⟩
    · rw [if_neg he] at h
      by_cases hk0 : k = 0
      · rw [if_pos hk0] at h; exact hb d nx h
      · rw [if_neg hk0] at h
        cases hc : commutesAt c (sl slices k) c.qubits with
        | none => rw [hc] at h; exact hb d nx h
        | some new =>
          rw [hc] at h
          refine ih (extend prev new) best (by omega) ?_ ?_ hb d nx h
          · intro k' h1 h2 q hq o ho
            by_cases hkk : k' = k
            · subst hkk; exact (commutesAt_some hc).1 q hq o ho
            · exact hp k' (by omega) h2 q hq o ho
          · intro q hq o
            rw [firstAt_step (by omega), extend_eq hc prev hq]
            cases hs : sl slices k q with
            | some o' => simp
            | none => exact hn q hq o

theorem available_spec {slices : List Slice} {c : Cmd} {i d : Nat} {nx : Nat → Option Cmd}
    (h : available slices i c = some (d, nx)) : Dest (sl slices) c i d nx := by
  refine availGo_spec (i + 1) (fun _ => none) none (le_refl _) ?_ ?_ (by simp) d nx h
  · intro k h1 h2; omega
  · intro q _ o
    constructor
    · intro h; simp at h
    · rintro ⟨k, h1, h2, _⟩; omega

/-! ## The patch -/

theorem insertBefore_spec {next c : Cmd} : ∀ (A R : List Cmd), next ∉ A →
    insertBefore next c (A ++ next :: R) = some (A ++ c :: next :: R) := by
  intro A R
  induction A with
  | nil => intro _; simp [insertBefore]
  | cons a A ih =>
    intro h
    rw [List.mem_cons, not_or] at h
    simp only [List.cons_append, insertBefore]
    rw [if_neg (Ne.symm h.1), ih h.2]
    rfl

theorem pullForward_spec {c : Cmd} {nexts : Nat → Option Cmd} {target : Nat → List Cmd} :
    ∀ (qs : List Nat) (l : Lines), qs.Nodup →
    (∀ q ∈ qs, ∃ A B C, l q = A ++ B ++ c :: C ∧ target q = A ++ c :: B ++ C ∧ c ∉ A ++ B ∧
      ((B = [] ∧ nexts q = some c) ∨ ∃ o B', B = o :: B' ∧ nexts q = some o ∧ o ∉ A)) →
    ∃ l', pullForward c nexts qs l = some l' ∧ (∀ q ∈ qs, l' q = target q) ∧
      ∀ q ∉ qs, l' q = l q := by
  intro qs
  induction qs with
  | nil => intro l _ _; exact ⟨l, rfl, by simp, fun _ _ => rfl⟩
  | cons q qs ih =>
    intro l hn h
    rw [List.nodup_cons] at hn
    obtain ⟨A, B, C, e1, e2, e3, e4⟩ := h q (by simp)
    unfold pullForward
    rcases e4 with ⟨rfl, hnx⟩ | ⟨o, B', rfl, hnx, hoA⟩
    · rw [hnx]
      simp only
      rw [if_pos trivial]
      obtain ⟨l', h1, h2, h3⟩ := ih l hn.2 (fun q' hq' => h q' (by simp [hq']))
      refine ⟨l', h1, ?_, ?_⟩
      · intro q' hq'
        rcases List.mem_cons.1 hq' with rfl | hq'
        · rw [h3 _ hn.1, e1, e2]; simp
        · exact h2 q' hq'
      · intro q' hq'
        rw [List.mem_cons, not_or] at hq'
        exact h3 q' hq'.2
    · rw [hnx]
      simp only
      have hoc : o ≠ c := by rintro rfl; exact e3 (by simp)
      rw [if_neg hoc]
      have hmem : c ∈ l q := by rw [e1]; simp
      rw [if_pos hmem]
      have herase : (l q).erase c = A ++ o :: (B' ++ C) := by
        rw [e1, List.erase_append_right _ e3, List.erase_cons_head]; simp
      rw [herase, insertBefore_spec A _ hoA]
      simp only
      obtain ⟨l', h1, h2, h3⟩ := ih (fun p => if p = q then A ++ c :: o :: (B' ++ C) else l p) hn.2
        (by
          intro q' hq'
          have hne : q' ≠ q := by rintro rfl; exact hn.1 hq'
          simp only [hne, if_false]
          exact h q' (by simp [hq']))
      refine ⟨l', h1, ?_, ?_⟩
      · intro q' hq'
        rcases List.mem_cons.1 hq' with rfl | hq'
        · rw [h3 _ hn.1, e2]; simp
        · exact h2 q' hq'
      · intro q' hq'
        rw [List.mem_cons, not_or] at hq'
        rw [h3 q' hq'.2]; simp [hq'.1]

/-! ## Invariant -/

/-- What the pass needs to know of the commands. -/
structure CmdOk (n : Nat) (c : Cmd) : Prop where
  tket : c.op.isSome = true
  ne : c.qubits ≠ []
  nodup : c.qubits.Nodup
  bound : ∀ q ∈ c.qubits, q < n

structure Inv {M : Type} [Monoid M] (n : Nat) (cmds : List Cmd) (m : Meaning cmds M) (target : M)
    (loaded : List Cmd) (slices : List Slice) (lines : Lines) : Prop where
  coh : ∀ k, Coh n cmds (sl slices k)
  once : ∀ i j q q' c, sl slices i q = some c → sl slices j q' = some c → i = j
  all : ∀ c, c ∈ loaded ↔ ∃ k q, sl slices k q = some c
  prod : pp (fun k => sliceDen n m.sem (sl slices k)) slices.length = target
  lines : ∀ q, lines q = col (sl slices) q slices.length

theorem sl_modify (slices : List Slice) (f : Slice → Slice) (i k : Nat) (hi : i < slices.length) :
    sl (slices.modify i f) k = if k = i then f (sl slices k) else sl slices k := by
  unfold sl
  rw [List.getD_eq_getElem?_getD, List.getD_eq_getElem?_getD, List.getElem?_modify]
  by_cases h : i = k
  · subst h
    simp [List.getElem?_eq_getElem hi]
  · have : ¬ k = i := fun hc => h hc.symm
    simp [h, this]

theorem sl_none {slices : List Slice} {k : Nat} (h : slices.length ≤ k) (q : Nat) :
    sl slices k q = none := by
  unfold sl
  rw [List.getD_eq_getElem?_getD, List.getElem?_eq_none h]; rfl

theorem lt_of_sl {slices : List Slice} {k q : Nat} {c : Cmd} (h : sl slices k q = some c) :
    k < slices.length := by
  by_contra hc
  rw [sl_none (by omega)] at h; simp at h

section
variable {M : Type} [Monoid M] {n : Nat} {cmds : List Cmd} {m : Meaning cmds M} {target : M}
  {loaded : List Cmd}

/-- One move preserves the invariant, and the patch does to the graph what was done to the slices. -/
theorem Inv.move {slices : List Slice} {lines : Lines} (hi : Inv n cmds m target loaded slices lines)
    (hok : ∀ c ∈ cmds, CmdOk n c) {i d : Nat} {c : Cmd} {nx : Nat → Option Cmd} {q0 : Nat}
    (hc : sl slices i q0 = some c) (hd : available slices i c = some (d, nx)) :
    d < i ∧ ∃ l, pullForward c nx c.qubits lines = some l ∧
      Inv n cmds m target loaded (moveSlots slices c i d) l := by
  have hcm := (hi.coh i).mem q0 c hc
  obtain ⟨_, hne, hnd, hb⟩ := hok c hcm
  have hq0 := ((hi.coh i).own q0 c hc).1
  have hown := ((hi.coh i).own q0 c hc).2
  have hdest := available_spec hd
  have hdi : d < i := by
    have := hdest.le
    by_contra hcon
    have : d = i := by omega
    subst this
    have := hdest.empty q0 hq0
    rw [hc] at this; simp at this
  have hiN := lt_of_sl hc
  have hlen : (moveSlots slices c i d).length = slices.length := by simp [moveSlots]
  set rem : Slice := fun q => if q ∈ c.qubits then none else sl slices i q with hrem
  -- the new slices
  have hσ : ∀ k, sl (moveSlots slices c i d) k =
      if k = d then addToSlice (sl slices d) c else if k = i then rem else sl slices k := by
    intro k
    unfold moveSlots
    rw [sl_modify _ _ _ _ (by simp; omega), sl_modify _ _ _ _ hiN]
    by_cases hkd : k = d
    · subst hkd
      have : ¬ k = i := by omega
      simp [this]
    · by_cases hki : k = i
      · subst hki; simp [hkd, hrem]
      · simp [hkd, hki]
  have σd : sl (moveSlots slices c i d) d = addToSlice (sl slices d) c := by rw [hσ]; simp
  have σi : sl (moveSlots slices c i d) i = rem := by
    rw [hσ, if_neg (by omega), if_pos rfl]
  have σk : ∀ k, k ≠ d → k ≠ i → sl (moveSlots slices c i d) k = sl slices k := by
    intro k h1 h2; rw [hσ, if_neg h1, if_neg h2]
  have hremc : Coh n cmds rem := by
    have h := hi.coh i
    refine ⟨?_, ?_, ?_⟩
    · intro q o ho
      simp only [hrem] at ho ⊢
      by_cases hq : q ∈ c.qubits
      · simp [hq] at ho
      · simp only [hq, if_false] at ho
        obtain ⟨h1, h2⟩ := h.own q o ho
        refine ⟨h1, fun q' hq' => ?_⟩
        have : q' ∉ c.qubits := by
          intro hcq
          have e1 := h2 q' hq'
          rw [hown q' hcq] at e1
          simp only [Option.some.injEq] at e1
          subst e1
          exact hq h1
        simp [this, h2 q' hq']
    · intro q o ho
      simp only [hrem] at ho
      by_cases hq : q ∈ c.qubits
      · simp [hq] at ho
      · simp only [hq, if_false] at ho; exact h.bound q o ho
    · intro q o ho
      simp only [hrem] at ho
      by_cases hq : q ∈ c.qubits
      · simp [hq] at ho
      · simp only [hq, if_false] at ho; exact h.mem q o ho
  have hreme : ∀ q ∈ c.qubits, rem q = none := by intro q hq; simp [hrem, hq]
  have hback : addToSlice rem c = sl slices i := by
    funext q
    unfold addToSlice
    by_cases hq : q ∈ c.qubits
    · simp [hq, hown q hq]
    · simp [hq, hrem]
  have hcoh : ∀ k, Coh n cmds (sl (moveSlots slices c i d) k) := by
    intro k
    by_cases h1 : k = d
    · subst h1; rw [σd]; exact coh_add (hi.coh k) hcm hb hdest.empty
    · by_cases h2 : k = i
      · subst h2; rw [σi]; exact hremc
      · rw [σk k h1 h2]; exact hi.coh k
  -- entries of the new slices
  have hent : ∀ k q o, sl (moveSlots slices c i d) k q = some o ↔
      (o ≠ c ∧ sl slices k q = some o) ∨ (o = c ∧ k = d ∧ q ∈ c.qubits) := by
    intro k q o
    by_cases h1 : k = d
    · subst h1
      rw [σd]
      unfold addToSlice
      by_cases hq : q ∈ c.qubits
      · simp only [hq, if_true, Option.some.injEq, hdest.empty q hq, and_true, reduceCtorEq, and_false,
          false_or]
        exact eq_comm
      · simp only [hq, if_false, and_false, or_false]
        constructor
        · intro h
          refine ⟨?_, h⟩
          rintro rfl
          have := hi.once k i q q0 o h hc
          omega
        · exact fun h => h.2
    · by_cases h2 : k = i
      · subst h2
        rw [σi]
        simp only [hrem, h1, false_and, and_false, or_false]
        by_cases hq : q ∈ c.qubits
        · simp only [hq, if_true, reduceCtorEq, false_iff, not_and]
          intro hne' h
          rw [hown q hq] at h
          exact hne' (by simpa using h.symm)
        · simp only [hq, if_false]
          constructor
          · intro h
            refine ⟨?_, h⟩
            rintro rfl
            exact hq ((hi.coh k).own q o h).1
          · exact fun h => h.2
      · rw [σk k h1 h2]
        simp only [h1, false_and, and_false, or_false]
        constructor
        · intro h
          refine ⟨?_, h⟩
          rintro rfl
          exact h2 (hi.once k i q q0 o h hc)
        · exact fun h => h.2
  -- columns
  have hcols : ∀ q ∈ c.qubits, ∃ A B C, col (sl slices) q slices.length = A ++ B ++ c :: C ∧
      col (sl (moveSlots slices c i d)) q slices.length = A ++ c :: B ++ C ∧ c ∉ A ++ B ∧
      ((B = [] ∧ nx q = some c) ∨ ∃ o B', B = o :: B' ∧ nx q = some o ∧ o ∉ A) := by
    intro q hq
    obtain ⟨B, C, e1, e2, e3, e4, e5⟩ := col_move (σ := sl slices) (τ := sl (moveSlots slices c i d))
      (q := q) (c := c) hdi hiN (fun k h1 h2 => by rw [σk k h1 h2]) (hdest.empty q hq)
      (by rw [σd]; simp [addToSlice, hq]) (hown q hq) (by rw [σi]; exact hreme q hq)
    refine ⟨col (sl slices) q d, B, C, e1, e2, ?_, ?_⟩
    · rw [← e3]
      intro hcm'
      obtain ⟨j, hj, ej⟩ := mem_col.1 hcm'
      have := hi.once j i q q0 c ej hc
      omega
    · cases hB : B with
      | nil =>
        refine Or.inl ⟨rfl, ?_⟩
        have hn := e5.1 hB
        exact (hdest.nexts q hq c).2 ⟨i, by omega, le_refl _, hown q hq, fun j h1 h2 => hn j (by omega) h2⟩
      | cons o B' =>
        refine Or.inr ⟨o, B', rfl, ?_, ?_⟩
        · obtain ⟨k, k1, k2, k3, k4⟩ := (e4 o).1 (by rw [hB]; rfl)
          exact (hdest.nexts q hq o).2 ⟨k, by omega, by omega, k3, fun j h1 h2 => k4 j (by omega) h2⟩
        · intro ho
          obtain ⟨j, hj, ej⟩ := mem_col.1 ho
          obtain ⟨k, k1, k2, k3, k4⟩ := (e4 o).1 (by rw [hB]; rfl)
          have := hi.once j k q q o ej k3
          omega
  obtain ⟨l, l1, l2, l3⟩ := pullForward_spec (c := c) (nexts := nx)
    (target := fun q => col (sl (moveSlots slices c i d)) q slices.length) c.qubits lines hnd
    (fun q hq => by
      obtain ⟨A, B, C, e1, e2, e3, e4⟩ := hcols q hq
      exact ⟨A, B, C, by rw [hi.lines q, e1], e2, e3, e4⟩)
  refine ⟨hdi, l, l1, hcoh, ?_, ?_, ?_, ?_⟩
  · intro a b q q' o h1 h2
    rcases (hent a q o).1 h1 with ⟨n1, h1⟩ | ⟨rfl, h1, _⟩ <;>
      rcases (hent b q' o).1 h2 with ⟨n2, h2⟩ | ⟨e2, h2, _⟩
    · exact hi.once a b q q' o h1 h2
    · exact absurd e2 n1
    · exact absurd rfl n2
    · omega
  · intro o
    rw [hi.all o]
    constructor
    · rintro ⟨k, q, h⟩
      by_cases ho : o = c
      · exact ⟨d, q0, (hent d q0 o).2 (Or.inr ⟨ho, rfl, hq0⟩)⟩
      · exact ⟨k, q, (hent k q o).2 (Or.inl ⟨ho, h⟩)⟩
    · rintro ⟨k, q, h⟩
      rcases (hent k q o).1 h with ⟨_, h⟩ | ⟨rfl, _, _⟩
      · exact ⟨k, q, h⟩
      · exact ⟨i, q0, hc⟩
  · rw [hlen, ← hi.prod]
    refine pp_move (x := m.sem c) hdi hiN ?_ ?_ ?_ ?_
    · intro k h1 h2; simp only [σk k h1 h2]
    · simp only [σd]; exact sliceDen_add m (hi.coh d) hcm hb hne hdest.empty
    · simp only [σi]
      rw [← hback]
      exact sliceDen_add m hremc hcm hb hne hreme
    · intro k h1 h2
      apply commute_slice
      intro o ho
      have hne' : c ≠ o := by
        rintro rfl
        obtain ⟨q, _, e⟩ := mem_cmdsOf.1 ho
        rcases (hent k q c).1 e with ⟨h, _⟩ | ⟨_, h, _⟩
        · exact h rfl
        · omega
      refine m.comm c hcm o (mem_of_cmdsOf (hcoh k) ho) hne' (fun q hq hqo => ?_)
      obtain ⟨q', _, e⟩ := mem_cmdsOf.1 ho
      have e' := ((hcoh k).own q' o e).2 q hqo
      rcases (hent k q o).1 e' with ⟨_, h⟩ | ⟨h, _, _⟩
      · exact hdest.pass k (by omega) h2 q hq o h
      · exact absurd h.symm hne'
  · intro q
    rw [hlen]
    by_cases hq : q ∈ c.qubits
    · exact l2 q hq
    · rw [l3 q hq, hi.lines q]
      apply col_congr
      intro j _
      apply Option.ext
      intro o
      rw [hent j q o]
      constructor
      · intro h
        refine Or.inl ⟨?_, h⟩
        rintro rfl
        exact hq ((hi.coh j).own q o h).1
      · rintro (⟨_, h⟩ | ⟨_, _, h⟩)
        · exact h
        · exact absurd h hq

theorem moveSlots_length (slices : List Slice) (c : Cmd) (i d : Nat) :
    (moveSlots slices c i d).length = slices.length := by simp [moveSlots]

/-- After a move, the other commands of the slice are still there. -/
theorem moveSlots_other {slices : List Slice} {c o : Cmd} {i d q : Nat}
    (hdi : d < i) (hc : sl slices i q = some o) (hq : q ∉ c.qubits) :
    sl (moveSlots slices c i d) i q = some o := by
  have hiN := lt_of_sl hc
  unfold moveSlots
  rw [sl_modify _ _ _ _ (by simp; omega), if_neg (by omega), sl_modify _ _ _ _ hiN, if_pos rfl]
  simp [hq, hc]

theorem inSlice_ok (hok : ∀ c ∈ cmds, CmdOk n c) (i : Nat) : ∀ (cs : List Cmd) (st : St),
    Inv n cmds m target loaded st.slices st.lines → cs.Nodup →
    (∀ c ∈ cs, ∃ q, sl st.slices i q = some c) →
    ∃ st', inSlice i cs st = some st' ∧ Inv n cmds m target loaded st'.slices st'.lines ∧
      st'.slices.length = st.slices.length := by
  intro cs
  induction cs with
  | nil => intro st hi _ _; exact ⟨st, rfl, hi, rfl⟩
  | cons c cs ih =>
    intro st hi hn hmem
    rw [List.nodup_cons] at hn
    unfold inSlice
    cases ha : available st.slices i c with
    | none => exact ih st hi hn.2 (fun o ho => hmem o (by simp [ho]))
    | some r =>
      obtain ⟨d, nx⟩ := r
      obtain ⟨q0, hq0⟩ := hmem c (by simp)
      obtain ⟨hdi, l, hl, hinv⟩ := hi.move hok hq0 ha
      simp only [hl]
      obtain ⟨st', s1, s2, s3⟩ := ih ⟨moveSlots st.slices c i d, l, st.count + 1⟩ hinv hn.2 (by
        intro o ho
        obtain ⟨q, hq⟩ := hmem o (by simp [ho])
        refine ⟨q, moveSlots_other hdi hq ?_⟩
        intro hqc
        have := ((hi.coh i).own q0 c hq0).2 q hqc
        rw [hq] at this
        simp only [Option.some.injEq] at this
        subst this
        exact hn.1 ho)
      exact ⟨st', s1, s2, by rw [s3]; exact moveSlots_length _ _ _ _⟩

theorem overSlices_ok (hok : ∀ c ∈ cmds, CmdOk n c) : ∀ (k i : Nat) (st : St),
    Inv n cmds m target loaded st.slices st.lines →
    ∃ st', overSlices n k i st = some st' ∧ Inv n cmds m target loaded st'.slices st'.lines := by
  intro k
  induction k with
  | zero => intro i st hi; exact ⟨st, rfl, hi⟩
  | succ k ih =>
    intro i st hi
    unfold overSlices
    obtain ⟨st', s1, s2, _⟩ := inSlice_ok hok i (cmdsOf n (st.slices.getD i (fun _ => none))) st hi
      (nodup_cmdsOf _ _) (by
        intro c hc
        obtain ⟨q, _, h⟩ := mem_cmdsOf.1 hc
        exact ⟨q, h⟩)
    rw [s1]
    exact ih (i + 1) st' s2

/-! ## Filling the slices -/

theorem foldl_max_ge : ∀ (l : List Nat) (a : Nat), a ≤ l.foldl max a ∧ ∀ x ∈ l, x ≤ l.foldl max a := by
  intro l
  induction l with
  | nil => intro a; simp
  | cons b l ih =>
    intro a
    obtain ⟨h1, h2⟩ := ih (max a b)
    simp only [List.foldl_cons]
    refine ⟨by omega, ?_⟩
    intro x hx
    rcases List.mem_cons.1 hx with rfl | hx
    · omega
    · exact h2 x hx

theorem foldl_max_le : ∀ (l : List Nat) (a N : Nat), a ≤ N → (∀ x ∈ l, x ≤ N) → l.foldl max a ≤ N := by
  intro l
  induction l with
  | nil => intro a N h _; exact h
  | cons b l ih =>
    intro a N h1 h2
    have := h2 b (by simp)
    exact ih _ _ (by omega) (fun x hx => h2 x (by simp [hx]))

structure LInv {M : Type} [Monoid M] (n : Nat) (cmds : List Cmd) (m : Meaning cmds M)
    (loaded : List Cmd) (slices : List Slice) (free : Nat → Nat) : Prop where
  inv : Inv n cmds m (den m.sem loaded) loaded slices (linesOf loaded)
  le : ∀ q, free q ≤ slices.length
  free : ∀ q k, free q ≤ k → sl slices k q = none

theorem sl_append_empty (slices : List Slice) (k : Nat) :
    sl (slices ++ [fun _ => none]) k = sl slices k := by
  unfold sl
  rw [List.getD_eq_getElem?_getD, List.getD_eq_getElem?_getD]
  by_cases h : k < slices.length
  · rw [List.getElem?_append_left h]
  · rw [List.getElem?_append_right (by omega), List.getElem?_eq_none (by omega : slices.length ≤ k)]
    cases hk : k - slices.length with
    | zero => simp
    | succ j => simp

theorem sliceDen_empty : sliceDen n m.sem (fun _ => none) = 1 := by
  have : cmdsOf n (fun _ => none) = [] := by
    rw [List.eq_nil_iff_forall_not_mem]
    intro c hc
    obtain ⟨q, _, h⟩ := mem_cmdsOf.1 hc
    simp at h
  simp [sliceDen, den, this]

theorem Inv.append_empty {slices : List Slice} {lines : Lines}
    (hi : Inv n cmds m target loaded slices lines) :
    Inv n cmds m target loaded (slices ++ [fun _ => none]) lines := by
  obtain ⟨h1, h2, h3, h4, h5⟩ := hi
  have e : sl (slices ++ [fun _ => none]) = sl slices := by
    funext k; exact sl_append_empty slices k
  have e0 : sl slices slices.length = fun _ => none := by funext q; exact sl_none (le_refl _) q
  refine ⟨?_, ?_, ?_, ?_, ?_⟩
  · rw [e]; exact h1
  · rw [e]; exact h2
  · rw [e]; exact h3
  · rw [e]
    simp only [List.length_append, List.length_singleton, pp]
    rw [h4, e0, sliceDen_empty, mul_one]
  · intro q
    rw [e]
    simp only [List.length_append, List.length_singleton, col]
    rw [h5 q, e0]; simp

theorem Inv.add {slices : List Slice} (hi : Inv n cmds m (den m.sem loaded) loaded slices (linesOf loaded))
    {c : Cmd} (hc : c ∈ cmds) (hcl : c ∉ loaded) (hok : CmdOk n c) {f : Nat} (hf : f < slices.length)
    (hfree : ∀ q ∈ c.qubits, ∀ k, f ≤ k → sl slices k q = none) :
    Inv n cmds m (den m.sem (loaded ++ [c])) (loaded ++ [c])
      (slices.modify f (fun s => addToSlice s c)) (linesOf (loaded ++ [c])) := by
  obtain ⟨h1, h2, h3, h4, h5⟩ := hi
  have hs : ∀ k, sl (slices.modify f (fun s => addToSlice s c)) k =
      if k = f then addToSlice (sl slices k) c else sl slices k := fun k => sl_modify _ _ _ _ hf
  have hent : ∀ k q o, sl (slices.modify f (fun s => addToSlice s c)) k q = some o ↔
      sl slices k q = some o ∨ (o = c ∧ k = f ∧ q ∈ c.qubits) := by
    intro k q o
    rw [hs]
    by_cases hk : k = f
    · subst hk
      rw [if_pos rfl]
      unfold addToSlice
      by_cases hq : q ∈ c.qubits
      · simp only [hq, if_true, Option.some.injEq, hfree q hq k (le_refl _), reduceCtorEq, false_or, and_true]
        exact eq_comm
      · simp [hq]
    · simp [hk]
  have hnotin : ∀ k q, sl slices k q ≠ some c := fun k q h => hcl ((h3 c).2 ⟨k, q, h⟩)
  have hlen : (slices.modify f (fun s => addToSlice s c)).length = slices.length := by simp
  have hcoh : ∀ k, Coh n cmds (sl (slices.modify f (fun s => addToSlice s c)) k) := by
    intro k
    rw [hs]
    by_cases hk : k = f
    · subst hk; rw [if_pos rfl]
      exact coh_add (h1 k) hc hok.bound (fun q hq => hfree q hq k (le_refl _))
    · rw [if_neg hk]; exact h1 k
  refine ⟨hcoh, ?_, ?_, ?_, ?_⟩
  · intro a b q q' o e1 e2
    rcases (hent a q o).1 e1 with e1 | ⟨e4, e1, _⟩ <;> rcases (hent b q' o).1 e2 with e2 | ⟨e3, e2, _⟩
    · exact h2 a b q q' o e1 e2
    · rw [e3] at e1; exact absurd e1 (hnotin _ _)
    · rw [e4] at e2; exact absurd e2 (hnotin _ _)
    · omega
  · intro o
    rw [List.mem_append, List.mem_singleton, h3 o]
    constructor
    · rintro (⟨k, q, h⟩ | rfl)
      · exact ⟨k, q, (hent k q o).2 (Or.inl h)⟩
      · obtain ⟨q, hq⟩ := List.exists_mem_of_ne_nil _ hok.ne
        exact ⟨f, q, (hent f q o).2 (Or.inr ⟨rfl, rfl, hq⟩)⟩
    · rintro ⟨k, q, h⟩
      rcases (hent k q o).1 h with h | ⟨h, _, _⟩
      · exact Or.inl ⟨k, q, h⟩
      · exact Or.inr h
  · rw [hlen, den_append, ← h4]
    have : den m.sem [c] = m.sem c := by simp [den]
    rw [this]
    refine pp_insert hf ?_ ?_ ?_
    · intro k hk; simp only [hs, if_neg hk]
    · simp only [hs, if_true]
      exact sliceDen_add m (h1 f) hc hok.bound hok.ne (fun q hq => hfree q hq f (le_refl _))
    · intro k hk
      apply commute_slice
      intro o ho
      obtain ⟨q', _, e⟩ := mem_cmdsOf.1 ho
      have hne : c ≠ o := by rintro rfl; exact hnotin _ _ e
      refine m.comm c hc o (mem_of_cmdsOf (h1 k) ho) hne (fun q hq hqo => ?_)
      have e' := ((h1 k).own q' o e).2 q hqo
      rw [hfree q hq k (by omega)] at e'; simp at e'
  · intro q
    rw [hlen]
    have hl : linesOf (loaded ++ [c]) q = linesOf loaded q ++ (if q ∈ c.qubits then [c] else []) := by
      unfold linesOf
      rw [List.filter_append]
      by_cases hq : q ∈ c.qubits <;> simp [hq]
    rw [hl, h5 q]
    by_cases hq : q ∈ c.qubits
    · rw [if_pos hq]
      refine (col_insert hf ?_ ?_ (hfree q hq f (le_refl _)) (fun k hk => hfree q hq k (by omega))).symm
      · intro k hk; rw [hs, if_neg hk]
      · rw [hs, if_pos rfl]; simp [addToSlice, hq]
    · rw [if_neg hq, List.append_nil]
      apply col_congr
      intro j _
      rw [hs]
      by_cases hj : j = f
      · simp [hj, addToSlice, hq]
      · simp [hj]

theorem loadStep_ok (hok : ∀ c ∈ cmds, CmdOk n c) {slices : List Slice} {free : Nat → Nat}
    (h : LInv n cmds m loaded slices free) {c : Cmd} (hc : c ∈ cmds) (hcl : c ∉ loaded) :
    ∃ st, loadStep n (slices, free) c = some st ∧ LInv n cmds m (loaded ++ [c]) st.1 st.2 := by
  have hk := hok c hc
  unfold loadStep
  cases ho : c.op with
  | none => have := hk.tket; rw [ho] at this; simp at this
  | some op =>
    simp only
    split
    · rename_i hq; exact absurd hq hk.ne
    · rename_i q qs hqs
      have hnb : ¬ ∃ q ∈ c.qubits, n ≤ q := by
        rintro ⟨q, h1, h2⟩
        have := hk.bound q h1
        omega
      rw [if_neg hnb]
      refine ⟨_, rfl, ?_⟩
      set f := (qs.map free).foldl max (free q) with hf
      have hge : ∀ p ∈ c.qubits, free p ≤ f := by
        intro p hp
        rw [hqs] at hp
        rcases List.mem_cons.1 hp with rfl | hp
        · exact (foldl_max_ge _ _).1
        · exact (foldl_max_ge _ _).2 _ (List.mem_map_of_mem hp)
      have hle : f ≤ slices.length := by
        apply foldl_max_le _ _ _ (h.le q)
        intro x hx
        obtain ⟨p, _, rfl⟩ := List.mem_map.1 hx
        exact h.le p
      set slices' := if slices.length ≤ f then slices ++ [fun _ => none] else slices with hs'
      have hsl : ∀ k, sl slices' k = sl slices k := by
        intro k
        rw [hs']
        split
        · exact sl_append_empty _ _
        · rfl
      have hinv : Inv n cmds m (den m.sem loaded) loaded slices' (linesOf loaded) := by
        rw [hs']
        split
        · exact h.inv.append_empty
        · exact h.inv
      have hlen : f < slices'.length ∧ slices.length ≤ slices'.length := by
        rw [hs']
        split
        · simp; omega
        · omega
      refine ⟨hinv.add hc hcl hk hlen.1 (fun p hp k hkf => ?_), ?_, ?_⟩
      · rw [hsl]; exact h.free p k (le_trans (hge p hp) hkf)
      · intro p
        simp only [List.length_modify]
        by_cases hp : p ∈ c.qubits
        · simp only [hp, if_true]; omega
        · simp only [hp, if_false]; have := h.le p; omega
      · intro p k hpk
        rw [sl_modify _ _ _ _ hlen.1]
        by_cases hp : p ∈ c.qubits
        · simp only [hp, if_true] at hpk
          rw [if_neg (by omega), hsl]
          exact h.free p k (le_trans (hge p hp) (by omega))
        · simp only [hp, if_false] at hpk
          by_cases hkf : k = f
          · simp only [hkf, if_true, addToSlice, hp, if_false]
            rw [hsl, ← hkf]; exact h.free p k hpk
          · rw [if_neg hkf, hsl]; exact h.free p k hpk

theorem loadSlices_ok (hok : ∀ c ∈ cmds, CmdOk n c) : ∀ (cs loaded : List Cmd) (slices : List Slice)
    (free : Nat → Nat), LInv n cmds m loaded slices free → (∀ c ∈ cs, c ∈ cmds) → (loaded ++ cs).Nodup →
    ∃ st, loadSlices n cs (slices, free) = some st ∧ LInv n cmds m (loaded ++ cs) st.1 st.2 := by
  intro cs
  induction cs with
  | nil => intro loaded slices free h _ _; exact ⟨_, rfl, by simpa using h⟩
  | cons c cs ih =>
    intro loaded slices free h hm hn
    have hcl : c ∉ loaded := by
      intro hc
      rw [List.nodup_append] at hn
      exact hn.2.2 c hc c (by simp) rfl
    obtain ⟨st, s1, s2⟩ := loadStep_ok hok h (hm c (by simp)) hcl
    obtain ⟨st', t1, t2⟩ := ih (loaded ++ [c]) st.1 st.2 s2 (fun o ho => hm o (by simp [ho]))
      (by simpa using hn)
    refine ⟨st', ?_, by simpa using t2⟩
    unfold loadSlices
    rw [s1]
    exact t1

theorem linv_init : LInv n cmds m [] [] (fun _ => 0) := by
  refine ⟨⟨?_, ?_, ?_, ?_, ?_⟩, ?_, ?_⟩
  · intro k
    have : sl ([] : List Slice) k = fun _ => none := by funext q; exact sl_none (by simp) q
    rw [this]; exact coh_empty _ _
  · intro i j q q' c h; rw [sl_none (by simp)] at h; simp at h
  · intro c
    simp only [List.not_mem_nil, false_iff]
    rintro ⟨k, q, h⟩
    rw [sl_none (by simp)] at h; simp at h
  · simp [pp, den]
  · intro q; simp [linesOf, col]
  · intro q; simp
  · intro q k _; exact sl_none (by simp) q

/-- The pass succeeds, and the final graph is that of the final slices. -/
theorem greedy_ok (hok : ∀ c ∈ cmds, CmdOk n c) (hn : cmds.Nodup) (m : Meaning cmds M) :
    ∃ lines count slices, greedyCommutation n cmds = some (lines, count) ∧
      Inv n cmds m (den m.sem cmds) cmds slices lines := by
  obtain ⟨st, s1, s2⟩ := loadSlices_ok (m := m) hok cmds [] [] (fun _ => 0) linv_init (fun _ h => h)
    (by simpa using hn)
  simp only [List.nil_append] at s2
  obtain ⟨st', t1, t2⟩ := overSlices_ok hok st.1.length 0 ⟨st.1, linesOf cmds, 0⟩ s2.inv
  refine ⟨st'.lines, st'.count, st'.slices, ?_, t2⟩
  unfold greedyCommutation
  rw [s1]
  simp only [t1, Option.map_some]

/-! ## Reading off an order -/

/-- The commands, slice by slice. -/
def flat (n : Nat) (σ : Nat → Slice) : Nat → List Cmd
  | 0 => []
  | k + 1 => flat n σ k ++ cmdsOf n (σ k)

theorem mem_flat {σ : Nat → Slice} {k : Nat} {c : Cmd} :
    c ∈ flat n σ k ↔ ∃ j < k, ∃ q < n, σ j q = some c := by
  induction k with
  | zero => simp [flat]
  | succ k ih =>
    simp only [flat, List.mem_append, ih, mem_cmdsOf]
    constructor
    · rintro (⟨j, hj, h⟩ | h)
      · exact ⟨j, by omega, h⟩
      · exact ⟨k, by omega, h⟩
    · rintro ⟨j, hj, h⟩
      by_cases hk : j = k
      · subst hk; exact Or.inr h
      · exact Or.inl ⟨j, by omega, h⟩

theorem den_flat (sem : Cmd → M) (σ : Nat → Slice) (k : Nat) :
    den sem (flat n σ k) = pp (fun k => sliceDen n sem (σ k)) k := by
  induction k with
  | zero => simp [flat, pp, den]
  | succ k ih => simp only [flat, pp, den_append, ih]; rfl

theorem filter_cmdsOf {s : Slice} (hs : Coh n cmds s) (q : Nat) :
    (cmdsOf n s).filter (fun c => decide (q ∈ c.qubits)) = (s q).toList := by
  have hsub : ∀ c, c ∈ (cmdsOf n s).filter (fun c => decide (q ∈ c.qubits)) ↔ s q = some c := by
    intro c
    rw [List.mem_filter, mem_cmdsOf, decide_eq_true_eq]
    constructor
    · rintro ⟨⟨q', _, e⟩, h⟩; exact (hs.own q' c e).2 q h
    · intro h; exact ⟨⟨q, hs.bound q c h, h⟩, (hs.own q c h).1⟩
  have hn : ((cmdsOf n s).filter (fun c => decide (q ∈ c.qubits))).Nodup := (nodup_cmdsOf n s).filter _
  cases hq : s q with
  | none =>
    simp only [Option.toList_none]
    rw [List.eq_nil_iff_forall_not_mem]
    intro c hc
    rw [hsub, hq] at hc; simp at hc
  | some c =>
    simp only [Option.toList_some]
    rw [← List.perm_singleton, List.perm_ext_iff_of_nodup hn (by simp)]
    intro o
    rw [hsub, hq]; simp [eq_comm]

theorem linesOf_flat {σ : Nat → Slice} (hs : ∀ k, Coh n cmds (σ k)) (q k : Nat) :
    linesOf (flat n σ k) q = col σ q k := by
  induction k with
  | zero => simp [flat, col, linesOf]
  | succ k ih =>
    have : linesOf (flat n σ (k + 1)) q = linesOf (flat n σ k) q ++
        (cmdsOf n (σ k)).filter (fun c => decide (q ∈ c.qubits)) := by
      simp [flat, linesOf]
    rw [this, ih, filter_cmdsOf (hs k)]; rfl

theorem nodup_flat {σ : Nat → Slice} (ho : ∀ i j q q' c, σ i q = some c → σ j q' = some c → i = j)
    (k : Nat) : (flat n σ k).Nodup := by
  induction k with
  | zero => simp [flat]
  | succ k ih =>
    simp only [flat]
    rw [List.nodup_append]
    refine ⟨ih, nodup_cmdsOf _ _, ?_⟩
    rintro a ha b hb rfl
    obtain ⟨j, hj, q, _, e⟩ := mem_flat.1 ha
    obtain ⟨q', _, e'⟩ := mem_cmdsOf.1 hb
    have := ho j k q q' a e e'
    omega

/-! ## Orders with the same lines -/

/-- Two orders of the same commands with the same qubit lines have the same meaning. -/
theorem den_of_lines (m : Meaning cmds M) : ∀ (a b : List Cmd), a.Nodup → b.Nodup → a.Perm b →
    (∀ c ∈ a, c ∈ cmds) → linesOf a = linesOf b → den m.sem a = den m.sem b := by
  intro a
  induction a with
  | nil => intro b _ _ hp _ _; rw [List.nil_perm.1 hp]
  | cons c a ih =>
    intro b hna hnb hp hm hl
    have hcb : c ∈ b := hp.subset (by simp)
    obtain ⟨s, t, rfl⟩ := List.append_of_mem hcb
    have hna' := List.nodup_cons.1 hna
    have hcs : c ∉ s := by
      intro h
      rw [List.nodup_append] at hnb
      exact hnb.2.2 c h c (by simp) rfl
    have hp' : a.Perm (s ++ t) := by
      have := hp.trans (List.perm_middle)
      exact List.Perm.cons_inv this
    -- nothing before `c` shares a qubit with it
    have hdis : ∀ o ∈ s, ∀ q ∈ c.qubits, q ∉ o.qubits := by
      intro o ho q hq hqo
      have hlq := congrFun hl q
      unfold linesOf at hlq
      rw [List.filter_cons_of_pos (by simpa using hq), List.filter_append] at hlq
      have hne : s.filter (fun c => decide (q ∈ c.qubits)) ≠ [] := by
        intro h
        have : o ∈ s.filter (fun c => decide (q ∈ c.qubits)) := by
          rw [List.mem_filter]; exact ⟨ho, by simpa using hqo⟩
        rw [h] at this; simp at this
      obtain ⟨x, r, hx⟩ := List.exists_cons_of_ne_nil hne
      rw [hx] at hlq
      simp only [List.cons_append, List.cons.injEq] at hlq
      have : x ∈ s := by
        have : x ∈ s.filter (fun c => decide (q ∈ c.qubits)) := by rw [hx]; simp
        exact (List.mem_filter.1 this).1
      rw [← hlq.1] at this
      exact hcs this
    have hcomm : Commute (m.sem c) (den m.sem s) := by
      unfold den
      apply Commute.list_prod_right
      intro x hx
      obtain ⟨o, ho, rfl⟩ := List.mem_map.1 hx
      have hoc : o ∈ c :: a := hp.symm.subset (by simp [ho])
      refine m.comm c (hm c (by simp)) o (hm o hoc) ?_ ?_
      · rintro rfl; exact hcs ho
      · intro q h1 h2; exact absurd h2 (hdis o ho q h1)
    have hnst : (s ++ t).Nodup := hp'.nodup_iff.1 hna'.2
    have hrest : linesOf a = linesOf (s ++ t) := by
      funext q
      have hlq := congrFun hl q
      unfold linesOf at hlq ⊢
      rw [List.filter_append] at hlq ⊢
      by_cases hq : q ∈ c.qubits
      · have hs0 : s.filter (fun c => decide (q ∈ c.qubits)) = [] := by
          rw [List.filter_eq_nil_iff]
          intro o ho; simpa using hdis o ho q hq
        rw [hs0] at hlq ⊢
        rw [List.filter_cons_of_pos (by simpa using hq), List.filter_cons_of_pos (by simpa using hq)] at hlq
        simpa using hlq
      · rw [List.filter_cons_of_neg (by simpa using hq), List.filter_cons_of_neg (by simpa using hq)] at hlq
        exact hlq
    have hrec := ih (s ++ t) hna'.2 hnst hp' (fun o ho => hm o (by simp [ho])) hrest
    have e1 : den m.sem (c :: a) = m.sem c * den m.sem a := by simp [den]
    have e2 : den m.sem (s ++ c :: t) = den m.sem s * (m.sem c * den m.sem t) := by simp [den]
    rw [e1, e2, hrec, den_append, ← mul_assoc, hcomm.eq, mul_assoc]
end

end Tket.Commutation
