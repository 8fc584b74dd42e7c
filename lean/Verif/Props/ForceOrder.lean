import Verif.Lemmas.ForceOrder

/-!
# C79: the order forced on operations
-/

namespace Tket.ForceOrder

/-- **C79.** In a region without cycles the traversal visits every node once and after its
predecessors, whatever the tie-breaking. -/
theorem C79_order {G : Graph} (hG : WF G) (pick : Pick) : Executes G (order G pick) where
  perm := order_perm hG pick
  preds := fun _ _ _ e p hp =>
    (mem_ready.1 (mem_next.1 (greedy_split (order_greedy hG pick) e)).2.1).2 p hp

/-- **C79.** The order edges leave exactly one execution order, the one of the traversal; in particular
they close no cycle. Nodes and operations are unchanged and no dependency is lost. -/
theorem C79_unique {G : Graph} (hG : WF G) (pick : Pick) :
    (∀ l, Executes (forceOrder G pick) l ↔ l = order G pick) ∧
    (forceOrder G pick).nodes = G.nodes ∧ (forceOrder G pick).op = G.op ∧
    (∀ n, ∀ p ∈ G.preds n, p ∈ (forceOrder G pick).preds n) := by
  have hg := order_greedy hG pick
  have hnd := greedy_nodup hg
  refine ⟨?_, rfl, rfl, fun n p hp => mem_forced.2 (.inl hp)⟩
  intro l
  constructor
  · intro h
    refine unique_of_edges hnd (h.perm.trans (order_perm hG pick).symm) ?_
    intro q n r e p hp
    exact h.preds q n r e p (mem_forced.2 (.inr hp))
  · rintro rfl
    refine ⟨order_perm hG pick, ?_⟩
    intro q n r e p hp
    rcases mem_forced.1 hp with hp | hp
    · exact (C79_order hG pick).preds q n r e p hp
    · obtain ⟨pre, post, e'⟩ := edges_split.1 hp
      have h2 : order G pick = (pre ++ [p]) ++ n :: post := by rw [e']; simp
      rw [h2] at e hnd
      -- `n` occurs once
      have : pre ++ [p] = q := by
        rcases List.append_eq_append_iff.1 e with ⟨c, hc1, hc2⟩ | ⟨c, hc1, hc2⟩
        · cases c with
          | nil => simpa using hc1.symm
          | cons z c =>
            simp only [List.cons_append, List.cons.injEq] at hc2
            obtain ⟨rfl, hc2⟩ := hc2
            have := (List.nodup_append.1 hnd).2.1
            rw [hc2] at this
            simp at this
        · cases c with
          | nil => simpa using hc1
          | cons z c =>
            simp only [List.cons_append, List.cons.injEq] at hc2
            obtain ⟨rfl, hc2⟩ := hc2
            rw [hc1] at hnd
            exact absurd rfl ((List.nodup_append.1 hnd).2.2 n (by simp) n (by simp))
      rw [← this]
      simp

/-- **C79.** If an operation is executed after one of higher rank, then it needs the result of an
operation, executed in between or the latter itself, whose rank is at least as high. -/
theorem C79_delayed {G : Graph} (hG : WF G) (pick : Pick) {y x : Nat} {between : List Nat}
    (h : After (order G pick) y x between) (hr : rank (G.op x) < rank (G.op y)) :
    ∃ z ∈ y :: between, Needs G x z ∧ rank (G.op y) ≤ rank (G.op z) := by
  obtain ⟨pre, post, e⟩ := h
  exact delayed hG (order_greedy hG pick) e hr

/-- **C79.** Reads of futures are as late as possible: what comes after a read is a read, or needs the
result of that read or of one executed after it. -/
theorem C79_reads_late {G : Graph} (hG : WF G) (pick : Pick) {y x : Nat} {between : List Nat}
    (h : After (order G pick) y x between) (hy : G.op y = .future .read)
    (hx : G.op x ≠ .future .read) :
    ∃ z ∈ y :: between, Needs G x z ∧ G.op z = .future .read := by
  have hmax : ∀ o : Op, 1 ≤ rank o ↔ o = .future .read := by
    intro o
    rcases o with o | o | o | _
    · cases o <;> decide
    · cases o <;> decide
    · cases o <;> decide
    · decide
  obtain ⟨z, hz, hn, hr⟩ := C79_delayed hG pick h (by
    have h1 := (hmax (G.op y)).2 hy
    have h2 := (not_congr (hmax (G.op x))).2 hx
    omega)
  exact ⟨z, hz, hn, (hmax _).1 (Int.le_trans ((hmax _).2 hy) hr)⟩

/-- **C79.** A qubit is freed as soon as what the operation needs has been executed: whatever is
executed before it and is not itself freeing a qubit is followed by something that it needs (or is
needed itself). Only the operations named `QFree` count; measuring and freeing at once does not. -/
theorem C79_frees_early {G : Graph} (hG : WF G) (pick : Pick) {y x : Nat} {between : List Nat}
    (h : After (order G pick) y x between)
    (hx : G.op x = .tket .QFree ∨ G.op x = .qsystem .QFree)
    (hy : G.op y ≠ .tket .QFree ∧ G.op y ≠ .qsystem .QFree) :
    ∃ z ∈ y :: between, Needs G x z := by
  have h1 : rank (G.op x) = -3 := by rcases hx with hx | hx <;> rw [hx] <;> rfl
  have h2 : -3 < rank (G.op y) := by
    have : ∀ o : Op, o ≠ .tket .QFree → o ≠ .qsystem .QFree → -3 < rank o := by
      intro o
      rcases o with o | o | o | _
      · cases o <;> decide
      · cases o <;> decide
      · cases o <;> decide
      · decide
    exact this _ hy.1 hy.2
  obtain ⟨z, hz, hn, -⟩ := C79_delayed hG pick h (by omega)
  exact ⟨z, hz, hn⟩

/-- **C79.** Quantum operations, allocations among them, come before classical ones: if one is executed
after a classical operation then it needs the result of a classical operation, that one or a later one. If
an operation that does not allocate is executed after an allocation then it needs the result of an
allocation or of a classical operation, that one or a later one. -/
theorem C79_quantum_first {G : Graph} (hG : WF G) (pick : Pick) {y x : Nat} {between : List Nat}
    (h : After (order G pick) y x between) (hx : Quantum (G.op x)) :
    (¬ Quantum (G.op y) → ∃ z ∈ y :: between, Needs G x z ∧ ¬ Quantum (G.op z)) ∧
    (gain (G.op y) = 1 → gain (G.op x) ≠ 1 →
      ∃ z ∈ y :: between, Needs G x z ∧ (¬ Quantum (G.op z) ∨ gain (G.op z) = 1)) := by
  have h1 : ∀ o : Op, 0 ≤ rank o ↔ ¬ Quantum o := by
    intro o
    rcases o with o | o | o | _
    · cases o <;> decide
    · cases o <;> decide
    · cases o <;> decide
    · decide
  have h2 : ∀ o : Op, -1 ≤ rank o ↔ (¬ Quantum o ∨ gain o = 1) := by
    intro o
    rcases o with o | o | o | _
    · cases o <;> decide
    · cases o <;> decide
    · cases o <;> decide
    · decide
  constructor
  · intro hy
    obtain ⟨z, hz, hn, hr⟩ := C79_delayed hG pick h (by
      have := (h1 _).2 hy
      have := (not_congr (h1 (G.op x))).2 (by simpa using hx)
      omega)
    exact ⟨z, hz, hn, (h1 _).1 (Int.le_trans ((h1 _).2 hy) hr)⟩
  · intro hy hg
    obtain ⟨z, hz, hn, hr⟩ := C79_delayed hG pick h (by
      have := (h2 _).2 (.inr hy)
      have := (not_congr (h2 (G.op x))).2 (by
        rintro (hc | hc)
        · exact hc hx
        · exact hg hc)
      omega)
    exact ⟨z, hz, hn, (h2 _).1 (Int.le_trans ((h2 _).2 (.inr hy)) hr)⟩

/-- Two qubits, one after the other: allocated, rotated by an angle that is computed, and freed. -/
def twoQubits : Graph where
  nodes := [0, 1, 2, 3, 4, 5, 6, 7]
  op := fun n => match n with
    | 0 | 4 => .qsystem .TryQAlloc
    | 2 | 6 => .qsystem .Rz
    | 3 | 7 => .qsystem .QFree
    | _ => .other
  preds := fun n => match n with
    | 2 => [0, 1]
    | 3 => [2]
    | 6 => [4, 5]
    | 7 => [6]
    | _ => []

theorem twoQubits_wf : WF twoQubits where
  nodup := by decide
  closed := by decide
  acyclic := ⟨id, by decide⟩

/-- **C79, finding.** Allocations are not as late as possible, as the comment in the code says: a program
that never has more than one qubit allocated has two after the pass, whatever the tie-breaking. -/
theorem C79_allocs_not_late :
    Executes twoQubits twoQubits.nodes ∧ peak twoQubits twoQubits.nodes = 1 ∧
    ∀ pick, peak twoQubits (order twoQubits pick) = 2 := by
  refine ⟨⟨List.Perm.refl _, ?_⟩, by decide, ?_⟩
  · intro q n r e p hp
    have hn : n ∈ twoQubits.nodes := by rw [e]; simp
    have hl : q.length < 8 := by
      have := congrArg List.length e
      simp [twoQubits] at this
      omega
    have hq : q = twoQubits.nodes.take q.length := by rw [e]; simp
    have hn' : twoQubits.nodes[q.length]? = some n := by rw [e]; simp
    have key : ∀ k < 8, ∀ n ∈ twoQubits.nodes, twoQubits.nodes[k]? = some n →
        ∀ p ∈ twoQubits.preds n, p ∈ twoQubits.nodes.take k := by decide
    rw [hq]
    exact key _ hl n hn hn' p hp
  · intro pick
    have h : ∀ l ∈ orders twoQubits 8 [], peak twoQubits l = 2 := by decide +kernel
    exact h _ (traverse_mem twoQubits pick 8 [])

/-- A classical operation that nothing needs, one that gives an angle, and a rotation by it. -/
def idle : Graph where
  nodes := [0, 1, 2]
  op := fun n => if n = 2 then .qsystem .Rz else .other
  preds := fun n => if n = 2 then [1] else []

/-- **C79, finding.** Quantum operations need not be as early as possible: the ranks leave it open that a
classical operation that it does not need is executed before the one that it needs. -/
theorem C79_quantum_not_early :
    ∃ pick, order idle pick = [0, 1, 2] ∧ ¬ Needs idle 2 0 := by
  refine ⟨fun _ _ => 0, by decide, ?_⟩
  intro h
  have : ∀ a, Needs idle 2 a → a = 1 := by
    intro a ha
    induction ha with
    | single hm => simpa [idle] using hm
    | tail _ hm ih =>
      subst ih
      simp [idle] at hm
  exact absurd (this 0 h) (by decide)

/-- Reads and what needs them: measurement, read, an operation on its result, an unrelated operation. -/
def reading : Graph where
  nodes := [0, 1, 2, 3]
  op := fun n => match n with
    | 0 => .qsystem .LazyMeasure
    | 1 => .future .read
    | _ => .other
  preds := fun n => match n with
    | 1 => [0]
    | 2 => [1]
    | _ => []

example : WF reading := ⟨by decide, by decide, ⟨id, by decide⟩⟩
example : order reading (fun _ _ => 0) = [0, 3, 1, 2] := by decide
example : After (order reading fun _ _ => 0) 1 2 [] := ⟨[0, 3], [], by decide⟩
example : edges (order reading fun _ _ => 0) = [(0, 3), (3, 1), (1, 2)] := by decide
example : After (order twoQubits fun _ _ => 0) 0 4 [] := ⟨[], [1, 2, 3, 5, 6, 7], by decide⟩
example : After (order twoQubits fun _ _ => 0) 1 3 [2] := ⟨[0, 4], [5, 6, 7], by decide⟩

end Tket.ForceOrder
