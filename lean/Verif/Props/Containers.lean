import Verif.Lemmas.ContainersRun

/-
C60: lowering a barrier puts one runtime barrier on every visible qubit and gives the containers
back unchanged.
-/
namespace Verif.Containers

/-- Which barriers can be lowered: exactly those whose operand types are good. -/
theorem C60_accepts_iff (types : List Ty) :
    (∃ i, insertBarrier types = .ok i) ↔ ∀ t ∈ types, Good t := by
  rw [insertBarrier]
  simp only [filterPorts_types, filterPorts_eq_nil]
  rw [← goodAll_filter]
  cases hh : holdsAny types with
  | false =>
    have hnil : types.filter holds = [] := by
      have h1 := filterPorts_types types 0
      have h2 := filterPorts_eq_nil (types := types) (i := 0)
      rw [hh] at h2
      rw [← h1, List.isEmpty_iff.1 h2]; rfl
    rw [hnil]
    simp [GoodAll]
  | true =>
    simp only [Bool.not_true, Bool.false_eq_true, if_false]
    cases hs : shortcut (filterPorts 0 types) with
    | some i =>
      obtain ⟨n, hn⟩ := shortcut_some hs
      have h1 := filterPorts_types types 0
      rw [hn] at h1
      rw [← h1]
      simp [GoodAll, Good, leaves]
    | none =>
      simp only
      constructor
      · rintro ⟨i, h⟩
        obtain ⟨_, h1, _⟩ := bind_ok.1 h
        exact (bPacking_iff (filter_ne types)).1 h1
      · intro h
        rw [(bPacking_iff (filter_ne types)).2 h, bUnpackRow_good h]
        exact ⟨_, rfl⟩

/-- A lowered barrier at run time, on well-typed operands with no empty slot in arrays of options:
one runtime barrier acts on all visible qubits, in order, each exactly once, and every operand
comes out with these qubits in their old places and everything else untouched. -/
theorem C60_barrier_partial {types : List Ty} {vs : List Val} {i : Inserted}
    (hi : insertBarrier types = .ok i) (hv : HasTyRow types vs) (hf : FullOps types vs)
    (f : Nat → Nat) :
    runInserted f vs i
      = .ok (if holdsAny types then [(exposedAll false vs).map .qb] else [],
          markAll f false vs) := by
  have hg := goodAll_filter.2 ((C60_accepts_iff types).1 ⟨i, hi⟩)
  have hp := ports_spec f (types := types) [] hv
  simp only [List.nil_append, List.length_nil] at hp
  rw [insertBarrier] at hi
  simp only [filterPorts_types, filterPorts_eq_nil] at hi
  cases hh : holdsAny types with
  | false =>
    rw [hh] at hi
    simp only [Bool.not_false, if_true, Except.ok.injEq] at hi
    rw [← hi, runInserted, (hiddenAll hh hv).2 f]; rfl
  | true =>
    rw [hh] at hi
    simp only [Bool.not_true, Bool.false_eq_true, if_false] at hi
    cases hs : shortcut (filterPorts 0 types) with
    | some j =>
      rw [hs] at hi
      simp only [Except.ok.injEq] at hi
      obtain ⟨n, hn⟩ := shortcut_some hs
      have ht := operands_typed hv
      rw [← filterPorts_types types 0, hn] at ht
      have he := operands_exposed hv
      obtain ⟨v, vs', ho, h1, h2⟩ := ht
      rw [show vs' = [] from h2] at ho
      rw [ho, hn] at hp
      rw [HasTy] at h1
      obtain ⟨ws, rfl, _, hws⟩ := h1
      have hq := qubits_row hws
      have hget : vs[j]? = some (.arr ws) := by
        have := hp.1
        simp only [List.map_cons, List.map_nil] at this
        cases hj : vs[j]? with
        | none => rw [List.filterMap_cons_none hj] at this; cases this
        | some w =>
          rw [List.filterMap_cons_some hj] at this
          exact congrArg some (List.cons.inj this).1
      have hset := hp.2
      simp only [List.map_cons, List.map_nil, markAll, setPorts, mark, hq.2 f] at hset
      rw [ho] at he
      simp only [exposedAll, exposed, List.append_nil] at he
      rw [← hi, runInserted, hget]
      simp only [directOut, Except.bind, hset, ← he, hq.1, if_true]
    | none =>
      rw [hs] at hi
      simp only at hi
      rw [(bPacking_iff (filter_ne types)).2 hg, bUnpackRow_good hg] at hi
      simp only [Except.bind, Except.ok.injEq] at hi
      obtain ⟨ws, hw, sr⟩ := splitRow hg (operands_typed hv) ((operands_full hv).2 hf)
      rw [← hi, runInserted, hp.1, rPacking, hw]
      simp only [Except.bind, replaceQubits_eq, sr.back f, hp.2, if_true]
      rw [sr.qubits, operands_exposed hv]

/-- An array of options with an empty slot stops the program with the documented panic. -/
theorem C60_none_panics {types : List Ty} {vs : List Val} {i : Inserted}
    (hi : insertBarrier types = .ok i) (hv : HasTyRow types vs) (hf : ¬ FullOps types vs)
    (f : Nat → Nat) : runInserted f vs i = .error .isNone := by
  have hg := goodAll_filter.2 ((C60_accepts_iff types).1 ⟨i, hi⟩)
  have hp := ports_spec f (types := types) [] hv
  simp only [List.nil_append, List.length_nil] at hp
  have hne := (not_congr (operands_full hv)).2 hf
  rw [insertBarrier] at hi
  simp only [filterPorts_types, filterPorts_eq_nil] at hi
  cases hh : holdsAny types with
  | false =>
    have h2 := filterPorts_eq_nil (types := types) (i := 0)
    rw [hh] at h2
    have h1 := filterPorts_types types 0
    rw [List.isEmpty_iff.1 h2] at h1
    rw [← h1] at hne
    exact absurd trivial hne
  | true =>
    rw [hh] at hi
    simp only [Bool.not_true, Bool.false_eq_true, if_false] at hi
    cases hs : shortcut (filterPorts 0 types) with
    | some j =>
      obtain ⟨n, hn⟩ := shortcut_some hs
      rw [← filterPorts_types types 0, hn] at hne
      refine absurd ?_ hne
      simp [FullRow, Full]
    | none =>
      rw [hs] at hi
      simp only at hi
      rw [(bPacking_iff (filter_ne types)).2 hg, bUnpackRow_good hg] at hi
      simp only [Except.bind, Except.ok.injEq] at hi
      rw [← hi, runInserted, hp.1, rPacking, noneRow_error hg (operands_typed hv) hne]
      rfl

/-- The public pair `unpack_row`, `repack_row` on any row of good types without bare options of
qubits: the wires have the announced types, and repacking gives the values back. -/
theorem C60_roundtrip_partial {row : List Ty} {vs : List Val} (hg : GoodAll row)
    (hv : HasTyRow row vs) (hf : FullRow row vs) :
    ∃ ws, rUnpackRow .qubit row vs = .ok ws ∧
      bUnpackRow .qubit row = .ok (tupleRow .qubit row).2 ∧
      HasTyRow (tupleRow .qubit row).2 ws ∧
      bRepackRow .qubit row (tupleRow .qubit row).2 = .ok row ∧
      rRepackRow .qubit row ws = .ok vs := by
  obtain ⟨ws, h, sr⟩ := splitRow hg hv hf
  have ht : (tupleRow .qubit row).2 = (row.map wires).flatten := by
    rw [tupleRow_eq, goodAll_wires hg]
  rw [ht]
  refine ⟨ws, h, bUnpackRow_good hg, typed_row hg hv hf h, bRepackRow_good hg, ?_⟩
  have := sr.back id
  rwa [touched_id sr.len, markAll_id] at this

/-- Finding: a tuple with a qubit and a bare option of a qubit cannot be lowered.  The analysis
keeps the option as it is, the builder unwraps it. -/
theorem C60_option_in_tuple :
    insertBarrier [.tuple [.opt .qubit, .qubit]] = .error .clash := rfl

/-- Finding: an array of empty arrays of qubits makes the builder panic (`chunks(0)`). -/
theorem C60_empty_arrays_panic (n : Nat) (k k' : Kind) :
    insertBarrier [.arr k n (.arr k' 0 .qubit)] = .error .panic := by
  have h1 : filterPorts 0 [.arr k n (.arr k' 0 .qubit)] = [(0, .arr k n (.arr k' 0 .qubit))] := by
    simp [filterPorts, contains, holds_iff, holds]
  have h2 : shortcut [(0, Ty.arr k n (.arr k' 0 .qubit))] = none := by
    cases k <;> rfl
  have h3 : bUnpackRow .qubit [.arr k n (.arr k' 0 .qubit)] = .ok [] := by
    by_cases hn : n = 0
    · simp [bUnpackRow, bUnpack, unpackType_arr, hn, holds, check, Except.bind]
    · simp [bUnpackRow, bUnpack, unpackType_arr, hn, holds, check, Except.bind, wires]
  have h4 : bRepackRow .qubit [.arr k n (.arr k' 0 .qubit)] [] = .error .panic := by
    simp [bRepackRow, bRepack, unpackType_arr, holds, leaves_eq, leaves, Except.bind]
  rw [insertBarrier]
  simp only [h1, h2, List.map_cons, List.map_nil, bPacking, h3, h4, Except.bind]
  rfl

/-- Finding: with another element type, arrays of options of that type cannot be put together,
although the analysis counts them as containers: the builder looks for options of qubits. -/
theorem C60_other_element (m n : Nat) (k : Kind) (hn : n ≠ 0) :
    contains (.atom m) (.arr k n (.opt (.atom m))) = true ∧
    bUnpack (.atom m) (.arr k n (.opt (.atom m))) = .error .clash := by
  have hu : unpackType (.atom m) (.arr k n (.opt (.atom m)))
      = some (List.replicate n (.atom m)) := by simp [unpackType, isOptOf]
  refine ⟨by simp [contains, hu], ?_⟩
  rw [bUnpack, if_neg (by simp), hu]
  simp only [if_neg hn]
  rw [show bUnpack (.atom m) (.opt (.atom m)) = .ok [.opt (.atom m)] by simp [bUnpack]]
  simp only [Except.bind, flatten_replicate_singleton]
  rw [check, if_neg]
  obtain ⟨j, rfl⟩ := Nat.exists_eq_succ_of_ne_zero hn
  simp [List.replicate_succ]

/-- Finding: the public `unpack_row` unwraps a bare option of a qubit, which the analysis says is
left alone, so an empty option stops the program. -/
theorem C60_bare_option :
    contains .qubit (.opt .qubit) = false ∧
    bUnpackRow .qubit [.opt .qubit] = .ok [.qubit] ∧
    rUnpackRow .qubit [.opt .qubit] [.none] = .error .isNone := ⟨rfl, rfl, rfl⟩

/-! ### The hypotheses are met -/

/-- Operands with nested containers: a qubit, a `bool`, a bare option of a qubit, an array of
options, and an array of tuples. -/
def exTypes : List Ty :=
  [.qubit, .atom 0, .opt .qubit, .arr .value 2 (.opt .qubit),
    .arr .borrow 2 (.tuple [.atom 0, .qubit])]

/-- Values of these types. -/
def exVals : List Val :=
  [.qb 3, .«opaque» 0 1, .none, .arr [.some (.qb 0), .some (.qb 7)],
    .arr [.tuple [.«opaque» 0 0, .qb 1], .tuple [.«opaque» 0 1, .qb 2]]]

example : ∀ t ∈ exTypes, Good t := by
  intro t ht
  simp only [exTypes, List.mem_cons, List.not_mem_nil, or_false] at ht
  rcases ht with rfl | rfl | rfl | rfl | rfl <;> simp [Good, GoodAll, leaves, leavesAll, holdsAny, holds]

example : HasTyRow exTypes exVals := by
  simp [exTypes, exVals, hasTyRow_cons, hasTyRow_nil, HasTy]

example : FullOps exTypes exVals := by
  simp [FullOps, exTypes, exVals, Full, FullRow, holds]

example : ∃ i, insertBarrier exTypes = .ok i ∧
    runInserted (· + 100) exVals i = .ok
      ([[.qb 3, .qb 0, .qb 7, .qb 1, .qb 2]],
        [.qb 103, .«opaque» 0 1, .none, .arr [.some (.qb 100), .some (.qb 107)],
          .arr [.tuple [.«opaque» 0 0, .qb 101], .tuple [.«opaque» 0 1, .qb 102]]]) :=
  ⟨.packing [0, 3, 4] [.qubit, .arr .value 2 (.opt .qubit),
      .arr .borrow 2 (.tuple [.atom 0, .qubit])]
    [.qubit, .qubit, .qubit, .atom 0, .qubit, .atom 0, .qubit], rfl, rfl⟩

/-- The short cut. -/
example : insertBarrier [.atom 0, .arr .array 3 .qubit] = .ok (.direct 1) := rfl

/-- No qubits. -/
example : insertBarrier [.arr .array 2 (.atom 0)] = .ok .nothing := rfl

/-- An empty slot. -/
example : ¬ FullOps [.arr .array 1 (.opt .qubit)] [.arr [.none]] := by
  simp [FullOps, Full, holds]

end Verif.Containers
