import Verif.Lemmas.Units
import Verif.Props.Commands
import Mathlib.Data.List.Induction

/-!
# C83: units of circuits and commands
-/

namespace Tket.Units

open Classical in
/-- C83: the iterator yields the ports in order, with the unit given by the labeller for each linear port and a
wire for each other port that has one; it panics exactly if the labeller panics for a linear port, and never
by itself. -/
theorem C83_yields (L : Labeller) (lin : Nat → Nat → Nat) (types : List Ty)
    (hl : ∀ i c u, L.linear i c = some u → u = lin i c) :
    collect L (Iter.new types) =
      if ∀ i t, types[i]? = some t → t.linear = true → (L.linear i (linearBefore types i)).isSome
      then some (expected lin L.wire types) else none := by
  obtain ⟨h1, h2⟩ := take_items (L := L) (lin := lin) types (types.length + 1) 0 0 (by omega) hl
  rw [labelled_iff] at h1 h2
  simp only [collect, Iter.new]
  split
  · rename_i h; rw [h1 h, items_expected]
  · rename_i h; exact h2 h

/-- C83: the units of a circuit. -/
theorem C83_circuit_units (node : Nat) (inputs : List Ty) :
    circuitUnits node inputs = some (expected (fun _ c => c) (fun p => some (node, p)) inputs) := by
  rw [circuitUnits, C83_yields _ (fun _ c => c) _ (by intro i c u h; cases h; rfl), if_pos (by intros; rfl)]
  rfl

/-- C83: with the default units, the inputs of a node are its linear ports, numbered in order. -/
theorem C83_default_inputs (types : List Ty) :
    collect defaultIn (Iter.new types) = some (expected (fun _ c => c) (fun _ => none) types) := by
  rw [C83_yields _ (fun _ c => c) _ (by intro i c u h; cases h; rfl), if_pos (by intros; rfl)]
  rfl

/-- C83: each input of the circuit occurs exactly once, in order, with its type. -/
theorem C83_circuit_ports (node : Nat) (inputs : List Ty) :
    ∃ l, circuitUnits node inputs = some l ∧ l.map (·.port) = List.range inputs.length ∧
      l.map (·.ty) = inputs := by
  refine ⟨_, C83_circuit_units node inputs, ?_, ?_⟩
  · rw [expected, List.map_filterMap]
    rw [List.filterMap_congr (g := some)]
    · simp
    · intro i hi
      have hi : i < inputs.length := by simpa using hi
      rw [List.getElem?_eq_getElem hi]
      by_cases h : (inputs[i]).linear = true <;> simp [h]
  · rw [expected, List.map_filterMap]
    rw [List.filterMap_congr (g := fun i => inputs[i]?)]
    · apply List.ext_getElem?
      intro i
      induction inputs using List.reverseRecOn generalizing i with
      | nil => simp
      | append_singleton l t ih =>
        rw [List.length_append, List.length_singleton, List.range_succ, List.filterMap_append]
        have e : (List.range l.length).filterMap (fun i => (l ++ [t])[i]?) = (List.range l.length).filterMap (fun i => l[i]?) :=
          List.filterMap_congr fun j hj => by
            have : j < l.length := by simpa using hj
            rw [List.getElem?_append_left this]
        rw [e, List.ext_getElem? ih]
        simp
    · intro i hi
      have hi : i < inputs.length := by simpa using hi
      rw [List.getElem?_eq_getElem hi]
      by_cases h : (inputs[i]).linear = true <;> simp [h]

/-- C83: the linear units of a circuit are numbered from zero without gaps. -/
theorem C83_linear_numbered (node : Nat) (inputs : List Ty) :
    ∃ l, linearUnits node inputs = some l ∧ l.map (·.1) = List.range (inputs.countP (·.linear)) := by
  refine ⟨_, by rw [linearUnits, C83_circuit_units]; rfl, ?_⟩
  rw [← items_expected]
  have : ∀ (rest : List Ty) (pos count : Nat),
      ((items (fun _ c => c) (fun p => some (node, p)) rest pos count).filterMap filterLinear).map (·.1) =
        List.range' count (rest.countP (·.linear)) := by
    intro rest
    induction rest with
    | nil => intro pos count; rfl
    | cons t rest ih =>
      intro pos count
      simp only [items]
      by_cases h : t.linear = true
      · simp only [h, if_true, List.filterMap_cons, filterLinear, List.map_cons, ih, List.countP_cons,
          List.range'_succ]
      · simp only [h, if_false, Bool.false_eq_true, List.filterMap_cons, filterLinear, ih, List.countP_cons,
          Nat.add_zero]
  rw [this, List.range_eq_range']

/-- C83: every unit is either linear or not; qubits are linear units. -/
theorem C83_filters (node : Nat) (inputs : List Ty) :
    ∃ a b, linearUnits node inputs = some a ∧ nonlinearUnits node inputs = some b ∧
      a.length + b.length = inputs.length ∧ (∀ x ∈ a, x.2.2.linear = true) ∧ (∀ x ∈ b, x.2.2.linear = false) ∧
      ∃ q, qubits node inputs = some q ∧ q = a.filter (fun x => x.2.2.qubit) := by
  refine ⟨_, _, by rw [linearUnits, C83_circuit_units]; rfl, by rw [nonlinearUnits, C83_circuit_units]; rfl, ?_, ?_,
    ?_, _, by rw [qubits, C83_circuit_units]; rfl, ?_⟩
  all_goals rw [← items_expected]
  · have : ∀ (rest : List Ty) (pos count : Nat),
        ((items (fun _ c => c) (fun p => some (node, p)) rest pos count).filterMap filterLinear).length +
          ((items (fun _ c => c) (fun p => some (node, p)) rest pos count).filterMap filterNonLinear).length =
            rest.length := by
      intro rest
      induction rest with
      | nil => intro pos count; rfl
      | cons t rest ih =>
        intro pos count
        simp only [items]
        by_cases h : t.linear = true
        · have := ih (pos + 1) (count + 1)
          simp only [h, if_true, List.filterMap_cons, filterLinear, filterNonLinear, List.length_cons]
          omega
        · have := ih (pos + 1) count
          simp only [h, if_false, Bool.false_eq_true, List.filterMap_cons, filterLinear, filterNonLinear,
            List.length_cons]
          omega
    rw [this]
  · have : ∀ (rest : List Ty) (pos count : Nat),
        ∀ x ∈ (items (fun _ c => c) (fun p => some (node, p)) rest pos count).filterMap filterLinear,
          x.2.2.linear = true := by
      intro rest
      induction rest with
      | nil => intro pos count; simp [items]
      | cons t rest ih =>
        intro pos count
        simp only [items]
        by_cases h : t.linear = true
        · simp only [h, if_true, List.filterMap_cons, filterLinear, List.forall_mem_cons, true_and]
          exact ih _ _
        · simp only [h, if_false, Bool.false_eq_true, List.filterMap_cons, filterLinear]
          exact ih _ _
    exact this _ _ _
  · have : ∀ (rest : List Ty) (pos count : Nat),
        ∀ x ∈ (items (fun _ c => c) (fun p => some (node, p)) rest pos count).filterMap filterNonLinear,
          x.2.2.linear = false := by
      intro rest
      induction rest with
      | nil => intro pos count; simp [items]
      | cons t rest ih =>
        intro pos count
        simp only [items]
        by_cases h : t.linear = true
        · simp only [h, if_true, List.filterMap_cons, filterNonLinear]
          exact ih _ _
        · simp only [h, if_false, Bool.false_eq_true, List.filterMap_cons, filterNonLinear, List.forall_mem_cons]
          exact ⟨by simp, ih _ _⟩
    exact this _ _ _
  · generalize items (fun _ c => c) (fun p => some (node, p)) inputs 0 0 = l
    induction l with
    | nil => rfl
    | cons x l ih =>
      obtain ⟨u, p, t⟩ := x
      cases u with
      | wire => exact ih
      | linear u =>
        by_cases h : t.qubit = true
        · simp [filterLinear, filterQubit, h]
          simpa [filterLinear, filterQubit] using ih
        · simp [filterLinear, filterQubit, h]
          simpa [filterLinear, filterQubit] using ih

/-- C83: the number of qubits is the number of qubits in the signature, since qubits are linear. -/
theorem C83_qubit_count (node : Nat) (inputs : List Ty) (hq : ∀ t ∈ inputs, t.qubit = true → t.linear = true) :
    qubitCount node inputs = some (inputs.countP (·.qubit)) := by
  rw [qubitCount, qubits, C83_circuit_units, ← items_expected]
  simp only [Option.map_some, Option.some.injEq]
  have : ∀ (rest : List Ty) (pos count : Nat), (∀ t ∈ rest, t.qubit = true → t.linear = true) →
      ((items (fun _ c => c) (fun p => some (node, p)) rest pos count).filterMap filterQubit).length =
        rest.countP (·.qubit) := by
    intro rest
    induction rest with
    | nil => intros; rfl
    | cons t rest ih =>
      intro pos count hq
      rw [List.forall_mem_cons] at hq
      simp only [items]
      by_cases h : t.linear = true
      · simp only [h, if_true, List.filterMap_cons, filterQubit, List.countP_cons]
        split <;> simp_all
      · have : t.qubit = false := by
          cases hh : t.qubit with
          | false => rfl
          | true => exact absurd (hq.1 hh) h
        simp only [h, if_false, Bool.false_eq_true, List.filterMap_cons, filterQubit, List.countP_cons, this,
          ih _ _ hq.2, Nat.add_zero]
  exact this _ _ _ hq

/-! ## Commands -/

/-- C83: the units of a command, if it has a unit for each linear port and the linear ports come first. -/
theorem C83_command_partial (units : List Nat) (wire : Nat → Option (Nat × Nat)) (types : List Ty)
    (hn : units.length = types.countP (·.linear)) (hf : LinearFirst types) :
    collect (commandIn units wire) (Iter.new types) = some (expected (fun _ c => units.getD c 0) wire types) := by
  rw [C83_yields (commandIn units wire) (fun i _ => units.getD i 0)]
  · rw [if_pos]
    · rw [Option.some.injEq]
      unfold expected
      refine List.filterMap_congr fun i _ => ?_
      cases ht : types[i]? with
      | none => rfl
      | some t =>
        simp only [Option.bind_some]
        by_cases h : t.linear = true
        · rw [if_pos h, if_pos h, hf i t ht h]
        · rw [if_neg h, if_neg h]; rfl
    · intro i t ht hl
      have h1 := hf i t ht hl
      have h2 := linearBefore_lt ht hl
      simp only [commandIn]
      rw [List.getElem?_eq_getElem (by omega)]
      rfl
  · intro i c u h
    simp only [commandIn] at h
    simp [List.getD_eq_getElem?_getD, h]

/-- C83: the inputs and outputs of a command that is connected to known wires, if linear ports come first: the
`c`-th linear input has the unit of the `c`-th wire, and the `c`-th linear output has the unit that the rest
of the circuit sees. -/
theorem C83_command_wires_partial (m : Commands.Units) (n : Commands.LNode) (ws : List Commands.Wire)
    (hws : n.ins = ws.map some) (h1 : ws.Nodup) (h2 : ∀ w ∈ ws, w ∈ Commands.keys m) (h3 : n.outs.Nodup)
    (h4 : ∀ o ∈ n.outs, o ∉ ws) (ins outs : List Ty) (linked : Nat → Option (Nat × Nat)) (node : Nat)
    (hi : ws.length = ins.countP (·.linear)) (ho : n.outs.length = outs.countP (·.linear))
    (hfi : LinearFirst ins) (hfo : LinearFirst outs) :
    ∃ u v : List Nat, u.map some = ws.map (Commands.unitOf m) ∧
      v.map some = n.outs.map (Commands.unitOf (Commands.process n.ins n.outs m).1) ∧
      commandInputs m n ins linked = some (expected (fun _ c => u.getD c 0) linked ins) ∧
      commandOutputs m n outs node = some (expected (fun _ c => v.getD c 0) (fun p => some (node, p)) outs) := by
  obtain ⟨a, b, _, _⟩ := Commands.C22_units_follow_wires m n ws hws h1 h2 h3 h4
  have la := congrArg List.length a
  have lb := congrArg List.length b
  simp only [List.length_map] at la lb
  exact ⟨_, _, a, b, C83_command_partial _ _ _ (by omega) hfi, C83_command_partial _ _ _ (by omega) hfo⟩

/-- C83 fails of the code: the inputs of a command cannot be listed if a value that is not linear comes before
a linear one, whatever the circuit. -/
theorem C83_inputs_panic (m : List (Commands.Wire × Nat)) (n : Commands.LNode) (types : List Ty)
    (linked : Nat → Option (Nat × Nat)) (hn : n.ins.length = types.countP (·.linear)) (hf : ¬ LinearFirst types) :
    commandInputs m n types linked = none := by
  rw [commandInputs, C83_yields _ (fun i _ => (Commands.process n.ins n.outs m).2.1.getD i 0), if_neg]
  · intro h
    obtain ⟨i, t, h1, h2, h3⟩ := exists_late hf
    have := h i t h1 h2
    have hl := (process_length n.ins n.outs m).1
    simp only [commandIn] at this
    rw [List.getElem?_eq_none (by omega)] at this
    cases this
  · intro i c u h
    simp only [commandIn] at h
    simp [List.getD_eq_getElem?_getD, h]

/-- C83 fails of the code: nor can the outputs. -/
theorem C83_outputs_panic (m : List (Commands.Wire × Nat)) (n : Commands.LNode) (types : List Ty) (node : Nat)
    (hn : n.outs.length = types.countP (·.linear)) (hf : ¬ LinearFirst types) :
    commandOutputs m n types node = none := by
  rw [commandOutputs, C83_yields _ (fun i _ => (Commands.process n.ins n.outs m).2.2.getD i 0), if_neg]
  · intro h
    obtain ⟨i, t, h1, h2, h3⟩ := exists_late hf
    have := h i t h1 h2
    have hl := (process_length n.ins n.outs m).2
    simp only [commandOut] at this
    rw [List.getElem?_eq_none (by omega)] at this
    cases this
  · intro i c u h
    simp only [commandOut] at h
    simp [List.getD_eq_getElem?_getD, h]

/-! ## Size hints -/

theorem next_shorter {L : Labeller} : ∀ {rest : List Ty} {pos count : Nat} {v : Item} {s : Iter},
    next L rest pos count = some (some (v, s)) →
      s.rest.length < rest.length ∧ ((∀ p, (L.wire p).isSome) → s.rest.length + 1 = rest.length)
  | [], _, _, _, _, h => by simp [next] at h
  | t :: rest, pos, count, v, s, h => by
    simp only [next] at h
    split at h
    · cases h
    · cases h; simp
    · rename_i hm
      obtain ⟨h1, h2⟩ := next_shorter h
      refine ⟨by simp only [List.length_cons]; omega, fun hw => ?_⟩
      exfalso
      simp only [makeValue] at hm
      split at hm
      · split at hm
        · cases hm
        · split at hm <;> cases hm
      · split at hm
        · rename_i hw'
          have := hw pos
          rw [hw'] at this
          cases this
        · cases hm

theorem take_length {L : Labeller} : ∀ (k : Nat) (s : Iter) (l : List Item), s.rest.length < k → take L k s = some l →
    l.length ≤ s.rest.length ∧ ((∀ p, (L.wire p).isSome) → l.length = s.rest.length)
  | 0, s, l, hk, _ => by omega
  | k + 1, s, l, hk, h => by
    rw [take] at h
    split at h
    · cases h
    · rename_i hn
      cases h
      refine ⟨by simp, fun hw => ?_⟩
      obtain ⟨rest, pos, count⟩ := s
      cases rest with
      | nil => rfl
      | cons t rest =>
        exfalso
        simp only [next, makeValue] at hn
        split at hn
        · cases hn
        · cases hn
        · rename_i hm
          split at hm
          · split at hm
            · cases hm
            · split at hm <;> cases hm
          · split at hm
            · rename_i hw'
              have := hw pos
              rw [hw'] at this
              cases this
            · cases hm
    · rename_i v s' hn
      obtain ⟨h1, h2⟩ := next_shorter hn
      cases hh : take L k s' with
      | none => rw [hh] at h; cases h
      | some l' =>
        rw [hh] at h
        cases h
        obtain ⟨h3, h4⟩ := take_length k s' l' (by omega) hh
        refine ⟨by simp only [List.length_cons]; omega, fun hw => ?_⟩
        have := h2 hw
        have := h4 hw
        simp only [List.length_cons]
        omega

/-- C83: the size hints hold in every state of the iterator; for outputs of circuits and commands they are
exact. -/
theorem C83_size_hints (L : Labeller) (s : Iter) (l : List Item) (h : collect L s = some l) :
    (sizeHintIn s).1 ≤ l.length ∧ l.length ≤ (sizeHintIn s).2 ∧
      ((∀ p, (L.wire p).isSome) → (sizeHintOut s).1 = l.length ∧ l.length = (sizeHintOut s).2) := by
  obtain ⟨h1, h2⟩ := take_length _ s l (Nat.lt_succ_self _) h
  exact ⟨Nat.zero_le _, h1, fun hw => ⟨(h2 hw).symm, h2 hw⟩⟩

/-- C83: after its end the iterator stays at its end. -/
theorem C83_fused (L : Labeller) (rest : List Ty) (pos count : Nat) (h : next L rest pos count = some none) :
    collect L ⟨rest, pos, count⟩ = some [] := by
  rw [collect, take, h]

/-! ## Examples -/

/-- A qubit, a classical type. -/
def qb : Ty := ⟨true, true, 0⟩
def bit : Ty := ⟨false, false, 1⟩

/-- C83 fails of the code: a conditional that takes its case and a qubit. -/
theorem C83_conditional_wrong : commandInputs (Commands.initial [(0, 0)]) ⟨[some (0, 0)], [(5, 0)]⟩ [bit, qb]
    (fun p => some (0, p)) = none ∧ (commandOutputs (Commands.initial [(0, 0)]) ⟨[some (0, 0)], [(5, 0)]⟩ [qb] 5).isSome :=
  ⟨rfl, rfl⟩

example : circuitUnits 3 [qb, bit, qb] = some [⟨.linear 0, 0, qb⟩, ⟨.wire 3 1, 1, bit⟩, ⟨.linear 1, 2, qb⟩] := rfl

example : qubitCount 3 [qb, bit, qb] = some 2 := rfl

example : ∃ u v : List Nat, u.map some = [some 0, some 1] ∧ v.map some = [some 0, some 1] ∧
    commandInputs (Commands.initial [(0, 0), (0, 1)]) ⟨[some (0, 0), some (0, 1)], [(3, 0), (3, 1)]⟩ [qb, qb, bit]
      (fun p => some (0, p)) = some (expected (fun _ c => u.getD c 0) (fun p => some (0, p)) [qb, qb, bit]) ∧
    commandOutputs (Commands.initial [(0, 0), (0, 1)]) ⟨[some (0, 0), some (0, 1)], [(3, 0), (3, 1)]⟩ [qb, qb] 3 =
      some (expected (fun _ c => v.getD c 0) (fun p => some (3, p)) [qb, qb]) := by
  refine C83_command_wires_partial (Commands.initial [(0, 0), (0, 1)]) ⟨[some (0, 0), some (0, 1)], [(3, 0), (3, 1)]⟩
    [(0, 0), (0, 1)] rfl (by decide) (by decide) (by decide) (by decide) _ _ _ _ rfl rfl ?_ ?_
  · intro i t h ht
    match i with
    | 0 => rfl
    | 1 => rfl
    | 2 => cases h; cases ht
    | i + 3 => simp at h
  · intro i t h ht
    match i with
    | 0 => rfl
    | 1 => rfl
    | i + 2 => simp at h

example : LinearFirst [qb, qb, bit] := by
  intro i t h ht
  match i with
  | 0 => rfl
  | 1 => rfl
  | 2 => cases h; cases ht
  | i + 3 => simp at h

example : ¬ LinearFirst [bit, qb] := fun h => by have := h 1 qb rfl rfl; revert this; decide

example : collect (commandIn [4, 7] fun p => some (9, p)) (Iter.new [qb, qb, bit]) =
    some [⟨.linear 4, 0, qb⟩, ⟨.linear 7, 1, qb⟩, ⟨.wire 9 2, 2, bit⟩] := rfl

example : collect defaultIn (Iter.new [bit, qb, bit]) = some [⟨.linear 0, 1, qb⟩] := rfl

end Tket.Units
