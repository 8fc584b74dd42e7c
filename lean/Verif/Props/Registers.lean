import Verif.Lemmas.Registers
import Mathlib.Data.List.Infix
import Mathlib.Data.Fintype.Card

/-!
# Register names and output permutations: C30, C31, C32
-/

namespace Verif.Registers

/-! ### C32: fresh names -/

/-- **C32** with overflow checks: if the generator does not panic, the names it hands out are
distinct and differ from all existing ones. -/
theorem C32_fresh_checked {register : String} {existing us : List Unit'} {n : Nat} {g g' : Gen}
    (hn : Gen.new true register existing = some g) (ht : Gen.take true n g = some (us, g')) :
    us.Nodup ∧ us.length = n ∧ (∀ u ∈ us, u.name = register) ∧ ∀ u ∈ us, u ∉ existing := by
  unfold Gen.new at hn
  split at hn
  · exact absurd hn (by simp)
  · rename_i hs
    obtain rfl := Option.some.inj hn
    obtain ⟨rfl, hb⟩ := take_checked ht (by simp)
    refine ⟨names_nodup _ _, by simp [names], ?_, ?_⟩
    · intro u hu
      obtain ⟨k, _, rfl⟩ := List.mem_map.1 hu
      rfl
    · refine names_fresh hb fun u hu hname => ?_
      obtain ⟨_, _, k, _, h2, _⟩ := (scan_spec hs).1 u hu hname
      exact absurd h2 (by simp)
  · rename_i i hs
    unfold incU16 at hn
    by_cases hlt : i + 1 < 65536
    · simp only [hlt, if_true, Option.some.injEq] at hn
      obtain rfl := hn
      obtain ⟨rfl, hb⟩ := take_checked ht hlt
      refine ⟨names_nodup _ _, by simp [names], ?_, ?_⟩
      · intro u hu
        obtain ⟨k, _, rfl⟩ := List.mem_map.1 hu
        rfl
      · refine names_fresh hb fun u hu hname => ?_
        obtain ⟨j, rest, k, h1, h2, h3⟩ := (scan_spec hs).1 u hu hname
        obtain rfl := Option.some.inj h2
        exact ⟨j, rest, h1, Nat.lt_succ_of_le h3⟩
    · simp [hlt] at hn

/-- **C32** in all builds, as long as the indices stay in the range of `u16`: `n` names can be
generated, and they are new and distinct. -/
theorem C32_fresh_partial {register : String} {existing : List Unit'} {n : Nat} (checks : Bool)
    (h : ∀ u ∈ existing, u.name = register →
      ∃ i rest, u.index = i :: rest ∧ 0 ≤ i ∧ i + n + 1 < 65536) (hn : n < 65536) :
    ∃ g us g', Gen.new checks register existing = some g ∧ Gen.take checks n g = some (us, g') ∧
      us.Nodup ∧ us.length = n ∧ (∀ u ∈ us, u.name = register) ∧ ∀ u ∈ us, u ∉ existing := by
  obtain ⟨m, hs, hm⟩ := scan_total (b := 65536 - n - 1) (us := existing) (last := none)
    (register := register) (fun u hu hname => by
      obtain ⟨i, rest, h1, h2, h3⟩ := h u hu hname
      refine ⟨i, rest, h1, ?_⟩
      have := asU16_small h2 (by omega)
      omega) (by simp)
  have key : ∃ g, Gen.new checks register existing = some g ∧ g.register = register ∧
      g.next + n < 65536 ∧ ∀ k, m = some k → k < g.next := by
    unfold Gen.new
    rw [hs]
    cases m with
    | none => exact ⟨⟨0, register⟩, rfl, rfl, by simp only; omega, by simp⟩
    | some i =>
      have := hm i rfl
      refine ⟨⟨i + 1, register⟩, ?_, rfl, by simp only; omega, ?_⟩
      · have hlt : i + 1 < 65536 := by omega
        simp [incU16, hlt]
      · rintro k hk
        obtain rfl := Option.some.inj hk
        exact Nat.lt_succ_self _
  obtain ⟨g, hg, hr, hb, hk⟩ := key
  obtain ⟨g', ht⟩ := take_total (checks := checks) hb
  refine ⟨g, names g n, g', hg, ht, names_nodup _ _, by simp [names], ?_, ?_⟩
  · intro u hu
    obtain ⟨k, _, rfl⟩ := List.mem_map.1 hu
    exact hr
  · refine names_fresh hb fun u hu hname => ?_
    obtain ⟨j, rest, k, h1, h2, h3⟩ := (scan_spec hs).1 u hu (hname.trans hr)
    exact ⟨j, rest, h1, Nat.lt_of_le_of_lt h3 (hk k h2)⟩

example : ∃ g us g', Gen.new false "q" [⟨"q", [3]⟩, ⟨"a", []⟩, ⟨"q", [7, 1]⟩] = some g ∧
    Gen.take false 2 g = some (us, g') ∧ us = [⟨"q", [8]⟩, ⟨"q", [9]⟩] := ⟨_, _, _, rfl, rfl, rfl⟩

/-- **C32 is false** in release builds: with a register `q[65535]` the counter wraps around and an
existing name is handed out. -/
theorem C32_wraps_around : ∃ existing g u g', Gen.new false "q" existing = some g ∧
    g.step false = some (u, g') ∧ u ∈ existing :=
  ⟨[⟨"q", [0]⟩, ⟨"q", [65535]⟩], ⟨0, "q"⟩, ⟨"q", [0]⟩, ⟨1, "q"⟩, rfl, rfl, by decide⟩

/-- A negative index also counts as `65535`. -/
theorem C32_negative_index : ∃ existing g u g', Gen.new false "q" existing = some g ∧
    g.step false = some (u, g') ∧ u ∈ existing :=
  ⟨[⟨"q", [0]⟩, ⟨"q", [-1]⟩], ⟨0, "q"⟩, ⟨"q", [0]⟩, ⟨1, "q"⟩, rfl, rfl, by decide⟩

/-- A register without indices makes the encoder panic. -/
theorem C32_empty_index_panics (checks : Bool) (rest : List Unit') :
    Gen.new checks "q" (⟨"q", []⟩ :: rest) = none := rfl

theorem length_filter_not_mem {l m : List String} (hl : l.Nodup) :
    l.length ≤ (l.filter fun x => !m.contains x).length + m.length := by
  have h1 : (l.filter fun x => m.contains x).length ≤ m.length := by
    have hsub : (l.filter fun x => m.contains x) ⊆ m := fun x hx => by
      have := (List.mem_filter.1 hx).2
      simpa using this
    exact (hl.filter _).subperm hsub |>.length_le
  have h2 := List.length_eq_length_filter_add (l := l) (fun x => m.contains x)
  omega

/-- **C32** for input parameters: every input gets a name of its own. -/
theorem C32_parameters {fmt : Nat → String} (hf : Function.Injective fmt) {names : List String}
    (hn : names.Nodup) (n : Nat) :
    (paramNames fmt names n).Nodup ∧ (paramNames fmt names n).length = n := by
  have hr : ((List.range (n + names.length)).map fmt).Nodup := List.nodup_range.map hf
  constructor
  · refine List.Nodup.sublist (List.take_sublist _ _) (List.nodup_append.2 ⟨hn, hr.filter _, ?_⟩)
    rintro a ha b hb rfl
    have := (List.mem_filter.1 hb).2
    simp [ha] at this
  · unfold paramNames
    rw [List.length_take, List.length_append]
    have := length_filter_not_mem (m := names) hr
    simp only [List.length_map, List.length_range] at this
    omega

/-! ### C31: the decoder and implicit permutations -/

variable {R : Type} [DecidableEq R]

/-- **C31** for complete permutations, as pytket writes them: the output of the decoded region at
the place of register `b` is the qubit which started in the register paired with `b`, and no qubit
is lost or duplicated. -/
theorem C31_complete_permutation {regs : List R} {perm : List (R × R)} (hn : regs.Nodup)
    (h1 : (perm.map Prod.fst).Perm regs) (h2 : (perm.map Prod.snd).Perm regs) :
    ∃ out, decodeQubits regs perm = some out ∧ out.Perm regs ∧
      ∀ (j : Nat) (a b : R), regs[j]? = some b → (a, b) ∈ perm → out[j]? = some a := by
  have hin : ∀ p ∈ perm, p.1 ∈ regs ∧ p.2 ∈ regs := fun p hp =>
    ⟨h1.mem_iff.1 (List.mem_map_of_mem hp), h2.mem_iff.1 (List.mem_map_of_mem hp)⟩
  obtain ⟨out, e1, e2, e3⟩ := decodeQubits_spec (k := regs.length) hn hin (h2.nodup_iff.2 hn)
    (fun j r hr => by
      have hj := (List.getElem?_eq_some_iff.1 hr).1
      exact ⟨fun _ => hj, fun _ => h2.mem_iff.2 (List.mem_of_getElem? hr)⟩) (Nat.le_refl _)
  refine ⟨out, e1, ?_, fun j a b hj hab => (e3 j b hj).1 a hab⟩
  refine (List.Subperm.perm_of_length_le ?_ (Nat.le_of_eq e2)).symm
  refine hn.subperm fun r hr => ?_
  obtain ⟨⟨a, b⟩, hp, hpe⟩ := List.mem_map.1 (h1.mem_iff.2 hr)
  obtain ⟨j, hj⟩ := List.mem_iff_getElem?.1 (hin _ hp).2
  have := (e3 j b hj).1 a hp
  simp only at hpe
  exact hpe ▸ List.mem_of_getElem? this

/-- **C31** for incomplete permutations: the same, and the other registers stay in place, provided
the permuted registers come first.  Without this it is false
(`C31_incomplete_permutation_wrong`). -/
theorem C31_prefix_permutation_partial {regs : List R} {perm : List (R × R)} {k : Nat}
    (hn : regs.Nodup) (h1 : ∀ p ∈ perm, p.1 ∈ regs ∧ p.2 ∈ regs) (h2 : (perm.map Prod.snd).Nodup)
    (hk : ∀ (j : Nat) r, regs[j]? = some r → (r ∈ perm.map Prod.snd ↔ j < k))
    (hkl : k ≤ regs.length) :
    ∃ out, decodeQubits regs perm = some out ∧ out.length = regs.length ∧
      ∀ (j : Nat) b, regs[j]? = some b →
        (∀ a, (a, b) ∈ perm → out[j]? = some a) ∧ (b ∉ perm.map Prod.snd → out[j]? = some b) :=
  decodeQubits_spec hn h1 h2 hk hkl

example : decodeQubits [0, 1, 2] [(2, 0), (0, 1), (1, 2)] = some [2, 0, 1] := by decide

example : ∃ out, decodeQubits [0, 1, 2] [(2, 0), (0, 1), (1, 2)] = some out ∧
    out.Perm [0, 1, 2] :=
  let ⟨out, h1, h2, _⟩ := C31_complete_permutation (by decide) (by decide) (by decide)
  ⟨out, h1, h2⟩

example : ∃ out, decodeQubits [0, 1, 2] [(1, 0), (0, 1)] = some out ∧ out[2]? = some 2 :=
  let ⟨out, h1, _, h3⟩ := C31_prefix_permutation_partial (regs := [0, 1, 2])
    (perm := [(1, 0), (0, 1)]) (k := 2) (by decide) (by decide) (by decide)
    (fun j r hr => by
      match j, hr with
      | 0, hr => obtain rfl := Option.some.inj hr; decide
      | 1, hr => obtain rfl := Option.some.inj hr; decide
      | 2, hr => obtain rfl := Option.some.inj hr; decide
      | j + 3, hr => simp at hr) (by decide)
  ⟨out, h1, (h3 2 2 rfl).2 (by decide)⟩

/-- **C31 is false** for a permutation that only lists the registers which move: one qubit is
returned twice. -/
theorem C31_incomplete_permutation_wrong : ∃ (regs : List Nat) (perm : List (Nat × Nat)) (out : _),
    regs.Nodup ∧ (perm.map Prod.fst).Nodup ∧ (perm.map Prod.fst).Perm (perm.map Prod.snd) ∧
      (∀ p ∈ perm, p.1 ∈ regs) ∧ decodeQubits regs perm = some out ∧ ¬ out.Nodup :=
  ⟨[0, 1, 2], [(1, 2), (2, 1)], [2, 1, 2], by decide, by decide, by decide, by decide, by decide,
    by decide⟩

/-- A permutation mentioning an unknown register makes the decoder panic. -/
theorem C31_unknown_register_panics {regs : List R} {a b : R} {perm : List (R × R)}
    (h : a ∉ trackAll [] regs ∨ b ∉ trackAll [] regs) :
    decodeQubits regs ((a, b) :: perm) = none := by
  have hnone : ∀ {x : R} {l : List R}, x ∉ l → indexOf x l = none := by
    intro x l hx
    cases hi : indexOf x l with
    | none => rfl
    | some i => exact absurd (List.mem_of_getElem? (indexOf_get hi)) hx
  unfold decodeQubits outputPermutation reorder
  rcases h with h | h
  · simp [hnone h]
  · cases indexOf a (trackAll [] regs) <;> simp [hnone h]

/-! ### C30: the order of the outputs -/

/-- The permutation written by the encoder is always the identity. -/
theorem C30_permutation_identity {outs all : List R} {p : List (R × R)}
    (h : finalPermutation outs all = some p) : ∀ x ∈ p, x.1 = x.2 := by
  intro x hx
  have hf := forall_of_mapM h
  obtain ⟨i, hi⟩ := List.mem_iff_getElem?.1 hx
  obtain ⟨hlt, hget⟩ := List.getElem?_eq_some_iff.1 hi
  have h1 := (List.forall₂_iff_get.1 hf).2 i (by rw [hf.length_eq]; exact hlt) hlt
  simp only [List.get_eq_getElem, hget] at h1
  split at h1
  · exact absurd h1 (by simp)
  · rename_i k hk
    rw [lastPos_get hk] at h1
    simp only [Option.some.injEq] at h1
    rw [← h1]

/-- **C30, qubits.** Encoding and decoding a region returns the registers in the order of the
register list, whatever the order of the outputs; so the round trip keeps the outputs exactly when
they are the first registers, in order. -/
theorem C30_round_trip_qubits_partial {outs all : List R} (hn : all.Nodup) (ho : outs.Nodup)
    (hs : ∀ r ∈ outs, r ∈ all) :
    roundTripQubits outs all = some (all.take outs.length) ∧
      (roundTripQubits outs all = some outs ↔ outs <+: all) := by
  have hk : ∀ r : R, r ∈ (extendOutputs outs all) ↔ r ∈ all := fun r => by
    rw [mem_extendOutputs]
    exact ⟨fun h => h.elim (hs r) id, Or.inr⟩
  have hperm : (extendOutputs outs all).Perm all :=
    (List.perm_ext_iff_of_nodup (extendOutputs_nodup ho) hn).2 hk
  have hmain : roundTripQubits outs all = some (all.take outs.length) := by
    unfold roundTripQubits
    rw [finalPermutation_eq hs]
    have hid : ∀ l : List R, (l.map fun r => (r, r)).map Prod.fst = l ∧
        (l.map fun r => (r, r)).map Prod.snd = l := fun l => by
      constructor <;> simp [Function.comp_def]
    obtain ⟨out, h1, h2, h3⟩ := C31_complete_permutation
      (perm := (extendOutputs outs all).map fun r => (r, r)) hn
      (by rw [(hid _).1]; exact hperm) (by rw [(hid _).2]; exact hperm)
    have : out = all := by
      refine List.ext_getElem? fun j => ?_
      cases hj : all[j]? with
      | none =>
        rw [List.getElem?_eq_none_iff] at hj ⊢
        rw [h2.length_eq]
        exact hj
      | some r =>
        exact h3 j r r hj (List.mem_map.2 ⟨r, (hk r).2 (List.mem_of_getElem? hj), rfl⟩)
    simp only [h1, this, Option.map_some]
  refine ⟨hmain, ?_⟩
  rw [hmain]
  constructor
  · intro h
    exact Option.some.inj h ▸ List.take_prefix _ _
  · intro h
    rw [← List.prefix_iff_eq_take.1 h]

/-- **C30, bits.** The same for bits, whose order is not stored at all. -/
theorem C30_round_trip_bits_partial {outs all : List R} (hn : all.Nodup) :
    roundTripBits outs all = all.take outs.length ∧ (roundTripBits outs all = outs ↔ outs <+: all) := by
  have ht : trackAll [] all = all := by
    simpa using trackAll_nodup (known := []) (by simpa using hn)
  have hmain : roundTripBits outs all = all.take outs.length := by
    unfold roundTripBits decodeBits
    rw [ht]
  refine ⟨hmain, ?_⟩
  rw [hmain]
  constructor
  · intro h
    exact h ▸ List.take_prefix _ _
  · intro h
    rw [← List.prefix_iff_eq_take.1 h]

example : roundTripQubits [0, 1] [0, 1, 2] = some [0, 1] := by
  rw [(C30_round_trip_qubits_partial (by decide) (by decide) (by decide)).2]
  decide

/-- A region which exchanges its two qubits by crossing the wires. -/
def swapCirc (s : Encoder.Srt) : Encoder.Circ (Fin 2) Nat :=
  { inputs := [0, 1], outputs := [1, 0], nbrs := fun _ => 1, declared := fun _ => 0
    paramVar := id, cnt := fun _ => ⟨fun s' => if s' = s then 1 else 0, 0⟩, items := [] }

/-- The registers of the output wires, in order. -/
def outputRegs (c : Encoder.Circ (Fin 2) Nat) (s : Encoder.Srt) : Option (List Nat × Nat) :=
  match Encoder.encode c id with
  | .ok e => some (c.outputs.flatMap fun w =>
      ((e.tr.wires w).map fun tr => tr.vals.reg s).getD [], (e.tr.pool s).size)
  | .error _ => none

/-- **C30 is false**: a region that crosses two qubits is encoded like the identity, and comes back
from a round trip with its outputs exchanged. -/
theorem C30_swap_lost : ∃ outs size, outputRegs (swapCirc .qubit) .qubit = some (outs, size) ∧
    finalPermutation outs (List.range size) = some [(1, 1), (0, 0)] ∧
    ∃ back, roundTripQubits outs (List.range size) = some back ∧ back ≠ outs :=
  ⟨[1, 0], 2, by decide, by decide, [0, 1], by decide, by decide⟩

/-- **C30 is false** for bits, too. -/
theorem C30_bit_swap_lost : ∃ outs size, outputRegs (swapCirc .bit) .bit = some (outs, size) ∧
    roundTripBits outs (List.range size) ≠ outs :=
  ⟨[1, 0], 2, by decide, by decide⟩

end Verif.Registers
