import Verif.Lemmas.Matching

/-
Property C68: matches of patterns are copies of the patterns.
-/
namespace Verif.Matching

/-- Patterns are made of circuits that have operations, no call of a function, a way through all edges
and no wire from an input to an output; a call is a panic. -/
theorem C68_pattern_iff (choose : Pattern → Option Walk) (c : Circ) (hc : c.WF) (h0 : c.numOps ≠ 0) :
    (tryFromCircuit choose c = .panic ↔
      ∃ n ∈ c.cmds, ∃ (k : Nat) (s : Nat × Nat), (c.op n).kinds[k]? = some Kind.func ∧ (c.ins n)[k]? = some s ∧ s.1 ≠ c.inp) ∧
    ((∃ p, tryFromCircuit choose c = .ok p) ↔
      ∃ p w, addCmds c c.cmds = some p ∧ choose p = some w ∧
        ∀ (k i : Nat), i < c.numInputs → (c.ins c.out)[k]? ≠ some (c.inp, i)) := by
  rw [tryFromCircuit, if_neg h0]
  constructor
  · rw [show (∃ n ∈ c.cmds, ∃ (k : Nat) (s : Nat × Nat), (c.op n).kinds[k]? = some Kind.func ∧ (c.ins n)[k]? = some s ∧
        s.1 ≠ c.inp) ↔ addCmds c c.cmds = none from ?_]
    · cases ha : addCmds c c.cmds with
      | none => simp
      | some p =>
        simp only
        cases choose p with
        | none => simp
        | some w => simp only; split <;> simp
    · rw [addCmds_none]
      constructor
      · rintro ⟨n, hn, k, s, h1, h2, h3⟩
        have hl := hc.length n (hc.cmds n hn).1
        have hk : k < (c.ins n).length := (List.getElem?_eq_some_iff.mp h2).1
        refine ⟨n, hn, k, hl ▸ hk, (edgeOf_none hk hl).mpr ⟨h1, ?_⟩⟩
        intro p hp
        rw [h2] at hp
        simp at hp
        exact h3 (by rw [hp])
      · rintro ⟨n, hn, k, hk, h1⟩
        have hl := hc.length n (hc.cmds n hn).1
        have hk' : k < (c.ins n).length := by omega
        obtain ⟨h2, h3⟩ := (edgeOf_none hk' hl).mp h1
        refine ⟨n, hn, k, (c.ins n)[k], h2, List.getElem?_eq_getElem hk', ?_⟩
        intro h4
        refine h3 (c.ins n)[k].2 ?_
        rw [List.getElem?_eq_getElem hk', ← h4]
  · cases ha : addCmds c c.cmds with
    | none => simp
    | some p =>
      simp only [Option.some.injEq]
      cases hw : choose p with
      | none =>
        simp only [reduceCtorEq, exists_false, false_iff]
        rintro ⟨p', w, rfl, h, _⟩
        rw [hw] at h
        simp at h
      | some w =>
        simp only
        have key : (((List.range c.numInputs).map fun i => consumers c c.inp i).flatten.any
            fun x => decide (x.1 = c.out)) = true ↔
            ∃ (k i : Nat), i < c.numInputs ∧ (c.ins c.out)[k]? = some (c.inp, i) := by
          simp only [List.any_eq_true, List.mem_flatten, List.mem_map, List.mem_range,
            decide_eq_true_eq]
          constructor
          · rintro ⟨x, ⟨l, ⟨i, h1, rfl⟩, h2⟩, h3⟩
            obtain ⟨a, b⟩ := x
            simp only at h3
            subst h3
            exact ⟨b, i, h1, (mem_consumers.mp h2).2⟩
          · rintro ⟨k, i, h1, h2⟩
            exact ⟨(c.out, k), ⟨_, ⟨i, h1, rfl⟩, mem_consumers.mpr ⟨hc.out.1, h2⟩⟩, rfl⟩
        by_cases hany : (((List.range c.numInputs).map fun i => consumers c c.inp i).flatten.any
            fun x => decide (x.1 = c.out)) = true
        · rw [if_pos hany]
          obtain ⟨k, i, h1, h2⟩ := key.mp hany
          simp only [reduceCtorEq, exists_false, false_iff]
          rintro ⟨p', w', rfl, _, h⟩
          exact h k i h1 h2
        · rw [if_neg hany]
          refine iff_of_true ⟨_, rfl⟩ ⟨p, w, rfl, hw, ?_⟩
          intro k i h1 h2
          exact hany (key.mpr ⟨k, i, h1, h2⟩)

/-- A match is found from a node exactly if the circuit has a copy of the pattern with the root at this
node, whatever root and order of edges were chosen. -/
theorem C68_found_iff {P C : Circ} {cp : CPattern} (hP : P.WF) (hcl : P.Closed)
    (hp : addCmds P P.cmds = some cp.pattern) (hw : cp.walk.Valid cp.pattern) (hC : C.WF)
    (hio : NoIO P C) {r : Nat} (hr : r ∈ C.members) :
    (∃ l, getMatchMap C cp r = .found l) ↔ ∃ f w, Copy P C f w ∧ f cp.walk.root = r := by
  constructor
  · rintro ⟨l, h⟩
    rw [getMatchMap] at h
    cases hm : matchAll C cp r with
    | none => rw [hm] at h; simp at h
    | some m =>
      obtain ⟨_, h1, h2, _⟩ := matchAll_copy hP hcl hp hw hC hio hr hm
      exact ⟨_, _, h1, h2⟩
  · rintro ⟨f, w, hc, rfl⟩
    obtain ⟨m, h1, _⟩ := copy_matchAll hcl hp hw hC hc
    obtain ⟨hg, _⟩ := matchAll_copy hP hcl hp hw hC hio hr h1
    obtain ⟨l, h2, _⟩ := @onlyNodes_spec C m
      (fun n v h => by obtain ⟨x, hx, _⟩ := hg.nodes n v h; exact ⟨x, hx⟩) hg.copies
    exact ⟨l, by rw [getMatchMap, h1]; simp only; rw [h2]⟩

/-- The map of a match is the copy, and there is no other copy with the same root; matching never
panics. -/
theorem C68_found {P C : Circ} {cp : CPattern} (hP : P.WF) (hcl : P.Closed)
    (hp : addCmds P P.cmds = some cp.pattern) (hw : cp.walk.Valid cp.pattern) (hC : C.WF)
    (hio : NoIO P C) {r : Nat} (hr : r ∈ C.members) :
    getMatchMap C cp r ≠ .panic ∧
    ∀ l, getMatchMap C cp r = .found l →
      ∃ f w, Copy P C f w ∧ f cp.walk.root = r ∧ (∀ n ∈ P.cmds, nodeAt l n = some (f n)) ∧
        ∀ f' w', Copy P C f' w' → f' cp.walk.root = r → ∀ n ∈ P.cmds, f' n = f n := by
  cases hm : matchAll C cp r with
  | none =>
    have : getMatchMap C cp r = .none := by rw [getMatchMap, hm]
    rw [this]
    exact ⟨by simp, fun l h => by simp at h⟩
  | some m =>
    obtain ⟨hg, hcopy, hroot, hnode⟩ := matchAll_copy hP hcl hp hw hC hio hr hm
    obtain ⟨l, hl, hat⟩ := @onlyNodes_spec C m
      (fun n v h => by obtain ⟨x, hx, _⟩ := hg.nodes n v h; exact ⟨x, hx⟩) hg.copies
    have : getMatchMap C cp r = .found l := by rw [getMatchMap, hm]; simp only; rw [hl]
    rw [this]
    refine ⟨by simp, ?_⟩
    intro l' h
    simp at h
    subst h
    refine ⟨nodeOf m, wireOf m P.inp, hcopy, hroot, fun n hn => hat _ _ (hnode n hn), ?_⟩
    intro f' w' hc' hr' n hn
    obtain ⟨m', h1, h2⟩ := copy_matchAll hcl hp hw hC hc'
    rw [hr', hm] at h1
    simp at h1
    subst h1
    have := h2 n hn
    rw [hnode n hn] at this
    simpa using this.symm

/-- The boundary of a match is the image of the boundary of the pattern: looking up its nodes never
panics, each port of an input is fed by the wire of this input, and outputs are the images of the
outputs. -/
theorem C68_boundary {P C : Circ} {choose : Pattern → Option Walk} {cp : CPattern} (hP : P.WF)
    (hcl : P.Closed) (hio : NoIO P C) (hC : C.WF)
    (hcons : ∀ i x, x ∈ consumers P P.inp i → x.1 ∈ P.cmds ∨ x.1 = P.out)
    (hout : ∀ s ∈ P.ins P.out, s.1 ∈ P.cmds ∨ (s.1 = P.inp ∧ s.2 < P.numInputs))
    (hok : tryFromCircuit choose P = .ok cp) (hw : cp.walk.Valid cp.pattern)
    {r : Nat} (hr : r ∈ C.members) {l : List (Nat × Nat)} (hl : getMatchMap C cp r = .found l) :
    ∃ f w ins, Copy P C f w ∧ f cp.walk.root = r ∧
      boundary l cp = some (ins, (P.ins P.out).map fun s => (f s.1, s.2)) ∧
      ins = (List.range P.numInputs).map (fun i => (consumers P P.inp i).map fun x => (f x.1, x.2)) ∧
      ∀ i ps, ins[i]? = some ps → ∀ x ∈ ps, (C.ins x.1)[x.2]? = some (w i) := by
  have h0 : P.numOps ≠ 0 := by
    intro h
    rw [tryFromCircuit, if_pos h] at hok
    simp at hok
  rw [tryFromCircuit, if_neg h0] at hok
  cases ha : addCmds P P.cmds with
  | none => rw [ha] at hok; simp at hok
  | some p =>
    rw [ha] at hok
    simp only at hok
    cases hch : choose p with
    | none => rw [hch] at hok; simp at hok
    | some w0 =>
      rw [hch] at hok
      simp only at hok
      by_cases hany : (((List.range P.numInputs).map fun i => consumers P P.inp i).flatten.any
            fun x => decide (x.1 = P.out)) = true
      · rw [if_pos hany] at hok; simp at hok
      · rw [if_neg hany] at hok
        simp at hok
        subst hok
        obtain ⟨_, hfound⟩ := C68_found hP hcl (cp := ⟨p, w0, _, _⟩) ha hw hC hio hr
        obtain ⟨f, w, hcopy, hroot, hat, _⟩ := hfound l hl
        have hin : ∀ i, i < P.numInputs → ∀ x ∈ consumers P P.inp i, x.1 ∈ P.cmds := by
          intro i hi x hx
          refine (hcons i x hx).resolve_right ?_
          intro ho
          apply hany
          rw [List.any_eq_true]
          exact ⟨x, List.mem_flatten.mpr ⟨_, List.mem_map.mpr ⟨i, List.mem_range.mpr hi, rfl⟩, hx⟩,
            by simpa using ho⟩
        have hout' : ∀ s ∈ P.ins P.out, s.1 ∈ P.cmds := by
          intro s hs
          rcases hout s hs with h | ⟨h1, h2⟩
          · exact h
          · exfalso
            obtain ⟨k, hk⟩ := List.getElem?_of_mem hs
            have : (P.out, k) ∈ consumers P P.inp s.2 :=
              mem_consumers.mpr ⟨hP.out.1, by rw [hk, ← h1]⟩
            have := hin s.2 h2 _ this
            exact (hP.cmds _ this).2.2 rfl
        refine ⟨f, w, ((List.range P.numInputs).map fun i => consumers P P.inp i).map
          (fun l => l.map fun x => (f x.1, x.2)), hcopy, hroot, ?_, by simp [Function.comp_def], ?_⟩
        · rw [boundary]
          simp only
          rw [mapInputs_spec (f := f), Option.bind_some, mapPorts_spec (f := f)]
          · rfl
          · intro x hx; exact hat _ (hout' x hx)
          · intro l' hl' x hx
            obtain ⟨i, hi, rfl⟩ := List.mem_map.mp hl'
            exact hat _ (hin i (List.mem_range.mp hi) x hx)
        · intro i ps hps x hx
          have hi : i < P.numInputs := by
            have := (List.getElem?_eq_some_iff.mp hps).1
            simpa using this
          simp [List.getElem?_map, List.getElem?_range hi] at hps
          subst hps
          obtain ⟨y, hy, rfl⟩ := List.mem_map.mp hx
          obtain ⟨n, k⟩ := y
          have h1 := (mem_consumers.mp hy).2
          exact hcopy.input n (hin i hi _ hy) k (P.inp, i) h1 rfl

/-- In a copy the commands compute what the pattern computes: whatever the operations mean, if the wires
for the inputs carry the inputs of the pattern then the outputs of all nodes agree.  Nested regions
must agree, which matching does not check (`C68_nested_ignored`). -/
theorem C68_value_partial {V : Type} (sem : Op → Nat → List V → Nat → V) {P C : Circ}
    {f : Nat → Nat} {w : Nat → Nat × Nat} (hP : P.WF) (hc : Copy P C f w)
    (hcontent : ∀ n ∈ P.cmds, C.content (f n) = P.content n) (hC : C.WF)
    (hord : Ordered P [] P.cmds) {vP vC : Nat → Nat → V} (hvP : Runs sem P vP) (hvC : Runs sem C vC)
    (hin : ∀ i, vP P.inp i = vC (w i).1 (w i).2) :
    ∀ n ∈ P.cmds, ∀ p, vC (f n) p = vP n p := by
  have key : ∀ (ns done : List Nat), (∀ n ∈ ns, n ∈ P.cmds) →
      (∀ n ∈ done, ∀ p, vC (f n) p = vP n p) → Ordered P done ns →
      ∀ n ∈ ns, ∀ p, vC (f n) p = vP n p := by
    intro ns
    induction ns with
    | nil => intro _ _ _ _ n hn; simp at hn
    | cons a ns ih =>
      intro done hns hdone hord n hn p
      obtain ⟨h1, h2⟩ := hord
      have hacmd := hns a (by simp)
      have ha : ∀ p, vC (f a) p = vP a p := by
        intro p
        obtain ⟨hm1, hm2, hm3⟩ := hP.cmds a hacmd
        obtain ⟨hf1, hf2, hf3⟩ := hc.members a hacmd
        rw [hvC (f a) hf1 hf2 hf3 p, hvP a hm1 hm2 hm3 p, hc.op a hacmd, hcontent a hacmd]
        congr 1
        apply List.ext_getElem?
        intro k
        rw [List.getElem?_map, List.getElem?_map]
        cases hs : (P.ins a)[k]? with
        | none =>
          have hlen : (C.ins (f a)).length = (P.ins a).length := by
            rw [hC.length _ hf1, hP.length _ hm1, hc.op a hacmd]
          rw [List.getElem?_eq_none_iff] at hs
          rw [List.getElem?_eq_none (by omega)]
          rfl
        | some s =>
          by_cases hsi : s.1 = P.inp
          · rw [hc.input a hacmd k s hs hsi]
            simp only [Option.map_some, Option.some.injEq]
            rw [hsi, hin]
          · rw [hc.edge a hacmd k s hs hsi]
            simp only [Option.map_some, Option.some.injEq]
            exact hdone _ ((h1 s (List.mem_of_getElem? hs)).resolve_left hsi) _
      rcases List.mem_cons.mp hn with rfl | hn
      · exact ha p
      · refine ih (a :: done) (fun n hn => hns n (by simp [hn])) ?_ h2 n hn p
        intro n hn
        rcases List.mem_cons.mp hn with rfl | hn
        · exact ha
        · exact hdone n hn
  exact key P.cmds [] (fun _ h => h) (by simp) hord

/-! ### Deviations -/

/-- Operations for the examples: nested graph, rotation, load of a constant, constants. -/
def dfg : Op := ⟨1, [.linear]⟩
def rot : Op := ⟨2, [.linear, .copy]⟩
def load : Op := ⟨3, [.const]⟩

/-- A circuit given by its commands with inputs. Node 0 is the input, node 1 the output. -/
def mk (cmds : List (Nat × Op × Nat × List (Nat × Nat))) (outer : List (Nat × Op))
    (outs : List (Nat × Nat)) (outKinds : List Kind) (numInputs : Nat) : Circ where
  op n := if n = 0 then ⟨100, []⟩ else if n = 1 then ⟨101, outKinds⟩ else
    match cmds.find? (·.1 = n) with
    | some (_, o, _) => o
    | none =>
      match outer.find? (·.1 = n) with
      | some (_, o) => o
      | none => ⟨102, []⟩
  content n :=
    match cmds.find? (·.1 = n) with
    | some (_, _, c, _) => c
    | none => 0
  ins n := if n = 1 then outs else
    match cmds.find? (·.1 = n) with
    | some (_, _, _, i) => i
    | none => []
  cmds := cmds.map (·.1)
  members := 1 :: cmds.map (·.1) ++ outer.map (·.1)
  inp := 0
  out := 1
  numInputs := numInputs
  numOps := 1

/-- Nested regions are not compared: a pattern with a nested graph matches any nested graph of the same
signature. -/
theorem C68_nested_ignored :
    let P := mk [(2, dfg, 7, [(0, 0)])] [] [(2, 0)] [.linear] 1
    let C := mk [(2, dfg, 8, [(0, 0)])] [] [(2, 0)] [.linear] 1
    let cp : CPattern := ⟨⟨[(2, dfg)], [⟨.node 2, .copy 0 0, .input (.inc 0)⟩]⟩,
      ⟨2, [⟨.node 2, .copy 0 0, .input (.inc 0)⟩]⟩, [[(2, 0)]], [(2, 0)]⟩
    addCmds P P.cmds = some cp.pattern ∧ getMatchMap C cp 2 = .found [(2, 2)] ∧
      P.content 2 ≠ C.content 2 := by
  refine ⟨rfl, by decide +kernel, by decide +kernel⟩

/-- Constants outside the region are not compared: a pattern that loads one matches any. -/
theorem C68_outer_constant_ignored :
    let P := mk [(2, load, 0, [(9, 0)])] [(9, ⟨50, []⟩)] [(2, 0)] [.copy] 0
    let C := mk [(2, load, 0, [(9, 0)])] [(9, ⟨51, []⟩)] [(2, 0)] [.copy] 0
    let cp : CPattern := ⟨⟨[(2, load)], [⟨.node 2, .node 9, .internal (.inc 0) (.outg 0) false⟩]⟩,
      ⟨2, [⟨.node 2, .node 9, .internal (.inc 0) (.outg 0) false⟩]⟩, [], [(2, 0)]⟩
    addCmds P P.cmds = some cp.pattern ∧ getMatchMap C cp 2 = .found [(9, 9), (2, 2)] ∧
      P.op 9 ≠ C.op 9 := by
  refine ⟨rfl, by decide +kernel, by decide +kernel⟩

/-- A pattern with two angles: two rotations one after the other. -/
def twoAngles : Circ :=
  mk [(2, rot, 0, [(0, 0), (0, 1)]), (3, rot, 0, [(2, 0), (0, 2)])] [] [(3, 0)] [.linear] 3

/-- Its pattern, followed from the second rotation. -/
def twoAnglesP : CPattern where
  pattern := ⟨[(2, rot), (3, rot)],
    [⟨.node 2, .copy 0 0, .input (.inc 0)⟩, ⟨.node 2, .copy 0 1, .input (.inc 1)⟩,
      ⟨.node 3, .node 2, .internal (.inc 0) (.outg 0) true⟩,
      ⟨.node 3, .copy 0 2, .input (.inc 1)⟩]⟩
  walk := ⟨2, [⟨.node 2, .node 3, .internal (.outg 0) (.inc 0) true⟩,
      ⟨.node 2, .copy 0 0, .input (.inc 0)⟩, ⟨.node 2, .copy 0 1, .input (.inc 1)⟩,
      ⟨.node 3, .copy 0 2, .input (.inc 1)⟩]⟩
  inputs := [[(2, 0)], [(2, 1)], [(3, 1)]]
  outputs := [(3, 0)]

/-- A pattern with two angles does not match a circuit in which both angles are the same wire, although
the circuit is an instance of the pattern. -/
theorem C68_shared_angle_not_found :
    let C := mk [(2, rot, 0, [(0, 0), (0, 1)]), (3, rot, 0, [(2, 0), (0, 1)])] [] [(3, 0)] [.linear] 2
    addCmds twoAngles twoAngles.cmds = some twoAnglesP.pattern ∧ getMatchMap C twoAnglesP 2 = .none := by
  refine ⟨rfl, by decide +kernel⟩

/-! ### Examples -/

/-- The pattern with two angles meets the hypotheses of the theorems, and is found in itself. -/
example : twoAnglesP.walk.Valid twoAnglesP.pattern := by
  refine ⟨?_, ?_, ?_, ?_, ?_⟩
  · decide +kernel
  · decide +kernel
  · exact ⟨by simp [twoAnglesP], by simp [twoAnglesP], by simp [twoAnglesP], by simp [twoAnglesP], trivial⟩
  · decide
  · decide

example : twoAngles.Closed ∧ Ordered twoAngles [] twoAngles.cmds := by
  refine ⟨by unfold Circ.Closed; decide +kernel, ?_⟩
  refine ⟨?_, ?_, trivial⟩ <;> decide +kernel

example : getMatchMap twoAngles twoAnglesP 2 = .found [(3, 3), (2, 2)] := by decide +kernel

example : boundary [(3, 3), (2, 2)] twoAnglesP = some ([[(2, 0)], [(2, 1)], [(3, 1)]], [(3, 0)]) := by
  decide +kernel

example : getMatchMap twoAngles twoAnglesP 3 = .none := by decide +kernel

example : NoIO twoAngles twoAngles := by unfold NoIO; decide +kernel

example : twoAngles.WF := by
  refine ⟨by decide +kernel, by decide +kernel, by decide +kernel, rfl, by decide +kernel, ?_⟩
  have hm : twoAngles.members = [1, 2, 3] := rfl
  intro n hn k s hk hs
  rw [hm] at hn
  have hk3 : k < 3 := by
    refine Decidable.byContradiction fun hge => ?_
    have h1 : (twoAngles.ins n).length ≤ 2 := by
      have : ∀ n ∈ [1, 2, 3], (twoAngles.ins n).length ≤ 2 := by decide +kernel
      exact this n hn
    rw [List.getElem?_eq_none (by omega)] at hs
    simp at hs
  have key : ∀ n ∈ [1, 2, 3], ∀ k, k < 3 → (twoAngles.op n).kinds[k]? = some .linear →
      ∀ s ∈ (twoAngles.ins n)[k]?, consumers twoAngles s.1 s.2 = [(n, k)] := by decide +kernel
  exact key n hn k hk3 hk s (by rw [hs]; rfl)

end Verif.Matching
