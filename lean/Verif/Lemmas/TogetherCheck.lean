import Verif.Lemmas.TogetherBadger

/-
Conditions of the property as checks that can be decided, for concrete circuits.
-/
namespace Verif.Matching

open Relation

/-- The next number that is not used. -/
def nextFree (c : TCirc) : Nat :=
  ((c.inp :: c.out :: c.members) ++ c.members.flatMap fun n => (c.ins n).map Prod.fst).foldr max 0 + 1

theorem lt_foldr_max {a : Nat} : ∀ {l : List Nat}, a ∈ l → a < l.foldr max 0 + 1
  | b :: l, h => by
    rw [List.foldr_cons]
    rcases List.mem_cons.mp h with rfl | h
    · omega
    · have := lt_foldr_max h
      omega

theorem nextFree_fresh (c : TCirc) : Fresh c.toCirc (nextFree c) := by
  refine ⟨fun n hn => lt_foldr_max ?_, fun n hn s hs => lt_foldr_max ?_, lt_foldr_max ?_, lt_foldr_max ?_⟩
  · simp [hn]
  · refine List.mem_append_right _ (List.mem_flatMap.mpr ⟨n, hn, List.mem_map.mpr ⟨s, hs, rfl⟩⟩)
  · simp
  · simp

theorem port {l : List (Nat × Nat)} {k : Nat} {s : Nat × Nat} (h : l[k]? = some s) : k ∈ List.range l.length :=
  List.mem_range.mpr (List.getElem?_eq_some_iff.mp h).1

theorem wf_check {c : Circ} (h1 : ∀ n ∈ c.members, (c.ins n).length = (c.op n).kinds.length)
    (h2 : ∀ n ∈ c.cmds, n ∈ c.members ∧ n ≠ c.inp ∧ n ≠ c.out) (h3 : c.out ∈ c.members ∧ c.out ≠ c.inp)
    (h4 : c.ins c.inp = []) (h5 : ∀ n ∈ c.members, ∀ s ∈ c.ins n, s.1 ∈ c.members ∨ s.1 = c.inp)
    (h6 : ∀ n ∈ c.members, ∀ k ∈ List.range (c.ins n).length, ∀ s ∈ (c.ins n)[k]?,
      consumers c s.1 s.2 = [(n, k)]) : c.WF :=
  ⟨h1, h2, h3, h4, h5, fun n hn k s _ hs => h6 n hn k (port hs) s hs⟩

theorem typed_check {c : TCirc} (h : ∀ n ∈ c.members, ∀ k ∈ List.range (c.ins n).length,
    (c.op n).kinds[k]? = some .linear) : Typed (fun _ => True) c :=
  fun n hn k s hs => ⟨fun _ => trivial, fun _ => h n hn k (port hs)⟩

theorem held_check {c : Circ} (h : ∀ n ∈ c.cmds, ∃ s ∈ c.ins c.out, s.1 = n) : Held c := by
  intro n hn
  obtain ⟨s, hs, rfl⟩ := h n hn
  exact ⟨s.1, hn, .inr ⟨s.2, hs⟩, .refl⟩

theorem convex_check {c : Circ} {nodes : List Nat} (after : List Nat)
    (h1 : ∀ b ∈ c.members, b ∉ nodes → (∃ s ∈ c.ins b, s.1 ∈ nodes ∨ s.1 ∈ after) → b ∈ after)
    (h2 : ∀ b ∈ after, b ∉ nodes) (h3 : ∀ b ∈ c.members, b ∈ nodes → ∀ s ∈ c.ins b, s.1 ∉ after) :
    ∀ a ∈ nodes, ∀ b, b ∉ nodes → Feeds c a b → ∀ d ∈ nodes, ¬ ReflTransGen (Feeds c) b d := by
  rintro a ha b hb ⟨hm, s, hs, rfl⟩ d hd hr
  have hstart : b ∈ after := h1 b hm hb ⟨s, hs, .inl ha⟩
  have : d ∈ after := by
    clear hd
    induction hr with
    | refl => exact hstart
    | tail _ hj ih =>
      obtain ⟨q1, t, q2, rfl⟩ := hj
      by_contra hx
      refine hx (h1 _ q1 (fun hn => h3 _ q1 hn t q2 ih) ⟨t, q2, .inr ih⟩)
  exact h2 d this hd

/-- A copy of the left-hand side, given by the list of its nodes. -/
theorem placed_check {lin : Nat → Prop} {u : Rule} {c : TCirc} {f : Nat → Nat} {w : Nat → Nat × Nat}
    (hfit : u.Fit lin) (hc : c.toCirc.WF) (nodes after : List Nat)
    (hn : nodes = u.left.cmds.map f)
    (h1 : ∀ n ∈ u.left.cmds, f n ∈ c.members ∧ f n ≠ c.inp ∧ f n ≠ c.out)
    (h2 : ∀ n ∈ u.left.cmds, ∀ n' ∈ u.left.cmds, f n = f n' → n = n')
    (h3 : ∀ n ∈ u.left.cmds, c.op (f n) = u.left.op n)
    (h4 : ∀ n ∈ u.left.cmds, c.ins (f n) = (u.left.ins n).map fun s =>
      if s.1 = u.left.inp then w s.2 else (f s.1, s.2))
    (h5 : ∀ i ∈ List.range u.left.numInputs, ∀ i' ∈ List.range u.left.numInputs, w i = w i' → i = i')
    (hb : ∀ s ∈ u.left.ins u.left.out, s.1 ∈ u.left.cmds)
    (hsig : subSig c (imgIns u.left.toCirc f) (imgOuts u.left.toCirc f) = some (circSig u.right))
    (h6 : ∀ n ∈ c.members, ∀ s ∈ c.ins n, s.1 ∈ nodes → s ∈ imgOuts u.left.toCirc f ∨ n ∈ nodes)
    (h7 : ∀ n ∈ nodes, ∀ k ∈ List.range (c.ins n).length, ∀ s ∈ (c.ins n)[k]?,
      ((∃ g ∈ imgIns u.left.toCirc f, (n, k) ∈ g) ↔ s.1 ∉ nodes))
    (h8 : ∀ g ∈ imgIns u.left.toCirc f, g ≠ [])
    (c1 : ∀ b ∈ c.members, b ∉ nodes → (∃ s ∈ c.ins b, s.1 ∈ nodes ∨ s.1 ∈ after) → b ∈ after)
    (c2 : ∀ b ∈ after, b ∉ nodes) (c3 : ∀ b ∈ c.members, b ∈ nodes → ∀ s ∈ c.ins b, s.1 ∉ after) :
    Placed u c ⟨nodes, imgIns u.left.toCirc f, imgOuts u.left.toCirc f, u.right⟩ f w := by
  have hcopy : Copy u.left.toCirc c.toCirc f w := by
    refine ⟨h1, h2, h3, ?_, ?_, ?_⟩
    · intro n hn k s hs hi
      rw [h4 n hn, List.getElem?_map, hs, Option.map_some, if_neg hi]
    · intro n hn k s hs hi
      rw [h4 n hn, List.getElem?_map, hs, Option.map_some, if_pos hi]
    · intro n hn n' hn' i i' hi hi' he
      have hl : ∀ {n i}, n ∈ u.left.cmds → (u.left.inp, i) ∈ u.left.ins n → i ∈ List.range u.left.numInputs := by
        intro n i hn hi
        rcases hfit.left.2.sources n (hfit.left.2.cmd_mem hn).1 _ hi with h | h
        · exact absurd rfl (hfit.left.2.cmd_mem h).2.1
        · exact List.mem_range.mpr h.2
      exact h5 i (hl hn hi) i' (hl hn' hi') he
  have hmem : ∀ n, n ∈ nodes ↔ ∃ m ∈ u.left.cmds, n = f m := by
    intro n
    rw [hn, List.mem_map]
    exact ⟨fun ⟨m, q1, q2⟩ => ⟨m, q1, q2.symm⟩, fun ⟨m, q1, q2⟩ => ⟨m, q1, q2.symm⟩⟩
  have hpriv : Private u.left.toCirc c.toCirc f := by
    intro m hm p hp n hn hin
    rcases h6 n hn _ hin ((hmem _).mpr ⟨m, hm, rfl⟩) with h | h
    · obtain ⟨s, hs, he⟩ := List.mem_map.mp h
      simp only [Prod.mk.injEq] at he
      have := h2 _ (hb s hs) m hm he.1
      refine absurd ?_ hp
      rw [← this, ← he.2]
      exact hs
    · exact (hmem n).mp h
  have hlen : ∀ n ∈ u.left.cmds, (c.ins (f n)).length = (u.left.ins n).length := by
    intro n hn
    rw [h4 n hn, List.length_map]
  refine ⟨⟨hcopy, rfl, rfl, rfl⟩, hb, ⟨?_, h8, ?_, ?_, ?_, convex_check after c1 c2 c3⟩, hsig, hpriv⟩
  · intro n
    rw [hmem]
    exact (comp_img hcopy.emb hfit.left.2 hlen hb hpriv hfit.held n).symm
  · intro n hn k s hs
    exact h7 n hn k (port hs) s hs
  · intro n hn hnn s hs hin
    exact (h6 n hn s hs hin).resolve_right hnn
  · intro n hn
    obtain ⟨m, hm, rfl⟩ := (hmem n).mp hn
    exact h1 m hm

/-! ### A rule that adds dependencies -/

def cx : Op := ⟨30, [.linear, .linear]⟩

/-- Two gates with the same target commute; and a gate that does nothing is removed. -/
def swapLeft : TCirc where
  toCirc := mk [(2, cx, 0, [(0, 0), (0, 1)]), (3, cx, 0, [(0, 2), (2, 1)]), (4, gate 31, 0, [(3, 1)])] []
    [(2, 0), (4, 0), (3, 0)] [.linear, .linear, .linear] 3
  ty _ _ := 0
def swapRight : TCirc where
  toCirc := mk [(2, cx, 0, [(0, 2), (0, 1)]), (3, cx, 0, [(0, 0), (2, 1)])] []
    [(3, 0), (3, 1), (2, 0)] [.linear, .linear, .linear] 3
  ty _ _ := 0
def swapRule : Rule := ⟨swapLeft, swapRight⟩

/-- Controlled not, the gate that does nothing, and gates that invert. -/
def bits (o : Op) (_ : Nat) (l : List Bool) (p : Nat) : Bool :=
  if o = cx then (if p = 0 then l.getD 0 false else xor (l.getD 0 false) (l.getD 1 false))
  else if o = gate 31 then l.getD 0 false
  else ! l.getD 0 false

theorem swap_fit : swapRule.Fit fun _ => True := by
  refine ⟨⟨wf_check (by decide +kernel) (by decide +kernel) (by decide +kernel) rfl (by decide +kernel) (by decide +kernel),
    ⟨?_, by decide +kernel, by decide +kernel, by decide +kernel⟩⟩,
    ⟨⟨?_, by decide +kernel, by decide +kernel, by decide +kernel⟩,
      ⟨wf_check (by decide +kernel) (by decide +kernel) (by decide +kernel) rfl (by decide +kernel) (by decide +kernel),
       by decide +kernel, by decide +kernel, typed_check (by decide +kernel),
       acyclic_of_rank (fun n => if n = 1 then 100 else n) (by decide +kernel),
       by decide +kernel⟩⟩, by decide +kernel, held_check (by decide +kernel)⟩
  · intro n
    show n ∈ [1, 2, 3, 4] ↔ n ∈ [2, 3, 4] ∨ n = 1
    simp [or_comm]
  · intro n
    show n ∈ [1, 2, 3] ↔ n ∈ [2, 3] ∨ n = 1
    simp [or_comm]

theorem swap_means (x : Nat → Bool) (y : List Bool) :
    Means bits swapRule.left.toCirc x y ↔ Means bits swapRule.right.toCirc x y := by
  have hl : Means bits swapRule.left.toCirc x y ↔ y = [x 0, xor (x 2) (xor (x 0) (x 1)), x 2] := by
    constructor
    · rintro ⟨val, h1, h2, rfl⟩
      have a0 : val 0 0 = x 0 := h2 0
      have a1 : val 0 1 = x 1 := h2 1
      have a2 : val 0 2 = x 2 := h2 2
      have b0 : val 2 0 = val 0 0 := h1 2 (by decide) (by decide) (by decide) 0
      have b1 : val 2 1 = xor (val 0 0) (val 0 1) := h1 2 (by decide) (by decide) (by decide) 1
      have c0 : val 3 0 = val 0 2 := h1 3 (by decide) (by decide) (by decide) 0
      have c1 : val 3 1 = xor (val 0 2) (val 2 1) := h1 3 (by decide) (by decide) (by decide) 1
      have d0 : val 4 0 = val 3 1 := h1 4 (by decide) (by decide) (by decide) 0
      show [val 2 0, val 4 0, val 3 0] = _
      rw [d0, c0, c1, b0, b1, a0, a1, a2]
    · rintro rfl
      refine ⟨fun n p => if n = 0 then x p else if n = 2 then (if p = 0 then x 0 else xor (x 0) (x 1))
        else if n = 3 then (if p = 0 then x 2 else xor (x 2) (xor (x 0) (x 1)))
        else xor (x 2) (xor (x 0) (x 1)), ?_, fun i => rfl, rfl⟩
      intro n hn hi ho p
      have hn' : n = 2 ∨ n = 3 ∨ n = 4 := by
        have : swapRule.left.members = [1, 2, 3, 4] := rfl
        rw [this] at hn
        have ho' : n ≠ 1 := ho
        simp at hn
        omega
      rcases hn' with rfl | rfl | rfl
      · rfl
      · rfl
      · rfl
  have hr : Means bits swapRule.right.toCirc x y ↔ y = [x 0, xor (x 0) (xor (x 2) (x 1)), x 2] := by
    constructor
    · rintro ⟨val, h1, h2, rfl⟩
      have a0 : val 0 0 = x 0 := h2 0
      have a1 : val 0 1 = x 1 := h2 1
      have a2 : val 0 2 = x 2 := h2 2
      have b0 : val 2 0 = val 0 2 := h1 2 (by decide) (by decide) (by decide) 0
      have b1 : val 2 1 = xor (val 0 2) (val 0 1) := h1 2 (by decide) (by decide) (by decide) 1
      have c0 : val 3 0 = val 0 0 := h1 3 (by decide) (by decide) (by decide) 0
      have c1 : val 3 1 = xor (val 0 0) (val 2 1) := h1 3 (by decide) (by decide) (by decide) 1
      show [val 3 0, val 3 1, val 2 0] = _
      rw [c0, c1, b0, b1, a0, a1, a2]
    · rintro rfl
      refine ⟨fun n p => if n = 0 then x p else if n = 2 then (if p = 0 then x 2 else xor (x 2) (x 1))
        else (if p = 0 then x 0 else xor (x 0) (xor (x 2) (x 1))), ?_, fun i => rfl, rfl⟩
      intro n hn hi ho p
      have hn' : n = 2 ∨ n = 3 := by
        have : swapRule.right.members = [1, 2, 3] := rfl
        rw [this] at hn
        have ho' : n ≠ 1 := ho
        simp at hn
        omega
      rcases hn' with rfl | rfl
      · rfl
      · rfl
  rw [hl, hr]
  have : xor (x 2) (xor (x 0) (x 1)) = xor (x 0) (xor (x 2) (x 1)) := by
    cases x 0 <;> cases x 1 <;> cases x 2 <;> rfl
  rw [this]

/-- Two copies of the left-hand side, one between qubits x, y, z, the other between z, t, x, with gates
in between; the four qubits are discarded, and a fifth one is returned. -/
def knot : TCirc where
  toCirc := mk [(2, cx, 0, [(0, 1), (0, 2)]), (3, cx, 0, [(0, 3), (0, 4)]), (4, gate 34, 0, [(2, 0)]),
    (5, gate 34, 0, [(3, 0)]), (6, cx, 0, [(16, 0), (2, 1)]), (7, gate 31, 0, [(6, 1)]),
    (8, cx, 0, [(15, 0), (3, 1)]), (9, gate 31, 0, [(8, 1)]), (10, gate 32, 0, [(8, 0)]),
    (11, gate 32, 0, [(7, 0)]), (12, gate 32, 0, [(6, 0)]), (13, gate 32, 0, [(9, 0)]),
    (14, gate 34, 0, [(0, 0)]), (15, gate 34, 0, [(4, 0)]), (16, gate 34, 0, [(5, 0)])] [] [(14, 0)] [.linear] 5
  ty _ _ := 0

def inA (n : Nat) : Nat := if n = 2 then 2 else if n = 3 then 6 else 7
def inB (n : Nat) : Nat := if n = 2 then 3 else if n = 3 then 8 else 9
def atA (i : Nat) : Nat × Nat := if i = 0 then (0, 1) else if i = 1 then (0, 2) else (16, 0)
def atB (i : Nat) : Nat × Nat := if i = 0 then (0, 3) else if i = 1 then (0, 4) else (15, 0)
def knotA : Rewrite := ⟨[2, 6, 7], imgIns swapLeft.toCirc inA, imgOuts swapLeft.toCirc inA, swapRight⟩
def knotB : Rewrite := ⟨[3, 8, 9], imgIns swapLeft.toCirc inB, imgOuts swapLeft.toCirc inB, swapRight⟩

theorem knot_proper : Proper (fun _ => True) knot :=
  ⟨wf_check (by decide +kernel) (by decide +kernel) (by decide +kernel) rfl (by decide +kernel) (by decide +kernel),
   by decide +kernel, by decide +kernel, typed_check (by decide +kernel),
   acyclic_of_rank (fun n => if n = 1 then 1000 else if 15 ≤ n then 55 else n * 10) (by decide +kernel), by decide +kernel⟩

theorem knot_placedA : Placed swapRule knot knotA inA atA :=
  placed_check swap_fit knot_proper.wf [2, 6, 7] [4, 15, 8, 9, 10, 11, 12, 13] rfl
    (by decide +kernel) (by decide +kernel) (by decide +kernel) (by decide +kernel) (by decide +kernel)
    (by decide +kernel) (by decide +kernel) (by decide +kernel) (by decide +kernel) (by decide +kernel)
    (by decide +kernel) (by decide +kernel) (by decide +kernel)

theorem knot_placedB : Placed swapRule knot knotB inB atB :=
  placed_check swap_fit knot_proper.wf [3, 8, 9] [5, 16, 6, 7, 10, 11, 12, 13] rfl
    (by decide +kernel) (by decide +kernel) (by decide +kernel) (by decide +kernel) (by decide +kernel)
    (by decide +kernel) (by decide +kernel) (by decide +kernel) (by decide +kernel) (by decide +kernel)
    (by decide +kernel) (by decide +kernel) (by decide +kernel)

/-- The nodes of a rewrite and all nodes that feed them or that they feed. -/
def around (c : Circ) (r : Rewrite) : List Nat :=
  c.members.filter fun n => n ∈ r.nodes ∨ (∃ s ∈ c.ins n, s.1 ∈ r.nodes) ∨ ∃ m ∈ r.nodes, ∃ s ∈ c.ins m, s.1 = n


end Verif.Matching
