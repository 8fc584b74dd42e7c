import Verif.Lemmas.Commands
import Verif.Lemmas.CommandUnits

/-!
# Properties of the command iterator
-/

namespace Tket.Commands

/-! ## C55: order of commands -/

/-- **C55.** The iterator never panics, yields no node twice, yields every node that is not a constant (or
constant load), yields constants exactly when one of their consumers is yielded, and yields every node
after all the nodes of the region it takes values from. -/
theorem C55_commands_in_dataflow_order (c : Region) (wf : c.WF) :
    ∃ L, commands c = some L ∧ L.Nodup ∧ (∀ n ∈ L, n ∈ c.order) ∧
      (∀ n ∈ c.order, c.constLike n = false → n ∈ L) ∧
      (∀ n ∈ c.order, c.constLike n = true → (n ∈ L ↔ ∃ m ∈ c.succ n, m ∈ L)) ∧
      (∀ n ∈ c.order, ∀ m ∈ c.succ n, m ∈ L → n ∈ L ∧ L.idxOf n < L.idxOf m) := by
  obtain ⟨L, st, done, hL, hi, hp, hr⟩ := yielded_spec wf (fuel := c.order.length + 1) (by omega)
    (c.order.length + 1) (St.init c) [] [] (inv_init c) (by simp)
  simp only [List.nil_append] at hi
  have hperm := hi.perm
  rw [hp] at hperm
  simp only [Option.toList_none, List.append_nil] at hperm
  have hdn : done.Nodup := (List.nodup_append.1 (hi.split ▸ wf.nodup)).1
  have hn : L.Nodup := (List.nodup_append.1 (hperm.nodup_iff.1 hdn)).1
  have hsub : ∀ n ∈ L, n ∈ c.order := fun n hn' =>
    hi.done_sub (hperm.mem_iff.2 (List.mem_append.2 (Or.inl hn')))
  have hdone : ∀ n ∈ done, c.constLike n = false → n ∈ L := by
    intro n h1 h2
    rcases List.mem_append.1 (hperm.mem_iff.1 h1) with h | h
    · exact h
    · rw [hi.dl n h] at h2; simp at h2
  have hnc : ∀ n ∈ c.order, c.constLike n = false → n ∈ L := by
    intro n h1 h2
    rw [hi.split] at h1
    rcases List.mem_append.1 h1 with h | h
    · exact hdone n h h2
    · rw [hr n h] at h2; simp at h2
  have hord : ∀ n ∈ c.order, ∀ m ∈ c.succ n, m ∈ L → n ∈ L ∧ L.idxOf n < L.idxOf m := by
    intro n h1 m h2 h3
    obtain ⟨l1, l2, rfl⟩ := List.append_of_mem h3
    have h4 := hi.closed l1 m l2 rfl n h1 h2
    refine ⟨by simp [h4], ?_⟩
    have hm : m ∉ l1 := fun hc => (List.nodup_append.1 hn).2.2 m hc m (by simp) rfl
    rw [List.idxOf_append_of_mem h4, List.idxOf_append_of_notMem hm]
    have := List.idxOf_lt_length_iff.2 h4
    omega
  have hclosed : ∀ a b, Relation.ReflTransGen c.Edge a b → b ∈ L → a ∈ L := by
    intro a b h
    induction h with
    | refl => exact id
    | tail _ e ih => intro hb; exact ih (hord _ e.2.1 _ e.1 hb).1
  refine ⟨L, hL, hn, hsub, hnc, ?_, hord⟩
  intro n h1 h2
  constructor
  · intro h3
    obtain ⟨m, hm, t, ht, htc, _, hr⟩ := hi.used n h3 h2
    exact ⟨m, hm, hclosed m t hr (hdone t ht htc)⟩
  · rintro ⟨m, hm, hmL⟩
    exact (hord n h1 m hm hmL).1

/-- Two constants, one unused, a load and two gates: the constant and its load are yielded just before the
gate that uses them, the unused one never. -/
def exampleR : Region where
  order := [0, 1, 2, 3, 4, 5]
  constLike n := n == 0 || n == 1 || n == 2
  succ n := if n = 0 then [2] else if n = 2 then [4] else if n = 3 then [4] else if n = 4 then [5] else []
  pred n := if n = 2 then [0] else if n = 4 then [3, 2] else if n = 5 then [4] else []

example : exampleR.WF := ⟨by decide, by decide, by decide⟩
example : commands exampleR = some [3, 0, 2, 4, 5] := by decide

/-! ## C22: linear units -/

/-- The nodes of `ns`, in order, use up wires that are live and produce new ones. -/
inductive Linear : List Wire → List LNode → Prop
  | nil (live : List Wire) : Linear live []
  | cons (live ws : List Wire) (n : LNode) (ns : List LNode) : n.ins = ws.map some → ws.Nodup →
      (∀ w ∈ ws, w ∈ live) → n.outs.Nodup → (∀ o ∈ n.outs, o ∉ live) →
      Linear (liveAfter live ws n.outs) ns → Linear live (n :: ns)

theorem unitOf_inj {m : Units} {live : List Wire} (h : Ok m live) {w1 w2 : Wire} {u : Nat}
    (h1 : unitOf m w1 = some u) (h2 : unitOf m w2 = some u) : w1 = w2 := by
  have e := (perm_remove h.keysNodup h1).map (·.2)
  have hn := e.nodup_iff.1 h.valsNodup
  simp only [List.map_cons, List.nodup_cons] at hn
  by_contra hne
  apply hn.1
  have := mem_of_unitOf h2
  exact List.mem_map.2 ⟨(w2, u), List.mem_filter.2 ⟨this, by simpa using fun h => hne h.symm⟩, rfl⟩

theorem initial_ok {inputs : List Wire} (h : inputs.Nodup) :
    Ok (initial inputs) inputs ∧ Tight (initial inputs) := by
  have hv : vals (initial inputs) = List.range inputs.length := by
    unfold vals initial
    rw [List.zipIdx_map_snd, List.range_eq_range']
  have hk : keys (initial inputs) = inputs := by
    unfold keys initial
    rw [List.zipIdx_map_fst]
  refine ⟨⟨by rw [hk]; exact h, by intro w; rw [hk], by rw [hv]; exact List.nodup_range⟩, ?_⟩
  intro v hv'
  rw [hv] at hv'
  simpa [initial] using hv'

theorem unitsAfter_shrink : ∀ (ns : List LNode) (m : Units) (live : List Wire), Ok m live →
    Linear live ns → (∀ n ∈ ns, n.outs.length ≤ n.ins.length) → ∃ l, Ok (unitsAfter m ns) l := by
  intro ns
  induction ns with
  | nil => intro m live h _ _; exact ⟨live, h⟩
  | cons n ns ih =>
    intro m live h hl hs
    cases hl with
    | cons _ ws _ _ e1 e2 e3 e4 e5 e6 =>
      have hlen := hs n (by simp)
      rw [e1, List.length_map] at hlen
      have := (process_ok ws n.outs m live h e2 e3 e4 e5 (Or.inl hlen)).1
      unfold unitsAfter
      rw [e1]
      exact ih _ _ this e6 (fun x hx => hs x (by simp [hx]))

theorem unitsAfter_grow : ∀ (ns : List LNode) (m : Units) (live : List Wire) (rest : List LNode),
    Ok m live → Tight m → Linear live (ns ++ rest) → (∀ n ∈ ns, n.ins.length ≤ n.outs.length) →
    ∃ l, Ok (unitsAfter m ns) l ∧ Linear l rest := by
  intro ns
  induction ns with
  | nil => intro m live rest h _ hl _; exact ⟨live, h, hl⟩
  | cons n ns ih =>
    intro m live rest h ht hl hs
    rw [List.cons_append] at hl
    cases hl with
    | cons _ ws _ _ e1 e2 e3 e4 e5 e6 =>
      have hlen := hs n (by simp)
      rw [e1, List.length_map] at hlen
      obtain ⟨h1, h2⟩ := process_ok ws n.outs m live h e2 e3 e4 e5 (Or.inr ht)
      unfold unitsAfter
      rw [e1]
      exact ih _ _ _ h1 (h2 ht hlen) e6 (fun x hx => hs x (by simp [hx]))

theorem unitsAfter_append (m : Units) (a b : List LNode) :
    unitsAfter m (a ++ b) = unitsAfter (unitsAfter m a) b := by
  induction a generalizing m with
  | nil => rfl
  | cons n a ih => exact ih _

/-- **C22, partial.** If every node that adds qubits comes before every node that removes some, then at
every moment two different live wires carry different units. Missing: allocation after a release, for which
`C22_unit_of_a_live_qubit_reused` shows that the claim is false. -/
theorem C22_units_distinct_partial (inputs : List Wire) (pre post : List LNode)
    (hin : inputs.Nodup) (hlin : Linear inputs (pre ++ post))
    (hpre : ∀ n ∈ pre, n.ins.length ≤ n.outs.length)
    (hpost : ∀ n ∈ post, n.outs.length ≤ n.ins.length) (w1 w2 : Wire) (u : Nat)
    (h1 : unitOf (unitsAfter (initial inputs) (pre ++ post)) w1 = some u)
    (h2 : unitOf (unitsAfter (initial inputs) (pre ++ post)) w2 = some u) : w1 = w2 := by
  obtain ⟨hok, ht⟩ := initial_ok hin
  obtain ⟨l, hl, hlin'⟩ := unitsAfter_grow pre _ _ _ hok ht hlin hpre
  obtain ⟨l', hl'⟩ := unitsAfter_shrink post _ _ hl hlin' hpost
  rw [unitsAfter_append] at h1 h2
  exact unitOf_inj hl' h1 h2

/-- **C22.** Whatever came before: a command reports for its inputs the units of the wires they are
connected to; its n-th output continues the unit of its n-th input; the units reported for its outputs are
the ones later commands see; and other wires keep their unit. -/
theorem C22_units_follow_wires (m : Units) (n : LNode) (ws : List Wire) (hws : n.ins = ws.map some)
    (h1 : ws.Nodup) (h2 : ∀ w ∈ ws, w ∈ keys m) (h3 : n.outs.Nodup) (h4 : ∀ o ∈ n.outs, o ∉ ws) :
    (process n.ins n.outs m).2.1.map some = ws.map (unitOf m) ∧
    (process n.ins n.outs m).2.2.map some = n.outs.map (unitOf (process n.ins n.outs m).1) ∧
    (∀ (k : Nat), k < ws.length → k < n.outs.length →
      (process n.ins n.outs m).2.2[k]? = (process n.ins n.outs m).2.1[k]?) ∧
    (∀ x, x ∉ ws → x ∉ n.outs → unitOf (process n.ins n.outs m).1 x = unitOf m x) := by
  rw [hws]
  obtain ⟨a, b, c, d⟩ := process_report ws n.outs m h1 h2 h3 h4
  exact ⟨b, c, d, a⟩

/-- Two qubits, the first is freed, a new one is allocated, and a gate acts on both. Node 0 is the input. -/
def clash : List LNode :=
  [⟨[some (0, 0)], []⟩, ⟨[], [(2, 0)]⟩, ⟨[some (0, 1), some (2, 0)], [(3, 0), (3, 1)]⟩]

/-- **C22 is false.** After `QFree(q0); QAlloc` on two qubits, the new qubit gets the unit of the other,
still live, qubit: the two-qubit gate that follows reports the same unit for both its qubits. -/
theorem C22_unit_of_a_live_qubit_reused :
    Linear [(0, 0), (0, 1)] clash ∧
    unitOf (unitsAfter (initial [(0, 0), (0, 1)]) (clash.take 2)) (0, 1) = some 1 ∧
    unitOf (unitsAfter (initial [(0, 0), (0, 1)]) (clash.take 2)) (2, 0) = some 1 ∧
    (process [some (0, 1), some (2, 0)] [(3, 0), (3, 1)]
      (unitsAfter (initial [(0, 0), (0, 1)]) (clash.take 2))).2 = ([1, 1], [1, 1]) := by
  refine ⟨?_, by decide, by decide, by decide⟩
  refine .cons _ [(0, 0)] _ _ rfl (by decide) (by decide) (by decide) (by decide) ?_
  refine .cons _ [] _ _ rfl (by decide) (by decide) (by decide) (by decide) ?_
  refine .cons _ [(0, 1), (2, 0)] _ _ rfl (by decide) (by decide) (by decide) (by decide) ?_
  exact .nil _

/-- Allocation followed by a two-qubit gate and a release meets the hypotheses of
`C22_units_distinct_partial`. -/
example : Linear [(0, 0)] ([⟨[], [(1, 0)]⟩, ⟨[some (0, 0), some (1, 0)], [(2, 0), (2, 1)]⟩] ++
    [⟨[some (2, 0)], []⟩]) := by
  refine .cons _ [] _ _ rfl (by decide) (by decide) (by decide) (by decide) ?_
  refine .cons _ [(0, 0), (1, 0)] _ _ rfl (by decide) (by decide) (by decide) (by decide) ?_
  refine .cons _ [(2, 0)] _ _ rfl (by decide) (by decide) (by decide) (by decide) ?_
  exact .nil _

end Tket.Commands
