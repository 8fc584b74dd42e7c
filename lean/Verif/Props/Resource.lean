import Verif.Lemmas.ResourceReach

/-!
# C50: resource tracking
-/

namespace Verif.Resource

variable {T : Type} [DecidableEq T]

/-- An example: two Hadamards, a CX, a measurement and an operation which uses its result.  Node 0
is the input, node 9 the output; `true` is a copyable type. -/
def demo : Region Bool :=
  ofWires id
    [(1, [false], [false]), (2, [false], [false]), (3, [false, false], [false, false]),
      (4, [false], [false, true]), (5, [false, true], [false])]
    [((0, 0), (1, 0)), ((0, 1), (2, 0)), ((1, 0), (3, 0)), ((2, 0), (3, 1)), ((3, 0), (4, 0)),
      ((3, 1), (5, 0)), ((4, 1), (5, 1)), ((4, 0), (9, 0)), ((5, 0), (9, 1))]
    [(1, 0), (2, 0)]

theorem demo_wf : WF demo [1, 2, 3, 4, 5] ∧ demo.LinearUse :=
  wf_ofWires ⟨by decide, by decide, by decide, by decide, by decide, by decide, by decide,
    by decide, by decide⟩

/-! ### Resources -/

/-- The construction of a scope never panics, and two linear ports carry the same resource exactly
when they are linked by a chain of wires and operations which preserve their resources.  Copyable
values carry none. -/
theorem C50_same_resource (r : Region T) (order : List Nat) (wf : WF r order) :
    ∃ st, scopeNew r order = some st ∧
      (∀ P, r.Linear P → ∃ id, st.resAt P = some id) ∧
      (∀ P, r.Valid P → ¬ r.Linear P → st.resAt P = none) ∧
      (∀ P Q, r.Linear P → r.Linear Q →
        (st.resAt P = st.resAt Q ↔ Relation.EqvGen (Link r r.Through) P Q)) := by
  obtain ⟨st, hst, hi⟩ := compute_spec wf (default_follows r)
  refine ⟨st, hst, ?_, ?_, ?_⟩
  · intro P hP
    obtain ⟨id, hid⟩ := hi.linear_res hP
    exact ⟨id, by rw [hi.resAt_eq (valid_of_linear hP), hid]; rfl⟩
  · intro P hv hP
    rw [hi.resAt_eq hv]
    cases h : st.at' P with
    | res id => exact absurd (hi.soft.linear P id hv h) hP
    | copy m p => rfl
    | sentinel => rfl
  · intro P Q hP hQ
    obtain ⟨id, hid⟩ := hi.linear_res hP
    obtain ⟨id', hid'⟩ := hi.linear_res hQ
    rw [hi.resAt_eq (valid_of_linear hP), hi.resAt_eq (valid_of_linear hQ)]
    constructor
    · intro h
      rw [hid, hid'] at h
      obtain rfl : id = id' := Option.some.inj h
      exact hi.soft.same P Q id (valid_of_linear hP) (valid_of_linear hQ) hid hid'
    · intro h
      rw [hi.eqv_same h]

example : WF demo [1, 2, 3, 4, 5] := demo_wf.1

/-- The qubit measured by node 4 is the one which node 1 acts on; the one of node 2 is another. -/
example : (scopeNew demo [1, 2, 3, 4, 5]).map (fun st =>
    (st.resAt ⟨1, .inc, 0⟩ == st.resAt ⟨4, .out, 0⟩, st.resAt ⟨2, .out, 0⟩ == st.resAt ⟨5, .out, 0⟩,
      st.resAt ⟨1, .inc, 0⟩ == st.resAt ⟨2, .inc, 0⟩)) = some (true, true, false) := by decide

omit [DecidableEq T] in
/-- The same for any list of flows, given which inputs they return as which outputs. -/
theorem C50_same_resource_flows (r : Region T) (order : List Nat) (wf : WF r order)
    (flows : List Flow) (th : Nat → Nat → Nat → Prop) (hf : Follows r flows th) :
    ∃ st, compute r flows order = some st ∧
      (∀ P, r.Linear P → ∃ id, st.resAt P = some id) ∧
      (∀ P, r.Valid P → ¬ r.Linear P → st.resAt P = none) ∧
      (∀ P Q, r.Linear P → r.Linear Q →
        (st.resAt P = st.resAt Q ↔ Relation.EqvGen (Link r th) P Q)) := by
  obtain ⟨st, hst, hi⟩ := compute_spec wf hf
  refine ⟨st, hst, ?_, ?_, ?_⟩
  · intro P hP
    obtain ⟨id, hid⟩ := hi.linear_res hP
    exact ⟨id, by rw [hi.resAt_eq (valid_of_linear hP), hid]; rfl⟩
  · intro P hv hP
    rw [hi.resAt_eq hv]
    cases h : st.at' P with
    | res id => exact absurd (hi.soft.linear P id hv h) hP
    | copy m p => rfl
    | sentinel => rfl
  · intro P Q hP hQ
    obtain ⟨id, hid⟩ := hi.linear_res hP
    obtain ⟨id', hid'⟩ := hi.linear_res hQ
    rw [hi.resAt_eq (valid_of_linear hP), hi.resAt_eq (valid_of_linear hQ)]
    constructor
    · intro h
      rw [hid, hid'] at h
      obtain rfl : id = id' := Option.some.inj h
      exact hi.soft.same P Q id (valid_of_linear hP) (valid_of_linear hQ) hid hid'
    · intro h
      rw [hi.eqv_same h]

/-- Copyable ports are identified by the wire that defines their value. -/
theorem C50_copyable_wire (r : Region T) (order : List Nat) (wf : WF r order) (st : St)
    (hst : scopeNew r order = some st) :
    (∀ n p, r.Valid ⟨n, .out, p⟩ → ¬ r.Linear ⟨n, .out, p⟩ →
      st.getUnit n .out p = some (some (.copy n p))) ∧
    (∀ m q n p, r.Valid ⟨m, .inc, q⟩ → ¬ r.Linear ⟨m, .inc, q⟩ → r.source m q = some (n, p) →
      st.getUnit m .inc q = some (some (.copy n p))) := by
  obtain ⟨st', hst', hi⟩ := compute_spec wf (default_follows r)
  obtain rfl : st' = st := by
    unfold scopeNew at hst
    rw [hst] at hst'
    exact (Option.some.inj hst').symm
  have key : ∀ P, r.Valid P → ¬ r.Linear P → ∃ m p, st'.at' P = .copy m p ∧
      connectedWire r P.node P.dir P.idx = some (m, p) := by
    intro P hv hl
    cases h : st'.at' P with
    | res id => exact absurd (hi.soft.linear P id hv h) hl
    | sentinel => exact absurd h (hi.full P hv hv.1)
    | copy m p => exact ⟨m, p, rfl, (hi.soft.copy P m p hv h).2⟩
  constructor
  · intro n p hv hl
    obtain ⟨m, q, h1, h2⟩ := key _ hv hl
    rw [hi.getUnit hv, h1]
    simp only [connectedWire, Option.some.injEq, Prod.mk.injEq] at h2
    rw [h2.1, h2.2]
  · intro m q n p hv hl hs
    obtain ⟨m', q', h1, h2⟩ := key _ hv hl
    rw [hi.getUnit hv, h1]
    simp only [connectedWire] at h2
    rw [hs] at h2
    simp only [Option.some.injEq, Prod.mk.injEq] at h2
    rw [h2.1, h2.2]

example : demo.Valid ⟨5, .inc, 1⟩ ∧ ¬ demo.Linear ⟨5, .inc, 1⟩ ∧ demo.source 5 1 = some (4, 1) := by
  refine ⟨⟨by decide, true, by decide⟩, ?_, by decide⟩
  rintro ⟨_, t, h1, h2⟩
  have : demo.type? 5 .inc 1 = some true := by decide
  dsimp only at h1
  rw [this] at h1
  obtain rfl := Option.some.inj h1
  exact absurd h2 (by decide)

/-- On every node, a resource has at most one port in each direction, and `get_port` finds it. -/
theorem C50_get_port (r : Region T) (order : List Nat) (wf : WF r order) (hl : r.LinearUse)
    (st : St) (hst : scopeNew r order = some st) (n id i : Nat) (d : Dir) :
    st.getPort n id d = some i ↔ r.Linear ⟨n, d, i⟩ ∧ st.resAt ⟨n, d, i⟩ = some id := by
  obtain ⟨st', hst', hi⟩ := compute_spec wf (default_follows r)
  obtain rfl : st' = st := by
    unfold scopeNew at hst
    rw [hst] at hst'
    exact (Option.some.inj hst').symm
  rw [hi.getPort_eq wf (default_follows r) hl (default_injective r)]
  constructor
  · rintro ⟨hv, h⟩
    refine ⟨hi.soft.linear _ id hv h, ?_⟩
    rw [hi.resAt_eq hv, h]
    rfl
  · rintro ⟨hlin, h⟩
    have hv := valid_of_linear hlin
    refine ⟨hv, ?_⟩
    obtain ⟨id', hid'⟩ := hi.linear_res hlin
    rw [hi.resAt_eq hv, hid'] at h
    rw [hid', Option.some.inj h]

/-- The ports of a resource form one path. -/
theorem C50_resource_is_path (r : Region T) (order : List Nat) (wf : WF r order)
    (hl : r.LinearUse) (st : St) (hst : scopeNew r order = some st) (P Q : Port)
    (hP : r.Linear P) (hQ : r.Linear Q) (h : st.resAt P = st.resAt Q) :
    Relation.ReflTransGen (Link r r.Through) P Q ∨ Relation.ReflTransGen (Link r r.Through) Q P := by
  obtain ⟨st', hst', _, _, h3⟩ := C50_same_resource r order wf
  obtain rfl : st' = st := by
    rw [hst] at hst'
    exact (Option.some.inj hst').symm
  exact path_of_eqv wf (default_follows r) hl (default_injective r) ((h3 P Q hP hQ).1 h)

/-! ### Positions -/

/-- Positions strictly increase along every dataflow path. -/
theorem C50_positions_increase (r : Region T) (order : List Nat) (wf : WF r order) (st : St)
    (hst : scopeNew r order = some st) (n m : Nat)
    (h : Relation.TransGen (fun a b => ∃ p q, r.Wire a p b q) n m) :
    ∃ a b, st.getPos n = some a ∧ st.getPos m = some b ∧ a < b := by
  obtain ⟨st', hst', hi⟩ := compute_spec wf (default_follows r)
  obtain rfl : st' = st := by
    unfold scopeNew at hst
    rw [hst] at hst'
    exact (Option.some.inj hst').symm
  have gp : ∀ P : Port, r.Valid P → st'.getPos P.node = some (st'.posOf P.node) := by
    intro P hP
    obtain ⟨u, hu⟩ := hi.units_of_valid hP
    simp [St.getPos, St.posOf, hu]
  induction h with
  | single h =>
    obtain ⟨p, q, hw⟩ := h
    have := hi.pos _ _ _ _ hw.1 hw
    obtain ⟨h1, h2⟩ := wire_valid wf hw
    exact ⟨_, _, gp _ h1, gp _ h2, this⟩
  | tail _ h ih =>
    obtain ⟨p, q, hw⟩ := h
    have := hi.pos _ _ _ _ hw.1 hw
    obtain ⟨h1, h2⟩ := wire_valid wf hw
    obtain ⟨a, b, ha, hb, hab⟩ := ih
    refine ⟨a, _, ha, gp _ h2, ?_⟩
    have := gp _ h1
    dsimp only at this ⊢
    rw [hb] at this
    have := Option.some.inj this
    omega

example : Relation.TransGen (fun a b => ∃ p q, demo.Wire a p b q) 1 4 := by
  refine .tail (.single ⟨0, 0, ?_⟩) ⟨0, 0, ?_⟩ (b := 3)
  · exact ⟨by decide, by decide, ⟨false, by decide⟩, by decide⟩
  · exact ⟨by decide, by decide, ⟨false, by decide⟩, by decide⟩

example : (scopeNew demo [1, 2, 3, 4, 5]).map (fun st => [1, 2, 3, 4, 5].map st.getPos) =
    some [some 0, some 0, some 1, some 2, some 3] := by decide

/-! ### Reachability -/

omit [DecidableEq T] in
/-- The nodes a scope knows about. -/
def Region.InScope (r : Region T) (n : Nat) : Prop := n ∈ r.nodes ∧ r.sig n ≠ none

/-- One step between two nodes of the scope. -/
def Region.Step (r : Region T) (nbr : Nat → List Nat) (a b : Nat) : Prop :=
  r.InScope a ∧ r.InScope b ∧ b ∈ nbr a

omit [DecidableEq T] in
theorem inScope_iff {r : Region T} {th : Nat → Nat → Nat → Prop} {st : St}
    (hi : Inv r th r.nodes st) (n : Nat) : st.getPos n ≠ none ↔ r.InScope n := by
  unfold St.getPos
  rw [ne_eq, Option.map_eq_none_iff]
  constructor
  · intro h
    obtain ⟨u, hu⟩ := Option.ne_none_iff_exists'.1 h
    obtain ⟨hn, ins, outs, hsig, _⟩ := hi.soft.shape n u hu
    exact ⟨hn, by simp [hsig]⟩
  · rintro ⟨h1, h2⟩ h
    obtain ⟨u, hu⟩ := hi.have_ n h1 h2
    rw [h] at hu
    exact absurd hu (by simp)

omit [DecidableEq T] in
theorem avoid_iff {r : Region T} {th : Nat → Nat → Nat → Prop} {st : St}
    (hi : Inv r th r.nodes st) (nbr : Nat → List Nat) (ends : List Nat) (x : Nat) :
    Avoid st nbr ends [] x ↔
      ∃ e ∈ ends, r.InScope x ∧ Relation.ReflTransGen (r.Step nbr) x e := by
  constructor
  · intro h
    induction h with
    | stop he hp _ => exact ⟨_, he, (inScope_iff hi _).1 hp, .refl⟩
    | step hp _ hy _ ih =>
      obtain ⟨e, he, hs, hr⟩ := ih
      have := (inScope_iff hi _).1 hp
      exact ⟨e, he, this, .head ⟨this, hs, hy⟩ hr⟩
  · rintro ⟨e, he, hs, hr⟩
    induction hr using Relation.ReflTransGen.head_induction_on with
    | refl => exact .stop he ((inScope_iff hi _).2 hs) (by simp)
    | head h _ ih => exact .step ((inScope_iff hi _).2 hs) (by simp) h.2.2 (ih h.2.1)

/-- The search terminates within a number of steps given by the number of edges. -/
theorem C50_reachability_terminates (r : Region T) (order : List Nat) (wf : WF r order) (st : St)
    (hst : scopeNew r order = some st) (nbr : Nat → List Nat) (starts ends : List (Nat × Nat))
    (fuel : Nat)
    (hf : (starts.map fun s => (r.linked s.1 s.2).length).sum +
      (r.nodes.map fun n => (nbr n).length).sum < fuel) :
    ∃ b, anyReachable r st nbr fuel starts ends = some b := by
  obtain ⟨st', hst', hi⟩ := compute_spec wf (default_follows r)
  obtain rfl : st' = st := by
    unfold scopeNew at hst
    rw [hst] at hst'
    exact (Option.some.inj hst').symm
  unfold anyReachable
  cases maxPos st' (ends.map Prod.fst) with
  | none => exact ⟨false, rfl⟩
  | some m =>
    refine search_total wf.nodup (fun n hn => ((inScope_iff hi n).1 hn).1) fuel _ [] ?_
    have h1 : (starts.flatMap fun s => (r.linked s.1 s.2).map Prod.fst).length =
        (starts.map fun s => (r.linked s.1 s.2).length).sum := by
      rw [List.length_flatMap]
      congr 1
      refine List.map_congr_left ?_
      intro a _
      exact List.length_map _
    have h2 : ∀ ns : List Nat, pending nbr [] ns = (ns.map fun n => (nbr n).length).sum := by
      intro ns
      induction ns with
      | nil => rfl
      | cons n ns ih => simp [pending, ih]
    rw [h1, h2]
    exact hf

/-- `any_reachable_from` decides reachability, if the region has no state order edges. -/
theorem C50_reachability_partial (r : Region T) (order : List Nat) (wf : WF r order) (st : St)
    (hst : scopeNew r order = some st) (nbr : Nat → List Nat)
    (hn : ∀ x y, r.InScope x → r.InScope y → y ∈ nbr x → ∃ p q, r.Wire x p y q)
    (starts ends : List (Nat × Nat)) (fuel : Nat) (b : Bool)
    (h : anyReachable r st nbr fuel starts ends = some b) :
    b = true ↔ ∃ s ∈ starts, ∃ x ∈ r.linked s.1 s.2, ∃ e ∈ ends,
      r.InScope x.1 ∧ Relation.ReflTransGen (r.Step nbr) x.1 e.1 := by
  obtain ⟨st', hst', hi⟩ := compute_spec wf (default_follows r)
  obtain rfl : st' = st := by
    unfold scopeNew at hst
    rw [hst] at hst'
    exact (Option.some.inj hst').symm
  unfold anyReachable at h
  cases hm : maxPos st' (ends.map Prod.fst) with
  | none =>
    rw [hm] at h
    obtain rfl := Option.some.inj h
    refine iff_of_false (by simp) ?_
    rintro ⟨s, _, x, _, e, he, hx, hr⟩
    have hsc : r.InScope e.1 := by
      rcases Relation.ReflTransGen.cases_tail hr with h | ⟨y, _, h⟩
      · rw [h]; exact hx
      · exact h.2.1
    exact (inScope_iff hi _).2 hsc (maxPos_none hm _ (List.mem_map_of_mem he))
  | some m =>
    rw [hm] at h
    have hinc : Increasing st' nbr := by
      intro x y a b hy ha hb
      have hx := (inScope_iff hi x).1 (by simp [ha])
      have hyy := (inScope_iff hi y).1 (by simp [hb])
      obtain ⟨a', b', ha', hb', hab⟩ :=
        C50_positions_increase r order wf st' hst x y (.single (hn x y hx hyy hy))
      rw [ha] at ha'
      rw [hb] at hb'
      obtain rfl := Option.some.inj ha'
      obtain rfl := Option.some.inj hb'
      exact hab
    rw [search_sound hinc (maxPos_spec hm) fuel _ _ _ h]
    constructor
    · rintro ⟨x, hx, ha⟩
      rw [List.mem_flatMap] at hx
      obtain ⟨s, hs, hx⟩ := hx
      rw [List.mem_map] at hx
      obtain ⟨y, hy, rfl⟩ := hx
      obtain ⟨e, he, hsc, hr⟩ := (avoid_iff hi nbr _ _).1 ha
      rw [List.mem_map] at he
      obtain ⟨e', he', rfl⟩ := he
      exact ⟨s, hs, y, hy, e', he', hsc, hr⟩
    · rintro ⟨s, hs, x, hx, e, he, hsc, hr⟩
      refine ⟨x.1, ?_, (avoid_iff hi nbr _ _).2 ⟨e.1, List.mem_map_of_mem he, hsc, hr⟩⟩
      rw [List.mem_flatMap]
      exact ⟨s, hs, List.mem_map_of_mem hx⟩

/-- The output neighbours in the example. -/
def demoNbr : Nat → List Nat
  | 1 => [3]
  | 2 => [3]
  | 3 => [4, 5]
  | 4 => [9, 5]
  | 5 => [9]
  | _ => []

example : ∀ x y, demo.InScope x → demo.InScope y → y ∈ demoNbr x → ∃ p q, demo.Wire x p y q := by
  have key : ∀ x ∈ demo.nodes, ∀ y ∈ demo.nodes, y ∈ demoNbr x →
      ∃ p ∈ List.range 2, ∃ q ∈ List.range 2, demo.type? x .out p ≠ none ∧
        (y, q) ∈ demo.linked x p := by decide
  rintro x y ⟨hx, _⟩ ⟨hy, _⟩ h
  obtain ⟨p, _, q, _, h1, h2⟩ := key x hx y hy h
  exact ⟨p, q, hx, hy, Option.ne_none_iff_exists'.1 h1, h2⟩

example : ((scopeNew demo [1, 2, 3, 4, 5]).bind fun st =>
    anyReachable demo st demoNbr 20 [(1, 0)] [(5, 1)]) = some true := by decide

example : ((scopeNew demo [1, 2, 3, 4, 5]).bind fun st =>
    anyReachable demo st demoNbr 20 [(3, 1)] [(4, 0)]) = some false := by decide

/-- Node 1 feeds node 2, and a state order edge leads from node 2 to node 3 (on another qubit). -/
def orderRegion : Region Bool :=
  ofWires id
    [(1, [false], [false]), (2, [false], [false]), (3, [false], [false])]
    [((0, 0), (1, 0)), ((0, 1), (3, 0)), ((1, 0), (2, 0)), ((2, 0), (9, 0)), ((3, 0), (9, 1))]
    [(1, 0), (3, 0)]

/-- `output_neighbours`, which follows the order edge. -/
def orderNbr : Nat → List Nat
  | 1 => [2]
  | 2 => [9, 3]
  | 3 => [9]
  | _ => []

/-- With state order edges, which the search follows but the positions ignore, a reachable node is
reported as unreachable. -/
theorem C50_reachability_misses_order_edges :
    WF orderRegion [1, 2, 3] ∧ orderRegion.LinearUse ∧
    Relation.ReflTransGen (orderRegion.Step orderNbr) 2 3 ∧ (2, 0) ∈ orderRegion.linked 1 0 ∧
    ∃ st, scopeNew orderRegion [1, 2, 3] = some st ∧
      ∀ fuel, 20 < fuel →
        anyReachable orderRegion st orderNbr fuel [(1, 0)] [(3, 0)] = some false := by
  have hwf : WF orderRegion [1, 2, 3] ∧ orderRegion.LinearUse :=
    wf_ofWires ⟨by decide, by decide, by decide, by decide, by decide, by decide, by decide,
      by decide, by decide⟩
  refine ⟨hwf.1, hwf.2, .single ⟨⟨by decide, by decide⟩, ⟨by decide, by decide⟩, by decide⟩,
    by decide, ?_⟩
  obtain ⟨st, hst, _⟩ := C50_same_resource orderRegion [1, 2, 3] hwf.1
  refine ⟨st, hst, ?_⟩
  have hp : st.getPos 2 = some 1 ∧ st.getPos 3 = some 0 := by
    have h2 : (scopeNew orderRegion [1, 2, 3]).bind (fun st => st.getPos 2) = some 1 := by decide
    have h3 : (scopeNew orderRegion [1, 2, 3]).bind (fun st => st.getPos 3) = some 0 := by decide
    rw [hst] at h2 h3
    exact ⟨h2, h3⟩
  intro fuel hf
  obtain ⟨k, rfl⟩ : ∃ k, fuel = k + 2 := ⟨fuel - 2, by omega⟩
  have hl : orderRegion.linked 1 0 = [(2, 0)] := by decide
  simp [anyReachable, maxPos, hp.2, hl, search, hp.1]

end Verif.Resource
