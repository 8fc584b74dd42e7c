import Verif.Lemmas.Inline

/-
C71: standalone circuits.
-/
namespace Verif.Inline

open List (Perm)

variable {π : Type}

/-! ### Writing -/

/-- The error is that of the first reference that cannot be written out. -/
theorem C71_error (write : Id → Except Err π) (cs : List (Cmds π)) :
    (ensureStandalone write cs).2 =
      (references cs).findSome? fun id => match write id with
        | .ok _ => none
        | .error e => some e := by
  rw [(ensure_spec write cs).1, references]
  generalize cs.flatMap Cmds.barriers = ds
  induction ds with
  | nil => rfl
  | cons d ds ih =>
    unfold errors at ih ⊢
    rw [List.filterMap_cons, List.filterMap_cons]
    cases d with
    | external id =>
      simp only [List.findSome?_cons]
      cases hw : write id <;> simp [ih]
    | inline p => exact ih
    | other t => exact ih

/-- If all barriers hold references that can be written out, each is replaced by what it stands for, also
in boxes, and nothing else changes. Missing is that barriers may hold other data. -/
theorem C71_standalone_partial (write : Id → Except Err π) (cs : List (Cmds π))
    (h : ∀ d ∈ cs.flatMap Cmds.barriers, ∃ id p, d = .external id ∧ write id = .ok p) :
    ensureStandalone write cs = (cs.map (Cmds.map (wanted write)), none) := by
  have hn : (ensureStandalone write cs).2 = none := by
    rw [(ensure_spec write cs).1, errors_nil]
    intro id hm
    obtain ⟨i, p, e, hp⟩ := h _ hm
    cases e
    exact ⟨p, hp⟩
  refine Prod.ext ?_ hn
  rw [(ensure_spec write cs).2 hn]
  apply List.map_congr_left
  intro c hc
  refine Cmds.map_congr _ _ c (fun d => ?_) rfl (fun d hd => ?_)
  · cases d with
    | none => rfl
    | some d => cases d <;> rfl
  · obtain ⟨id, p, rfl, hp⟩ := h d (List.mem_flatMap.mpr ⟨c, hc, hd⟩)
    rw [left_external]
    simp [wanted, hp]

/-- After success no reference is left, not even in boxes, and the subgraphs are all there, in order. -/
theorem C71_no_reference (write : Id → Except Err π) (cs : List (Cmds π)) (h : (ensureStandalone write cs).2 = none) :
    references (ensureStandalone write cs).1 = [] ∧
      (ensureStandalone write cs).1.flatMap Cmds.barriers = (references cs).filterMap fun id =>
        match write id with
        | .ok p => some (.inline p)
        | .error _ => none := by
  have hb : (ensureStandalone write cs).1.flatMap Cmds.barriers =
      (cs.flatMap Cmds.barriers).flatMap fun d => (left write true (some d)).toList := by
    rw [(ensure_spec write cs).2 h, List.flatMap_assoc, List.flatMap_map]
    congr 1
    funext c
    exact Cmds.barriers_map _ (left_none write) c
  have hb2 : (ensureStandalone write cs).1.flatMap Cmds.barriers = (references cs).filterMap fun id =>
        match write id with
        | .ok p => some (.inline p)
        | .error _ => none := by
    rw [hb, references, List.filterMap_filterMap]
    generalize cs.flatMap Cmds.barriers = ds
    induction ds with
    | nil => rfl
    | cons d ds ih =>
      rw [List.flatMap_cons, ih, List.filterMap_cons]
      cases d with
      | external id =>
        rw [left_external]
        cases hw : write id <;> simp [hw]
      | inline p => rfl
      | other t => rfl
  refine ⟨?_, hb2⟩
  unfold references
  rw [hb2, List.filterMap_filterMap, List.filterMap_eq_nil_iff]
  intro id _
  cases write id <;> rfl

/-- Two barriers, one in a box. -/
def exCmds : List (Cmds Nat) :=
  [.cons (.plain true (some (.external (1, 0)))) (.cons (.box false none (.cons (.plain true (some (.external (1, 1)))) .nil)) .nil)]

def exWrite : Id → Except Err Nat
  | (1, 0) => .ok 10
  | (1, 1) => .ok 11
  | (1, 2) => .error (.unsupported (1, 2))
  | i => .error (.unknown i)

example : ∀ d ∈ exCmds.flatMap Cmds.barriers, ∃ id p, d = .external id ∧ exWrite id = .ok p := by
  intro d hd
  have : d = .external (1, 0) ∨ d = .external (1, 1) := by
    simpa [exCmds, Cmds.barriers, Cmd.barriers] using hd
  rcases this with rfl | rfl
  · exact ⟨_, 10, rfl, rfl⟩
  · exact ⟨_, 11, rfl, rfl⟩

example : ensureStandalone exWrite exCmds =
    ([.cons (.plain true (some (.inline 10))) (.cons (.box false none (.cons (.plain true (some (.inline 11))) .nil)) .nil)],
      none) := rfl

/-- Barriers with other data, which should be ignored, lose it. -/
theorem C71_payload_erased : ∃ (write : Id → Except Err Nat) (d : Data Nat), (∀ id, d ≠ .external id) ∧
    ensureStandalone write [.cons (.plain true (some d)) .nil] = ([.cons (.plain true none) .nil], none) :=
  ⟨exWrite, .other ['x'], (fun _ h => nomatch h), rfl⟩

/-- A circuit that is made standalone twice has lost all its subgraphs, whatever they were. -/
theorem C71_twice_erases (write : Id → Except Err π) (cs : List (Cmds π)) (h : (ensureStandalone write cs).2 = none) :
    (ensureStandalone write (ensureStandalone write cs).1).2 = none ∧
      (ensureStandalone write (ensureStandalone write cs).1).1.flatMap Cmds.barriers = [] := by
  obtain ⟨h1, -⟩ := C71_no_reference write cs h
  have hn : (ensureStandalone write (ensureStandalone write cs).1).2 = none := by
    rw [C71_error, h1]; rfl
  obtain ⟨-, h2⟩ := C71_no_reference write _ hn
  exact ⟨hn, by rw [h2, h1]; rfl⟩

example : (ensureStandalone exWrite exCmds).2 = none ∧ exCmds.flatMap Cmds.barriers ≠ [] := by
  refine ⟨rfl, ?_⟩
  simp [exCmds, Cmds.barriers, Cmd.barriers]

/-- After an error the reference that failed is gone, those before it are written out and those after it
are not. -/
theorem C71_failure_erases : ∃ (write : Id → Except Err Nat) (e : Err),
    ensureStandalone write [.cons (.plain true (some (.external (1, 0)))) (.cons (.plain true (some (.external (1, 2))))
        (.cons (.plain true (some (.external (1, 1)))) .nil))] =
      ([.cons (.plain true (some (.inline 10))) (.cons (.plain true none)
        (.cons (.plain true (some (.external (1, 1)))) .nil))], some e) :=
  ⟨exWrite, .unsupported (1, 2), rfl⟩

/-! ### Reading -/

/-- The program before any subgraph is read. -/
def start (base : List Link) : State := ⟨base, fun _ => none⟩

theorem start_inv (base : List Link) : Inv (start base) base [] [] :=
  ⟨by simp [start, joined], by simp, fun id w => by simp [start], fun id _ => .inl ⟨rfl, rfl⟩⟩

/-- Reading subgraphs succeeds exactly if no identifier has two sources. The links are then those inside the
subgraphs, those of the wires found, and one between each source and each target with the same identifier. The
targets are nodes of the envelopes. -/
theorem C71_links (base : List Link) (ps : List ((Node → Node) × Payload)) :
    ((insertAll (start base) ps).isSome ↔ ((sourcesOf ps).map Prod.fst).Nodup) ∧
      ∀ s, insertAll (start base) ps = some s →
        Perm s.links (base ++ ps.flatMap (fun x => direct x.1 x.2) ++ joined (sourcesOf ps) (targetsOf ps)) := by
  obtain ⟨h1, h2⟩ := (start_inv base).all ps
  simp only [List.nil_append] at h1 h2
  by_cases hn : ((sourcesOf ps).map Prod.fst).Nodup
  · obtain ⟨s, e, h⟩ := h1 hn
    rw [e]
    refine ⟨⟨fun _ => hn, fun _ => rfl⟩, fun s' hs => ?_⟩
    cases hs
    exact h.links
  · rw [h2 hn]
    refine ⟨⟨fun h => absurd h (by simp), fun h => absurd h hn⟩, fun s hs => ?_⟩
    cases hs

theorem joined_perm {a b : List (Edge × Wire)} {c d : List (Edge × (Node × Nat))} (h : Perm a b) (h' : Perm c d) :
    Perm (joined a c) (joined b d) := by
  have h1 : Perm (joined a c) (joined b c) := h.flatMap_right _
  refine h1.trans ?_
  unfold joined
  clear h1 h a
  induction b with
  | nil => exact .refl _
  | cons s ss ih =>
    simp only [List.flatMap_cons]
    exact ((h'.filter _).map _).append ih

/-- The order in which pytket leaves the barriers does not matter. -/
theorem C71_order (base : List Link) (ps qs : List ((Node → Node) × Payload)) (h : Perm ps qs) :
    ((insertAll (start base) ps).isSome ↔ (insertAll (start base) qs).isSome) ∧
      ∀ s s', insertAll (start base) ps = some s → insertAll (start base) qs = some s' → Perm s.links s'.links := by
  have hs : Perm (sourcesOf ps) (sourcesOf qs) := h.flatMap_right _
  have ht : Perm (targetsOf ps) (targetsOf qs) := h.flatMap_right _
  have hd : Perm (ps.flatMap fun x => direct x.1 x.2) (qs.flatMap fun x => direct x.1 x.2) := h.flatMap_right _
  refine ⟨?_, fun s s' e e' => ?_⟩
  · rw [(C71_links base ps).1, (C71_links base qs).1]
    exact (hs.map Prod.fst).nodup_iff
  · refine ((C71_links base ps).2 s e).trans (List.Perm.trans ?_ ((C71_links base qs).2 s' e').symm)
    exact (List.Perm.append_left _ hd).append (joined_perm hs ht)

/-- What a port of the envelope is linked to, in terms of the program. -/
def localInto (m : Node → Node) (p : Payload) (t : Node × Nat) : List Wire :=
  (p.links.filter fun l => l.dst = t).map (fun l => (m l.src.1, l.src.2)) ++
    p.ins.flatMap fun x => match x.1 with
      | some w => (x.2.2.filter fun u => u = t).map fun _ => w
      | none => []

theorem direct_into (m : Node → Node) (hm : ∀ a b, m a = m b → a = b) (p : Payload) (t : Node × Nat) :
    ((direct m p).filter fun l => l.dst = (m t.1, t.2)).map Link.src = localInto m p t := by
  have key : ∀ u : Node × Nat, ((m u.1, u.2) = (m t.1, t.2)) ↔ u = t := by
    intro u
    constructor
    · intro h
      simp only [Prod.mk.injEq] at h
      exact Prod.ext (hm _ _ h.1) h.2
    · rintro rfl; rfl
  unfold direct localInto
  rw [List.filter_append, List.map_append]
  congr 1
  · rw [List.filter_map, List.map_map]
    congr 1
    apply List.filter_congr
    intro l _
    simp [Function.comp, key]
  · rw [List.filter_flatMap, List.map_flatMap]
    congr 1
    funext x
    cases x.1 with
    | none => rfl
    | some w =>
      simp only [List.filter_map, List.map_map]
      congr 1
      apply List.filter_congr
      intro u _
      simp [Function.comp, key]

/-- If no subgraph has inputs without registers, every port of a subgraph ends with exactly the sources it has
in the envelope and those the decoder found, and the rest of the program is as before. Missing are inputs
without registers. -/
theorem C71_ports_partial (base : List Link) (pre post : List ((Node → Node) × Payload)) (m : Node → Node) (p : Payload)
    (hm : ∀ a b, m a = m b → a = b)
    (hd : ∀ x ∈ pre ++ post, ∀ a b, x.1 a ≠ m b)
    (hb : ∀ l ∈ base, ∀ a, l.dst.1 ≠ m a)
    (hu : ∀ x ∈ pre ++ (m, p) :: post, ∀ y ∈ x.2.ins, y.1.isSome)
    {s : State} (h : insertAll (start base) (pre ++ (m, p) :: post) = some s) (t : Node × Nat) :
    Perm ((s.links.filter fun l => l.dst = (m t.1, t.2)).map Link.src) (localInto m p t) ∧
      ∀ t' : Node × Nat, (∀ x ∈ pre ++ (m, p) :: post, ∀ a, x.1 a ≠ t'.1) →
        Perm ((s.links.filter fun l => l.dst = t').map Link.src)
          ((base.filter fun l => l.dst = t').map Link.src) := by
  have hl := (C71_links base _).2 s h
  have ht : targetsOf (pre ++ (m, p) :: post) = [] := by
    unfold targetsOf
    rw [List.flatMap_eq_nil_iff]
    intro x hx
    rw [List.flatMap_eq_nil_iff]
    intro y hy
    have := hu x hx y hy
    cases hy1 : y.1 with
    | none => rw [hy1] at this; cases this
    | some w => rfl
  rw [ht, joined_nil, List.append_nil] at hl
  have hdst : ∀ x : (Node → Node) × Payload, ∀ l ∈ direct x.1 x.2, ∃ a, l.dst.1 = x.1 a := by
    intro x l hl
    rcases List.mem_append.mp hl with hl | hl
    · obtain ⟨k, -, rfl⟩ := List.mem_map.mp hl
      exact ⟨k.dst.1, rfl⟩
    · obtain ⟨y, -, hl⟩ := List.mem_flatMap.mp hl
      cases hy : y.1 with
      | none => rw [hy] at hl; cases hl
      | some w =>
        rw [hy] at hl
        obtain ⟨k, -, rfl⟩ := List.mem_map.mp hl
        exact ⟨k.1, rfl⟩
  constructor
  · have h1 := (hl.filter fun l => decide (l.dst = (m t.1, t.2))).map Link.src
    refine h1.trans ?_
    have e0 : base.filter (fun l => decide (l.dst = (m t.1, t.2))) = [] := by
      rw [List.filter_eq_nil_iff]
      intro l hl
      simp only [decide_eq_true_eq]
      intro e
      exact hb l hl t.1 (by rw [e])
    have e1 : ∀ xs : List ((Node → Node) × Payload), (∀ x ∈ xs, x ∈ pre ++ post) →
        (xs.flatMap fun x => direct x.1 x.2).filter (fun l => decide (l.dst = (m t.1, t.2))) = [] := by
      intro xs hxs
      rw [List.filter_eq_nil_iff]
      intro l hl
      simp only [decide_eq_true_eq]
      intro e
      obtain ⟨x, hx, hl⟩ := List.mem_flatMap.mp hl
      obtain ⟨a, ha⟩ := hdst x l hl
      rw [e] at ha
      exact hd x (hxs x hx) a t.1 ha.symm
    rw [List.filter_append, e0, List.nil_append, List.flatMap_append, List.flatMap_cons, List.filter_append,
      List.filter_append, e1 pre (fun x hx => List.mem_append_left _ hx),
      e1 post (fun x hx => List.mem_append_right _ hx), List.nil_append, List.append_nil, direct_into m hm]
  · intro t' ht'
    have h1 := (hl.filter fun l => decide (l.dst = t')).map Link.src
    refine h1.trans ?_
    have e1 : ((pre ++ (m, p) :: post).flatMap fun x => direct x.1 x.2).filter (fun l => decide (l.dst = t')) = [] := by
      rw [List.filter_eq_nil_iff]
      intro l hl
      simp only [decide_eq_true_eq]
      intro e
      obtain ⟨x, hx, hl⟩ := List.mem_flatMap.mp hl
      obtain ⟨a, ha⟩ := hdst x l hl
      rw [e] at ha
      exact ht' x hx a ha.symm
    rw [List.filter_append, e1, List.append_nil]

/-- A subgraph of the nodes 4 and 5, with an input to both, read in as the nodes 14 and 15. -/
example : (∀ a b : Nat, a + 10 = b + 10 → a = b) ∧
    ∃ s, insertAll (start [⟨(1, 0), (2, 0)⟩]) [((· + 10), ⟨[⟨(4, 0), (5, 0)⟩], [(some (1, 0), 7, [(4, 0), (5, 1)])],
      [(true, 8, (5, 0))]⟩)] = some s ∧
      s.links = [⟨(1, 0), (2, 0)⟩, ⟨(14, 0), (15, 0)⟩, ⟨(1, 0), (14, 0)⟩, ⟨(1, 0), (15, 1)⟩] :=
  ⟨fun _ _ h => Nat.add_right_cancel h, _, rfl, rfl⟩

/-- A value without registers between two subgraphs is linked to the node of the program that happens to have
the number of the target in its envelope: the target has no source, and the other node has two. -/
theorem C71_targets_not_mapped : ∃ (base : List Link) (a b : Payload) (s : State),
    insertAll (start base) [((· + 10), a), ((· + 20), b)] = some s ∧
    a.outs = [(false, 7, (4, 0))] ∧ b.ins = [(none, 7, [(4, 0)])] ∧
    (s.links.filter fun l => l.dst = (24, 0)) = [] ∧
    (s.links.filter fun l => l.dst = (4, 0)).map Link.src = [(3, 0), (14, 0)] ∧
    base = [⟨(3, 0), (4, 0)⟩] :=
  ⟨[⟨(3, 0), (4, 0)⟩], ⟨[], [], [(false, 7, (4, 0))]⟩, ⟨[], [(none, 7, [(4, 0)])], []⟩, _, rfl, rfl, rfl, rfl, rfl, rfl⟩

/-- Targets whose value is no output of a subgraph are never linked; the inputs of the region are such
values, since only outputs of subgraphs are declared as sources. -/
theorem C71_input_edge_lost (base : List Link) (ps : List ((Node → Node) × Payload)) {s : State}
    (h : insertAll (start base) ps = some s) (id : Edge) (hid : id ∉ (sourcesOf ps).map Prod.fst) (t : Node × Nat)
    (ht : ∀ j, (j, t) ∈ targetsOf ps → j = id)
    (hb : ∀ l ∈ base ++ ps.flatMap (fun x => direct x.1 x.2), l.dst ≠ t) : ∀ l ∈ s.links, l.dst ≠ t := by
  intro l hl e
  have := ((C71_links base ps).2 s h).mem_iff.mp hl
  rcases List.mem_append.mp this with hl | hl
  · exact hb l hl e
  · obtain ⟨x, hx, hl⟩ := List.mem_flatMap.mp hl
    obtain ⟨u, hu, rfl⟩ := List.mem_map.mp hl
    obtain ⟨hu1, hu2⟩ := List.mem_filter.mp hu
    have h1 : u.1 = x.1 := by simpa using hu2
    simp only at e
    have h2 := ht u.1 (by rw [← e]; exact hu1)
    rw [h1] at h2
    rw [← h2] at hid
    exact hid (List.mem_map_of_mem hx)

example : ∃ s, insertAll (start [⟨(1, 0), (2, 0)⟩]) [((· + 10), ⟨[], [(none, 7, [(4, 0)])], []⟩)] = some s ∧
    s.links = [⟨(1, 0), (2, 0)⟩] := ⟨_, rfl, rfl⟩

end Verif.Inline
