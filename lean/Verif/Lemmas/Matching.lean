import Verif.Model.MatchingSpec

/-
Lemmas on patterns and matches.
-/
namespace Verif.Matching

/-! ### Consumers -/

theorem mem_fedPorts {s : Nat × Nat} {m : Nat} : ∀ {l : List (Nat × Nat)} {j : Nat} {x : Nat × Nat},
    x ∈ fedPorts s m j l ↔ x.1 = m ∧ ∃ i, x.2 = j + i ∧ l[i]? = some s
  | [], j, x => by simp [fedPorts]
  | y :: l, j, x => by
    have ih := @mem_fedPorts s m l (j + 1) x
    rw [fedPorts]
    have step : (∃ i, x.2 = j + i ∧ (y :: l)[i]? = some s) ↔
        (x.2 = j ∧ y = s) ∨ ∃ i, x.2 = j + 1 + i ∧ l[i]? = some s := by
      constructor
      · rintro ⟨i, h1, h2⟩
        cases i with
        | zero => left; simp at h2; exact ⟨by omega, h2⟩
        | succ i => right; exact ⟨i, by omega, by simpa using h2⟩
      · rintro (⟨h1, h2⟩ | ⟨i, h1, h2⟩)
        · exact ⟨0, by omega, by simp [h2]⟩
        · exact ⟨i + 1, by omega, by simpa using h2⟩
    rw [step]
    by_cases hy : y = s
    · rw [if_pos hy, List.mem_cons, ih]
      constructor
      · rintro (h | ⟨h1, h2⟩)
        · subst h; exact ⟨rfl, Or.inl ⟨rfl, hy⟩⟩
        · exact ⟨h1, Or.inr h2⟩
      · rintro ⟨h1, (⟨h2, _⟩ | h2)⟩
        · left; exact Prod.ext h1 h2
        · exact Or.inr ⟨h1, h2⟩
    · rw [if_neg hy, ih]
      constructor
      · rintro ⟨h1, h2⟩; exact ⟨h1, Or.inr h2⟩
      · rintro ⟨h1, (⟨_, h2⟩ | h2)⟩
        · exact absurd h2 hy
        · exact ⟨h1, h2⟩

theorem mem_consumers {c : Circ} {n p m k : Nat} :
    (m, k) ∈ consumers c n p ↔ m ∈ c.members ∧ (c.ins m)[k]? = some (n, p) := by
  simp only [consumers, List.mem_flatMap, mem_fedPorts]
  constructor
  · rintro ⟨m', h1, rfl, i, h2, h3⟩
    simp only [Nat.zero_add] at h2
    subst h2
    exact ⟨h1, h3⟩
  · rintro ⟨h1, h2⟩
    exact ⟨m, h1, rfl, k, by simp, h2⟩

/-! ### Edges of patterns -/

/-- The form of edges. -/
theorem edgeOf_some {c : Circ} {n k : Nat} {e : Edge} (h : edgeOf c n k = some e) :
    ∃ s, (c.ins n)[k]? = some s ∧
      ((s.1 = c.inp ∧ e = ⟨.node n, .copy s.1 s.2, .input (.inc k)⟩) ∨
        (s.1 ≠ c.inp ∧ ∃ rev, (rev = true → (c.op n).kinds[k]? = some .linear) ∧
          e = ⟨.node n, .node s.1, .internal (.inc k) (.outg s.2) rev⟩)) := by
  simp only [edgeOf, tryFromPort] at h
  cases hs : (c.ins n)[k]? with
  | none => rw [hs] at h; simp at h
  | some s =>
    obtain ⟨m, p⟩ := s
    rw [hs] at h
    refine ⟨(m, p), rfl, ?_⟩
    simp only at h ⊢
    by_cases hm : m = c.inp
    · rw [if_pos hm] at h
      simp at h
      exact Or.inl ⟨hm, h.symm⟩
    · rw [if_neg hm] at h
      refine Or.inr ⟨hm, ?_⟩
      cases hk : (c.op n).kinds[k]? with
      | none => rw [hk] at h; simp at h
      | some kd =>
        rw [hk] at h
        cases kd with
        | linear => simp at h; exact ⟨true, fun _ => rfl, h.symm⟩
        | copy => simp at h; exact ⟨false, fun x => by simp at x, h.symm⟩
        | const => simp at h; exact ⟨false, fun x => by simp at x, h.symm⟩
        | func => simp at h

theorem edgeOf_none {c : Circ} {n k : Nat} (hk : k < (c.ins n).length)
    (hl : (c.ins n).length = (c.op n).kinds.length) :
    edgeOf c n k = none ↔ (c.op n).kinds[k]? = some .func ∧ ∀ p, (c.ins n)[k]? ≠ some (c.inp, p) := by
  have hs : (c.ins n)[k]? = some (c.ins n)[k] := List.getElem?_eq_getElem hk
  have hkd : (c.op n).kinds[k]? = some ((c.op n).kinds[k]'(hl ▸ hk)) :=
    List.getElem?_eq_getElem (hl ▸ hk)
  simp only [edgeOf, tryFromPort, hs]
  generalize (c.ins n)[k] = s at hs
  obtain ⟨m, p⟩ := s
  simp only
  by_cases hm : m = c.inp
  · rw [if_pos hm]
    simp [hm]
  · rw [if_neg hm, hkd]
    generalize (c.op n).kinds[k]'(hl ▸ hk) = kd
    cases kd <;> simp [hm]

theorem edgesOf_spec {c : Circ} {n : Nat} : ∀ {ks : List Nat} {es : List Edge},
    edgesOf c n ks = some es →
      (∀ e, e ∈ es ↔ ∃ k ∈ ks, edgeOf c n k = some e) ∧ ∀ k ∈ ks, ∃ e, edgeOf c n k = some e
  | [], es, h => by simp [edgesOf] at h; subst h; simp
  | k :: ks, es, h => by
    rw [edgesOf] at h
    cases he : edgeOf c n k with
    | none => rw [he] at h; simp at h
    | some e =>
      rw [he] at h
      cases hes : edgesOf c n ks with
      | none => rw [hes] at h; simp at h
      | some es' =>
        rw [hes] at h
        simp at h
        subst h
        have ih := edgesOf_spec hes
        constructor
        · intro e'
          rw [List.mem_cons, ih.1 e']
          constructor
          · rintro (rfl | ⟨k', h1, h2⟩)
            · exact ⟨k, by simp, he⟩
            · exact ⟨k', by simp [h1], h2⟩
          · rintro ⟨k', h1, h2⟩
            rcases List.mem_cons.mp h1 with rfl | h1
            · rw [he] at h2; simp at h2; exact Or.inl h2.symm
            · exact Or.inr ⟨k', h1, h2⟩
        · intro k' hk'
          rcases List.mem_cons.mp hk' with rfl | h1
          · exact ⟨e, he⟩
          · exact ih.2 k' h1

theorem edgesOf_none {c : Circ} {n : Nat} : ∀ {ks : List Nat},
    edgesOf c n ks = none ↔ ∃ k ∈ ks, edgeOf c n k = none
  | [] => by simp [edgesOf]
  | k :: ks => by
    rw [edgesOf]
    cases he : edgeOf c n k with
    | none => simp [he]
    | some e =>
      have ih := @edgesOf_none c n ks
      simp only [Option.bind_some, Option.map_eq_none_iff, ih, List.mem_cons]
      constructor
      · rintro ⟨k', h1, h2⟩; exact ⟨k', Or.inr h1, h2⟩
      · rintro ⟨k', (rfl | h1), h2⟩
        · rw [he] at h2; simp at h2
        · exact ⟨k', h1, h2⟩

theorem addCmds_spec {c : Circ} : ∀ {ns : List Nat} {p : Pattern}, addCmds c ns = some p →
      p.requires = ns.map (fun n => (n, c.op n)) ∧
      (∀ e, e ∈ p.edges ↔ ∃ n ∈ ns, ∃ k, k < (c.op n).kinds.length ∧ edgeOf c n k = some e) ∧
      ∀ n ∈ ns, ∀ k, k < (c.op n).kinds.length → ∃ e, edgeOf c n k = some e
  | [], p, h => by simp [addCmds] at h; subst h; simp
  | n :: ns, p, h => by
    rw [addCmds] at h
    cases he : edgesOf c n (List.range (c.op n).kinds.length) with
    | none => rw [he] at h; simp at h
    | some es =>
      rw [he] at h
      cases hp : addCmds c ns with
      | none => rw [hp] at h; simp at h
      | some p' =>
        rw [hp] at h
        simp at h
        subst h
        have ih := addCmds_spec hp
        have hs := edgesOf_spec he
        refine ⟨by simp [ih.1], ?_, ?_⟩
        · intro e
          simp only [List.mem_append, hs.1, ih.2.1, List.mem_range, List.mem_cons]
          constructor
          · rintro (⟨k, h1, h2⟩ | ⟨n', h1, h2⟩)
            · exact ⟨n, Or.inl rfl, k, h1, h2⟩
            · exact ⟨n', Or.inr h1, h2⟩
          · rintro ⟨n', (rfl | h1), h2⟩
            · exact Or.inl h2
            · exact Or.inr ⟨n', h1, h2⟩
        · intro n' hn' k hk
          rcases List.mem_cons.mp hn' with rfl | h1
          · exact hs.2 k (List.mem_range.mpr hk)
          · exact ih.2.2 n' h1 k hk

theorem addCmds_none {c : Circ} : ∀ {ns : List Nat}, addCmds c ns = none ↔
      ∃ n ∈ ns, ∃ k, k < (c.op n).kinds.length ∧ edgeOf c n k = none
  | [] => by simp [addCmds]
  | n :: ns => by
    rw [addCmds]
    have ih := @addCmds_none c ns
    cases he : edgesOf c n (List.range (c.op n).kinds.length) with
    | none =>
      obtain ⟨k, h1, h2⟩ := edgesOf_none.mp he
      simp only [Option.bind_none, true_iff]
      exact ⟨n, by simp, k, List.mem_range.mp h1, h2⟩
    | some es =>
      simp only [Option.bind_some, Option.map_eq_none_iff, ih, List.mem_cons]
      constructor
      · rintro ⟨n', h1, h2⟩; exact ⟨n', Or.inr h1, h2⟩
      · rintro ⟨n', (rfl | h1), k, h2, h3⟩
        · obtain ⟨e, h4⟩ := (edgesOf_spec he).2 k (List.mem_range.mpr h2)
          rw [h3] at h4; simp at h4
        · exact ⟨n', h1, k, h2, h3⟩

/-! ### Maps -/

theorem hasValue_iff {m : Map} {v : NodeID} : hasValue m v = true ↔ ∃ k, (k, v) ∈ m := by
  simp only [hasValue, List.any_eq_true, decide_eq_true_eq]
  constructor
  · rintro ⟨x, h1, h2⟩; exact ⟨x.1, by rw [← h2]; exact h1⟩
  · rintro ⟨k, h⟩; exact ⟨(k, v), h, rfl⟩

theorem lookup_mem : ∀ {m : Map} {k v : NodeID}, lookup m k = some v → (k, v) ∈ m
  | [], k, v, h => by simp [lookup] at h
  | (k', v') :: m, k, v, h => by
    rw [lookup] at h
    by_cases hk : k' = k
    · rw [if_pos hk] at h; simp at h; subst hk h; simp
    · rw [if_neg hk] at h; exact List.mem_cons_of_mem _ (lookup_mem h)

theorem lookup_of_mem : ∀ {m : Map} {k v : NodeID}, (m.map Prod.fst).Nodup → (k, v) ∈ m →
    lookup m k = some v
  | (k', v') :: m, k, v, hd, h => by
    rw [List.map_cons, List.nodup_cons] at hd
    rw [lookup]
    rcases List.mem_cons.mp h with h | h
    · simp at h; rw [if_pos h.1.symm, h.2]
    · rw [if_neg, lookup_of_mem hd.2 h]
      rintro rfl
      exact hd.1 (List.mem_map.mpr ⟨_, h, rfl⟩)

theorem lookup_none : ∀ {m : Map} {k : NodeID}, lookup m k = none → k ∉ m.map Prod.fst
  | [], k, _ => by simp
  | (k', v') :: m, k, h => by
    rw [lookup] at h
    by_cases hk : k' = k
    · rw [if_pos hk] at h; simp at h
    · rw [if_neg hk] at h
      rw [List.map_cons, List.mem_cons]
      rintro (h1 | h1)
      · exact hk h1.symm
      · exact lookup_none h h1

/-- Invariant of maps: keys and values occur once; nodes go to nodes and copies to copies; nodes are
nodes of the circuit. -/
structure Good (c : Circ) (m : Map) : Prop where
  keys : (m.map Prod.fst).Nodup
  vals : (m.map Prod.snd).Nodup
  nodes : ∀ n v, (NodeID.node n, v) ∈ m → ∃ x, v = .node x ∧ (x ∈ c.members ∨ x = c.inp)
  copies : ∀ n p v, (NodeID.copy n p, v) ∈ m → ∃ x y, v = .copy x y

/-- The targets of the edge are of the kind of the edge. -/
def EdgeKind (e : Edge) : Prop :=
  match e.prop with
  | .internal .. => ∃ n, e.dst = .node n
  | .input _ => ∃ n p, e.dst = .copy n p

theorem linked_mem {c : Circ} (hc : c.WF) {n : Nat} (hn : n ∈ c.members ∨ n = c.inp) {q : Port}
    {m : Nat} {q' : Port} (h : (m, q') ∈ linked c n q) : m ∈ c.members ∨ m = c.inp := by
  cases q with
  | inc k =>
    rw [linked] at h
    cases hs : (c.ins n)[k]? with
    | none => rw [hs] at h; simp at h
    | some s =>
      obtain ⟨m', p⟩ := s
      rw [hs] at h
      simp at h
      rcases hn with hn | rfl
      · have := hc.sources n hn _ (List.mem_of_getElem? hs)
        rw [h.1]; exact this
      · rw [hc.inp] at hs; simp at hs
  | outg p =>
    simp only [linked, List.mem_map] at h
    obtain ⟨x, h1, h2⟩ := h
    simp at h2
    obtain ⟨a, b⟩ := x
    have := (mem_consumers.mp h1).1
    left
    rw [← h2.1]
    exact this

theorem validateEdge_kind {c : Circ} (hc : c.WF) {n : Nat} (hn : n ∈ c.members ∨ n = c.inp)
    {e : PEdge} {v : NodeID} (h : validateEdge c (.node n) e = some v) :
    (∃ a b r, e = .internal a b r ∧ ∃ x, v = .node x ∧ (x ∈ c.members ∨ x = c.inp)) ∨
    (∃ a, e = .input a ∧ ∃ x y, v = .copy x y) := by
  cases e with
  | internal a b r =>
    left
    refine ⟨a, b, r, rfl, ?_⟩
    simp only [validateEdge] at h
    split at h
    · rename_i m q hl
      split at h
      · simp at h
        refine ⟨m, h.symm, linked_mem hc hn (q := a) (q' := q) (by rw [hl]; simp)⟩
      · simp at h
    · simp at h
  | input a =>
    right
    refine ⟨a, rfl, ?_⟩
    simp only [validateEdge] at h
    split at h
    · simp at h; exact ⟨_, _, h.symm⟩
    · simp at h

/-- One step keeps the invariant and the map, and the edge holds after it. -/
theorem follow_spec {c : Circ} (hc : c.WF) {m m' : Map} {e : Edge} (hm : Good c m)
    (hk : EdgeKind e) (h : follow c m e = some m') :
    Good c m' ∧ (∀ x v, lookup m x = some v → lookup m' x = some v) ∧
      (∃ a b, lookup m' e.src = some a ∧ lookup m' e.dst = some b ∧
        validateEdge c a e.prop = some b) := by
  rw [follow] at h
  cases hs : lookup m e.src with
  | none => rw [hs] at h; simp at h
  | some s =>
    rw [hs, Option.bind_some] at h
    cases hv : validateEdge c s e.prop with
    | none => rw [hv] at h; simp at h
    | some v =>
      rw [hv, Option.bind_some] at h
      cases hd : lookup m e.dst with
      | some v' =>
        rw [hd] at h
        by_cases hvv : v' = v
        · simp [hvv] at h
          subst h
          exact ⟨hm, fun _ _ h => h, s, v, hs, by rw [hd, hvv], hv⟩
        · simp [hvv] at h
      | none =>
        rw [hd] at h
        by_cases hh : hasValue m v = true
        · simp [hh] at h
        · simp [hh] at h
          subst h
          have hnk := lookup_none hd
          have hnv : v ∉ m.map Prod.snd := by
            intro hx
            obtain ⟨y, h1, h2⟩ := List.mem_map.mp hx
            exact hh (hasValue_iff.mpr ⟨y.1, by rw [← h2]; exact h1⟩)
          have hsrc : ∃ n, s = .node n ∧ (n ∈ c.members ∨ n = c.inp) := by
            cases s with
            | copy => simp [validateEdge] at hv
            | node n =>
              refine ⟨n, rfl, ?_⟩
              have hmem := lookup_mem hs
              cases hes : e.src with
              | node k =>
                rw [hes] at hmem
                obtain ⟨x, h1, h2⟩ := hm.nodes _ _ hmem
                simp at h1; subst h1; exact h2
              | copy k p =>
                rw [hes] at hmem
                obtain ⟨x, y, h1⟩ := hm.copies _ _ _ hmem
                simp at h1
          obtain ⟨n, rfl, hn⟩ := hsrc
          have hkind := validateEdge_kind hc hn hv
          have hkeep : ∀ x v', lookup m x = some v' →
              lookup ((e.dst, v) :: m) x = some v' := by
            intro x v' hx
            rw [lookup, if_neg, hx]
            rintro rfl
            rw [hd] at hx; simp at hx
          refine ⟨⟨?_, ?_, ?_, ?_⟩, hkeep, .node n, v, hkeep _ _ hs, ?_, hv⟩
          · rw [List.map_cons, List.nodup_cons]; exact ⟨hnk, hm.keys⟩
          · rw [List.map_cons, List.nodup_cons]; exact ⟨hnv, hm.vals⟩
          · intro k v' hx
            rcases List.mem_cons.mp hx with hx | hx
            · simp at hx
              obtain ⟨hx1, rfl⟩ := hx
              rcases hkind with ⟨a, b, r, _, x, h1, h2⟩ | ⟨a, he, _⟩
              · exact ⟨x, h1, h2⟩
              · rw [EdgeKind, he] at hk
                obtain ⟨y, z, hk⟩ := hk
                rw [hk] at hx1; simp at hx1
            · exact hm.nodes k v' hx
          · intro k p v' hx
            rcases List.mem_cons.mp hx with hx | hx
            · simp at hx
              obtain ⟨hx1, rfl⟩ := hx
              rcases hkind with ⟨a, b, r, he, _⟩ | ⟨a, _, x, y, h1⟩
              · rw [EdgeKind, he] at hk
                obtain ⟨y, hk⟩ := hk
                rw [hk] at hx1; simp at hx1
              · exact ⟨x, y, h1⟩
            · exact hm.copies k p v' hx
          · rw [lookup, if_pos rfl]

theorem followAll_spec {c : Circ} (hc : c.WF) : ∀ {es : List Edge} {m m' : Map}, Good c m →
    (∀ e ∈ es, EdgeKind e) → followAll c m es = some m' →
    Good c m' ∧ (∀ x v, lookup m x = some v → lookup m' x = some v) ∧
      ∀ e ∈ es, ∃ a b, lookup m' e.src = some a ∧ lookup m' e.dst = some b ∧
        validateEdge c a e.prop = some b
  | [], m, m', hm, _, h => by
    simp [followAll] at h; subst h
    exact ⟨hm, fun _ _ h => h, by simp⟩
  | e :: es, m, m', hm, hk, h => by
    rw [followAll] at h
    cases hf : follow c m e with
    | none => rw [hf] at h; simp at h
    | some m1 =>
      rw [hf, Option.bind_some] at h
      obtain ⟨g1, k1, a, b, h1, h2, h3⟩ := follow_spec hc hm (hk e (by simp)) hf
      obtain ⟨g2, k2, h4⟩ := followAll_spec hc g1 (fun e he => hk e (by simp [he])) h
      refine ⟨g2, fun x v hx => k2 _ _ (k1 _ _ hx), ?_⟩
      intro e' he'
      rcases List.mem_cons.mp he' with rfl | he'
      · exact ⟨a, b, k2 _ _ h1, k2 _ _ h2, h3⟩
      · exact h4 e' he'

theorem Edge.reverse_some {e r : Edge} (h : e.reverse = some r) :
    ∃ a b, e.prop = .internal a b true ∧ r = ⟨e.dst, e.src, .internal b a true⟩ := by
  obtain ⟨s, d, p⟩ := e
  cases p with
  | internal a b rev =>
    cases rev with
    | true => simp [Edge.reverse, PEdge.reverse] at h; exact ⟨a, b, rfl, h.symm⟩
    | false => simp [Edge.reverse, PEdge.reverse] at h
  | input a => simp [Edge.reverse, PEdge.reverse] at h

/-- Edges of a pattern are of the kind of their target, in both directions. -/
theorem pattern_kind {c : Circ} {p : Pattern} (hp : addCmds c c.cmds = some p) {w : Walk}
    (hw : w.Valid p) : ∀ e ∈ w.edges, EdgeKind e := by
  intro e he
  obtain ⟨_, h1, _⟩ := addCmds_spec hp
  have key : ∀ e ∈ p.edges, EdgeKind e ∧ ∃ n, e.src = .node n := by
    intro e he
    obtain ⟨n, _, k, _, h2⟩ := (h1 e).mp he
    obtain ⟨s, _, (⟨_, rfl⟩ | ⟨_, r, _, rfl⟩)⟩ := edgeOf_some h2
    · exact ⟨⟨_, _, rfl⟩, _, rfl⟩
    · exact ⟨⟨_, rfl⟩, _, rfl⟩
  rcases hw.edges e he with h | ⟨e', h, hr⟩
  · exact (key e h).1
  · obtain ⟨a, b, _, rfl⟩ := Edge.reverse_some hr
    obtain ⟨n, hn⟩ := (key e' h).2
    exact ⟨n, hn⟩

/-! ### Found maps are copies -/

/-- The node for a node of the pattern. -/
def nodeOf (m : Map) (n : Nat) : Nat :=
  match lookup m (.node n) with
  | some (.node v) => v
  | _ => 0

/-- The wire for an input of the pattern. -/
def wireOf (m : Map) (i n : Nat) : Nat × Nat :=
  match lookup m (.copy i n) with
  | some (.copy x y) => (x, y)
  | _ => (0, 0)

theorem good_init (c : Circ) {a r : Nat} (hr : r ∈ c.members) :
    Good c [(.node a, .node r)] := by
  refine ⟨by simp, by simp, ?_, ?_⟩
  · intro n v h
    simp at h
    exact ⟨r, h.2, Or.inl hr⟩
  · intro n p v h
    simp at h

theorem good_inj {c : Circ} {m : Map} (hm : Good c m) {x y v : NodeID} (hx : lookup m x = some v)
    (hy : lookup m y = some v) : x = y := by
  have h1 := lookup_mem hx
  have h2 := lookup_mem hy
  have : ∀ (m : Map), (m.map Prod.snd).Nodup → (x, v) ∈ m → (y, v) ∈ m → x = y := by
    intro m
    induction m with
    | nil => intro _ h; simp at h
    | cons z m ih =>
      intro hd h1 h2
      rw [List.map_cons, List.nodup_cons] at hd
      rcases List.mem_cons.mp h1 with h1 | h1 <;> rcases List.mem_cons.mp h2 with h2 | h2
      · rw [← h2] at h1; simp at h1; exact h1
      · rw [← h1] at hd; exact absurd (List.mem_map.mpr ⟨_, h2, rfl⟩) hd.1
      · rw [← h2] at hd; exact absurd (List.mem_map.mpr ⟨_, h1, rfl⟩) hd.1
      · exact ih hd.2 h1 h2
  exact this m hm.vals h1 h2

/-- A found map is a copy of the pattern. -/
theorem matchAll_copy {P C : Circ} {cp : CPattern} (hP : P.WF) (hcl : P.Closed)
    (hp : addCmds P P.cmds = some cp.pattern) (hw : cp.walk.Valid cp.pattern) (hC : C.WF)
    (hio : NoIO P C) {r : Nat} (hr : r ∈ C.members) {m : Map} (h : matchAll C cp r = some m) :
    Good C m ∧ Copy P C (nodeOf m) (wireOf m P.inp) ∧ nodeOf m cp.walk.root = r ∧
      ∀ n ∈ P.cmds, lookup m (.node n) = some (.node (nodeOf m n)) := by
  rw [matchAll] at h
  cases hf : followAll C [(.node cp.walk.root, .node r)] cp.walk.edges with
  | none => rw [hf] at h; simp at h
  | some m1 =>
    rw [hf, Option.bind_some] at h
    split at h
    · rename_i hreq
      simp at h
      subst h
      obtain ⟨hg, hkeep, hedges⟩ := followAll_spec hC (good_init C hr) (pattern_kind hp hw) hf
      obtain ⟨hreq1, hpe, hpt⟩ := addCmds_spec hp
      rw [List.all_eq_true] at hreq
      have hnode : ∀ n ∈ P.cmds, ∃ v, lookup m1 (.node n) = some (.node v) ∧ C.op v = P.op n ∧
          (v ∈ C.members ∨ v = C.inp) := by
        intro n hn
        have := hreq (n, P.op n) (by rw [hreq1]; exact List.mem_map.mpr ⟨n, hn, rfl⟩)
        simp only at this
        cases hl : lookup m1 (.node n) with
        | none => rw [hl] at this; simp at this
        | some v =>
          rw [hl] at this
          obtain ⟨x, rfl, hx⟩ := hg.nodes _ _ (lookup_mem hl)
          simp [validateNode] at this
          exact ⟨x, rfl, this, hx⟩
      have hnode' : ∀ n ∈ P.cmds, lookup m1 (.node n) = some (.node (nodeOf m1 n)) := by
        intro n hn
        obtain ⟨v, h1, _⟩ := hnode n hn
        rw [nodeOf, h1]
      -- edges hold in the circuit
      have hint : ∀ n ∈ P.cmds, ∀ (k : Nat) (s : Nat × Nat), (P.ins n)[k]? = some s → s.1 ≠ P.inp →
          (C.ins (nodeOf m1 n))[k]? = some (nodeOf m1 s.1, s.2) := by
        intro n hn k s hs hsi
        have hkl : k < (P.op n).kinds.length := by
          rw [← hP.length n (hP.cmds n hn).1]
          exact (List.getElem?_eq_some_iff.mp hs).1
        obtain ⟨e, he⟩ := hpt n hn k hkl
        have hmem : e ∈ cp.pattern.edges := (hpe e).mpr ⟨n, hn, k, hkl, he⟩
        obtain ⟨s', hs', hform⟩ := edgeOf_some he
        rw [hs] at hs'
        simp at hs'
        subst hs'
        rcases hform with ⟨h1, _⟩ | ⟨_, rev, _, rfl⟩
        · exact absurd h1 hsi
        · have hsc : s.1 ∈ P.cmds :=
            (hcl n hn s (List.mem_of_getElem? hs)).resolve_right hsi
          rcases hw.covers _ hmem with h1 | ⟨r', h1, h2⟩
          · obtain ⟨a, b, h3, h4, h5⟩ := hedges _ h1
            simp only [hnode' n hn, hnode' s.1 hsc, Option.some.injEq] at h3 h4
            subst h3 h4
            simp only [validateEdge, linked] at h5
            cases hc : (C.ins (nodeOf m1 n))[k]? with
            | none => rw [hc] at h5; simp at h5
            | some x =>
              obtain ⟨x, y⟩ := x
              rw [hc] at h5
              simp at h5
              rw [h5.1, h5.2]
          · obtain ⟨a', b', h2a, rfl⟩ := Edge.reverse_some h2
            simp only [PEdge.internal.injEq] at h2a
            obtain ⟨rfl, rfl, _⟩ := h2a
            obtain ⟨a, b, h3, h4, h5⟩ := hedges _ h1
            simp only [hnode' n hn, hnode' s.1 hsc, Option.some.injEq] at h3 h4
            subst h3 h4
            simp only [validateEdge] at h5
            split at h5
            · rename_i x q hl
              split at h5
              · rename_i hq
                subst hq
                simp at h5
                subst h5
                have : (nodeOf m1 n, Port.inc k) ∈ linked C (nodeOf m1 s.1) (.outg s.2) := by
                  rw [hl]; simp
                simp only [linked, List.mem_map] at this
                obtain ⟨x, h6, h7⟩ := this
                obtain ⟨x, y⟩ := x
                simp at h7
                obtain ⟨rfl, rfl⟩ := h7
                exact (mem_consumers.mp h6).2
              · simp at h5
            · simp at h5
      have hinp : ∀ n ∈ P.cmds, ∀ (k : Nat) (s : Nat × Nat), (P.ins n)[k]? = some s → s.1 = P.inp →
          lookup m1 (.copy P.inp s.2) = some (.copy (wireOf m1 P.inp s.2).1 (wireOf m1 P.inp s.2).2) ∧
          (C.ins (nodeOf m1 n))[k]? = some (wireOf m1 P.inp s.2) := by
        intro n hn k s hs hsi
        have hkl : k < (P.op n).kinds.length := by
          rw [← hP.length n (hP.cmds n hn).1]
          exact (List.getElem?_eq_some_iff.mp hs).1
        obtain ⟨e, he⟩ := hpt n hn k hkl
        have hmem : e ∈ cp.pattern.edges := (hpe e).mpr ⟨n, hn, k, hkl, he⟩
        obtain ⟨s', hs', hform⟩ := edgeOf_some he
        rw [hs] at hs'
        simp at hs'
        subst hs'
        rcases hform with ⟨_, rfl⟩ | ⟨h1, _⟩
        · rcases hw.covers _ hmem with h1 | ⟨r', h1, h2⟩
          · obtain ⟨a, b, h3, h4, h5⟩ := hedges _ h1
            simp only [hnode' n hn, Option.some.injEq] at h3 h4
            subst h3
            simp only [validateEdge, linked] at h5
            cases hc : (C.ins (nodeOf m1 n))[k]? with
            | none => rw [hc] at h5; simp at h5
            | some x =>
              obtain ⟨x, y⟩ := x
              rw [hc] at h5
              simp at h5
              subst h5
              have : wireOf m1 P.inp s.2 = (x, y) := by
                rw [wireOf, ← hsi, h4]
              rw [this, ← hsi]
              exact ⟨h4, rfl⟩
          · obtain ⟨a', b', h2a, _⟩ := Edge.reverse_some h2
            simp at h2a
        · exact absurd hsi h1
      refine ⟨hg, ⟨?_, ?_, ?_, hint, fun n hn k s hs hsi => (hinp n hn k s hs hsi).2, ?_⟩, ?_, hnode'⟩
      · intro n hn
        obtain ⟨v, h1, h2, h3⟩ := hnode n hn
        have hv : nodeOf m1 n = v := by rw [nodeOf, h1]
        rw [hv]
        have hne := hio n hn
        rw [← h2] at hne
        have hi : v ≠ C.inp := fun h => hne.1 (by rw [h])
        have ho : v ≠ C.out := fun h => hne.2 (by rw [h])
        exact ⟨h3.resolve_right hi, hi, ho⟩
      · intro n hn n' hn' he
        have h1 := hnode' n hn
        have h2 := hnode' n' hn'
        rw [he] at h1
        have := good_inj hg h1 h2
        simpa using this
      · intro n hn
        obtain ⟨v, h1, h2, h3⟩ := hnode n hn
        rw [nodeOf, h1]; exact h2
      · intro n hn n' hn' i i' hi hi' he
        obtain ⟨k, hk⟩ := List.getElem?_of_mem hi
        obtain ⟨k', hk'⟩ := List.getElem?_of_mem hi'
        have h1 := (hinp n hn k _ hk rfl).1
        have h2 := (hinp n' hn' k' _ hk' rfl).1
        simp only at h1 h2
        rw [he] at h1
        have := good_inj hg h1 h2
        simpa using this
      · have : lookup m1 (.node cp.walk.root) = some (.node r) := hkeep _ _ (by simp [lookup])
        rw [nodeOf, this]
    · simp at h

/-! ### Copies are found -/

/-- The image of nodes and copies. -/
def image (f : Nat → Nat) (w : Nat → Nat × Nat) : NodeID → NodeID
  | .node n => .node (f n)
  | .copy _ i => .copy (w i).1 (w i).2

/-- Nodes and used inputs of a pattern. -/
def inPattern (P : Circ) : NodeID → Prop
  | .node n => n ∈ P.cmds
  | .copy n i => n = P.inp ∧ ∃ x ∈ P.cmds, (P.inp, i) ∈ P.ins x

theorem image_inj {P C : Circ} {f : Nat → Nat} {w : Nat → Nat × Nat} (hc : Copy P C f w)
    {x y : NodeID} (hx : inPattern P x) (hy : inPattern P y) (h : image f w x = image f w y) :
    x = y := by
  cases x with
  | node a =>
    cases y with
    | node b => simp [image] at h; rw [hc.inj a hx b hy h]
    | copy b i => simp [image] at h
  | copy a i =>
    cases y with
    | node b => simp [image] at h
    | copy b j =>
      simp [image] at h
      obtain ⟨rfl, n, hn, hi⟩ := hx
      obtain ⟨rfl, n', hn', hj⟩ := hy
      rw [hc.inputInj n hn n' hn' i j hi hj (Prod.ext h.1 h.2)]

theorem walk_edge {P C : Circ} {cp : CPattern} (hcl : P.Closed)
    (hp : addCmds P P.cmds = some cp.pattern) (hw : cp.walk.Valid cp.pattern) (hC : C.WF)
    {f : Nat → Nat} {w : Nat → Nat × Nat} (hc : Copy P C f w) {e : Edge} (he : e ∈ cp.walk.edges) :
    inPattern P e.src ∧ inPattern P e.dst ∧
      validateEdge C (image f w e.src) e.prop = some (image f w e.dst) := by
  obtain ⟨_, hpe, _⟩ := addCmds_spec hp
  have key : ∀ e ∈ cp.pattern.edges, inPattern P e.src ∧ inPattern P e.dst ∧
      validateEdge C (image f w e.src) e.prop = some (image f w e.dst) ∧
      ∀ r, e.reverse = some r → validateEdge C (image f w r.src) r.prop = some (image f w r.dst) := by
    intro e he
    obtain ⟨n, hn, k, hk, h2⟩ := (hpe e).mp he
    obtain ⟨s, hs, (⟨hsi, rfl⟩ | ⟨hsi, rev, hrev, rfl⟩)⟩ := edgeOf_some h2
    · refine ⟨hn, ⟨hsi, n, hn, ?_⟩, ?_, ?_⟩
      · have := List.mem_of_getElem? hs
        rw [← hsi]; exact this
      · have := hc.input n hn k s hs hsi
        simp [image, validateEdge, linked, this]
      · intro r hr
        obtain ⟨a, b, h, _⟩ := Edge.reverse_some hr
        simp at h
    · have hsc : s.1 ∈ P.cmds := (hcl n hn s (List.mem_of_getElem? hs)).resolve_right hsi
      have hedge := hc.edge n hn k s hs hsi
      refine ⟨hn, hsc, ?_, ?_⟩
      · simp [image, validateEdge, linked, hedge]
      · intro r hr
        obtain ⟨a, b, h, rfl⟩ := Edge.reverse_some hr
        simp only [PEdge.internal.injEq] at h
        obtain ⟨rfl, rfl, h⟩ := h
        have hlin : (C.op (f n)).kinds[k]? = some .linear := by
          rw [hc.op n hn]; exact hrev h
        have hcons := hC.linear (f n) (hc.members n hn).1 k _ hlin hedge
        simp only at hcons
        simp [image, validateEdge, linked, hcons]
  rcases hw.edges e he with h | ⟨e', h, hr⟩
  · obtain ⟨h1, h2, h3, _⟩ := key e h
    exact ⟨h1, h2, h3⟩
  · obtain ⟨h1, h2, _, h4⟩ := key e' h
    have h5 := h4 e hr
    obtain ⟨a, b, _, rfl⟩ := Edge.reverse_some hr
    exact ⟨h2, h1, h5⟩

/-- The map is part of the image. -/
def Agrees (P : Circ) (f : Nat → Nat) (w : Nat → Nat × Nat) (m : Map) : Prop :=
  ∀ x v, (x, v) ∈ m → inPattern P x ∧ v = image f w x

theorem followAll_agrees {P C : Circ} {f : Nat → Nat} {w : Nat → Nat × Nat} (hc : Copy P C f w) :
    ∀ (es : List Edge) (m : Map) (known : List NodeID),
      (∀ e ∈ es, inPattern P e.src ∧ inPattern P e.dst ∧
        validateEdge C (image f w e.src) e.prop = some (image f w e.dst)) →
      Agrees P f w m → (∀ x ∈ known, (lookup m x).isSome) → Reached known es →
      ∃ m', followAll C m es = some m' ∧ Agrees P f w m' ∧
        (∀ x ∈ known, (lookup m' x).isSome) ∧ ∀ e ∈ es, (lookup m' e.dst).isSome
  | [], m, known, _, ha, hk, _ => ⟨m, rfl, ha, hk, by simp⟩
  | e :: es, m, known, hes, ha, hk, hr => by
    obtain ⟨hr1, hr2⟩ := hr
    obtain ⟨h1, h2, h3⟩ := hes e (by simp)
    obtain ⟨s, hs⟩ := Option.isSome_iff_exists.mp (hk _ hr1)
    have hsv : s = image f w e.src := (ha _ _ (lookup_mem hs)).2
    have hstep : ∃ m1, follow C m e = some m1 ∧ Agrees P f w m1 ∧
        (∀ x ∈ known, (lookup m1 x).isSome) ∧ (lookup m1 e.dst).isSome := by
      rw [follow, hs, Option.bind_some, hsv, h3, Option.bind_some]
      cases hd : lookup m e.dst with
      | some v' =>
        have := (ha _ _ (lookup_mem hd)).2
        refine ⟨m, by simp [this], ha, hk, by rw [hd]; rfl⟩
      | none =>
        have hnv : ¬ hasValue m (image f w e.dst) = true := by
          intro hh
          obtain ⟨x, hx⟩ := hasValue_iff.mp hh
          obtain ⟨hx1, hx2⟩ := ha _ _ hx
          have := image_inj hc h2 hx1 hx2
          rw [← this] at hx
          exact lookup_none hd (List.mem_map.mpr ⟨_, hx, rfl⟩)
        refine ⟨(e.dst, image f w e.dst) :: m, by simp [hnv], ?_, ?_, by simp [lookup]⟩
        · intro x v hx
          rcases List.mem_cons.mp hx with hx | hx
          · simp at hx; rw [hx.1, hx.2]; exact ⟨h2, rfl⟩
          · exact ha x v hx
        · intro x hx
          rw [lookup]
          split
          · rfl
          · exact hk x hx
    obtain ⟨m1, h4, h5, h6, h7⟩ := hstep
    obtain ⟨m2, h8, h9, h10, h11⟩ := followAll_agrees hc es m1 (e.dst :: known)
      (fun e he => hes e (by simp [he])) h5
      (fun x hx => by
        rcases List.mem_cons.mp hx with rfl | hx
        · exact h7
        · exact h6 x hx) hr2
    refine ⟨m2, by rw [followAll, h4, Option.bind_some, h8], h9,
      fun x hx => h10 x (by simp [hx]), ?_⟩
    intro e' he'
    rcases List.mem_cons.mp he' with rfl | he'
    · exact h10 _ (by simp)
    · exact h11 e' he'

/-- A copy is found from the image of the root, with exactly its nodes. -/
theorem copy_matchAll {P C : Circ} {cp : CPattern} (hcl : P.Closed)
    (hp : addCmds P P.cmds = some cp.pattern) (hw : cp.walk.Valid cp.pattern) (hC : C.WF)
    {f : Nat → Nat} {w : Nat → Nat × Nat} (hc : Copy P C f w) :
    ∃ m, matchAll C cp (f cp.walk.root) = some m ∧
      ∀ n ∈ P.cmds, lookup m (.node n) = some (.node (f n)) := by
  obtain ⟨hreq, _, _⟩ := addCmds_spec hp
  have hids : cp.pattern.requires.map Prod.fst = P.cmds := by
    rw [hreq, List.map_map]; exact List.map_id _
  have hroot : cp.walk.root ∈ P.cmds := by rw [← hids]; exact hw.root
  obtain ⟨m, h1, h2, h3, h4⟩ := followAll_agrees hc cp.walk.edges
    [(.node cp.walk.root, .node (f cp.walk.root))] [.node cp.walk.root]
    (fun e he => walk_edge hcl hp hw hC hc he)
    (by
      intro x v h
      simp at h
      rw [h.1, h.2]
      exact ⟨hroot, rfl⟩)
    (by simp [lookup]) hw.reached
  have hl : ∀ n ∈ P.cmds, lookup m (.node n) = some (.node (f n)) := by
    intro n hn
    have hs : (lookup m (.node n)).isSome := by
      rcases hw.nodes n (by rw [hids]; exact hn) with rfl | ⟨e, he, hd⟩
      · exact h3 _ (by simp)
      · have := h4 e he
        rw [hd] at this; exact this
    obtain ⟨v, hv⟩ := Option.isSome_iff_exists.mp hs
    rw [hv, (h2 _ _ (lookup_mem hv)).2]
    rfl
  refine ⟨m, ?_, hl⟩
  rw [matchAll, h1, Option.bind_some, if_pos]
  rw [List.all_eq_true]
  intro r hr
  rw [hreq] at hr
  obtain ⟨n, hn, rfl⟩ := List.mem_map.mp hr
  simp only [hl n hn, validateNode, hc.op n hn, decide_true]

/-! ### Nodes only -/

theorem onlyNodes_spec {c : Circ} : ∀ {m : Map},
    (∀ n v, (NodeID.node n, v) ∈ m → ∃ x, v = .node x) →
    (∀ n p v, (NodeID.copy n p, v) ∈ m → ∃ x y, v = .copy x y) →
    ∃ l, onlyNodes m = some l ∧ ∀ n v, lookup m (.node n) = some (.node v) → nodeAt l n = some v
  | [], _, _ => ⟨[], rfl, by simp [lookup]⟩
  | (k, v) :: m, h1, h2 => by
    obtain ⟨l, hl, hk⟩ := @onlyNodes_spec c m (fun n v h => h1 n v (by simp [h]))
      (fun n p v h => h2 n p v (by simp [h]))
    cases k with
    | node a =>
      obtain ⟨x, rfl⟩ := h1 a v (by simp)
      refine ⟨(a, x) :: l, by simp [onlyNodes, hl], ?_⟩
      intro n v hv
      rw [lookup] at hv
      rw [nodeAt]
      by_cases han : a = n
      · subst han; simp at hv; simp [hv]
      · have : ¬ NodeID.node a = NodeID.node n := by simpa using han
        rw [if_neg this] at hv
        rw [if_neg han]
        exact hk n v hv
    | copy a b =>
      obtain ⟨x, y, rfl⟩ := h2 a b v (by simp)
      refine ⟨l, by simp [onlyNodes, hl], ?_⟩
      intro n v hv
      rw [lookup, if_neg (by simp)] at hv
      exact hk n v hv

theorem mapPorts_spec {m : List (Nat × Nat)} {f : Nat → Nat} : ∀ {l : List (Nat × Nat)},
    (∀ x ∈ l, nodeAt m x.1 = some (f x.1)) → mapPorts m l = some (l.map fun x => (f x.1, x.2))
  | [], _ => rfl
  | (n, p) :: l, h => by
    rw [mapPorts, h (n, p) (by simp), Option.bind_some, mapPorts_spec (fun x hx => h x (by simp [hx]))]
    rfl

theorem mapInputs_spec {m : List (Nat × Nat)} {f : Nat → Nat} : ∀ {ls : List (List (Nat × Nat))},
    (∀ l ∈ ls, ∀ x ∈ l, nodeAt m x.1 = some (f x.1)) →
    mapInputs m ls = some (ls.map fun l => l.map fun x => (f x.1, x.2))
  | [], _ => rfl
  | l :: ls, h => by
    rw [mapInputs, mapPorts_spec (h l (by simp)), Option.bind_some,
      mapInputs_spec (fun l hl => h l (by simp [hl]))]
    rfl

end Verif.Matching
