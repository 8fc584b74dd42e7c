import Verif.Lemmas.Resource
import Verif.Model.Interval

/-!
# Lemmas about intervals on resource paths
-/

namespace Verif.Resource

variable {T : Type} {r : Region T} {th : Nat → Nat → Nat → Prop} {order : List Nat}
  {flows : List Flow} {st : St}

/-- A finished scope of a well-formed region. -/
structure Ctx (r : Region T) (order : List Nat) (flows : List Flow) (th : Nat → Nat → Nat → Prop)
    (st : St) : Prop where
  wf : WF r order
  fol : Follows r flows th
  use : r.LinearUse
  inj : Injective th
  inv : Inv r th r.nodes st

namespace Ctx

variable (c : Ctx r order flows th st)
include c

theorem getPos {P : Port} (hP : r.Valid P) : st.getPos P.node = some (st.posOf P.node) := by
  obtain ⟨u, hu⟩ := c.inv.units_of_valid hP
  simp [St.getPos, St.posOf, hu]

theorem nodes_of_pos {n p} (h : st.getPos n = some p) :
    n ∈ r.nodes ∧ st.posOf n = p ∧ r.sig n ≠ none := by
  unfold St.getPos at h
  cases hu : st.units n with
  | none => rw [hu] at h; exact absurd h (by simp)
  | some u =>
    obtain ⟨hn, ins, outs, hsig, _⟩ := c.inv.soft.shape n u hu
    refine ⟨hn, ?_, by simp [hsig]⟩
    rw [hu] at h
    simpa [St.posOf, St.getPos, hu] using h

theorem getPort {n d i res} :
    st.getPort n res d = some i ↔ r.Valid ⟨n, d, i⟩ ∧ st.at' ⟨n, d, i⟩ = .res res :=
  c.inv.getPort_eq c.wf c.fol c.use c.inj

theorem getRes {P : Port} (hP : r.Valid P) {id} (h : st.at' P = .res id) :
    (st.getRes P.node P.dir P.idx).join = some id := by
  have := c.inv.resAt_eq hP
  unfold St.resAt at this
  rw [this, h]
  rfl

theorem comparable {P Q : Port} (h : Relation.EqvGen (Link r th) P Q) :
    Path r th P Q ∨ Path r th Q P := path_of_eqv c.wf c.fol c.use c.inj h

theorem eqv {P Q : Port} {id} (hP : r.Valid P) (hQ : r.Valid Q) (h : st.at' P = .res id)
    (h' : st.at' Q = .res id) : Relation.EqvGen (Link r th) P Q := c.inv.soft.same P Q id hP hQ h h'

theorem path_total {P Q R : Port} (h : Path r th P Q) (h' : Path r th P R) :
    Path r th Q R ∨ Path r th R Q := by
  refine Relation.ReflTransGen.total_of_right_unique ?_ h h'
  intro x y z hxy hxz
  exact link_right c.use c.inj hxy hxz

theorem path_total' {P Q R : Port} (h : Path r th Q P) (h' : Path r th R P) :
    Path r th Q R ∨ Path r th R Q := by
  have hu : Relator.RightUnique (Function.swap (Link r th)) := by
    intro x y z hxy hxz
    exact link_left c.wf c.fol hxy hxz
  rcases Relation.ReflTransGen.total_of_right_unique hu (Relation.reflTransGen_swap.2 h)
    (Relation.reflTransGen_swap.2 h') with k | k
  · exact .inr (Relation.reflTransGen_swap.1 k)
  · exact .inl (Relation.reflTransGen_swap.1 k)

/-- On one node, a path goes from the input to the output. -/
theorem in_out {n i o} (h : Relation.EqvGen (Link r th) ⟨n, .inc, i⟩ ⟨n, .out, o⟩) :
    Path r th ⟨n, .inc, i⟩ ⟨n, .out, o⟩ := by
  rcases c.comparable h with h | h
  · exact h
  · rcases c.inv.key_path h with e | e
    · injection e with _ e _; exact absurd e (by simp)
    · exact absurd e (by simp [St.key])

theorem antisymm {P Q : Port} (h : Path r th P Q) (h' : Path r th Q P) : P = Q := by
  rcases c.inv.key_path h with e | e
  · exact e
  · rcases c.inv.key_path h' with e' | e'
    · exact e'.symm
    · omega

/-- A port between two ports of a node is on the node. -/
theorem between_node {P Q R : Port} (h : Path r th P Q) (h' : Path r th Q R)
    (hn : P.node = R.node) : Q.node = P.node := by
  rcases c.inv.path_node h with e | e
  · exact e.symm
  · rcases c.inv.path_node h' with e' | e'
    · exact e'.trans hn.symm
    · rw [hn] at e; omega

theorem linear_eqv {P Q : Port} (hP : r.Linear P) (h : Relation.EqvGen (Link r th) P Q) :
    r.Linear Q := by
  have key : ∀ {P Q : Port}, Relation.EqvGen (Link r th) P Q → (r.Linear P ↔ r.Linear Q) := by
    intro P Q h
    induction h with
    | rel _ _ h => exact iff_of_true (link_valid c.wf c.fol h).1 (link_valid c.wf c.fol h).2
    | refl _ => exact Iff.rfl
    | symm _ _ _ ih => exact ih.symm
    | trans _ _ _ _ _ ih1 ih2 => exact ih1.trans ih2
  exact (key h).1 hP

theorem eqv_of_path {P Q : Port} (h : Path r th P Q) : Relation.EqvGen (Link r th) P Q := by
  induction h with
  | refl => exact .refl _
  | tail _ h ih => exact ih.trans _ _ _ (.rel _ _ h)

/-! ### Good intervals -/

theorem good_first {i : Interval} (hg : i.Good r th) : r.Linear i.first := by
  cases i with
  | singleton n d p => exact hg
  | span s p e q => exact hg.1

theorem good_path {i : Interval} (hg : i.Good r th) : Path r th i.first i.last := by
  cases i with
  | singleton n d p => exact .refl
  | span s p e q => exact hg.2

theorem good_last {i : Interval} (hg : i.Good r th) : r.Linear i.last :=
  c.linear_eqv (c.good_first hg) (c.eqv_of_path (c.good_path hg))

omit c in
theorem first_node (i : Interval) : i.first.node = i.startNode := by cases i <;> rfl

omit c in
theorem last_node (i : Interval) : i.last.node = i.endNode := by cases i <;> rfl

theorem good_res {i : Interval} (hg : i.Good r th) :
    ∃ id, st.at' i.first = .res id ∧ st.at' i.last = .res id ∧ i.resourceId st = some id := by
  obtain ⟨id, hid⟩ := c.inv.linear_res (c.good_first hg)
  refine ⟨id, hid, ?_, ?_⟩
  · rw [← c.inv.eqv_same (c.eqv_of_path (c.good_path hg))]
    exact hid
  · have := c.getRes (valid_of_linear (c.good_first hg)) hid
    cases i <;> exact this

theorem good_pos {i : Interval} (hg : i.Good r th) :
    st.getPos i.startNode = some (st.posOf i.startNode) ∧
    st.getPos i.endNode = some (st.posOf i.endNode) ∧
    st.posOf i.startNode ≤ st.posOf i.endNode := by
  refine ⟨?_, ?_, ?_⟩
  · rw [← first_node]; exact c.getPos (valid_of_linear (c.good_first hg))
  · rw [← last_node]; exact c.getPos (valid_of_linear (c.good_last hg))
  · rw [← first_node, ← last_node]
    rcases c.inv.path_node (c.good_path hg) with h | h
    · exact Nat.le_of_eq (by rw [h])
    · omega

theorem order_eq {i : Interval} (hg : i.Good r th) (pos : Nat) :
    i.order st pos = some (if pos < st.posOf i.startNode then .lt
      else if pos > st.posOf i.endNode then .gt else .eq) := by
  obtain ⟨h1, h2, _⟩ := c.good_pos hg
  unfold Interval.order
  rw [h1, h2]
  dsimp only
  split
  · rfl
  · split <;> rfl

theorem boundary_eq {i : Interval} (hg : i.Good r th) {id} (hid : st.at' i.first = .res id)
    (d : Dir) : i.boundary st d = some ((st.getPort (match d with
      | .inc => i.startNode | .out => i.endNode) id d).map fun p =>
        ((match d with | .inc => i.startNode | .out => i.endNode), p)) := by
  have h1 := c.getRes (valid_of_linear (c.good_first hg)) hid
  have hl : st.at' i.last = .res id := by
    rw [← c.inv.eqv_same (c.eqv_of_path (c.good_path hg))]
    exact hid
  have h2 := c.getRes (valid_of_linear (c.good_last hg)) hl
  unfold Interval.boundary
  cases i with
  | singleton n d' p =>
    dsimp only [Interval.extremum, Interval.first] at h1 ⊢
    rw [h1]
    cases d <;> rfl
  | span s p e q =>
    cases d with
    | inc =>
      dsimp only [Interval.extremum, Interval.first] at h1 ⊢
      rw [h1]
      rfl
    | out =>
      dsimp only [Interval.extremum, Interval.last] at h2 ⊢
      rw [h2]
      rfl

theorem covers_pos {i : Interval} {n} (h : i.Covers r th n) :
    st.posOf i.startNode ≤ st.posOf n ∧ st.posOf n ≤ st.posOf i.endNode := by
  obtain ⟨P, rfl, h1, h2⟩ := h
  rw [← first_node, ← last_node]
  constructor
  · rcases c.inv.path_node h1 with e | e
    · exact Nat.le_of_eq (by rw [e])
    · omega
  · rcases c.inv.path_node h2 with e | e
    · exact Nat.le_of_eq (by rw [e])
    · omega

/-- A node of the resource path whose position is in the range belongs to the interval. -/
theorem covers_of_pos {i : Interval} (hg : i.Good r th) {n} (hn : i.OnPath r th n)
    (h1 : st.posOf i.startNode ≤ st.posOf n) (h2 : st.posOf n ≤ st.posOf i.endNode) :
    i.Covers r th n := by
  obtain ⟨P, rfl, he⟩ := hn
  rw [← first_node] at h1
  rw [← last_node] at h2
  have hgp := c.good_path hg
  have hel : Relation.EqvGen (Link r th) P i.last :=
    (he.symm).trans _ _ _ (c.eqv_of_path hgp)
  rcases c.comparable he with ha | ha
  · rcases c.comparable hel with hb | hb
    · exact ⟨P, rfl, ha, hb⟩
    · rcases c.inv.path_node hb with e | e
      · exact ⟨i.last, e, hgp, .refl⟩
      · omega
  · rcases c.inv.path_node ha with e | e
    · exact ⟨i.first, e.symm, .refl, hgp⟩
    · omega

/-! ### Extending at the start -/

theorem before_source {i : Interval} {n} (hg : i.Good r th) {id} (hid : st.at' i.first = .res id)
    (h : i.Before r th n) : ∃ p q, st.getPort i.startNode id .inc = some q ∧
      r.source i.startNode q = some (n, p) ∧ st.posOf n < st.posOf i.startNode := by
  obtain ⟨p, q, hl, he⟩ := h
  have hlin := link_valid c.wf c.fol hl
  refine ⟨p, q, c.getPort.2 ⟨valid_of_linear hlin.2, ?_⟩, ?_, ?_⟩
  · rw [c.inv.eqv_same he, hid]
  · cases hl with
    | wire hw _ => exact wire_source c.wf hw
  · cases hl with
    | wire hw _ => exact c.inv.pos _ _ _ _ hw.1 hw

theorem source_link {n p m q} (hn : n ∈ r.nodes) (hm : r.Linear ⟨m, .inc, q⟩)
    (hs : r.source m q = some (n, p)) : Link r th ⟨n, .out, p⟩ ⟨m, .inc, q⟩ := by
  obtain ⟨t, ht⟩ := c.wf.sourceOut n p m q hn (valid_of_linear hm) hs
  have hw : r.Wire n p m q := ⟨hn, hm.1, ⟨t, ht⟩, (c.wf.sourceOf n p m q hm.1 ⟨t, ht⟩).2 hs⟩
  refine .wire hw ⟨hn, t, ht, ?_⟩
  obtain ⟨_, t', ht', hc⟩ := hm
  have := c.wf.types _ _ _ _ hw
  dsimp only at ht'
  rw [ht', ht] at this
  rw [← Option.some.inj this]
  exact hc

theorem extend_start {i : Interval} (hg : i.Good r th) {id} (hid : st.at' i.first = .res id)
    {n p q} (hn : n ∈ r.nodes) (hpos : st.getPos n = some (st.posOf n))
    (hlt : st.posOf n < st.posOf i.startNode)
    (hq : st.getPort i.startNode id .inc = some q) (hs : r.source i.startNode q = some (n, p)) :
    ∃ e qe, addNode st i n = some (some .inc, .span n p e qe) ∧ e = i.endNode ∧
      i.Before r th n ∧ (Interval.span n p e qe).Good r th ∧
      (∀ m, (Interval.span n p e qe).Covers r th m ↔ i.Covers r th m ∨ m = n) := by
  obtain ⟨hvq, hatq⟩ := c.getPort.1 hq
  have hlq : r.Linear ⟨i.startNode, .inc, q⟩ := c.inv.soft.linear _ id hvq hatq
  have hlink := c.source_link hn hlq hs
  have hlinn := (link_valid c.wf c.fol hlink).1
  have hatn : st.at' ⟨n, .out, p⟩ = .res id := by rw [c.inv.link_same hlink]; exact hatq
  have hport : st.getPort n id .out = some p := c.getPort.2 ⟨valid_of_linear hlinn, hatn⟩
  obtain ⟨id', hid', _, hrid⟩ := c.good_res hg
  rw [hid] at hid'
  injection hid' with hid'
  subst hid'
  have hqf : Relation.EqvGen (Link r th) ⟨i.startNode, .inc, q⟩ i.first :=
    c.eqv hvq (valid_of_linear (c.good_first hg)) hatq hid
  have hbefore : i.Before r th n := ⟨p, q, hlink, hqf⟩
  cases i with
  | singleton s d' p0 =>
    dsimp only [Interval.startNode, Interval.endNode, Interval.first] at *
    -- the incoming port of the only node
    have hkeep : Interval.keep st .inc (.singleton s d' p0) = some (s, .inc, q) := by
      cases d' with
      | inc =>
        have : p0 = q := c.inv.port_unique c.wf c.fol c.use c.inj (valid_of_linear hg) hvq hid hatq
        subst this
        simp [Interval.keep, ensureDir]
      | out =>
        have hr := c.getRes (valid_of_linear hg) hid
        dsimp only at hr
        simp [Interval.keep, ensureDir, hr, hq]
    refine ⟨s, q, ?_, rfl, hbefore, ⟨hlinn, .single hlink⟩, ?_⟩
    · unfold addNode
      simp only [hpos, hrid, c.order_eq hg, Interval.startNode, hlt, if_true, Dir.reverse, hport,
        hkeep, newSpan, Option.map_some]
    · intro m
      constructor
      · rintro ⟨P, rfl, h1, h2⟩
        dsimp only [Interval.first, Interval.last] at h1 h2
        rcases Relation.ReflTransGen.cases_head h1 with e | ⟨X, hX, h1'⟩
        · right; rw [← e]
        · left
          have := link_right c.use c.inj hX hlink
          subst this
          have := c.antisymm h1' h2
          subst this
          exact ⟨⟨s, d', p0⟩, rfl, .refl, .refl⟩
      · rintro (⟨P, rfl, h1, h2⟩ | rfl)
        · dsimp only [Interval.first, Interval.last] at h1 h2
          have := c.antisymm h1 h2
          subst this
          exact ⟨⟨s, .inc, q⟩, rfl, .single hlink, .refl⟩
        · exact ⟨⟨m, .out, p⟩, rfl, .refl, .single hlink⟩
  | span s p0 e q0 =>
    dsimp only [Interval.startNode, Interval.endNode, Interval.first] at *
    have hin : Path r th ⟨s, .inc, q⟩ ⟨s, .out, p0⟩ := c.in_out hqf
    have hpath : Path r th ⟨n, .out, p⟩ ⟨e, .inc, q0⟩ := .head hlink (hin.trans hg.2)
    refine ⟨e, q0, ?_, rfl, hbefore, ⟨hlinn, hpath⟩, ?_⟩
    · unfold addNode
      simp only [hpos, hrid, c.order_eq hg, Interval.startNode, hlt, if_true, Dir.reverse, hport,
        Interval.keep, newSpan, Option.map_some]
    · intro m
      constructor
      · rintro ⟨P, rfl, h1, h2⟩
        dsimp only [Interval.first, Interval.last] at h1 h2
        rcases Relation.ReflTransGen.cases_head h1 with e | ⟨X, hX, h1'⟩
        · right; rw [← e]
        · left
          have := link_right c.use c.inj hX hlink
          subst this
          rcases c.path_total h1' hin with h | h
          · have := c.between_node h1' h rfl
            refine ⟨⟨s, .out, p0⟩, ?_, .refl, hg.2⟩
            exact this.symm
          · exact ⟨P, rfl, h, h2⟩
      · rintro (⟨P, rfl, h1, h2⟩ | rfl)
        · exact ⟨P, rfl, .head hlink (hin.trans h1), h2⟩
        · exact ⟨⟨m, .out, p⟩, rfl, .refl, hpath⟩

/-! ### Extending at the end -/

theorem after_target {i : Interval} {n} (hg : i.Good r th) {id} (hid : st.at' i.first = .res id)
    (h : i.After r th n) : ∃ p q, st.getPort i.endNode id .out = some p ∧
      r.target i.endNode p = some (n, q) ∧ st.posOf i.endNode < st.posOf n := by
  obtain ⟨p, q, hl, he⟩ := h
  have hlin := link_valid c.wf c.fol hl
  refine ⟨p, q, c.getPort.2 ⟨valid_of_linear hlin.1, ?_⟩, ?_, ?_⟩
  · rw [c.inv.eqv_same he, hid]
  · cases hl with
    | wire hw hlo =>
      obtain ⟨x, hx⟩ := c.use _ _ hlo
      have := hw.2.2.2
      rw [hx, List.mem_singleton] at this
      unfold Region.target
      rw [hx, ← this]
  · cases hl with
    | wire hw _ => exact c.inv.pos _ _ _ _ hw.1 hw

theorem target_link {n p m q} (hn : n ∈ r.nodes) (hm : r.Linear ⟨m, .out, p⟩)
    (hs : r.target m p = some (n, q)) : Link r th ⟨m, .out, p⟩ ⟨n, .inc, q⟩ := by
  obtain ⟨x, hx⟩ := c.use _ _ hm
  unfold Region.target at hs
  rw [hx] at hs
  dsimp only at hs
  obtain rfl := Option.some.inj hs
  obtain ⟨t, ht, _⟩ := hm.2
  exact .wire ⟨hm.1, hn, ⟨t, ht⟩, by rw [hx]; simp⟩ hm

theorem extend_end {i : Interval} (hg : i.Good r th) {id} (hid : st.at' i.first = .res id)
    {n p q} (hn : n ∈ r.nodes) (hpos : st.getPos n = some (st.posOf n))
    (hlt : st.posOf i.endNode < st.posOf n)
    (hq : st.getPort i.endNode id .out = some p) (hs : r.target i.endNode p = some (n, q)) :
    ∃ s ps, addNode st i n = some (some .out, .span s ps n q) ∧ s = i.startNode ∧
      i.After r th n ∧ (Interval.span s ps n q).Good r th ∧
      (∀ m, (Interval.span s ps n q).Covers r th m ↔ i.Covers r th m ∨ m = n) := by
  obtain ⟨hvp, hatp⟩ := c.getPort.1 hq
  have hlp : r.Linear ⟨i.endNode, .out, p⟩ := c.inv.soft.linear _ id hvp hatp
  have hlink := c.target_link hn hlp hs
  have hlinn := (link_valid c.wf c.fol hlink).2
  have hatn : st.at' ⟨n, .inc, q⟩ = .res id := by rw [← c.inv.link_same hlink]; exact hatp
  have hport : st.getPort n id .inc = some q := c.getPort.2 ⟨valid_of_linear hlinn, hatn⟩
  obtain ⟨id', hid', hidl, hrid⟩ := c.good_res hg
  rw [hid] at hid'
  injection hid' with hid'
  subst hid'
  have hqf : Relation.EqvGen (Link r th) ⟨i.endNode, .out, p⟩ i.first :=
    c.eqv hvp (valid_of_linear (c.good_first hg)) hatp hid
  have hqlast : Relation.EqvGen (Link r th) i.last ⟨i.endNode, .out, p⟩ :=
    c.eqv (valid_of_linear (c.good_last hg)) hvp hidl hatp
  have hafter : i.After r th n := ⟨p, q, hlink, hqf⟩
  have hnlt : ¬ st.posOf n < st.posOf i.startNode := by
    have := (c.good_pos hg).2.2
    omega
  cases i with
  | singleton s d' p0 =>
    dsimp only [Interval.startNode, Interval.endNode, Interval.first] at *
    have hkeep : Interval.keep st .out (.singleton s d' p0) = some (s, .out, p) := by
      cases d' with
      | out =>
        have : p0 = p := c.inv.port_unique c.wf c.fol c.use c.inj (valid_of_linear hg) hvp hid hatp
        subst this
        simp [Interval.keep, ensureDir]
      | inc =>
        have hr := c.getRes (valid_of_linear hg) hid
        dsimp only at hr
        simp [Interval.keep, ensureDir, hr, hq]
    refine ⟨s, p, ?_, rfl, hafter, ⟨hlp, .single hlink⟩, ?_⟩
    · unfold addNode
      simp only [hpos, hrid, c.order_eq hg, Interval.startNode, Interval.endNode, hnlt, if_false,
        gt_iff_lt, hlt, if_true, Dir.reverse, hport, hkeep, newSpan, Option.map_some]
    · intro m
      constructor
      · rintro ⟨P, rfl, h1, h2⟩
        dsimp only [Interval.first, Interval.last] at h1 h2
        rcases Relation.ReflTransGen.cases_tail h2 with e | ⟨X, h2', hX⟩
        · right; rw [← e]
        · left
          have := link_left c.wf c.fol hX hlink
          subst this
          have := c.antisymm h1 h2'
          subst this
          exact ⟨⟨s, d', p0⟩, rfl, .refl, .refl⟩
      · rintro (⟨P, rfl, h1, h2⟩ | rfl)
        · dsimp only [Interval.first, Interval.last] at h1 h2
          have := c.antisymm h1 h2
          subst this
          exact ⟨⟨s, .out, p⟩, rfl, .refl, .single hlink⟩
        · exact ⟨⟨m, .inc, q⟩, rfl, .single hlink, .refl⟩
  | span s p0 e q0 =>
    dsimp only [Interval.startNode, Interval.endNode, Interval.first, Interval.last] at *
    have hout : Path r th ⟨e, .inc, q0⟩ ⟨e, .out, p⟩ := c.in_out hqlast
    have hpath : Path r th ⟨s, .out, p0⟩ ⟨n, .inc, q⟩ := (hg.2.trans hout).tail hlink
    refine ⟨s, p0, ?_, rfl, hafter, ⟨hg.1, hpath⟩, ?_⟩
    · unfold addNode
      simp only [hpos, hrid, c.order_eq hg, Interval.startNode, Interval.endNode, hnlt, if_false,
        gt_iff_lt, hlt, if_true, Dir.reverse, hport, Interval.keep, newSpan, Option.map_some]
    · intro m
      constructor
      · rintro ⟨P, rfl, h1, h2⟩
        dsimp only [Interval.first, Interval.last] at h1 h2
        rcases Relation.ReflTransGen.cases_tail h2 with e' | ⟨X, h2', hX⟩
        · right; rw [← e']
        · left
          have := link_left c.wf c.fol hX hlink
          subst this
          rcases c.path_total' h2' hout with h | h
          · exact ⟨P, rfl, h1, h⟩
          · have := c.between_node h h2' rfl
            refine ⟨⟨e, .inc, q0⟩, ?_, hg.2, .refl⟩
            exact this.symm
      · rintro (⟨P, rfl, h1, h2⟩ | rfl)
        · exact ⟨P, rfl, h1, (h2.trans hout).tail hlink⟩
        · exact ⟨⟨m, .inc, q⟩, rfl, hpath, .refl⟩

/-- All outcomes of `try_extend`. -/
theorem extend_cases {i : Interval} (hg : i.Good r th) (n : Nat) :
    (st.getPos n = none ∧ tryExtend r st i n = some (.error (.notOnPath n)) ∧
      ¬ i.Before r th n ∧ ¬ i.After r th n ∧ ¬ i.Covers r th n) ∨
    (st.posOf i.startNode ≤ st.posOf n ∧ st.posOf n ≤ st.posOf i.endNode ∧
      tryExtend r st i n = some (.ok (none, i)) ∧ ¬ i.Before r th n ∧ ¬ i.After r th n) ∨
    (i.Before r th n ∧ ¬ i.Covers r th n ∧ ∃ j, tryExtend r st i n = some (.ok (some .inc, j)) ∧
      j.Good r th ∧ j.startNode = n ∧ j.endNode = i.endNode ∧
      ∀ m, j.Covers r th m ↔ i.Covers r th m ∨ m = n) ∨
    (i.After r th n ∧ ¬ i.Covers r th n ∧ ∃ j, tryExtend r st i n = some (.ok (some .out, j)) ∧
      j.Good r th ∧ j.startNode = i.startNode ∧ j.endNode = n ∧
      ∀ m, j.Covers r th m ↔ i.Covers r th m ∨ m = n) ∨
    (¬ i.Before r th n ∧ ¬ i.After r th n ∧ ¬ i.Covers r th n ∧
      tryExtend r st i n = some (.error (.notContiguous n))) := by
  obtain ⟨id, hid, _, _⟩ := c.good_res hg
  have nb : ¬ st.posOf n < st.posOf i.startNode → ¬ i.Before r th n := by
    intro h hb
    obtain ⟨_, _, _, _, h'⟩ := c.before_source hg hid hb
    exact h h'
  have na : ¬ st.posOf i.endNode < st.posOf n → ¬ i.After r th n := by
    intro h hb
    obtain ⟨_, _, _, _, h'⟩ := c.after_target hg hid hb
    exact h h'
  cases hp : st.getPos n with
  | none =>
    left
    have hno : ∀ P : Port, P.node = n → ¬ r.Valid P := by
      rintro P rfl hv
      rw [c.getPos hv] at hp
      exact absurd hp (by simp)
    refine ⟨rfl, by unfold tryExtend; simp [hp], ?_, ?_, ?_⟩
    · rintro ⟨p, q, hl, _⟩
      exact hno _ rfl (valid_of_linear (link_valid c.wf c.fol hl).1)
    · rintro ⟨p, q, hl, _⟩
      exact hno _ rfl (valid_of_linear (link_valid c.wf c.fol hl).2)
    · rintro ⟨P, hP, h1, _⟩
      exact hno P hP (valid_of_linear (c.linear_eqv (c.good_first hg) (c.eqv_of_path h1)))
  | some pos =>
    right
    obtain ⟨hn, hpn, _⟩ := c.nodes_of_pos hp
    subst hpn
    have hle := (c.good_pos hg).2.2
    by_cases h1 : st.posOf n < st.posOf i.startNode
    · right
      have hnc : ¬ i.Covers r th n := fun h => by have := (c.covers_pos h).1; omega
      have hna : ¬ i.After r th n := na (by omega)
      have hb := c.boundary_eq hg hid .inc
      dsimp only at hb
      cases hq : st.getPort i.startNode id .inc with
      | none =>
        right; right
        rw [hq] at hb
        refine ⟨?_, hna, hnc, ?_⟩
        · intro h
          obtain ⟨_, _, h', _⟩ := c.before_source hg hid h
          rw [hq] at h'
          exact absurd h' (by simp)
        · unfold tryExtend
          simp [hp, c.order_eq hg, h1, hb]
      | some q =>
        rw [hq] at hb
        obtain ⟨hvq, hatq⟩ := c.getPort.1 hq
        obtain ⟨prev, p', hs⟩ := c.wf.connected _ _ hvq
        by_cases hpr : prev = n
        · subst hpr
          left
          obtain ⟨e, qe, ha, he, hbf, hgood, hcov⟩ := c.extend_start hg hid hn hp h1 hq hs
          refine ⟨hbf, hnc, .span prev p' e qe, ?_, hgood, rfl, he, hcov⟩
          unfold tryExtend
          simp [hp, c.order_eq hg, h1, hb, hs, ha]
        · right; right
          refine ⟨?_, hna, hnc, ?_⟩
          · intro h
            obtain ⟨_, _, h', h'', _⟩ := c.before_source hg hid h
            rw [hq] at h'
            obtain rfl := Option.some.inj h'
            rw [hs] at h''
            exact hpr (Prod.mk.inj (Option.some.inj h'')).1
          · unfold tryExtend
            simp [hp, c.order_eq hg, h1, hb, hs, hpr]
    · by_cases h2 : st.posOf i.endNode < st.posOf n
      · right; right
        have hnc : ¬ i.Covers r th n := fun h => by have := (c.covers_pos h).2; omega
        have hb := c.boundary_eq hg hid .out
        dsimp only at hb
        cases hq : st.getPort i.endNode id .out with
        | none =>
          right
          rw [hq] at hb
          refine ⟨nb h1, ?_, hnc, ?_⟩
          · intro h
            obtain ⟨_, _, h', _⟩ := c.after_target hg hid h
            rw [hq] at h'
            exact absurd h' (by simp)
          · unfold tryExtend
            simp [hp, c.order_eq hg, h1, h2, hb]
        | some p =>
          rw [hq] at hb
          obtain ⟨hvp, hatp⟩ := c.getPort.1 hq
          have hlp : r.Linear ⟨i.endNode, .out, p⟩ := c.inv.soft.linear _ id hvp hatp
          obtain ⟨⟨nx, q⟩, hx⟩ := c.use _ _ hlp
          have ht : r.target i.endNode p = some (nx, q) := by unfold Region.target; rw [hx]
          by_cases hnx : nx = n
          · subst hnx
            left
            obtain ⟨s, ps, ha, he, haf, hgood, hcov⟩ := c.extend_end hg hid hn hp h2 hq ht
            refine ⟨haf, hnc, .span s ps nx q, ?_, hgood, he, rfl, hcov⟩
            unfold tryExtend
            simp [hp, c.order_eq hg, h1, h2, hb, ht, ha]
          · right
            refine ⟨nb h1, ?_, hnc, ?_⟩
            · intro h
              obtain ⟨_, _, h', h'', _⟩ := c.after_target hg hid h
              rw [hq] at h'
              obtain rfl := Option.some.inj h'
              rw [ht] at h''
              exact hnx (Prod.mk.inj (Option.some.inj h'')).1
            · unfold tryExtend
              simp [hp, c.order_eq hg, h1, h2, hb, ht, hnx]
      · left
        refine ⟨by omega, by omega, ?_, nb h1, na h2⟩
        unfold tryExtend
        simp [hp, c.order_eq hg, h1, h2]

/-! ### The nodes of an interval -/

theorem pathIter_total (res fuel : Nat) : ∀ n, ∃ l, pathIter r st res .out fuel n = some l ∧
    (fuel ≠ 0 → ∃ l', l = n :: l') := by
  induction fuel with
  | zero => intro n; exact ⟨[], rfl, fun h => absurd rfl h⟩
  | succ fuel ih =>
    intro n
    rw [pathIter]
    cases hq : st.getPort n res .out with
    | none => exact ⟨[n], rfl, fun _ => ⟨[], rfl⟩⟩
    | some p =>
      obtain ⟨hv, hat⟩ := c.getPort.1 hq
      obtain ⟨⟨m, q⟩, hx⟩ := c.use _ _ (c.inv.soft.linear _ res hv hat)
      have ho : r.other n .out p = some (m, q) := by
        unfold Region.other Region.target
        dsimp only
        rw [hx]
      simp only [ho]
      split
      · obtain ⟨l, hl, _⟩ := ih m
        exact ⟨n :: l, by rw [hl]; rfl, fun _ => ⟨l, rfl⟩⟩
      · exact ⟨[n], rfl, fun _ => ⟨[], rfl⟩⟩

theorem nodes_span {id e q : Nat} (fuel : Nat) : ∀ {n p}, st.at' ⟨n, .out, p⟩ = .res id →
    r.Linear ⟨n, .out, p⟩ → Path r th ⟨n, .out, p⟩ ⟨e, .inc, q⟩ →
    st.posOf e - st.posOf n + 1 ≤ fuel →
    ∃ l, pathIter r st id .out fuel n = some l ∧
      (∀ m, m ∈ takeTo e l ↔ ∃ P : Port, P.node = m ∧ Path r th ⟨n, .out, p⟩ P ∧
        Path r th P ⟨e, .inc, q⟩) ∧
      (takeTo e l).Pairwise fun a b => st.posOf a < st.posOf b := by
  induction fuel with
  | zero => intro n p _ _ _ h; omega
  | succ fuel ih =>
    intro n p hat hlin hpath hfuel
    rcases Relation.ReflTransGen.cases_head hpath with h | ⟨X, hX, hrest⟩
    · injection h with _ h _; exact absurd h (by simp)
    · cases hX with
      | @wire _ _ m q' hw hl =>
        have hlt := c.inv.pos _ _ _ _ hw.1 hw
        have hlink : Link r th ⟨n, .out, p⟩ ⟨m, .inc, q'⟩ := .wire hw hl
        have hne : n ≠ e := by
          rintro rfl
          rcases c.inv.path_node hrest with h | h
          · dsimp only at h; rw [h] at hlt; omega
          · dsimp only at h; omega
        obtain ⟨x, hx⟩ := c.use _ _ hl
        have hm := hw.2.2.2
        rw [hx, List.mem_singleton] at hm
        have ho : r.other n .out p = some (m, q') := by
          unfold Region.other Region.target
          dsimp only
          rw [hx, ← hm]
        have hport : st.getPort n id .out = some p := c.getPort.2 ⟨valid_of_linear hl, hat⟩
        have step : ∀ P : Port, (Path r th ⟨n, .out, p⟩ P ∧ Path r th P ⟨e, .inc, q⟩) ↔
            P = ⟨n, .out, p⟩ ∨ (Path r th ⟨m, .inc, q'⟩ P ∧ Path r th P ⟨e, .inc, q⟩) := by
          intro P
          constructor
          · rintro ⟨h1, h2⟩
            rcases Relation.ReflTransGen.cases_head h1 with h | ⟨Y, hY, h1'⟩
            · exact .inl h.symm
            · rw [link_right c.use c.inj hY hlink] at h1'
              exact .inr ⟨h1', h2⟩
          · rintro (rfl | ⟨h1, h2⟩)
            · exact ⟨.refl, hpath⟩
            · exact ⟨.head hlink h1, h2⟩
        rcases Relation.ReflTransGen.cases_head hrest with h | ⟨Y, hY, hrest'⟩
        · -- the next node is the last one
          injection h with h1 _ h2
          subst h1 h2
          obtain ⟨l, hl1, hl2⟩ := c.pathIter_total id fuel m
          obtain ⟨l', rfl⟩ := hl2 (by omega)
          refine ⟨n :: m :: l', ?_, ?_, ?_⟩
          · rw [pathIter]
            simp only [hport, ho, hw.2.1, if_true, hl1, Option.map_some]
          · intro k
            simp only [takeTo, hne, if_false, if_true, List.mem_cons, List.not_mem_nil, or_false]
            constructor
            · rintro (rfl | rfl)
              · exact ⟨_, rfl, .refl, hpath⟩
              · exact ⟨_, rfl, .single hlink, .refl⟩
            · rintro ⟨P, rfl, h1, h2⟩
              rcases (step P).1 ⟨h1, h2⟩ with rfl | ⟨h3, h4⟩
              · exact .inl rfl
              · rw [← c.antisymm h3 h4]; exact .inr rfl
          · simp only [takeTo, hne, if_false, if_true]
            refine List.pairwise_cons.2 ⟨?_, List.pairwise_singleton _ _⟩
            intro a ha
            rw [List.mem_singleton] at ha
            rw [ha]
            exact hlt
        · cases hY with
          | @through _ _ o hmn hth =>
            have hthl : Link r th ⟨m, .inc, q'⟩ ⟨m, .out, o⟩ := .through hmn hth
            have hmat : st.at' ⟨m, .out, o⟩ = .res id := by
              rw [← c.inv.link_same hthl, ← c.inv.link_same hlink]
              exact hat
            have hml := (link_valid c.wf c.fol hthl).2
            have hle : st.posOf m ≤ st.posOf e := by
              rcases c.inv.path_node hrest with h | h
              · dsimp only at h; exact Nat.le_of_eq (by rw [h])
              · dsimp only at h; omega
            obtain ⟨l, hl1, hl2, hl3⟩ := ih hmat hml hrest' (by omega)
            refine ⟨n :: l, ?_, ?_, ?_⟩
            · rw [pathIter]
              simp only [hport, ho, hw.2.1, if_true, hl1, Option.map_some]
            · intro k
              simp only [takeTo, hne, if_false, List.mem_cons, hl2]
              constructor
              · rintro (rfl | ⟨P, rfl, h1, h2⟩)
                · exact ⟨_, rfl, .refl, hpath⟩
                · exact ⟨P, rfl, .head hlink (.head hthl h1), h2⟩
              · rintro ⟨P, rfl, h1, h2⟩
                rcases (step P).1 ⟨h1, h2⟩ with rfl | ⟨h3, h4⟩
                · exact .inl rfl
                · rcases Relation.ReflTransGen.cases_head h3 with h | ⟨Z, hZ, h3'⟩
                  · right
                    rw [← h]
                    exact ⟨⟨m, .out, o⟩, rfl, .refl, hrest'⟩
                  · rw [link_right c.use c.inj hZ hthl] at h3'
                    exact .inr ⟨P, rfl, h3', h4⟩
            · simp only [takeTo, hne, if_false]
              refine List.pairwise_cons.2 ⟨?_, hl3⟩
              intro a ha
              obtain ⟨P, rfl, h1, _⟩ := (hl2 a).1 ha
              rcases c.inv.path_node h1 with h | h
              · dsimp only at h; rw [← h]; exact hlt
              · dsimp only at h; omega

theorem nodesIn_spec {i : Interval} (hg : i.Good r th) {fuel : Nat}
    (hf : st.posOf i.endNode - st.posOf i.startNode + 1 ≤ fuel) :
    ∃ l, nodesIn r st fuel i = some l ∧ (∀ m, m ∈ l ↔ i.Covers r th m) ∧
      l.Pairwise fun a b => st.posOf a < st.posOf b := by
  obtain ⟨id, hid, _, hrid⟩ := c.good_res hg
  unfold nodesIn
  rw [hrid]
  dsimp only
  cases i with
  | singleton n d p =>
    obtain ⟨l, hl, hl'⟩ := c.pathIter_total id fuel n
    obtain ⟨l', rfl⟩ := hl' (by omega)
    refine ⟨[n], ?_, ?_, List.pairwise_singleton _ _⟩
    · simp [Interval.startNode, Interval.endNode, hl, takeTo]
    · intro m
      rw [List.mem_singleton]
      constructor
      · rintro rfl
        exact ⟨_, rfl, .refl, .refl⟩
      · rintro ⟨P, rfl, h1, h2⟩
        rw [← c.antisymm h1 h2]
        rfl
  | span s p e q =>
    obtain ⟨l, hl, h1, h2⟩ := c.nodes_span fuel hid hg.1 hg.2 hf
    exact ⟨takeTo e l, by simp [Interval.startNode, Interval.endNode, hl], h1, h2⟩

end Ctx

end Verif.Resource
