import Verif.Model.ResourceSpec

/-!
# Lemmas about the construction of a resource scope
-/

namespace Verif.Resource

variable {T : Type} {r : Region T} {th : Nat → Nat → Nat → Prop}

/-- The unit at a port, with the sentinel as a default. -/
def St.at' (st : St) (P : Port) : CUnit :=
  ((st.units P.node).bind fun u => u.get P.dir P.idx).getD .sentinel

/-- The position of a node, with 0 as a default. -/
def St.posOf (st : St) (n : Nat) : Nat := (st.getPos n).getD 0

/-- The entries fit the signatures. -/
def Shape (r : Region T) (st : St) : Prop :=
  ∀ n u, st.units n = some u → n ∈ r.nodes ∧ ∃ ins outs, r.sig n = some (ins, outs) ∧
    u.numIn = ins.length ∧ u.vec.length = ins.length + outs.length

theorem valid_sig {P : Port} (h : r.Valid P) : ∃ ins outs, r.sig P.node = some (ins, outs) ∧
    P.idx < (match P.dir with | .inc => ins.length | .out => outs.length) := by
  obtain ⟨_, t, ht⟩ := h
  unfold Region.type? at ht
  cases hs : r.sig P.node with
  | none => rw [hs] at ht; exact absurd ht (by simp)
  | some s =>
    obtain ⟨ins, outs⟩ := s
    rw [hs] at ht
    refine ⟨ins, outs, rfl, ?_⟩
    cases hd : P.dir with
    | inc =>
      rw [hd] at ht
      exact (List.getElem?_eq_some_iff.1 ht).1
    | out =>
      rw [hd] at ht
      exact (List.getElem?_eq_some_iff.1 ht).1

theorem valid_of {n d i} {ins outs : List T} (hn : n ∈ r.nodes) (hs : r.sig n = some (ins, outs))
    (hi : i < (match d with | .inc => ins.length | .out => outs.length)) :
    r.Valid ⟨n, d, i⟩ := by
  refine ⟨hn, ?_⟩
  unfold Region.type?
  simp only [hs]
  cases d with
  | inc => exact ⟨_, List.getElem?_eq_getElem hi⟩
  | out => exact ⟨_, List.getElem?_eq_getElem hi⟩

theorem entry_spec {st : St} (hs : Shape r st) {n ins outs} (hsig : r.sig n = some (ins, outs)) :
    ∃ u, entry r st n = some u ∧ u.numIn = ins.length ∧
      u.vec.length = ins.length + outs.length ∧ u.pos = st.posOf n ∧
      ∀ d i, i < (match d with | .inc => ins.length | .out => outs.length) →
        u.get d i = some (st.at' ⟨n, d, i⟩) := by
  unfold entry
  cases hu : st.units n with
  | some u =>
    obtain ⟨_, ins', outs', h1, h2, h3⟩ := hs n u hu
    rw [hsig] at h1
    obtain ⟨rfl, rfl⟩ := Prod.mk.inj (Option.some.inj h1)
    refine ⟨u, rfl, h2, h3, by simp [St.posOf, St.getPos, hu], ?_⟩
    intro d i hi
    have hlt : u.index d i < u.vec.length := by
      cases d with
      | inc => dsimp only [NodeUnits.index] at hi ⊢; omega
      | out => dsimp only [NodeUnits.index] at hi ⊢; omega
    simp only [St.at', hu, Option.bind_some, NodeUnits.get, List.getElem?_eq_getElem hlt,
      Option.getD_some]
  | none =>
    simp only [hsig]
    refine ⟨_, rfl, rfl, by simp, by simp [St.posOf, St.getPos, hu], ?_⟩
    intro d i hi
    have hlt : NodeUnits.index ⟨List.replicate (ins.length + outs.length) .sentinel, ins.length, 0⟩ d i
        < ins.length + outs.length := by
      cases d with
      | inc => dsimp only [NodeUnits.index] at hi ⊢; omega
      | out => dsimp only [NodeUnits.index] at hi ⊢; omega
    simp [St.at', hu, NodeUnits.get, hlt]

theorem put_at (st : St) (n : Nat) (u : NodeUnits) (Q : Port) :
    (st.put n u).at' Q =
      if Q.node = n then (u.get Q.dir Q.idx).getD .sentinel else st.at' Q := by
  unfold St.put St.at'
  by_cases h : Q.node = n
  · simp [h]
  · simp [h]

theorem put_pos (st : St) (n : Nat) (u : NodeUnits) (m : Nat) :
    (st.put n u).posOf m = if m = n then u.pos else st.posOf m := by
  unfold St.put St.posOf St.getPos
  by_cases h : m = n
  · simp [h]
  · simp [h]

theorem put_getPos (st : St) (n : Nat) (u : NodeUnits) (m : Nat) :
    (st.put n u).getPos m = if m = n then some u.pos else st.getPos m := by
  unfold St.put St.getPos
  by_cases h : m = n
  · simp [h]
  · simp [h]

theorem shape_put {st : St} (hs : Shape r st) {n ins outs u} (hn : n ∈ r.nodes)
    (hsig : r.sig n = some (ins, outs)) (h1 : u.numIn = ins.length)
    (h2 : u.vec.length = ins.length + outs.length) : Shape r (st.put n u) := by
  intro m v hv
  unfold St.put at hv
  dsimp only at hv
  split at hv
  · rename_i h
    subst h
    obtain rfl := Option.some.inj hv
    exact ⟨hn, ins, outs, hsig, h1, h2⟩
  · exact hs m v hv

theorem shape_next {st : St} (hs : Shape r st) (k : Nat) : Shape r { st with next := k } := hs

/-- Setting the unit of one port. -/
theorem set_spec {st : St} (hs : Shape r st) {n d i} (hv : r.Valid ⟨n, d, i⟩) (c : CUnit)
    {u : NodeUnits} (hu : entry r st n = some u) :
    ∃ u', u.set d i c = some u' ∧ u'.pos = st.posOf n ∧
      ∀ x k, Shape r (St.put { st with next := k } n { u' with pos := x }) ∧
        (∀ Q, r.Valid Q → (St.put { st with next := k } n { u' with pos := x }).at' Q =
          if Q = ⟨n, d, i⟩ then c else st.at' Q) ∧
        (∀ m, (St.put { st with next := k } n { u' with pos := x }).posOf m =
          if m = n then x else st.posOf m) := by
  obtain ⟨ins, outs, hsig, hi⟩ := valid_sig hv
  dsimp only at hsig hi
  obtain ⟨u₀, he, h1, h2, h3, h4⟩ := entry_spec hs hsig
  rw [hu] at he
  obtain rfl := Option.some.inj he
  have hlt : u.index d i < u.vec.length := by
    cases d with
    | inc => dsimp only [NodeUnits.index] at hi ⊢; omega
    | out => dsimp only [NodeUnits.index] at hi ⊢; omega
  refine ⟨{ u with vec := u.vec.set (u.index d i) c }, by unfold NodeUnits.set; rw [if_pos hlt], h3, ?_⟩
  intro x k
  refine ⟨shape_put (shape_next hs k) hv.1 hsig h1 (by simpa using h2), ?_, ?_⟩
  · intro Q hQ
    rw [put_at]
    by_cases hn : Q.node = n
    · rw [if_pos hn]
      obtain ⟨ins', outs', hsig', hi'⟩ := valid_sig hQ
      rw [hn, hsig] at hsig'
      obtain ⟨rfl, rfl⟩ := Prod.mk.inj (Option.some.inj hsig')
      obtain ⟨qn, qd, qi⟩ := Q
      dsimp only at hn hi' ⊢
      subst hn
      have hq := h4 qd qi hi'
      by_cases heq : (⟨qn, qd, qi⟩ : Port) = ⟨qn, d, i⟩
      · rw [if_pos heq]
        injection heq with _ a b
        subst a b
        have : (u.vec.set (u.index qd qi) c)[u.index qd qi]? = some c :=
          List.getElem?_set_self hlt
        unfold NodeUnits.get
        unfold NodeUnits.index at this ⊢
        dsimp only at this ⊢
        rw [this]
        rfl
      · rw [if_neg heq]
        have hne : u.index d i ≠ u.index qd qi := by
          intro hh
          apply heq
          cases d with
          | inc =>
            cases qd with
            | inc => dsimp only [NodeUnits.index] at hh; rw [hh]
            | out => dsimp only [NodeUnits.index] at hh hi hi'; omega
          | out =>
            cases qd with
            | inc => dsimp only [NodeUnits.index] at hh hi hi'; omega
            | out =>
              dsimp only [NodeUnits.index] at hh
              have : qi = i := by omega
              rw [this]
        unfold NodeUnits.get at hq ⊢
        have : (u.vec.set (u.index d i) c)[u.index qd qi]? = u.vec[u.index qd qi]? :=
          List.getElem?_set_ne hne
        unfold NodeUnits.index at this hq ⊢
        dsimp only at this hq ⊢
        rw [this, hq]
        rfl
    · rw [if_neg hn, if_neg (by rintro rfl; exact hn rfl)]
      rfl
  · intro m
    rw [put_pos]
    rfl

/-! ### The part of the invariant kept by every assignment -/

structure Soft (r : Region T) (th : Nat → Nat → Nat → Prop) (st : St) : Prop where
  shape : Shape r st
  fresh : ∀ P id, r.Valid P → st.at' P = .res id → id < st.next
  linear : ∀ P id, r.Valid P → st.at' P = .res id → r.Linear P
  copy : ∀ P m p, r.Valid P → st.at' P = .copy m p →
    (∃ t, r.type? P.node P.dir P.idx = some t ∧ r.copyable t = true) ∧
      connectedWire r P.node P.dir P.idx = some (m, p)
  same : ∀ P Q id, r.Valid P → r.Valid Q → st.at' P = .res id → st.at' Q = .res id →
    Relation.EqvGen (Link r th) P Q

theorem valid_of_linear {P : Port} (h : r.Linear P) : r.Valid P := by
  obtain ⟨a, t, b, _⟩ := h
  exact ⟨a, t, b⟩

/-- Assigning a freshly allocated unit. -/
theorem soft_fresh {st st' : St} (hs : Soft r th st) {P : Port} {c : CUnit} {k : Nat}
    (ha : allocUnit r st.next P.node P.dir P.idx = some (c, k)) (hP : r.Valid P)
    (hsh : Shape r st') (hk : st'.next = k)
    (hat : ∀ Q, r.Valid Q → st'.at' Q = if Q = P then c else st.at' Q) :
    Soft r th st' ∧ c ≠ .sentinel := by
  unfold allocUnit at ha
  cases ht : r.type? P.node P.dir P.idx with
  | none => rw [ht] at ha; exact absurd ha (by simp)
  | some t =>
    simp only [ht] at ha
    split at ha
    · rename_i hc
      split at ha
      · exact absurd ha (by simp)
      · rename_i m p hw
        simp only [Option.some.injEq, Prod.mk.injEq] at ha
        obtain ⟨rfl, rfl⟩ := ha
        refine ⟨⟨hsh, ?_, ?_, ?_, ?_⟩, by simp⟩
        · intro Q id hQ h
          rw [hat Q hQ] at h
          split at h
          · exact absurd h (by simp)
          · rw [hk]; exact hs.fresh Q id hQ h
        · intro Q id hQ h
          rw [hat Q hQ] at h
          split at h
          · exact absurd h (by simp)
          · exact hs.linear Q id hQ h
        · intro Q m' p' hQ h
          rw [hat Q hQ] at h
          split at h
          · rename_i hh
            subst hh
            injection h with a b
            subst a b
            exact ⟨⟨t, ht, hc⟩, hw⟩
          · exact hs.copy Q m' p' hQ h
        · intro Q R id hQ hR h h'
          rw [hat Q hQ] at h
          rw [hat R hR] at h'
          split at h
          · exact absurd h (by simp)
          · split at h'
            · exact absurd h' (by simp)
            · exact hs.same Q R id hQ hR h h'
    · rename_i hc
      simp only [Option.some.injEq, Prod.mk.injEq] at ha
      obtain ⟨rfl, rfl⟩ := ha
      refine ⟨⟨hsh, ?_, ?_, ?_, ?_⟩, by simp⟩
      · intro Q id hQ h
        rw [hat Q hQ] at h
        rw [hk]
        split at h
        · injection h with h; omega
        · have := hs.fresh Q id hQ h; omega
      · intro Q id hQ h
        rw [hat Q hQ] at h
        split at h
        · rename_i hh
          subst hh
          exact ⟨hP.1, t, ht, by simpa using hc⟩
        · exact hs.linear Q id hQ h
      · intro Q m' p' hQ h
        rw [hat Q hQ] at h
        split at h
        · exact absurd h (by simp)
        · exact hs.copy Q m' p' hQ h
      · intro Q R id hQ hR h h'
        rw [hat Q hQ] at h
        rw [hat R hR] at h'
        split at h
        · rename_i e1
          split at h'
          · rename_i e2
            rw [e1, e2]
            exact .refl _
          · injection h with h
            have := hs.fresh R id hR h'
            omega
        · split at h'
          · injection h' with h'
            have := hs.fresh Q id hQ h
            omega
          · exact hs.same Q R id hQ hR h h'

/-- Assigning the unit of a linked port, or the wire of a copyable port. -/
theorem soft_copy {st st' : St} (hs : Soft r th st) {P O : Port} {c : CUnit}
    (hO : r.Valid O) (hc : st.at' O = c)
    (hres : ∀ id, c = .res id → r.Linear P ∧ Link r th O P)
    (hcopy : ∀ m p, c = .copy m p → (∃ t, r.type? P.node P.dir P.idx = some t ∧
      r.copyable t = true) ∧ connectedWire r P.node P.dir P.idx = some (m, p))
    (hsh : Shape r st') (hk : st'.next = st.next)
    (hat : ∀ Q, r.Valid Q → st'.at' Q = if Q = P then c else st.at' Q) :
    Soft r th st' := by
  refine ⟨hsh, ?_, ?_, ?_, ?_⟩
  · intro Q id hQ h
    rw [hat Q hQ] at h
    rw [hk]
    split at h
    · exact hs.fresh O id hO (hc.trans h)
    · exact hs.fresh Q id hQ h
  · intro Q id hQ h
    rw [hat Q hQ] at h
    split at h
    · rename_i e
      rw [e]
      exact (hres id h).1
    · exact hs.linear Q id hQ h
  · intro Q m p hQ h
    rw [hat Q hQ] at h
    split at h
    · rename_i e
      rw [e]
      exact hcopy m p h
    · exact hs.copy Q m p hQ h
  · intro Q R id hQ hR h h'
    rw [hat Q hQ] at h
    rw [hat R hR] at h'
    split at h
    · rename_i e1
      split at h'
      · rename_i e2
        rw [e1, e2]
        exact .refl _
      · rw [e1]
        exact (Relation.EqvGen.rel _ _ (hres id h).2).symm.trans _ _ _
          (hs.same O R id hO hR (hc.trans h) h')
    · split at h'
      · rename_i e2
        rw [e2]
        exact (hs.same Q O id hQ hO h (hc.trans h')).trans _ _ _
          (Relation.EqvGen.rel _ _ (hres id h').2)
      · exact hs.same Q R id hQ hR h h'

/-! ### The phases -/

theorem allocUnit_total {order : List Nat} (wf : WF r order) {P : Port} (hP : r.Valid P) (k : Nat) :
    ∃ c k', allocUnit r k P.node P.dir P.idx = some (c, k') := by
  obtain ⟨_, t, ht⟩ := id hP
  unfold allocUnit
  simp only [ht]
  split
  · obtain ⟨n, d, i⟩ := P
    cases d with
    | out => exact ⟨_, _, rfl⟩
    | inc =>
      obtain ⟨a, b, h⟩ := wf.connected n i hP
      dsimp only [connectedWire]
      rw [h]
      exact ⟨_, _, rfl⟩
  · exact ⟨_, _, rfl⟩

theorem assignUnits_spec {order : List Nat} (wf : WF r order) (ps : List (Nat × Nat)) (st : St)
    (hs : Soft r th st) (hp : ∀ x ∈ ps, r.Valid ⟨x.1, .inc, x.2⟩) :
    ∃ st', assignUnits r ps st = some st' ∧ Soft r th st' ∧
      (∀ Q, r.Valid Q → (∀ x ∈ ps, Q ≠ ⟨x.1, .inc, x.2⟩) → st'.at' Q = st.at' Q) ∧
      (∀ x ∈ ps, st'.at' ⟨x.1, .inc, x.2⟩ ≠ .sentinel) ∧
      ∀ m, st'.posOf m = st.posOf m := by
  induction ps generalizing st with
  | nil => exact ⟨st, rfl, hs, fun _ _ _ => rfl, by simp, fun _ => rfl⟩
  | cons x ps ih =>
    obtain ⟨n, p⟩ := x
    have hv : r.Valid ⟨n, .inc, p⟩ := hp (n, p) (by simp)
    obtain ⟨c, k, ha⟩ := allocUnit_total wf hv st.next
    dsimp only at ha
    obtain ⟨ins, outs, hsig, hi⟩ := valid_sig hv
    obtain ⟨u, hu, _⟩ := entry_spec hs.shape hsig
    dsimp only at hu
    obtain ⟨u', hset, hpos, hx⟩ := set_spec hs.shape hv c hu
    obtain ⟨hsh, hat, hps⟩ := hx u'.pos k
    obtain ⟨hsoft, hne⟩ := soft_fresh hs (P := ⟨n, .inc, p⟩) ha hv hsh rfl hat
    obtain ⟨st', h1, h2, h3, h4, h5⟩ := ih _ hsoft fun x hx => hp x (by simp [hx])
    refine ⟨st', ?_, h2, ?_, ?_, ?_⟩
    · rw [assignUnits]
      simp only [ha, hu, hset]
      exact h1
    · intro Q hQ hn
      rw [h3 Q hQ fun x hx => hn x (by simp [hx]), hat Q hQ, if_neg (hn (n, p) (by simp))]
    · intro x hx
      by_cases hin : x ∈ ps
      · exact h4 x hin
      · rcases List.mem_cons.1 hx with rfl | hx
        · by_cases hex : ∃ y ∈ ps, (⟨n, .inc, p⟩ : Port) = ⟨y.1, .inc, y.2⟩
          · obtain ⟨y, hy, e⟩ := hex
            have := h4 y hy
            rw [← e] at this
            exact this
          · have hex' : ∀ y ∈ ps, (⟨n, .inc, p⟩ : Port) ≠ ⟨y.1, .inc, y.2⟩ := by
              intro y hy e
              exact hex ⟨y, hy, e⟩
            rw [h3 _ hv hex', hat _ hv, if_pos rfl]
            exact hne
        · exact absurd hx hin
    · intro m
      rw [h5, hps]
      split
      · rename_i e
        rw [e, hpos]
      · rfl

theorem assignMissing_spec {order : List Nat} (wf : WF r order) (st : St) (hs : Soft r th st)
    {n ins outs} (hn : n ∈ r.nodes) (hsig : r.sig n = some (ins, outs)) :
    ∃ st', assignMissing r n st = some st' ∧ Soft r th st' ∧
      (∀ Q, r.Valid Q → (Q.node ≠ n ∨ Q.dir = .out ∨ st.at' Q ≠ .sentinel) →
        st'.at' Q = st.at' Q) ∧
      (∀ i, i < ins.length → st'.at' ⟨n, .inc, i⟩ ≠ .sentinel) ∧
      ∀ m, st'.posOf m = st.posOf m := by
  have hm : ∃ ps, missing st n ins.length = some ps ∧
      ∀ i, i ∈ ps ↔ i < ins.length ∧ st.at' ⟨n, .inc, i⟩ = .sentinel := by
    unfold missing
    cases hu : st.units n with
    | none =>
      refine ⟨_, rfl, ?_⟩
      intro i
      simp [St.at', hu]
    | some u =>
      obtain ⟨_, ins', outs', h1, h2, h3⟩ := hs.shape n u hu
      rw [hsig] at h1
      obtain ⟨rfl, rfl⟩ := Prod.mk.inj (Option.some.inj h1)
      dsimp only
      rw [if_pos (by omega)]
      refine ⟨_, rfl, ?_⟩
      intro i
      rw [List.mem_filter, List.mem_range]
      refine and_congr_right fun hi => ?_
      have hlt : u.index .inc i < u.vec.length := by dsimp only [NodeUnits.index]; omega
      simp only [St.at', hu, Option.bind_some, NodeUnits.get, List.getElem?_eq_getElem hlt,
        Option.getD_some, Option.some.injEq, decide_eq_true_eq]
  obtain ⟨ps, hps, hmem⟩ := hm
  obtain ⟨st', h1, h2, h3, h4, h5⟩ := assignUnits_spec wf (ps.map fun p => (n, p)) st hs (by
    intro x hx
    obtain ⟨i, hi, rfl⟩ := List.mem_map.1 hx
    exact valid_of hn hsig ((hmem i).1 hi).1)
  refine ⟨st', ?_, h2, ?_, ?_, h5⟩
  · unfold assignMissing
    simp only [hsig, hps]
    exact h1
  · intro Q hQ hq
    apply h3 Q hQ
    intro x hx e
    obtain ⟨i, hi, rfl⟩ := List.mem_map.1 hx
    rw [e] at hq
    rcases hq with hq | hq | hq
    · exact hq rfl
    · exact absurd hq (by simp)
    · exact hq ((hmem i).1 hi).2
  · intro i hi
    by_cases hin : st.at' ⟨n, .inc, i⟩ = .sentinel
    · exact h4 (n, i) (List.mem_map.2 ⟨i, (hmem i).2 ⟨hi, hin⟩, rfl⟩)
    · rw [h3 _ (valid_of hn hsig hi)]
      · exact hin
      · intro x hx e
        obtain ⟨j, hj, rfl⟩ := List.mem_map.1 hx
        injection e with _ _ e
        rw [e] at hin
        exact hin ((hmem j).1 hj).2

/-- The resources of a full list of incoming units. -/
theorem slice_spec {st : St} {n : Nat} {ins outs : List T} {u : NodeUnits}
    (h1 : u.numIn = ins.length) (h2 : u.vec.length = ins.length + outs.length)
    (h4 : ∀ d i, i < (match d with | .inc => ins.length | .out => outs.length) →
        u.get d i = some (st.at' ⟨n, d, i⟩)) :
    ((u.slice .inc).map CUnit.asRes).length = ins.length ∧
      ∀ i, i < ins.length →
        ((u.slice .inc).map CUnit.asRes)[i]? = some ((st.at' ⟨n, .inc, i⟩).asRes) := by
  refine ⟨by simp only [NodeUnits.slice, List.length_map, List.length_take]; omega, ?_⟩
  intro i hi
  have := h4 .inc i hi
  unfold NodeUnits.get NodeUnits.index at this
  dsimp only at this
  simp only [NodeUnits.slice, List.getElem?_map, List.getElem?_take, h1, hi, if_true, this,
    Option.map_some]

theorem setOutputs_spec {order : List Nat} (wf : WF r order) {flows} (hf : Follows r flows th)
    {n ins outs} (hn : n ∈ r.nodes) (hsig : r.sig n = some (ins, outs))
    {res outRes : List (Option Nat)}
    (hout : ∀ o : Nat, o < outs.length → ∀ id : Nat,
      (outRes[o]?).join = some id ↔ ∃ i, th n i o ∧ res[i]? = some (some id))
    (st : St) (hlen : res.length = ins.length) (os : List Nat)
    (hos : ∀ o ∈ os, o < outs.length) (u : NodeUnits) (next : Nat)
    (hs : Soft r th (St.put { st with next := next } n u))
    (hres : ∀ i, i < ins.length →
      res[i]? = some (((St.put { st with next := next } n u).at' ⟨n, .inc, i⟩).asRes))
    (hfull : ∀ i, i < ins.length →
      (St.put { st with next := next } n u).at' ⟨n, .inc, i⟩ ≠ .sentinel) :
    ∃ u' next', setOutputs r n res outRes os u next = some (u', next') ∧
      Soft r th (St.put { st with next := next' } n u') ∧ u'.pos = u.pos ∧
      (∀ Q, r.Valid Q → (∀ o ∈ os, Q ≠ ⟨n, .out, o⟩) →
        (St.put { st with next := next' } n u').at' Q =
          (St.put { st with next := next } n u).at' Q) ∧
      ∀ o ∈ os, (St.put { st with next := next' } n u').at' ⟨n, .out, o⟩ ≠ .sentinel ∧
        ∀ i, th n i o → (St.put { st with next := next' } n u').at' ⟨n, .out, o⟩ =
          (St.put { st with next := next } n u).at' ⟨n, .inc, i⟩ := by
  induction os generalizing u next with
  | nil => exact ⟨u, next, rfl, hs, rfl, fun _ _ _ => rfl, by simp⟩
  | cons o os ih =>
    have ho : o < outs.length := hos o (by simp)
    have hv : r.Valid ⟨n, .out, o⟩ := valid_of hn hsig ho
    have hent : entry r (St.put { st with next := next } n u) n = some u := by
      simp [entry, St.put]
    -- the unit chosen for the output
    have hc : ∃ c next', outUnit r n res outRes u next o = some (c, next') ∧
        ∀ st', Shape r st' → st'.next = next' →
          (∀ Q, r.Valid Q → st'.at' Q = if Q = ⟨n, .out, o⟩ then c else
            (St.put { st with next := next } n u).at' Q) →
          Soft r th st' ∧ c ≠ .sentinel ∧ ∀ i, th n i o →
            c = (St.put { st with next := next } n u).at' ⟨n, .inc, i⟩ := by
      unfold outUnit
      cases hj : (outRes[o]?).join with
      | none =>
        obtain ⟨c, k, ha⟩ := allocUnit_total wf hv next
        refine ⟨c, k, ha, ?_⟩
        intro st' h1 h2 h3
        obtain ⟨a, b⟩ := soft_fresh hs (P := ⟨n, .out, o⟩) ha hv h1 h2 h3
        refine ⟨a, b, ?_⟩
        intro i hi
        exfalso
        have hl := (hf.linear n i o hn hi).1
        obtain ⟨ins', outs', hsig', hi'⟩ := valid_sig (valid_of_linear hl)
        dsimp only at hsig' hi'
        rw [hsig] at hsig'
        obtain ⟨rfl, rfl⟩ := Prod.mk.inj (Option.some.inj hsig')
        cases hat : (St.put { st with next := next } n u).at' ⟨n, .inc, i⟩ with
        | sentinel => exact hfull i hi' hat
        | copy m p =>
          obtain ⟨⟨t, ht, hct⟩, _⟩ := hs.copy _ m p (valid_of_linear hl) hat
          obtain ⟨_, t', ht', hct'⟩ := hl
          rw [ht] at ht'
          rw [Option.some.inj ht', hct'] at hct
          exact absurd hct (by simp)
        | res id =>
          have := (hout o ho id).2 ⟨i, hi, by rw [hres i hi', hat]; rfl⟩
          rw [hj] at this
          exact absurd this (by simp)
      | some id =>
        obtain ⟨i, hi, hri⟩ := (hout o ho id).1 hj
        dsimp only
        have hex : ∃ j, res.findIdx? (fun x => decide (x = some id)) = some j := by
          cases hfi : res.findIdx? (fun x => decide (x = some id)) with
          | some j => exact ⟨j, rfl⟩
          | none =>
            have := List.findIdx?_eq_none_iff.1 hfi (some id) (List.mem_of_getElem? hri)
            simp at this
        obtain ⟨j, hj'⟩ := hex
        rw [hj']
        obtain ⟨hjlt, hjv, _⟩ := List.findIdx?_eq_some_iff_getElem.1 hj'
        have hjv' : res[j]? = some (some id) := by
          rw [List.getElem?_eq_getElem hjlt]
          simpa using hjv
        have hjr := hres j (by omega)
        rw [hjv'] at hjr
        have hat : (St.put { st with next := next } n u).at' ⟨n, .inc, j⟩ = .res id := by
          cases h : (St.put { st with next := next } n u).at' ⟨n, .inc, j⟩ with
          | res k => rw [h] at hjr; simp only [CUnit.asRes, Option.some.injEq] at hjr; rw [hjr]
          | copy _ _ => rw [h] at hjr; simp [CUnit.asRes] at hjr
          | sentinel => rw [h] at hjr; simp [CUnit.asRes] at hjr
        have hget : u.get .inc j = some (.res id) := by
          obtain ⟨u₀, he, _, _, _, h4⟩ := entry_spec hs.shape hsig
          rw [hent] at he
          obtain rfl := Option.some.inj he
          rw [h4 .inc j (by dsimp only; omega), hat]
        refine ⟨.res id, next, by simp [hget], ?_⟩
        intro st' h1 h2 h3
        have hl := hf.linear n i o hn hi
        have hiat : (St.put { st with next := next } n u).at' ⟨n, .inc, i⟩ = .res id := by
          obtain ⟨ins', outs', hsig', hi'⟩ := valid_sig (valid_of_linear hl.1)
          dsimp only at hsig' hi'
          rw [hsig] at hsig'
          obtain ⟨rfl, rfl⟩ := Prod.mk.inj (Option.some.inj hsig')
          have hir := hres i hi'
          rw [hri] at hir
          cases h : (St.put { st with next := next } n u).at' ⟨n, .inc, i⟩ with
          | res k => rw [h] at hir; simp only [CUnit.asRes, Option.some.injEq] at hir; rw [hir]
          | copy _ _ => rw [h] at hir; simp [CUnit.asRes] at hir
          | sentinel => rw [h] at hir; simp [CUnit.asRes] at hir
        refine ⟨soft_copy hs (valid_of_linear hl.1) hiat ?_ ?_ h1 (by rw [h2]; rfl) h3,
          by simp, ?_⟩
        · intro _ _
          exact ⟨hl.2, .through hn hi⟩
        · intro m p h
          exact absurd h (by simp)
        · intro i' hi2
          rw [hf.left n i' i o hi2 hi, hiat]
    obtain ⟨c, k, hcu, hcs⟩ := hc
    obtain ⟨u1, hset, hpos, hx⟩ := set_spec hs.shape hv c hent
    obtain ⟨hsh, hat, hps⟩ := hx u1.pos k
    have hput : St.put { (St.put { st with next := next } n u) with next := k } n u1 =
        St.put { st with next := k } n u1 := by
      unfold St.put
      congr 1
      funext m
      dsimp only
      split
      · rfl
      · rfl
    have heta : ({ u1 with pos := u1.pos } : NodeUnits) = u1 := rfl
    rw [heta, hput] at hsh hat hps
    obtain ⟨hsoft, hne, hthr⟩ := hcs _ hsh rfl hat
    have hinc : ∀ i, i < ins.length → (St.put { st with next := k } n u1).at' ⟨n, .inc, i⟩ =
        (St.put { st with next := next } n u).at' ⟨n, .inc, i⟩ := by
      intro i hi
      rw [hat _ (valid_of hn hsig hi), if_neg (by simp)]
    obtain ⟨u', next', h1, h2, h3, h4, h5⟩ := ih (fun o ho => hos o (by simp [ho])) u1 k hsoft
      (by intro i hi; rw [hinc i hi]; exact hres i hi)
      (by intro i hi; rw [hinc i hi]; exact hfull i hi)
    refine ⟨u', next', ?_, h2, ?_, ?_, ?_⟩
    · rw [setOutputs]
      simp only [hcu, hset]
      exact h1
    · rw [h3, hpos, put_pos, if_pos rfl]
    · intro Q hQ hne'
      rw [h4 Q hQ fun o ho => hne' o (by simp [ho]), hat Q hQ, if_neg (hne' o (by simp))]
    · intro o' ho'
      by_cases hin : o' ∈ os
      · refine ⟨(h5 o' hin).1, ?_⟩
        intro i hi
        have hl := (hf.linear n i o' hn hi).1
        obtain ⟨ins', outs', hsig', hi'⟩ := valid_sig (valid_of_linear hl)
        dsimp only at hsig' hi'
        rw [hsig] at hsig'
        obtain ⟨rfl, rfl⟩ := Prod.mk.inj (Option.some.inj hsig')
        rw [(h5 o' hin).2 i hi, hinc i hi']
      · rcases List.mem_cons.1 ho' with rfl | h
        · have : (St.put { st with next := next' } n u').at' ⟨n, .out, o'⟩ = c := by
            rw [h4 _ hv (by
              intro o ho e
              injection e with _ _ e
              rw [e] at hin
              exact hin ho), hat _ hv, if_pos rfl]
          rw [this]
          exact ⟨hne, hthr⟩
        · exact absurd h hin

theorem propagateOut_spec {order : List Nat} (wf : WF r order) {flows} (hf : Follows r flows th)
    {n ins outs} (hn : n ∈ r.nodes) (hsig : r.sig n = some (ins, outs)) (st : St)
    (hs : Soft r th st) (hfull : ∀ i, i < ins.length → st.at' ⟨n, .inc, i⟩ ≠ .sentinel) :
    ∃ st', propagateOut r flows n st = some st' ∧ Soft r th st' ∧ (∃ u, st'.units n = some u) ∧
      (∀ Q, r.Valid Q → (Q.node ≠ n ∨ Q.dir = .inc) → st'.at' Q = st.at' Q) ∧
      (∀ o, o < outs.length → st'.at' ⟨n, .out, o⟩ ≠ .sentinel) ∧
      (∀ i o, th n i o → st'.at' ⟨n, .out, o⟩ = st.at' ⟨n, .inc, i⟩) ∧
      ∀ m, st'.posOf m = st.posOf m := by
  obtain ⟨u, hu, h1, h2, h3, h4⟩ := entry_spec hs.shape hsig
  obtain ⟨hlen, hres⟩ := slice_spec h1 h2 h4
  -- the state with the entry made explicit
  have hat0 : ∀ Q, r.Valid Q → (St.put { st with next := st.next } n u).at' Q = st.at' Q := by
    intro Q hQ
    rw [put_at]
    split
    · rename_i e
      obtain ⟨ins', outs', hsig', hi'⟩ := valid_sig hQ
      rw [e, hsig] at hsig'
      obtain ⟨rfl, rfl⟩ := Prod.mk.inj (Option.some.inj hsig')
      obtain ⟨qn, qd, qi⟩ := Q
      dsimp only at e hi' ⊢
      subst e
      rw [h4 qd qi hi']
      rfl
    · rfl
  have hs0 : Soft r th (St.put { st with next := st.next } n u) := by
    refine ⟨shape_put hs.shape hn hsig h1 h2, ?_, ?_, ?_, ?_⟩
    · intro P id hP h
      rw [hat0 P hP] at h
      exact hs.fresh P id hP h
    · intro P id hP h
      rw [hat0 P hP] at h
      exact hs.linear P id hP h
    · intro P m p hP h
      rw [hat0 P hP] at h
      exact hs.copy P m p hP h
    · intro P Q id hP hQ h h'
      rw [hat0 P hP] at h
      rw [hat0 Q hQ] at h'
      exact hs.same P Q id hP hQ h h'
  obtain ⟨out, hfl, hout⟩ := hf.run n ins outs _ hn hsig hlen (by
    intro i t ht
    have hi : i < ins.length := (List.getElem?_eq_some_iff.1 ht).1
    have hv : r.Valid ⟨n, .inc, i⟩ := valid_of hn hsig hi
    have hty : r.type? n .inc i = some t := by simp only [Region.type?, hsig, ht]
    rw [hres i hi]
    cases hat : st.at' ⟨n, .inc, i⟩ with
    | sentinel => exact absurd hat (hfull i hi)
    | copy m p =>
      obtain ⟨⟨t', ht', hct⟩, _⟩ := hs.copy _ m p hv hat
      dsimp only at ht'
      rw [hty] at ht'
      rw [Option.some.inj ht']
      simp [CUnit.asRes, hct]
    | res id =>
      obtain ⟨_, t', ht', hct⟩ := hs.linear _ id hv hat
      dsimp only at ht'
      rw [hty] at ht'
      rw [Option.some.inj ht']
      simp [CUnit.asRes, hct])
  obtain ⟨u', next', k1, k2, k3, k4, k5⟩ := setOutputs_spec wf hf hn hsig hout st hlen
    (List.range outs.length) (by simp) u st.next hs0
    (by intro i hi; rw [hat0 _ (valid_of hn hsig hi)]; exact hres i hi)
    (by intro i hi; rw [hat0 _ (valid_of hn hsig hi)]; exact hfull i hi)
  refine ⟨St.put { st with next := next' } n u', ?_, k2, ⟨u', by simp [St.put]⟩, ?_, ?_, ?_, ?_⟩
  · unfold propagateOut
    simp only [hu, hfl, hsig, k1]
  · intro Q hQ hq
    rw [k4 Q hQ (by
      rintro o _ rfl
      rcases hq with h | h
      · exact h rfl
      · exact absurd h (by simp)), hat0 Q hQ]
  · intro o ho
    exact (k5 o (by simpa using ho)).1
  · intro i o hi
    have hl := hf.linear n i o hn hi
    obtain ⟨ins', outs', hsig', ho⟩ := valid_sig (valid_of_linear hl.2)
    dsimp only at hsig' ho
    rw [hsig] at hsig'
    obtain ⟨rfl, rfl⟩ := Prod.mk.inj (Option.some.inj hsig')
    rw [(k5 o (by simpa using ho)).2 i hi, hat0 _ (valid_of_linear hl.1)]
  · intro m
    rw [put_pos]
    split
    · rename_i e
      rw [e, k3, h3]
    · rfl

theorem pushAll_spec {order : List Nat} (wf : WF r order) {n o : Nat} (hn : n ∈ r.nodes)
    (hv : r.Valid ⟨n, .out, o⟩) (pos : Nat) (ls : List (Nat × Nat))
    (hls : ∀ x ∈ ls, x ∈ r.linked n o) (st : St) (hs : Soft r th st) {c : CUnit}
    (hc : st.at' ⟨n, .out, o⟩ = c) :
    ∃ st', pushAll r c pos ls st = some st' ∧ Soft r th st' ∧ st'.next = st.next ∧
      (∀ m, (∃ u, st.units m = some u) → ∃ u, st'.units m = some u) ∧
      (∀ Q, r.Valid Q → (∀ x ∈ ls, Q ≠ ⟨x.1, .inc, x.2⟩) → st'.at' Q = st.at' Q) ∧
      (∀ x ∈ ls, x.1 ∈ r.nodes → st'.at' ⟨x.1, .inc, x.2⟩ = c) ∧
      (∀ m, st.posOf m ≤ st'.posOf m) ∧ (∀ m, (∀ x ∈ ls, x.1 ≠ m) → st'.posOf m = st.posOf m) ∧
      ∀ x ∈ ls, x.1 ∈ r.nodes → pos + 1 ≤ st'.posOf x.1 := by
  induction ls generalizing st with
  | nil =>
    exact ⟨st, rfl, hs, rfl, fun _ h => h, fun _ _ _ => rfl, by simp, fun _ => Nat.le_refl _,
      fun _ _ => rfl, by simp⟩
  | cons x ls ih =>
    obtain ⟨m, q⟩ := x
    by_cases hm : m ∈ r.nodes
    · have hw : r.Wire n o m q := ⟨hn, hm, hv.2, hls _ (by simp)⟩
      have hty := wf.types _ _ _ _ hw
      have hvm : r.Valid ⟨m, .inc, q⟩ := by
        obtain ⟨_, t, ht⟩ := hv
        exact ⟨hm, t, by dsimp only at ht ⊢; rw [hty, ht]⟩
      obtain ⟨ins, outs, hsig, hi⟩ := valid_sig hvm
      obtain ⟨u, hu, _⟩ := entry_spec hs.shape hsig
      dsimp only at hu
      obtain ⟨u', hset, hpos, hx⟩ := set_spec hs.shape hvm c hu
      obtain ⟨hsh, hat, hps⟩ := hx (max u'.pos (pos + 1)) st.next
      have hsoft : Soft r th (St.put { st with next := st.next } m
          { u' with pos := max u'.pos (pos + 1) }) := by
        refine soft_copy hs hv hc ?_ ?_ hsh rfl hat
        · intro id hid
          have hl := hs.linear _ id hv (hc.trans hid)
          refine ⟨?_, .wire hw hl⟩
          obtain ⟨_, t, ht, hct⟩ := hl
          exact ⟨hm, t, by dsimp only at ht ⊢; rw [hty, ht], hct⟩
        · intro a b hab
          obtain ⟨⟨t, ht, hct⟩, hcw⟩ := hs.copy _ a b hv (hc.trans hab)
          refine ⟨⟨t, by dsimp only at ht ⊢; rw [hty, ht], hct⟩, ?_⟩
          dsimp only [connectedWire] at hcw ⊢
          rw [(wf.sourceOf n o m q hm hv.2).1 hw.2.2.2]
          exact hcw
      have hc' : (St.put { st with next := st.next } m
          { u' with pos := max u'.pos (pos + 1) }).at' ⟨n, .out, o⟩ = c := by
        rw [hat _ hv, if_neg (by simp)]
        exact hc
      obtain ⟨st', h1, h2, h3, h3', h4, h5, h6, h7, h8⟩ :=
        ih (fun x hx => hls x (by simp [hx])) _ hsoft hc'
      refine ⟨st', ?_, h2, by rw [h3]; rfl, ?_, ?_, ?_, ?_, ?_, ?_⟩
      · rw [pushAll]
        simp only [hm, if_true, hu, hset]
        exact h1
      · intro k hk
        apply h3'
        by_cases hkm : k = m
        · exact ⟨{ u' with pos := max u'.pos (pos + 1) }, by simp [St.put, hkm]⟩
        · simpa [St.put, hkm] using hk
      · intro Q hQ hq
        rw [h4 Q hQ fun x hx => hq x (by simp [hx]), hat Q hQ, if_neg (hq (m, q) (by simp))]
      · intro x hx hxn
        by_cases hin : x ∈ ls
        · exact h5 x hin hxn
        · rcases List.mem_cons.1 hx with rfl | h
          · rw [h4 _ hvm, hat _ hvm, if_pos rfl]
            intro y hy e
            apply hin
            injection e with e1 _ e2
            rw [e1, e2]
            exact hy
          · exact absurd h hin
      · intro k
        refine Nat.le_trans ?_ (h6 k)
        rw [hps k]
        split
        · rename_i e
          rw [hpos, e]
          exact Nat.le_max_left _ _
        · exact Nat.le_refl _
      · intro k hk
        rw [h7 k fun x hx => hk x (by simp [hx]), hps k, if_neg]
        intro e
        exact hk (m, q) (by simp) e.symm
      · intro x hx hxn
        by_cases hin : x ∈ ls
        · exact h8 x hin hxn
        · rcases List.mem_cons.1 hx with rfl | h
          · refine Nat.le_trans ?_ (h6 m)
            rw [hps m, if_pos rfl]
            exact Nat.le_max_right _ _
          · exact absurd h hin
    · obtain ⟨st', h1, h2, h3, h3', h4, h5, h6, h7, h8⟩ :=
        ih (fun x hx => hls x (by simp [hx])) st hs hc
      refine ⟨st', ?_, h2, h3, h3', ?_, ?_, h6, ?_, ?_⟩
      · rw [pushAll]
        simp only [hm, if_false]
        exact h1
      · intro Q hQ hq
        exact h4 Q hQ fun x hx => hq x (by simp [hx])
      · intro x hx hxn
        rcases List.mem_cons.1 hx with rfl | h
        · exact absurd hxn hm
        · exact h5 x h hxn
      · intro k hk
        exact h7 k fun x hx => hk x (by simp [hx])
      · intro x hx hxn
        rcases List.mem_cons.1 hx with rfl | h
        · exact absurd hxn hm
        · exact h8 x h hxn

theorem pushOutputs_spec {order : List Nat} (wf : WF r order) {n : Nat} (hn : n ∈ r.nodes)
    {ins outs} (hsig : r.sig n = some (ins, outs)) (pos : Nat) (os : List Nat)
    (hos : ∀ o ∈ os, o < outs.length) (st : St) (hs : Soft r th st)
    (hu : ∃ u, st.units n = some u)
    (hfull : ∀ o, o < outs.length → st.at' ⟨n, .out, o⟩ ≠ .sentinel) :
    ∃ st', pushOutputs r n pos os st = some st' ∧ Soft r th st' ∧
      (∀ Q, r.Valid Q → (∀ o ∈ os, ∀ x ∈ r.linked n o, Q ≠ ⟨x.1, .inc, x.2⟩) →
        st'.at' Q = st.at' Q) ∧
      (∀ o ∈ os, ∀ x ∈ r.linked n o, x.1 ∈ r.nodes →
        st'.at' ⟨x.1, .inc, x.2⟩ = st.at' ⟨n, .out, o⟩ ∧ pos + 1 ≤ st'.posOf x.1) ∧
      (∀ m, st.posOf m ≤ st'.posOf m) ∧
      (∀ m, (∀ o ∈ os, ∀ x ∈ r.linked n o, x.1 ≠ m) → st'.posOf m = st.posOf m) ∧
      ∀ m, (∃ u, st.units m = some u) → ∃ u, st'.units m = some u := by
  induction os generalizing st with
  | nil =>
    exact ⟨st, rfl, hs, fun _ _ _ => rfl, by simp, fun _ => Nat.le_refl _, fun _ _ => rfl,
      fun _ h => h⟩
  | cons o os ih =>
    have ho : o < outs.length := hos o (by simp)
    have hv : r.Valid ⟨n, .out, o⟩ := valid_of hn hsig ho
    obtain ⟨st1, h1, h2, h3, h3', h4, h5, h6, h7, h8⟩ := pushAll_spec wf hn hv pos (r.linked n o)
      (fun _ h => h) st hs rfl
    have hout : ∀ o', o' < outs.length → st1.at' ⟨n, .out, o'⟩ = st.at' ⟨n, .out, o'⟩ := by
      intro o' ho'
      exact h4 _ (valid_of hn hsig ho') (by intro x _ e; exact absurd e (by simp))
    obtain ⟨st', k1, k2, k3, k4, k5, k6, k7⟩ := ih (fun o ho => hos o (by simp [ho])) st1 h2
      (h3' n hu) (by intro o' ho'; rw [hout o' ho']; exact hfull o' ho')
    refine ⟨st', ?_, k2, ?_, ?_, ?_, ?_, ?_⟩
    · rw [pushOutputs]
      obtain ⟨u, hu⟩ := hu
      have hget : (st.units n).bind (fun u => u.get .out o) = some (st.at' ⟨n, .out, o⟩) := by
        obtain ⟨u₀, he, _, _, _, hg⟩ := entry_spec hs.shape hsig
        unfold entry at he
        rw [hu] at he
        obtain rfl := Option.some.inj he
        rw [hu, Option.bind_some, hg .out o ho]
      simp only [hget, h1]
      exact k1
    · intro Q hQ hq
      rw [k3 Q hQ fun o ho => hq o (by simp [ho]), h4 Q hQ (hq o (by simp))]
    · intro o' ho' x hx hxn
      have hv' : r.Valid ⟨n, .out, o'⟩ := valid_of hn hsig (hos o' ho')
      by_cases hin : o' ∈ os
      · obtain ⟨a, b⟩ := k4 o' hin x hx hxn
        exact ⟨by rw [a, hout o' (hos o' ho')], b⟩
      · rcases List.mem_cons.1 ho' with rfl | h
        · refine ⟨?_, Nat.le_trans (h8 x hx hxn) (k5 x.1)⟩
          have hvx : r.Valid ⟨x.1, .inc, x.2⟩ := by
            obtain ⟨_, t, ht⟩ := hv'
            have := wf.types n o' x.1 x.2 ⟨hn, hxn, ⟨t, ht⟩, hx⟩
            exact ⟨hxn, t, by dsimp only at ht ⊢; rw [this, ht]⟩
          rw [k3 _ hvx, h5 x hx hxn]
          intro o2 ho2 y hy e
          apply hin
          injection e with e1 _ e2
          have hy' : (x.1, x.2) ∈ r.linked n o2 := by rw [e1, e2]; exact hy
          have hv2 : r.Valid ⟨n, .out, o2⟩ := valid_of hn hsig (hos o2 (by simp [ho2]))
          have a := (wf.sourceOf n o2 x.1 x.2 hxn hv2.2).1 hy'
          have b := (wf.sourceOf n o' x.1 x.2 hxn hv'.2).1 hx
          rw [a] at b
          have : o2 = o' := (Prod.mk.inj (Option.some.inj b)).2
          rw [← this]
          exact ho2
        · exact absurd h hin
    · intro m
      exact Nat.le_trans (h6 m) (k5 m)
    · intro m hm
      rw [k6 m fun o ho => hm o (by simp [ho]), h7 m (hm o (by simp))]
    · intro m hm
      exact k7 m (h3' m hm)

/-! ### Entries stay -/

theorem put_units {st : St} {n m : Nat} {u : NodeUnits} (h : ∃ v, st.units m = some v) :
    ∃ v, (st.put n u).units m = some v := by
  unfold St.put
  by_cases hm : m = n
  · exact ⟨u, by simp [hm]⟩
  · simpa [hm] using h

theorem persist_assign {ps : List (Nat × Nat)} {st st' : St} (h : assignUnits r ps st = some st')
    {m : Nat} (hm : ∃ v, st.units m = some v) : ∃ v, st'.units m = some v := by
  induction ps generalizing st with
  | nil =>
    rw [assignUnits] at h
    obtain rfl := Option.some.inj h
    exact hm
  | cons x ps ih =>
    rw [assignUnits.eq_def] at h
    dsimp only at h
    split at h
    · exact absurd h (by simp)
    · split at h
      · exact ih h hm
      · split at h
        · exact absurd h (by simp)
        · exact ih h (put_units hm)

theorem persist_missing {n : Nat} {st st' : St} (h : assignMissing r n st = some st')
    {m : Nat} (hm : ∃ v, st.units m = some v) : ∃ v, st'.units m = some v := by
  unfold assignMissing at h
  split at h
  · obtain rfl := Option.some.inj h
    exact hm
  · split at h
    · exact absurd h (by simp)
    · exact persist_assign h hm

theorem persist_out {flows} {n : Nat} {st st' : St} (h : propagateOut r flows n st = some st')
    {m : Nat} (hm : ∃ v, st.units m = some v) : ∃ v, st'.units m = some v := by
  unfold propagateOut at h
  split at h
  · obtain rfl := Option.some.inj h
    exact hm
  · dsimp only at h
    split at h
    · split at h
      · exact absurd h (by simp)
      · obtain rfl := Option.some.inj h
        exact put_units hm
    · exact absurd h (by simp)

/-! ### The main loop -/

structure Inv (r : Region T) (th : Nat → Nat → Nat → Prop) (done : List Nat) (st : St) : Prop where
  soft : Soft r th st
  have_ : ∀ n ∈ done, r.sig n ≠ none → ∃ u, st.units n = some u
  full : ∀ P, r.Valid P → P.node ∈ done → st.at' P ≠ .sentinel
  wired : ∀ n p m q, n ∈ done → r.Wire n p m q → st.at' ⟨m, .inc, q⟩ = st.at' ⟨n, .out, p⟩
  thru : ∀ n i o, n ∈ done → th n i o → st.at' ⟨n, .out, o⟩ = st.at' ⟨n, .inc, i⟩
  pos : ∀ n p m q, n ∈ done → r.Wire n p m q → st.posOf n + 1 ≤ st.posOf m

theorem wire_valid {order : List Nat} (wf : WF r order) {n p m q} (h : r.Wire n p m q) :
    r.Valid ⟨n, .out, p⟩ ∧ r.Valid ⟨m, .inc, q⟩ := by
  obtain ⟨hn, hm, ⟨t, ht⟩, hl⟩ := id h
  exact ⟨⟨hn, t, ht⟩, hm, t, by dsimp only; rw [wf.types n p m q h, ht]⟩

theorem wire_source {order : List Nat} (wf : WF r order) {n p m q} (h : r.Wire n p m q) :
    r.source m q = some (n, p) := (wf.sourceOf n p m q h.2.1 h.2.2.1).1 h.2.2.2

theorem step_spec {order : List Nat} (wf : WF r order) {flows} (hf : Follows r flows th)
    {done : List Nat} (hdone : ∀ m ∈ done, m ∈ r.nodes) {n : Nat} (hn : n ∈ r.nodes)
    (hfresh : n ∉ done) (hpre : ∀ p m q, m ∈ done → ¬ r.Wire n p m q) (st : St)
    (hi : Inv r th done st) :
    ∃ st', stepNode r flows n st = some st' ∧ Inv r th (n :: done) st' := by
  cases hsig : r.sig n with
  | none =>
    have hent : entry r st n = none := by
      unfold entry
      cases hu : st.units n with
      | none => simp [hsig]
      | some u =>
        obtain ⟨_, ins, outs, h, _⟩ := hi.soft.shape n u hu
        rw [hsig] at h
        exact absurd h (by simp)
    have nov : ∀ d i t, r.type? n d i ≠ some t := by
      intro d i t h
      simp [Region.type?, hsig] at h
    refine ⟨st, by simp [stepNode, assignMissing, propagateOut, propagateNext, hsig, hent], ?_⟩
    refine ⟨hi.soft, ?_, ?_, ?_, ?_, ?_⟩
    · intro m hm hs
      rcases List.mem_cons.1 hm with rfl | hm
      · exact absurd hsig hs
      · exact hi.have_ m hm hs
    · intro P hP hm
      rcases List.mem_cons.1 hm with h | hm
      · obtain ⟨_, t, ht⟩ := hP
        rw [h] at ht
        exact absurd ht (nov _ _ _)
      · exact hi.full P hP hm
    · intro a p m q ha hw
      rcases List.mem_cons.1 ha with rfl | ha
      · obtain ⟨t, ht⟩ := hw.2.2.1
        exact absurd ht (nov _ _ _)
      · exact hi.wired a p m q ha hw
    · intro a i o ha hth
      rcases List.mem_cons.1 ha with rfl | ha
      · obtain ⟨_, t, ht, _⟩ := (hf.linear _ i o hn hth).1
        exact absurd ht (nov _ _ _)
      · exact hi.thru a i o ha hth
    · intro a p m q ha hw
      rcases List.mem_cons.1 ha with rfl | ha
      · obtain ⟨t, ht⟩ := hw.2.2.1
        exact absurd ht (nov _ _ _)
      · exact hi.pos a p m q ha hw
  | some s =>
    obtain ⟨ins, outs⟩ := s
    obtain ⟨st1, a1, a2, a3, a4, a5⟩ := assignMissing_spec wf st hi.soft hn hsig
    obtain ⟨st2, b1, b2, b2', b3, b4, b5, b6⟩ := propagateOut_spec wf hf hn hsig st1 a2 a4
    obtain ⟨u2, hu2⟩ := b2'
    have hpos2 : u2.pos = st2.posOf n := by simp [St.posOf, St.getPos, hu2]
    obtain ⟨st3, c1, c2, c3, c4, c5, c6, c7⟩ := pushOutputs_spec wf hn hsig u2.pos
      (List.range outs.length) (by simp) st2 b2 ⟨u2, hu2⟩ b4
    have hout : ∀ p t, r.type? n .out p = some t → p ∈ List.range outs.length := by
      intro p t ht
      simp only [Region.type?, hsig] at ht
      simpa using (List.getElem?_eq_some_iff.1 ht).1
    have hself : ∀ o ∈ List.range outs.length, ∀ x ∈ r.linked n o, x.1 ≠ n := by
      intro o ho x hx e
      have hv : r.Valid ⟨n, .out, o⟩ := valid_of hn hsig (by simpa using ho)
      exact wf.acyclic n o x.2 ⟨hn, hn, hv.2, by
        have hx' : (x.1, x.2) ∈ r.linked n o := hx
        rw [e] at hx'
        exact hx'⟩
    -- ports of other nodes which no output of `n` feeds are unchanged
    have keep : ∀ Q, r.Valid Q → Q.node ≠ n → (∀ p m q, r.Wire n p m q → Q ≠ ⟨m, .inc, q⟩) →
        st3.at' Q = st.at' Q := by
      intro Q hQ hne hnw
      rw [c3 Q hQ, b3 Q hQ (.inl hne), a3 Q hQ (.inl hne)]
      intro o ho x hx e
      have hv : r.Valid ⟨n, .out, o⟩ := valid_of hn hsig (by simpa using ho)
      exact hnw o x.1 x.2 ⟨hn, by rw [e] at hQ; exact hQ.1, hv.2, hx⟩ e
    have keepn : ∀ Q, r.Valid Q → Q.node = n → st3.at' Q = st2.at' Q := by
      intro Q hQ he
      rw [c3 Q hQ]
      intro o ho x hx e
      rw [e] at he
      exact hself o ho x hx he
    refine ⟨st3, ?_, c2, ?_, ?_, ?_, ?_, ?_⟩
    · unfold stepNode
      simp only [a1, b1]
      unfold propagateNext
      simp only [hsig, hu2]
      exact c1
    · intro m hm hs
      rcases List.mem_cons.1 hm with rfl | hm
      · exact c7 _ ⟨u2, hu2⟩
      · cases hsm : r.sig m with
        | none => exact absurd hsm hs
        | some sm =>
          obtain ⟨im, om⟩ := sm
          -- the entry persists: trace through the phases
          apply c7
          have h0 := hi.have_ m hm hs
          by_cases hmn : m = n
          · exact ⟨u2, hmn ▸ hu2⟩
          · obtain ⟨u0, hu0⟩ := h0
            exact persist_out b1 (persist_missing a1 ⟨u0, hu0⟩)
    · intro P hP hm
      rcases List.mem_cons.1 hm with he | hm
      · rw [keepn P hP he]
        obtain ⟨ins', outs', hsig', hlt⟩ := valid_sig hP
        rw [he, hsig] at hsig'
        obtain ⟨rfl, rfl⟩ := Prod.mk.inj (Option.some.inj hsig')
        obtain ⟨pn, pd, pi⟩ := P
        dsimp only at he hlt
        subst he
        cases pd with
        | inc => rw [b3 _ hP (.inr rfl)]; exact a4 pi hlt
        | out => exact b4 pi hlt
      · rw [keep P hP (by rintro e; rw [e] at hm; exact hfresh hm)
          (by rintro p m q hw rfl; exact hpre p m q hm hw)]
        exact hi.full P hP hm
    · intro a p m q ha hw
      obtain ⟨hva, hvm⟩ := wire_valid wf hw
      rcases List.mem_cons.1 ha with rfl | hd
      · obtain ⟨t, ht⟩ := hw.2.2.1
        rw [(c4 p (hout p t ht) (m, q) hw.2.2.2 hw.2.1).1, keepn _ hva rfl]
      · have hane : a ≠ n := by rintro rfl; exact hfresh hd
        rw [keep ⟨a, .out, p⟩ hva hane (by intro _ _ _ _ e; exact absurd e (by simp)),
          ← hi.wired a p m q hd hw]
        by_cases hmn : m = n
        · subst hmn
          rw [keepn _ hvm rfl, b3 _ hvm (.inr rfl), a3 _ hvm (.inr (.inr ?_))]
          rw [hi.wired a p m q hd hw]
          exact hi.full _ hva hd
        · apply keep _ hvm hmn
          intro p' m' q' hw' e
          injection e with e1 _ e2
          have s1 := wire_source wf hw
          have s2 := wire_source wf hw'
          rw [← e1, ← e2, s1] at s2
          exact hane (Prod.mk.inj (Option.some.inj s2)).1
    · intro a i o ha hth
      have han : a ∈ r.nodes := by
        rcases List.mem_cons.1 ha with rfl | hd
        · exact hn
        · exact hdone a hd
      have hl := hf.linear a i o han hth
      rcases List.mem_cons.1 ha with rfl | hd
      · rw [keepn _ (valid_of_linear hl.2) rfl, keepn _ (valid_of_linear hl.1) rfl, b5 i o hth,
          b3 _ (valid_of_linear hl.1) (.inr rfl)]
      · have hane : a ≠ n := by rintro rfl; exact hfresh hd
        rw [keep _ (valid_of_linear hl.2) hane (by intro _ _ _ _ e; exact absurd e (by simp)),
          keep _ (valid_of_linear hl.1) hane (by
            intro p m q hw e
            injection e with e1 _ _
            subst e1
            exact hpre p _ q hd hw)]
        exact hi.thru a i o hd hth
    · intro a p m q ha hw
      rcases List.mem_cons.1 ha with rfl | hd
      · obtain ⟨t, ht⟩ := hw.2.2.1
        have := (c4 p (hout p t ht) (m, q) hw.2.2.2 hw.2.1).2
        rw [c6 _ hself, ← hpos2]
        exact this
      · have hane : a ≠ n := by rintro rfl; exact hfresh hd
        have : st3.posOf a = st.posOf a := by
          rw [c6 a, b6, a5]
          rintro o ho x hx rfl
          have hv : r.Valid ⟨n, .out, o⟩ := valid_of hn hsig (by simpa using ho)
          exact hpre o x.1 x.2 hd ⟨hn, hdone _ hd, hv.2, hx⟩
        rw [this]
        refine Nat.le_trans (hi.pos a p m q hd hw) (Nat.le_trans (Nat.le_of_eq ?_) (c5 m))
        rw [b6, a5]

theorem run_spec {order : List Nat} (wf : WF r order) {flows} (hf : Follows r flows th)
    (ns : List Nat) (done : List Nat) (hns : ∀ m ∈ ns, m ∈ r.nodes)
    (hdone : ∀ m ∈ done, m ∈ r.nodes) (hnd : ns.Nodup) (hdis : ∀ m ∈ ns, m ∉ done)
    (ht : ns.Pairwise fun a b => ∀ p q, ¬ r.Wire b p a q)
    (hd : ∀ a ∈ done, ∀ b ∈ ns, ∀ p q, ¬ r.Wire b p a q) (st : St) (hi : Inv r th done st) :
    ∃ st', runNodes r flows ns st = some st' ∧ Inv r th (ns.reverse ++ done) st' := by
  induction ns generalizing done st with
  | nil => exact ⟨st, rfl, hi⟩
  | cons n ns ih =>
    obtain ⟨st1, h1, h2⟩ := step_spec wf hf hdone (hns n (by simp)) (hdis n (by simp))
      (by intro p m q hm; exact hd m hm n (by simp) p q) st hi
    obtain ⟨hnn, hnd'⟩ := List.nodup_cons.1 hnd
    obtain ⟨ht1, ht2⟩ := List.pairwise_cons.1 ht
    obtain ⟨st', h3, h4⟩ := ih (n :: done) (fun m hm => hns m (by simp [hm]))
      (by
        intro m hm
        rcases List.mem_cons.1 hm with rfl | hm
        · exact hns _ (by simp)
        · exact hdone m hm) hnd'
      (by
        intro m hm hc
        rcases List.mem_cons.1 hc with rfl | hc
        · exact hnn hm
        · exact hdis m (by simp [hm]) hc) ht2
      (by
        intro a ha b hb
        rcases List.mem_cons.1 ha with rfl | ha
        · exact ht1 b hb
        · exact hd a ha b (by simp [hb])) st1 h2
    refine ⟨st', ?_, by simpa using h4⟩
    rw [runNodes]
    simp only [h1]
    exact h3

/-- The construction never panics, and establishes the invariant for the whole region. -/
theorem compute_spec {order : List Nat} (wf : WF r order) {flows} (hf : Follows r flows th) :
    ∃ st, compute r flows order = some st ∧ Inv r th r.nodes st := by
  have h0 : Soft r th ⟨fun _ => none, 0⟩ := by
    refine ⟨?_, ?_, ?_, ?_, ?_⟩
    · intro n u h; exact absurd h (by simp)
    · intro P id _ h; exact absurd h (by simp [St.at'])
    · intro P id _ h; exact absurd h (by simp [St.at'])
    · intro P m p _ h; exact absurd h (by simp [St.at'])
    · intro P Q id _ _ h; exact absurd h (by simp [St.at'])
  obtain ⟨st1, h1, h2, _, _, _⟩ := assignUnits_spec wf r.incoming _ h0 wf.incoming
  obtain ⟨st, h3, h4⟩ := run_spec wf hf order [] (fun m hm => wf.perm.mem_iff.1 hm) (by simp)
    (wf.perm.nodup_iff.2 wf.nodup) (by simp) wf.topo (by simp) st1
    ⟨h2, by simp, by simp, by simp, by simp, by simp⟩
  refine ⟨st, ?_, ?_⟩
  · unfold compute
    simp only [h1]
    exact h3
  · have hm : ∀ n, n ∈ r.nodes → n ∈ order.reverse ++ [] := by
      intro n hn
      simpa using wf.perm.mem_iff.2 hn
    exact ⟨h4.soft, fun n hn => h4.have_ n (hm n hn), fun P hP hn => h4.full P hP (hm _ hn),
      fun n p m q hn => h4.wired n p m q (hm n hn), fun n i o hn => h4.thru n i o (hm n hn),
      fun n p m q hn => h4.pos n p m q (hm n hn)⟩

/-! ### What a finished scope satisfies -/

theorem link_valid {order : List Nat} (wf : WF r order) {flows} (hf : Follows r flows th)
    {P Q : Port} (h : Link r th P Q) : r.Linear P ∧ r.Linear Q := by
  cases h with
  | wire hw hl =>
    refine ⟨hl, hw.2.1, ?_⟩
    obtain ⟨_, t, ht, hc⟩ := hl
    exact ⟨t, by dsimp only at ht ⊢; rw [wf.types _ _ _ _ hw, ht], hc⟩
  | through hn h => exact hf.linear _ _ _ hn h

variable {st : St}

theorem Inv.units_of_valid (hi : Inv r th r.nodes st) {P : Port} (hP : r.Valid P) :
    ∃ u, st.units P.node = some u := by
  obtain ⟨ins, outs, hsig, _⟩ := valid_sig hP
  exact hi.have_ P.node hP.1 (by simp [hsig])

theorem Inv.getUnit (hi : Inv r th r.nodes st) {P : Port} (hP : r.Valid P) :
    st.getUnit P.node P.dir P.idx = some (some (st.at' P)) := by
  obtain ⟨ins, outs, hsig, hlt⟩ := valid_sig hP
  obtain ⟨u, hu⟩ := hi.units_of_valid hP
  obtain ⟨u₀, he, _, _, _, hg⟩ := entry_spec hi.soft.shape hsig
  unfold entry at he
  rw [hu] at he
  obtain rfl := Option.some.inj he
  unfold St.getUnit
  simp only [hu, hg P.dir P.idx hlt, Option.map_some]

theorem Inv.resAt_eq (hi : Inv r th r.nodes st) {P : Port} (hP : r.Valid P) :
    st.resAt P = (st.at' P).asRes := by
  unfold St.resAt St.getRes
  rw [hi.getUnit hP]
  rfl

theorem Inv.linear_res (hi : Inv r th r.nodes st) {P : Port} (hP : r.Linear P) :
    ∃ id, st.at' P = .res id := by
  have hv := valid_of_linear hP
  cases h : st.at' P with
  | res id => exact ⟨id, rfl⟩
  | sentinel => exact absurd h (hi.full P hv hv.1)
  | copy m p =>
    obtain ⟨⟨t, ht, hc⟩, _⟩ := hi.soft.copy P m p hv h
    obtain ⟨_, t', ht', hc'⟩ := hP
    rw [ht] at ht'
    rw [Option.some.inj ht', hc'] at hc
    exact absurd hc (by simp)

theorem Inv.link_same (hi : Inv r th r.nodes st)
    {P Q : Port} (h : Link r th P Q) : st.at' P = st.at' Q := by
  cases h with
  | wire hw hl => exact (hi.wired _ _ _ _ hw.1 hw).symm
  | through hn h => exact (hi.thru _ _ _ hn h).symm

theorem Inv.eqv_same (hi : Inv r th r.nodes st)
    {P Q : Port} (h : Relation.EqvGen (Link r th) P Q) : st.at' P = st.at' Q := by
  induction h with
  | rel _ _ h => exact hi.link_same h
  | refl _ => rfl
  | symm _ _ _ ih => exact ih.symm
  | trans _ _ _ _ _ ih1 ih2 => exact ih1.trans ih2

/-! ### Paths -/

theorem link_left {order : List Nat} (wf : WF r order) {flows} (hf : Follows r flows th)
    {P P' Q : Port} (h : Link r th P Q) (h' : Link r th P' Q) : P = P' := by
  cases h with
  | wire hw hl =>
    cases h' with
    | wire hw' hl' =>
      have a := wire_source wf hw
      have b := wire_source wf hw'
      rw [a] at b
      obtain ⟨rfl, rfl⟩ := Prod.mk.inj (Option.some.inj b)
      rfl
  | through hn h =>
    cases h' with
    | through hn' h' => rw [hf.left _ _ _ _ h h']

theorem link_right (hl : r.LinearUse) (hinj : Injective th)
    {P Q Q' : Port} (h : Link r th P Q) (h' : Link r th P Q') : Q = Q' := by
  cases h with
  | wire hw hlin =>
    cases h' with
    | wire hw' hlin' =>
      obtain ⟨x, hx⟩ := hl _ _ hlin
      have a := hw.2.2.2
      have b := hw'.2.2.2
      rw [hx, List.mem_singleton] at a b
      rw [← b] at a
      obtain ⟨rfl, rfl⟩ := Prod.mk.inj a
      rfl
  | through hn h =>
    cases h' with
    | through hn' h' => rw [hinj _ _ _ _ h h']

abbrev Path (r : Region T) (th : Nat → Nat → Nat → Prop) : Port → Port → Prop :=
  Relation.ReflTransGen (Link r th)

/-- Connected ports lie on one path. -/
theorem path_of_eqv {order : List Nat} (wf : WF r order) {flows} (hf : Follows r flows th)
    (hl : r.LinearUse) (hinj : Injective th) {P Q : Port}
    (h : Relation.EqvGen (Link r th) P Q) : Path r th P Q ∨ Path r th Q P := by
  induction h with
  | rel _ _ h => exact .inl (.single h)
  | refl _ => exact .inl .refl
  | symm _ _ _ ih => exact ih.symm
  | trans P Q R _ _ ih1 ih2 =>
    rcases ih1 with a | a
    · rcases ih2 with b | b
      · exact .inl (a.trans b)
      · -- both paths end at `Q`
        have a' : Relation.ReflTransGen (Function.swap (Link r th)) Q P :=
          Relation.reflTransGen_swap.2 a
        have b' : Relation.ReflTransGen (Function.swap (Link r th)) Q R :=
          Relation.reflTransGen_swap.2 b
        have hu : Relator.RightUnique (Function.swap (Link r th)) := by
          intro x y z hxy hxz
          exact link_left wf hf hxy hxz
        rcases Relation.ReflTransGen.total_of_right_unique hu a' b' with c | c
        · exact .inr (Relation.reflTransGen_swap.1 c)
        · exact .inl (Relation.reflTransGen_swap.1 c)
    · rcases ih2 with b | b
      · have hu : Relator.RightUnique (Link r th) := by
          intro x y z hxy hxz
          exact link_right hl hinj hxy hxz
        rcases Relation.ReflTransGen.total_of_right_unique hu a b with c | c
        · exact .inl c
        · exact .inr c
      · exact .inr (b.trans a)

/-- The order of the ports along a path. -/
def St.key (st : St) (P : Port) : Nat :=
  2 * st.posOf P.node + (match P.dir with | .inc => 0 | .out => 1)

theorem Inv.key_lt (hi : Inv r th r.nodes st) {P Q : Port} (h : Link r th P Q) :
    st.key P < st.key Q := by
  cases h with
  | wire hw hl =>
    have := hi.pos _ _ _ _ hw.1 hw
    dsimp only [St.key]
    omega
  | through hn h =>
    dsimp only [St.key]
    omega

theorem Inv.key_path (hi : Inv r th r.nodes st) {P Q : Port} (h : Path r th P Q) :
    P = Q ∨ st.key P < st.key Q := by
  induction h with
  | refl => exact .inl rfl
  | tail _ h ih =>
    have := hi.key_lt h
    rcases ih with rfl | ih
    · exact .inr this
    · exact .inr (Nat.lt_trans ih this)

theorem Inv.path_node (hi : Inv r th r.nodes st) {P Q : Port} (h : Path r th P Q) :
    P.node = Q.node ∨ st.posOf P.node < st.posOf Q.node := by
  induction h with
  | refl => exact .inl rfl
  | tail _ h ih =>
    cases h with
    | wire hw hl =>
      have := hi.pos _ _ _ _ hw.1 hw
      dsimp only at ih ⊢
      rcases ih with h | h
      · rw [h]; exact .inr this
      · exact .inr (Nat.lt_of_lt_of_le h (by omega))
    | through hn h => exact ih

/-- Different ports of a node in the same direction have different resources. -/
theorem Inv.port_unique {order : List Nat} (wf : WF r order) {flows} (hf : Follows r flows th)
    (hl : r.LinearUse) (hinj : Injective th) (hi : Inv r th r.nodes st) {n d i j id}
    (hvi : r.Valid ⟨n, d, i⟩) (hvj : r.Valid ⟨n, d, j⟩) (h1 : st.at' ⟨n, d, i⟩ = .res id)
    (h2 : st.at' ⟨n, d, j⟩ = .res id) : i = j := by
  have he := hi.soft.same _ _ id hvi hvj h1 h2
  rcases path_of_eqv wf hf hl hinj he with h | h
  · rcases hi.key_path h with e | e
    · injection e
    · exact absurd e (by simp [St.key])
  · rcases hi.key_path h with e | e
    · injection e with _ _ e; exact e.symm
    · exact absurd e (by simp [St.key])

/-- `get_port` finds the port of a resource. -/
theorem Inv.getPort_eq {order : List Nat} (wf : WF r order) {flows} (hf : Follows r flows th)
    (hl : r.LinearUse) (hinj : Injective th) (hi : Inv r th r.nodes st) {n d i res} :
    st.getPort n res d = some i ↔ r.Valid ⟨n, d, i⟩ ∧ st.at' ⟨n, d, i⟩ = .res res := by
  unfold St.getPort
  cases hu : st.units n with
  | none =>
    refine ⟨fun h => absurd h (by simp), ?_⟩
    rintro ⟨hv, _⟩
    obtain ⟨u, h⟩ := hi.units_of_valid hv
    dsimp only at h
    rw [hu] at h
    exact absurd h (by simp)
  | some u =>
    obtain ⟨hn, ins, outs, hsig, h1, h2⟩ := hi.soft.shape n u hu
    obtain ⟨u₀, he, _, _, _, hg⟩ := entry_spec hi.soft.shape hsig
    unfold entry at he
    rw [hu] at he
    obtain rfl := Option.some.inj he
    dsimp only
    obtain ⟨L, hL⟩ : ∃ L : Nat, (match d with | .inc => ins.length | .out => outs.length) = L :=
      ⟨_, rfl⟩
    have hsl : ∀ j, (u.slice d)[j]? = if j < L then some (st.at' ⟨n, d, j⟩) else none := by
      intro j
      rw [← hL]
      have := hg d j
      cases d with
      | inc =>
        dsimp only [NodeUnits.slice, NodeUnits.get, NodeUnits.index] at this ⊢
        rw [List.getElem?_take, h1]
        split
        · rename_i hj; exact this hj
        · rfl
      | out =>
        dsimp only [NodeUnits.slice, NodeUnits.get, NodeUnits.index] at this ⊢
        rw [List.getElem?_drop]
        split
        · rename_i hj; exact this hj
        · rename_i hj; exact List.getElem?_eq_none (by omega)
    have hres : ∀ c : CUnit, c.asRes = some res ↔ c = .res res := by
      intro c; cases c <;> simp [CUnit.asRes]
    constructor
    · intro h
      obtain ⟨hlt, hp, _⟩ := List.findIdx?_eq_some_iff_getElem.1 h
      have hj := hsl i
      rw [List.getElem?_eq_getElem hlt] at hj
      split at hj
      · rename_i hi'
        refine ⟨valid_of hn hsig (hL ▸ hi'), ?_⟩
        rw [← Option.some.inj hj]
        exact (hres _).1 (by simpa using hp)
      · exact absurd hj (by simp)
    · rintro ⟨hv, hat⟩
      cases hf' : (u.slice d).findIdx? (fun c => decide (c.asRes = some res)) with
      | none =>
        exfalso
        obtain ⟨ins', outs', hsig', hlt⟩ := valid_sig hv
        dsimp only at hsig' hlt
        rw [hsig] at hsig'
        obtain ⟨rfl, rfl⟩ := Prod.mk.inj (Option.some.inj hsig')
        have hm := hsl i
        rw [if_pos (hL ▸ hlt), hat] at hm
        have := List.findIdx?_eq_none_iff.1 hf' _ (List.mem_of_getElem? hm)
        simp [CUnit.asRes] at this
      | some j =>
        obtain ⟨hlt, hp, _⟩ := List.findIdx?_eq_some_iff_getElem.1 hf'
        have hj := hsl j
        rw [List.getElem?_eq_getElem hlt] at hj
        split at hj
        · rename_i hj'
          have hvj : r.Valid ⟨n, d, j⟩ := valid_of hn hsig (hL ▸ hj')
          have hatj : st.at' ⟨n, d, j⟩ = .res res := by
            rw [← Option.some.inj hj]
            exact (hres _).1 (by simpa using hp)
          rw [hi.port_unique wf hf hl hinj hvj hv hatj hat]
        · exact absurd hj (by simp)

/-! ### The default flow -/

variable [DecidableEq T]

theorem preserving_iff (cp : T → Bool) (ins outs : List T) :
    preserving cp ins outs = true ↔ Preserves cp ins outs := by
  induction ins generalizing outs with
  | nil =>
    rw [preserving, List.all_eq_true]
    constructor
    · intro h i t ht hc
      rcases ht with ht | ht
      · exact absurd ht (by simp)
      · rw [h t (List.mem_of_getElem? ht)] at hc
        exact absurd hc (by simp)
    · intro h t ht
      obtain ⟨i, hi⟩ := List.mem_iff_getElem?.1 ht
      by_contra hc
      have := h i t (.inr hi) (by simpa using hc)
      rw [hi] at this
      exact absurd this (by simp)
  | cons a ins ih =>
    cases outs with
    | nil =>
      rw [preserving, Bool.and_eq_true, ih []]
      constructor
      · rintro ⟨h1, h2⟩ i t ht hc
        cases i with
        | zero =>
          rcases ht with ht | ht
          · simp only [List.getElem?_cons_zero, Option.some.injEq] at ht
            rw [← ht, h1] at hc
            exact absurd hc (by simp)
          · exact absurd ht (by simp)
        | succ i =>
          have := h2 i t (by simpa using ht) hc
          simpa using this
      · intro h
        refine ⟨?_, ?_⟩
        · by_contra hc
          have := h 0 a (.inl rfl) (by simpa using hc)
          exact absurd this (by simp)
        · intro i t ht hc
          have := h (i + 1) t (by simpa using ht) hc
          simpa using this
    | cons b outs =>
      rw [preserving, Bool.and_eq_true, ih outs]
      constructor
      · rintro ⟨h1, h2⟩ i t ht hc
        cases i with
        | zero =>
          simp only [List.getElem?_cons_zero, Option.some.injEq] at ht ⊢
          have hab : (!cp a || !cp b) = true := by
            rcases ht with rfl | rfl
            · simp [hc]
            · simp [hc]
          rw [if_pos hab] at h1
          simpa using h1
        | succ i =>
          have := h2 i t (by simpa using ht) hc
          simpa using this
      · intro h
        refine ⟨?_, ?_⟩
        · split
          · rename_i hab
            rw [Bool.or_eq_true] at hab
            rcases hab with hab | hab
            · have := h 0 a (.inl rfl) (by simpa using hab)
              simpa using this
            · have := h 0 b (.inr rfl) (by simpa using hab)
              simpa using this
          · rfl
        · intro i t ht hc
          have := h (i + 1) t (by simpa using ht) hc
          simpa using this

omit [DecidableEq T] in
theorem retain_get (cp : T → Bool) (xs : List (Option Nat)) (ts : List T) (o : Nat) :
    ((retainLinear cp xs ts)[o]?).join =
      match ts[o]? with
      | none => none
      | some t => if cp t then none else (xs[o]?).join := by
  induction ts generalizing xs o with
  | nil => cases xs <;> simp [retainLinear]
  | cons t ts ih =>
    cases xs with
    | nil =>
      rw [retainLinear]
      cases o with
      | zero => simp
      | succ o =>
        rw [List.getElem?_cons_succ, ih, List.getElem?_cons_succ]
        simp
    | cons x xs =>
      rw [retainLinear]
      cases o with
      | zero =>
        simp only [List.getElem?_cons_zero, Option.join_some]
      | succ o =>
        rw [List.getElem?_cons_succ, ih, List.getElem?_cons_succ, List.getElem?_cons_succ]

theorem default_follows (r : Region T) : Follows r [defaultFlow r] r.Through := by
  refine ⟨?_, ?_, ?_⟩
  · rintro n i o hn ⟨rfl, ins, outs, t, hsig, hp, hi, hc⟩
    have ho := hp i t (.inl hi) hc
    refine ⟨⟨hn, t, ?_, hc⟩, hn, t, ?_, hc⟩
    · simp only [Region.type?, hsig]; exact hi
    · simp only [Region.type?, hsig]; rw [← ho]; exact hi
  · rintro n i j o ⟨rfl, _⟩ ⟨rfl, _⟩
    rfl
  · intro n ins outs res hn hsig hlen hres
    by_cases hp : preserving r.copyable ins outs = true
    · refine ⟨retainLinear r.copyable res outs, by simp [firstFlow, defaultFlow, hsig, hp], ?_⟩
      intro o ho id
      rw [retain_get]
      have hpp := (preserving_iff _ _ _).1 hp
      constructor
      · intro h
        rw [List.getElem?_eq_getElem ho] at h
        dsimp only at h
        split at h
        · exact absurd h (by simp)
        · rename_i hc
          have hc' : r.copyable outs[o] = false := by simpa using hc
          have e := hpp o outs[o] (.inr (List.getElem?_eq_getElem ho)) hc'
          rw [List.getElem?_eq_getElem ho] at e
          refine ⟨o, ⟨rfl, ins, outs, outs[o], hsig, hpp, e, hc'⟩, ?_⟩
          cases h' : res[o]? with
          | none => rw [h'] at h; exact absurd h (by simp)
          | some x => rw [h'] at h; simpa using h
      · rintro ⟨i, ⟨rfl, ins', outs', t, hsig', _, hi, hc⟩, hr⟩
        rw [hsig] at hsig'
        obtain ⟨rfl, rfl⟩ := Prod.mk.inj (Option.some.inj hsig')
        have e := hpp i t (.inl hi) hc
        rw [hi] at e
        rw [← e]
        simp [hc, hr]
    · refine ⟨List.replicate outs.length none, by simp [firstFlow, defaultFlow, hsig, hp], ?_⟩
      intro o ho id
      constructor
      · intro h
        simp [ho] at h
      · rintro ⟨i, ⟨rfl, ins', outs', t, hsig', hp', _⟩, _⟩
        rw [hsig] at hsig'
        obtain ⟨rfl, rfl⟩ := Prod.mk.inj (Option.some.inj hsig')
        exact absurd ((preserving_iff _ _ _).2 hp') hp

omit [DecidableEq T] in
theorem default_injective (r : Region T) : Injective r.Through := by
  rintro n i o o' ⟨rfl, _⟩ ⟨rfl, _⟩
  rfl

end Verif.Resource
