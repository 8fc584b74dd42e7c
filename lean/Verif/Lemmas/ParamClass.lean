import Verif.Model.ParamClassSpec
import Verif.Lemmas.Through

/-
Rewrites in circuits where nothing is thrown away.
-/
namespace Verif.Matching

open Relation

variable {lin : Nat → Prop} {arity : Op → Nat}

/-- Inputs of a copy come from the copy or from its wires. -/
theorem emb_source {P C : Circ} {f : Nat → Nat} {w : Nat → Nat × Nat} (hc : Emb P C f w) (hP : P.Plain)
    (hlen : ∀ n ∈ P.cmds, (C.ins (f n)).length = (P.ins n).length) {m k : Nat} (hm : m ∈ P.cmds) {s : Nat × Nat}
    (hs : (C.ins (f m))[k]? = some s) :
    (∃ m' ∈ P.cmds, (P.ins m)[k]? = some (m', s.2) ∧ s.1 = f m') ∨
    ∃ i, i < P.numInputs ∧ (P.ins m)[k]? = some (P.inp, i) ∧ s = w i := by
  have hk : k < (P.ins m).length := by
    rw [← hlen m hm]; exact (List.getElem?_eq_some_iff.mp hs).1
  have hs' := List.getElem?_eq_getElem hk
  rcases hP.sources m (hP.cmd_mem hm).1 _ (List.getElem_mem hk) with h | ⟨h, hlt⟩
  · have := hc.edge m hm k _ hs' (hP.cmd_mem h).2.1
    rw [hs, Option.some.injEq] at this
    subst this
    exact .inl ⟨_, h, hs', rfl⟩
  · have := hc.input m hm k _ hs' h
    rw [hs, Option.some.injEq] at this
    subst this
    exact .inr ⟨_, hlt, by rw [hs', ← h], rfl⟩

/-- If every operation leads to the outputs, values inside of a copy are not used outside: otherwise all that
follows would belong to the subgraph, up to the output node. -/
theorem SubOK.private {P C : Circ} {f : Nat → Nat} {w : Nat → Nat × Nat} {nodes : List Nat} (hc : Emb P C f w)
    (hP : P.Plain) (hlen : ∀ n ∈ P.cmds, (C.ins (f n)).length = (P.ins n).length) (hbare : NoBare P) (hheld : Held P)
    (hs : SubOK C (imgIns P f) (imgOuts P f) nodes) (hlive : Alive C) : Private P C f := by
  intro m hm p hp n hn hin
  by_contra hno
  have hfm : ∀ m ∈ P.cmds, f m ∈ nodes := fun m hm => (hs.component _).mpr (img_comp hc hP hbare hheld m hm)
  have hnode : n ∈ nodes := by
    by_contra hnot
    exact hp (img_out hc hbare hm (hs.leave n hn hnot _ hin (hfm m hm)))
  -- what follows
  have key : ∀ b, ReflTransGen (Feeds C) n b → b ∈ nodes ∧ ¬ ∃ m' ∈ P.cmds, b = f m' := by
    intro b hb
    induction hb with
    | refl => exact ⟨hnode, hno⟩
    | @tail y z _ hf ih =>
      obtain ⟨hz, s, hs1, rfl⟩ := hf
      have hzn : z ∈ nodes := by
        by_contra hnot
        obtain ⟨t, ht, he⟩ := List.mem_map.mp (hs.leave z hz hnot s hs1 ih.1)
        exact ih.2 ⟨t.1, hbare t ht, by rw [← he]⟩
      refine ⟨hzn, ?_⟩
      rintro ⟨m', hm', rfl⟩
      obtain ⟨k, hk⟩ := List.getElem?_of_mem hs1
      rcases emb_source hc hP hlen hm' hk with ⟨m2, h2, _, h3⟩ | ⟨i, hi, h2, _⟩
      · exact ih.2 ⟨m2, h2, h3⟩
      · refine (hs.enter _ hzn k s hk).mp ?_ ih.1
        exact mem_imgIns.mpr ⟨i, m', k, hi, (hP.cmd_mem hm').1, h2, rfl⟩
  exact (hs.inner _ (key _ (hlive n hn)).1).2.2 rfl

/-- Without cycles, busy circuits are alive. -/
theorem Busy.alive {c : TCirc} (h : Busy lin arity c) (hc : Proper lin c) : Alive c.toCirc := by
  let T := {y : Nat // y ∈ c.members}
  have hfin : Finite T := (List.finite_toSet c.members).to_subtype
  let Q : T → T → Prop := fun a b => TransGen (Feeds c.toCirc) b.1 a.1
  have : IsTrans T Q := ⟨fun _ _ _ h1 h2 => TransGen.trans h2 h1⟩
  have : Std.Irrefl Q := ⟨fun a g => hc.acyclic a.1 g⟩
  have hwf : WellFounded Q := Finite.wellFounded_of_trans_of_irrefl Q
  have key : ∀ a : T, ReflTransGen (Feeds c.toCirc) a.1 c.out := by
    intro a
    induction a using hwf.induction with
    | h a ih =>
      obtain ⟨n, hn⟩ := a
      by_cases ho : n = c.out
      · subst ho; exact .refl
      · obtain ⟨p, m, hm, hs⟩ := h.some n hn ho
        have hf : Feeds c.toCirc n m := ⟨hm, (n, p), hs, rfl⟩
        exact .head hf (ih ⟨m, hm⟩ (.single hf))
  exact fun n hn => key ⟨n, hn⟩

/-- The types of commands stay when wires are removed. -/
theorem Mixed.wires_ty : ∀ {ks : List Nat} {c d : TCirc}, Mixed lin arity c → removeWires c ks = some d →
    ∀ n ∈ c.cmds, d.ty n = c.ty n
  | [], c, d, _, h1 => by
    simp only [removeWires, Option.some.injEq] at h1
    subst h1
    exact fun _ _ => rfl
  | k :: ks, c, d, h, h1 => by
    simp only [removeWires, Option.bind_eq_some_iff] at h1
    obtain ⟨c1, h1, g1⟩ := h1
    obtain ⟨j, hj, rfl⟩ := h.removed h1
    intro n hn
    rw [Mixed.wires_ty (h.cut hj) g1 n hn]
    funext p
    exact if_neg fun g => (h.plain.cmd_mem hn).2.1 g.1

/-- The types of inputs when wires are removed. -/
theorem Mixed.wires_inputs : ∀ {ks : List Nat} {c d c' d' : TCirc}, Mixed lin arity c → Mixed lin arity d →
    (List.range c.numInputs).map (c.ty c.inp) = (List.range d.numInputs).map (d.ty d.inp) →
    removeWires c ks = some c' → removeWires d ks = some d' →
    (List.range c'.numInputs).map (c'.ty c'.inp) = (List.range d'.numInputs).map (d'.ty d'.inp)
  | [], c, d, c', d', _, _, he, h1, h2 => by
    simp only [removeWires, Option.some.injEq] at h1 h2
    subst h1 h2
    exact he
  | k :: ks, c, d, c', d', hc, hd, he, h1, h2 => by
    simp only [removeWires, Option.bind_eq_some_iff] at h1 h2
    obtain ⟨c1, h1, g1⟩ := h1
    obtain ⟨d1, h2, g2⟩ := h2
    obtain ⟨j, hj, rfl⟩ := hc.removed h1
    obtain ⟨j', hj', rfl⟩ := hd.removed h2
    refine Mixed.wires_inputs (hc.cut hj) (hd.cut hj') ?_ g1 g2
    have hn : c.numInputs = d.numInputs := by simpa using congrArg List.length he
    rw [hn] at he
    have hty : ∀ p < d.numInputs, c.ty c.inp p = d.ty d.inp p := by
      intro p hp
      exact List.map_inj_left.mp he p (List.mem_range.mpr hp)
    have hk : k < d.numInputs := by
      rcases hd.plain.sources _ hd.proper.wf.out.1 _ (List.mem_of_getElem? hj') with h1 | h1
      · exact absurd rfl (hd.plain.cmd_mem h1).2.1
      · exact h1.2
    simp only [Matching.cut, hn]
    refine List.map_congr_left fun p hp => ?_
    rw [List.mem_range] at hp
    by_cases h : k ≤ p
    · rw [if_pos ⟨trivial, h⟩, if_pos ⟨trivial, h⟩]
      exact hty _ (by omega)
    · rw [if_neg fun g => h g.2, if_neg fun g => h g.2]
      exact hty _ (by omega)

/-- The types of outputs when wires are removed. -/
theorem Mixed.wires_outputs {q : Nat} : ∀ {ks : List Nat} {c d : TCirc}, Mixed lin arity c →
    (∀ s ∈ c.ins c.out, c.ty s.1 s.2 = q) → removeWires c ks = some d → ∀ s ∈ d.ins d.out, d.ty s.1 s.2 = q
  | [], c, d, _, h, h1 => by
    simp only [removeWires, Option.some.injEq] at h1
    subst h1
    exact h
  | k :: ks, c, d, hc, h, h1 => by
    simp only [removeWires, Option.bind_eq_some_iff] at h1
    obtain ⟨c1, h1, g1⟩ := h1
    obtain ⟨j, hj, rfl⟩ := hc.removed h1
    refine Mixed.wires_outputs (hc.cut hj) ?_ g1
    intro s hs
    obtain ⟨s0, k1, rfl, k3⟩ := (cut_mem hc hj hc.proper.wf.out.1).mp hs
    rw [cut_ty k _ k3]
    exact h s0 k1

section Rewrites

variable {u : Rule} {c : TCirc} {r : Rewrite} {f : Nat → Nat} {w : Nat → Nat × Nat} {base : Nat}

/-- Outputs of the replacement are used if they were before. -/
theorem Spot.read_out (h : Spot lin u c r f w) (hc : Sane lin c) (hb : Fresh c.toCirc base)
    (hl : Mixed lin arity u.left) (hr : Mixed lin arity u.right) (hbusy : Busy lin arity c) {o : Nat} {s : Nat × Nat}
    (hs : (u.right.ins u.right.out)[o]? = some s) : ∃ m ∈ (after u c r f w base).members,
      newSource base ((List.range u.left.numInputs).map w) u.right.toCirc s ∈ (after u c r f w base).ins m := by
  have hsite := h.site hc hb
  have hlt : o < (u.left.ins u.left.out).length := by
    rw [← h.outputs]; exact (List.getElem?_eq_some_iff.mp hs).1
  obtain ⟨t, ht⟩ : ∃ t, (u.left.ins u.left.out)[o]? = some t := ⟨_, List.getElem?_eq_getElem hlt⟩
  have htm := List.mem_of_getElem? ht
  have htc := h.bare t htm
  have himg : (imgOuts u.left.toCirc f)[o]? = some (f t.1, t.2) := by
    rw [imgOuts, List.getElem?_map, ht, Option.map_some]
  obtain ⟨e1, _, e3⟩ := h.emb.members t.1 htc
  obtain ⟨m, hm, hin⟩ := hbusy.linear (f t.1) e1 e3 t.2 (by
    rw [h.emb.op t.1 htc]
    exact (hl.range _ hl.proper.wf.out.1 t htm).resolve_left (hl.plain.cmd_mem htc).2.1) (by
    have := h.tout o s _ hs himg
    simp only at this
    rw [← this]
    exact hr.outputs s (List.mem_of_getElem? hs))
  have inj : ∀ t' : Nat × Nat, t'.1 ∈ u.left.cmds → f t'.1 = f t.1 → t'.2 = t.2 → t' = t :=
    fun t' h1 h2 h3 => Prod.ext (h.emb.inj _ h1 _ htc h2) h3
  have hmn : m ∉ r.nodes := by
    intro hmn
    obtain ⟨m', hm', rfl⟩ := (h.mem m).mp hmn
    obtain ⟨k, hk⟩ := List.getElem?_of_mem hin
    rcases emb_source h.emb hl.plain hsite.len hm' hk with ⟨m2, h2, h3, h4⟩ | ⟨i, hi, _, h3⟩
    · have := inj (m2, t.2) h2 h4.symm rfl
      rw [← this] at ht
      exact (hl.plain.cmd_mem hm').2.2 (hl.last ht (hl.plain.cmd_mem hm').1 h3).1
    · refine h.wires i hi ?_
      rw [← h3]
      exact (h.mem _).mpr ⟨t.1, htc, rfl⟩
  refine ⟨m, (mem_replaced hsite).mpr (.inl ⟨hm, hmn⟩), ?_⟩
  have hmb := hb.members m hm
  simp only [after, replaced, if_neg (show ¬ base ≤ m by omega), List.mem_map]
  refine ⟨_, hin, ?_⟩
  rw [oldSource]
  cases hi : (imgOuts u.left.toCirc f).idxOf? (f t.1, t.2) with
  | none => exact absurd (List.mem_of_getElem? himg) (idxOf?_none hi)
  | some i =>
    have hsi := idxOf?_some hi
    rw [imgOuts, List.getElem?_map, Option.map_eq_some_iff] at hsi
    obtain ⟨t', ht', he⟩ := hsi
    simp only [Prod.mk.injEq] at he
    have := inj t' (h.bare t' (List.mem_of_getElem? ht')) he.1 he.2
    subst this
    have hio := (hl.last ht hl.proper.wf.out.1 ht').2
    rw [hio]
    simp only [List.getD_eq_getElem?_getD, hs, Option.getD_some]

/-- All results and inputs of the replacement are used. -/
theorem Spot.read_new (h : Spot lin u c r f w) (hc : Sane lin c) (hb : Fresh c.toCirc base)
    (hl : Mixed lin arity u.left) (hr : Mixed lin arity u.right) (hbusy : Busy lin arity c) {m : Nat} {s : Nat × Nat}
    (hm : m ∈ u.right.members) (hs : s ∈ u.right.ins m) : ∃ m ∈ (after u c r f w base).members,
      newSource base ((List.range u.left.numInputs).map w) u.right.toCirc s ∈ (after u c r f w base).ins m := by
  rcases (hr.plain.members m).mp hm with hcmd | rfl
  · refine ⟨base + m, (mem_replaced (h.site hc hb)).mpr (.inr ⟨m, hcmd, rfl⟩), ?_⟩
    simp only [after, replaced, Nat.le_add_right, if_true, Nat.add_sub_cancel_left]
    exact List.mem_map.mpr ⟨s, hs, rfl⟩
  · obtain ⟨o, ho⟩ := List.getElem?_of_mem hs
    exact h.read_out hc hb hl hr hbusy ho

/-- What is used stays used. -/
theorem Spot.read_kept (h : Spot lin u c r f w) (hc : Sane lin c) (hb : Fresh c.toCirc base)
    (hl : Mixed lin arity u.left) (hr : Mixed lin arity u.right) (hbusy : Busy lin arity c) {m : Nat} {s : Nat × Nat}
    (hn : s.1 ∉ r.nodes) (hm : m ∈ c.members) (hs : s ∈ c.ins m) :
    ∃ m ∈ (after u c r f w base).members, s ∈ (after u c r f w base).ins m := by
  have hsite := h.site hc hb
  by_cases hmn : m ∈ r.nodes
  · obtain ⟨m', hm', rfl⟩ := (h.mem m).mp hmn
    obtain ⟨k, hk⟩ := List.getElem?_of_mem hs
    rcases emb_source h.emb hl.plain hsite.len hm' hk with ⟨m2, h2, _, h4⟩ | ⟨i, hi, _, rfl⟩
    · exact absurd ((h.mem _).mpr ⟨m2, h2, h4⟩) hn
    · have hi' : i < u.right.numInputs := h.inputs ▸ hi
      obtain ⟨m2, h1, h2⟩ := hr.inputs i hi'
      have := h.read_new hc hb hl hr hbusy h1 h2
      rwa [newSource, if_pos rfl, hsite.getD hi'] at this
  · refine ⟨m, (mem_replaced hsite).mpr (.inl ⟨hm, hmn⟩), ?_⟩
    have hmb := hb.members m hm
    simp only [after, replaced, if_neg (show ¬ base ≤ m by omega), List.mem_map]
    refine ⟨s, hs, ?_⟩
    rw [oldSource]
    cases hi : (imgOuts u.left.toCirc f).idxOf? s with
    | none => rfl
    | some i =>
      have hsi := idxOf?_some hi
      rw [imgOuts, List.getElem?_map, Option.map_eq_some_iff] at hsi
      obtain ⟨t, ht, he⟩ := hsi
      refine absurd ((h.mem _).mpr ⟨t.1, h.bare t (List.mem_of_getElem? ht), ?_⟩) hn
      rw [← he]

/-- Rewrites throw nothing away. -/
theorem Spot.busy (h : Spot lin u c r f w) (hc : Sane lin c) (hb : Fresh c.toCirc base)
    (hl : Mixed lin arity u.left) (hr : Mixed lin arity u.right) (hbusy : Busy lin arity c) :
    Busy lin arity (after u c r f w base) := by
  have hsite := h.site hc hb
  have new : ∀ m ∈ u.right.cmds, ∀ p < arity (u.right.op m), ∃ m' ∈ (after u c r f w base).members,
      (base + m, p) ∈ (after u c r f w base).ins m' := by
    intro m hm p hp
    obtain ⟨m', h1, h2⟩ := hr.used m hm p hp
    have := h.read_new hc hb hl hr hbusy h1 h2
    rwa [newSource, if_neg (hr.plain.cmd_mem hm).2.1] at this
  constructor
  · intro n hn ho p hp hlin
    rcases (mem_replaced hsite).mp hn with ⟨h1, h2⟩ | ⟨m, h1, rfl⟩
    · have hnb := hb.members n h1
      simp only [after, replaced, if_neg (show ¬ base ≤ n by omega)] at hp
      simp only [after, newTy, if_neg (show ¬ base ≤ n by omega)] at hlin
      obtain ⟨m, hm, hs⟩ := hbusy.linear n h1 ho p hp hlin
      exact h.read_kept hc hb hl hr hbusy h2 hm hs
    · simp only [after, replaced, Nat.le_add_right, if_true, Nat.add_sub_cancel_left] at hp
      exact new m h1 p hp
  · intro n hn ho
    rcases (mem_replaced hsite).mp hn with ⟨h1, h2⟩ | ⟨m, h1, rfl⟩
    · obtain ⟨p, m, hm, hs⟩ := hbusy.some n h1 ho
      exact ⟨p, h.read_kept hc hb hl hr hbusy h2 hm hs⟩
    · exact ⟨0, new m h1 0 (hr.gates m h1)⟩

end Rewrites

end Verif.Matching
