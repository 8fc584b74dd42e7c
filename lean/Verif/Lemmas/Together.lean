import Verif.Model.TogetherSpec
import Verif.Props.Rules

/-
Lemmas about rewrites applied one after the other.
-/
namespace Verif.Matching

open Relation

/-- A place where a rewrite can be applied, whatever the new numbers are. -/
structure Spot (lin : Nat → Prop) (u : Rule) (c : TCirc) (r : Rewrite) (f : Nat → Nat) (w : Nat → Nat × Nat) :
    Prop where
  fit : u.Fit lin
  bare : NoBare u.left.toCirc
  emb : Emb u.left.toCirc c.toCirc f w
  ins : r.ins = imgIns u.left.toCirc f
  outs : r.outs = imgOuts u.left.toCirc f
  repl : r.repl = u.right
  mem : ∀ n, n ∈ r.nodes ↔ ∃ m ∈ u.left.cmds, n = f m
  leave : ∀ n ∈ c.members, n ∉ r.nodes → ∀ s ∈ c.ins n, s.1 ∈ r.nodes → s ∈ imgOuts u.left.toCirc f
  wires : ∀ i, i < u.left.numInputs → (w i).1 ∉ r.nodes
  used : ∀ i, i < u.left.numInputs → ∃ n ∈ u.left.cmds, ∃ k : Nat, (u.left.ins n)[k]? = some (u.left.inp, i)
  inputs : u.right.numInputs = u.left.numInputs
  outputs : (u.right.ins u.right.out).length = (u.left.ins u.left.out).length
  tin : ∀ i, i < u.left.numInputs → u.right.ty u.right.inp i = c.ty (w i).1 (w i).2
  tout : ∀ (i : Nat) (s t : Nat × Nat), (u.right.ins u.right.out)[i]? = some s →
    (imgOuts u.left.toCirc f)[i]? = some t → u.right.ty s.1 s.2 = c.ty t.1 t.2

theorem imgIns_src {P C : Circ} {f : Nat → Nat} {w : Nat → Nat × Nat} (hc : Emb P C f w) (hP : P.Plain)
    (hbare : NoBare P) (i : Nat) (ps : List (Nat × Nat)) (hi : (imgIns P f)[i]? = some ps) :
    ∀ x ∈ ps, (C.ins x.1)[x.2]? = some (w i) := by
  intro x hx
  rw [imgIns, List.getElem?_map, Option.map_eq_some_iff] at hi
  obtain ⟨j, hj, rfl⟩ := hi
  obtain ⟨hlt, hj⟩ := List.getElem?_eq_some_iff.mp hj
  simp only [List.getElem_range] at hj
  subst hj
  obtain ⟨⟨n, k⟩, hy, rfl⟩ := List.mem_map.mp hx
  obtain ⟨h1, h2⟩ := mem_consumers.mp hy
  rcases (hP.members n).mp h1 with h | h
  · exact hc.input n h k _ h2 rfl
  · subst h
    exact absurd (hbare _ (List.mem_of_getElem? h2)) (fun h => (hP.cmd_mem h).2.1 rfl)

theorem Placed.spot {lin : Nat → Prop} {u : Rule} (hu : u.Fit lin) {c : TCirc} (hc : Sane lin c)
    {r : Rewrite} {f : Nat → Nat} {w : Nat → Nat × Nat} (hp : Placed u c r f w) {base : Nat}
    (hb : Fresh c.toCirc base) : Spot lin u c r f w := by
  obtain ⟨h1, h2, _, h3, _⟩ := site_of hu hc hp.proposes hp.bare hp.sub hp.sig (by
    rw [hp.proposes.ins]
    exact imgIns_src hp.proposes.copy.emb hu.left.2 hp.bare) hp.priv hb
  exact ⟨hu, hp.bare, hp.proposes.copy.emb, hp.proposes.ins, hp.proposes.outs, hp.proposes.repl, h1.mem,
    h1.leave, fun i hi => (h1.wires i hi).1, h3, h1.inputs, h1.outputs, h2.ins, h2.outs⟩

variable {lin : Nat → Prop} {u : Rule} {c : TCirc} {r : Rewrite} {f : Nat → Nat} {w : Nat → Nat × Nat}

/-- The source of a wire that feeds an input. -/
theorem Spot.fed (h : Spot lin u c r f w) {i : Nat} (hi : i < u.left.numInputs) :
    ∃ n ∈ u.left.cmds, (u.left.inp, i) ∈ u.left.ins n ∧ f n ∈ c.members ∧ f n ∈ r.nodes ∧ w i ∈ c.ins (f n) := by
  obtain ⟨n, hn, k, hk⟩ := h.used i hi
  exact ⟨n, hn, List.mem_of_getElem? hk, (h.emb.members n hn).1, (h.mem _).mpr ⟨n, hn, rfl⟩,
    List.mem_of_getElem? (h.emb.input n hn k _ hk rfl)⟩

theorem Spot.site (h : Spot lin u c r f w) (hc : Sane lin c) {base : Nat} (hb : Fresh c.toCirc base) :
    Site u.left.toCirc u.right.toCirc c.toCirc f w r.nodes base := by
  refine ⟨h.fit.left.2, h.fit.right.1, h.bare, h.emb, ?_, ?_, h.mem, h.leave, ?_, hb,
    ⟨hc.wf.out.1, hc.inp⟩, h.inputs, h.outputs⟩
  · intro n hn
    rw [hc.wf.length _ (h.emb.members n hn).1, h.fit.left.1.length n (h.fit.left.2.cmd_mem hn).1, h.emb.op n hn]
  · intro n hn
    rw [hc.flat _ (h.emb.members n hn).1, h.fit.flat n hn]
  · intro i hi
    obtain ⟨n, _, _, h1, _, h2⟩ := h.fed hi
    exact ⟨h.wires i hi, hb.sources (f n) h1 _ h2⟩

theorem Spot.types (h : Spot lin u c r f w) (hc : Sane lin c) : Site.Types lin u.left.toCirc u.right c f w :=
  ⟨h.fit.right.2.typed, hc.typed, h.tin, h.tout⟩

theorem Spot.wiresOf (h : Spot lin u c r f w) :
    wiresOf c.toCirc r.ins = some ((List.range u.left.numInputs).map w) := by
  have := wiresOf_spec (c := c.toCirc) (w := w) (gs := r.ins) (k := 0) (by
    rw [h.ins]
    intro g hg
    obtain ⟨i, hi, rfl⟩ := List.mem_map.mp hg
    obtain ⟨n, hn, k, hk⟩ := h.used i (List.mem_range.mp hi)
    have : (n, k) ∈ consumers u.left.toCirc u.left.inp i :=
      mem_consumers.mpr ⟨(h.fit.left.2.cmd_mem hn).1, hk⟩
    intro he
    rw [List.map_eq_nil_iff] at he
    rw [he] at this
    simp at this) (by
    rw [h.ins]
    simpa using imgIns_src h.emb h.fit.left.2 h.bare)
  rw [this, h.ins]
  simp [imgIns]

/-- The circuit afterwards. -/
def after (u : Rule) (c : TCirc) (r : Rewrite) (f : Nat → Nat) (w : Nat → Nat × Nat) (base : Nat) : TCirc :=
  { toCirc := replaced c.toCirc u.right.toCirc r.nodes (imgOuts u.left.toCirc f)
      ((List.range u.left.numInputs).map w) base, ty := newTy c u.right base }

/-- Rewrites can be applied at their places, and the new circuit is well formed. -/
theorem Spot.apply (h : Spot lin u c r f w) (hc : Sane lin c) {base : Nat} (hb : Fresh c.toCirc base) :
    applyRw c base r = some (after u c r f w base) ∧ Sane lin (after u c r f w base) ∧
    ((after u c r f w base).inp = c.inp ∧ (after u c r f w base).out = c.out ∧
      (after u c r f w base).op c.inp = c.op c.inp ∧ (after u c r f w base).op c.out = c.op c.out) := by
  have hsite := h.site hc hb
  refine ⟨?_, ⟨?_, ?_, ?_, ?_, ?_⟩, ?_⟩
  · rw [applyRw, h.wiresOf, Option.map_some, h.repl, h.outs]
    rfl
  · refine hsite.wf (h.types hc) hc.wf h.fit.right.2.wf hc.nodup h.fit.right.2.nodup h.used ?_
    intro i hi
    obtain ⟨n, _, _, h1, _, h2⟩ := h.fed hi
    exact hc.wf.sources (f n) h1 _ h2
  · exact hsite.nodup hc.nodup h.fit.right.2.nodup _ _
  · intro hi
    rcases (mem_replaced hsite).mp hi with ⟨h1, _⟩ | ⟨k, _, h1⟩
    · exact hc.inp h1
    · have := hb.io.1
      simp only [after, replaced] at h1
      omega
  · exact hsite.typed (h.types hc)
  · intro n hn
    rcases (mem_replaced hsite).mp hn with ⟨h1, _⟩ | ⟨k, h1, rfl⟩
    · have := hb.members n h1
      simp only [after, replaced, if_neg (show ¬ base ≤ n by omega)]
      exact hc.flat n h1
    · simp only [after, replaced, Nat.le_add_right, if_true, Nat.add_sub_cancel_left]
      exact h.fit.right.2.flat k (h.fit.right.1.cmd_mem h1).1
  · have h1 := hb.io.1
    have h2 := hb.io.2
    refine ⟨rfl, rfl, ?_, ?_⟩
    · simp only [after, replaced, if_neg (show ¬ base ≤ c.inp by omega)]
    · simp only [after, replaced, if_neg (show ¬ base ≤ c.out by omega)]

/-- The new source of a port. -/
theorem Site.newCases {P R C : Circ} {f w nodes base} (h : Site P R C f w nodes base) {n : Nat}
    (hn : n ∈ R.members) {s : Nat × Nat} (hs : s ∈ R.ins n) :
    (s.1 ∈ R.cmds ∧ newSource base ((List.range P.numInputs).map w) R s = (base + s.1, s.2)) ∨
    (s = (R.inp, s.2) ∧ s.2 < P.numInputs ∧ newSource base ((List.range P.numInputs).map w) R s = w s.2) := by
  rcases h.plainR.sources n hn s hs with hc | ⟨hi, hlt⟩
  · exact .inl ⟨hc, by rw [newSource, if_neg (h.plainR.cmd_mem hc).2.1]⟩
  · exact .inr ⟨Prod.ext hi rfl, h.inputs ▸ hlt, by rw [newSource, if_pos hi, h.getD hlt]⟩

theorem Site.oldCases {P R C : Circ} {f w nodes base} (h : Site P R C f w nodes base) (t : Nat × Nat) :
    (t ∉ imgOuts P f ∧ oldSource base ((List.range P.numInputs).map w) (imgOuts P f) R t = t) ∨
    ∃ (o : Nat) (s : Nat × Nat), (imgOuts P f)[o]? = some t ∧ (R.ins R.out)[o]? = some s ∧
      oldSource base ((List.range P.numInputs).map w) (imgOuts P f) R t =
        newSource base ((List.range P.numInputs).map w) R s := by
  cases hi : (imgOuts P f).idxOf? t with
  | none => exact .inl ⟨idxOf?_none hi, by rw [oldSource, hi]⟩
  | some i =>
    have hsi := idxOf?_some hi
    have hltR : i < (R.ins R.out).length := by
      have := (List.getElem?_eq_some_iff.mp hsi).1
      rw [imgOuts, List.length_map] at this
      rw [h.outputs]; exact this
    refine .inr ⟨i, _, hsi, List.getElem?_eq_getElem hltR, ?_⟩
    rw [oldSource, hi]
    simp only [List.getD_eq_getElem?_getD, List.getElem?_eq_getElem hltR, Option.getD_some]

/-- Outputs of the subgraph are ports of its nodes. -/
theorem Spot.outs_nodes (h : Spot lin u c r f w) {t : Nat × Nat} (ht : t ∈ imgOuts u.left.toCirc f) :
    t.1 ∈ r.nodes := by
  obtain ⟨s, hs, rfl⟩ := List.mem_map.mp ht
  exact (h.mem _).mpr ⟨s.1, h.bare s hs, rfl⟩

/-- A place stays a place when another rewrite is applied, unless this feeds an output to an input. -/
theorem Spot.keep {u2 : Rule} {r2 : Rewrite} {f2 : Nat → Nat} {w2 : Nat → Nat × Nat}
    (h1 : Spot lin u c r f w) (h2 : Spot lin u2 c r2 f2 w2) (hdis : ∀ n ∈ r.nodes, n ∉ r2.nodes)
    (hc : Sane lin c) {base : Nat} (hb : Fresh c.toCirc base)
    (hno : ∀ (j o i : Nat), j < u.left.numInputs → (u.right.ins u.right.out)[o]? = some (u.right.inp, j) →
      i < u2.left.numInputs → (imgOuts u.left.toCirc f)[o]? = some (w2 i) → (w j).1 ∉ r2.nodes) :
    Spot lin u2 (after u c r f w base) r2 f2
      (fun i => oldSource base ((List.range u.left.numInputs).map w) (imgOuts u.left.toCirc f) u.right.toCirc (w2 i)) := by
  have hsite := h1.site hc hb
  have hRout : u.right.out ∈ u.right.members := (h1.fit.right.1.members _).mpr (.inr rfl)
  have hfb : ∀ n ∈ u2.left.cmds, f2 n < base := fun n hn => hb.members _ (h2.emb.members n hn).1
  have hf2 : ∀ n ∈ u2.left.cmds, f2 n ∉ r.nodes := fun n hn hin => hdis _ hin ((h2.mem _).mpr ⟨n, hn, rfl⟩)
  have hr2b : ∀ n ∈ r2.nodes, n < base := by
    intro n hn
    obtain ⟨m, hm, rfl⟩ := (h2.mem n).mp hn
    exact hfb m hm
  have hwb : ∀ i, i < u2.left.numInputs → (w2 i).1 < base := fun i hi => ((h2.site hc hb).wires i hi).2
  refine ⟨h2.fit, h2.bare, ⟨?_, h2.emb.inj, ?_, ?_, ?_⟩, h2.ins, h2.outs, h2.repl, h2.mem, ?_, ?_, h2.used,
    h2.inputs, h2.outputs, ?_, ?_⟩
  · intro n hn
    obtain ⟨g1, g2, g3⟩ := h2.emb.members n hn
    exact ⟨(mem_replaced hsite).mpr (.inl ⟨g1, hf2 n hn⟩), g2, g3⟩
  · intro n hn
    have := hfb n hn
    simp only [after, replaced, if_neg (show ¬ base ≤ f2 n by omega)]
    exact h2.emb.op n hn
  · intro n hn k s hs hi
    have := hfb n hn
    simp only [after, replaced, if_neg (show ¬ base ≤ f2 n by omega), List.getElem?_map,
      h2.emb.edge n hn k s hs hi, Option.map_some, Option.some.injEq]
    rcases hsite.oldCases (f2 s.1, s.2) with ⟨_, g⟩ | ⟨o, _, g, _⟩
    · exact g
    · have hsc : s.1 ∈ u2.left.cmds := by
        rcases h2.fit.left.2.sources n (h2.fit.left.2.cmd_mem hn).1 s (List.mem_of_getElem? hs) with h | h
        · exact h
        · exact absurd h.1 hi
      exact absurd (h1.outs_nodes (List.mem_of_getElem? g)) (hf2 _ hsc)
  · intro n hn k s hs hi
    have := hfb n hn
    simp only [after, replaced, if_neg (show ¬ base ≤ f2 n by omega), List.getElem?_map,
      h2.emb.input n hn k s hs hi, Option.map_some]
  · intro n hn hnn s' hs' hin
    have hlt := hr2b _ hin
    obtain ⟨k, hk⟩ := List.getElem?_of_mem hs'
    have hw1 : ∀ j, j < u.left.numInputs → (w j).1 ∈ r2.nodes → w j ∈ imgOuts u2.left.toCirc f2 := by
      intro j hj hjn
      obtain ⟨m, hm, _, g1, g2, g3⟩ := h1.fed hj
      exact h2.leave (f m) g1 (hdis _ g2) _ g3 hjn
    have hns : ∀ m ∈ u.right.members, ∀ s ∈ u.right.ins m,
        s' = newSource base ((List.range u.left.numInputs).map w) u.right.toCirc s →
        s' ∈ imgOuts u2.left.toCirc f2 := by
      intro m hm s hs he
      rcases hsite.newCases hm hs with ⟨_, g⟩ | ⟨_, g1, g⟩
      · rw [he, g] at hlt
        simp only at hlt
        omega
      · rw [he, g]
        exact hw1 _ g1 (by rw [← g, ← he]; exact hin)
    rcases hsite.origin hn hk with ⟨hm, _, g, _⟩ | ⟨m, s, hm, rfl, g, he⟩ | ⟨i, t, s, hm, hnn', g1, hi, g2, he⟩
    · exact h2.leave n hm hnn s' (List.mem_of_getElem? g) hin
    · exact hns m (h1.fit.right.1.cmd_mem hm).1 s (List.mem_of_getElem? g) he
    · exact hns _ hRout s (List.mem_of_getElem? g2) he
  · intro i hi hin
    rcases hsite.oldCases (w2 i) with ⟨_, g⟩ | ⟨o, s, g1, g2, g3⟩
    · rw [g] at hin
      exact h2.wires i hi hin
    · rw [g3] at hin
      rcases hsite.newCases hRout (List.mem_of_getElem? g2) with ⟨_, k⟩ | ⟨k1, k2, k⟩
      · have := hr2b _ hin
        rw [k] at this
        simp only at this
        omega
      · rw [k] at hin
        exact hno s.2 o i k2 (by rw [g2, ← k1]) hi g1 hin
  · intro i hi
    have := hwb i hi
    show _ = newTy c u.right base _ _
    rcases hsite.oldCases (w2 i) with ⟨_, g⟩ | ⟨o, s, g1, g2, g3⟩
    · rw [g, newTy, if_neg (by omega)]
      exact h2.tin i hi
    · rw [g3, hsite.newTy_source (h1.types hc) hRout (List.mem_of_getElem? g2), h1.tout o s _ g2 g1]
      exact h2.tin i hi
  · intro i s t hs ht
    have := hr2b _ (h2.outs_nodes (List.mem_of_getElem? ht))
    simp only [after, newTy, if_neg (show ¬ base ≤ t.1 by omega)]
    exact h2.tout i s t hs ht

/-- A path that leaves a convex set does not come back. -/
theorem convex_path {C : Circ} {nodes : List Nat}
    (hconv : ∀ a ∈ nodes, ∀ b, b ∉ nodes → Feeds C a b → ∀ d ∈ nodes, ¬ ReflTransGen (Feeds C) b d)
    {a b d : Nat} (ha : a ∈ nodes) (hab : TransGen (Feeds C) a b) (hb : b ∉ nodes)
    (hbd : ReflTransGen (Feeds C) b d) : d ∉ nodes := by
  have key : b ∈ nodes ∨ ∃ a' ∈ nodes, ∃ b', b' ∉ nodes ∧ Feeds C a' b' ∧ ReflTransGen (Feeds C) b' b := by
    clear hbd hb
    induction hab with
    | @single b h =>
      by_cases hb : b ∈ nodes
      · exact .inl hb
      · exact .inr ⟨a, ha, b, hb, h, .refl⟩
    | @tail b e _ h ih =>
      by_cases he : e ∈ nodes
      · exact .inl he
      · right
        rcases ih with hb | ⟨a', h1, b', h2, h3, h4⟩
        · exact ⟨b, hb, e, he, h, .refl⟩
        · exact ⟨a', h1, b', h2, h3, h4.tail h⟩
  intro hd
  rcases key with h | ⟨a', h1, b', h2, h3, h4⟩
  · exact hb h
  · exact hconv a' h1 b' h2 h3 d hd (h4.trans hbd)

/-- Edges between nodes of a set. -/
def In (nodes : List Nat) (c : Circ) (a b : Nat) : Prop := a ∈ nodes ∧ b ∈ nodes ∧ Feeds c a b

theorem In.map {nodes : List Nat} {c c0 : Circ} (h : ∀ a ∈ nodes, ∀ b ∈ nodes, Feeds c a b → TransGen (Feeds c0) a b)
    {a b : Nat} (hp : ReflTransGen (In nodes c) a b) : ReflTransGen (Feeds c0) a b := by
  induction hp with
  | refl => exact .refl
  | tail _ hj ih => exact ih.trans (h _ hj.1 _ hj.2.1 hj.2.2).to_reflTransGen

/-- Paths of the left-hand side are paths of the copy. -/
theorem Spot.path (h : Spot lin u c r f w) {n m : Nat} (hn : n ∈ u.left.cmds) (hm : m ∈ u.left.cmds)
    (hp : ReflTransGen (Feeds u.left.toCirc) n m) : ReflTransGen (In r.nodes c.toCirc) (f n) (f m) := by
  have hmem : ∀ {x}, ReflTransGen (Feeds u.left.toCirc) n x → x ∈ u.left.members := by
    intro x hx
    rcases ReflTransGen.cases_tail_iff _ _ _ |>.mp hx with rfl | ⟨y, _, hy⟩
    · exact (h.fit.left.2.cmd_mem hn).1
    · exact hy.1
  induction hp with
  | refl => exact .refl
  | @tail y z hy hyz ih =>
    have hyc : y ∈ u.left.cmds := by
      obtain ⟨h1, s, h2, rfl⟩ := hyz
      rcases h.fit.left.2.sources z h1 s h2 with g | ⟨g, _⟩
      · exact g
      · exact absurd (g ▸ hmem hy) h.fit.left.2.inp
    refine (ih hyc).tail ⟨(h.mem _).mpr ⟨y, hyc, rfl⟩, (h.mem _).mpr ⟨z, hm, rfl⟩,
      (h.emb.members z hm).1, ?_⟩
    obtain ⟨h1, s, h2, rfl⟩ := hyz
    obtain ⟨k, hk⟩ := List.getElem?_of_mem h2
    exact ⟨_, List.mem_of_getElem? (h.emb.edge z hm k s hk (h.fit.left.2.cmd_mem hyc).2.1), rfl⟩

/-- Dependencies of the left-hand side are paths through the copy. -/
theorem Spot.dep (h : Spot lin u c r f w) {i o : Nat} (hd : Dep u.left.toCirc i o) {t : Nat × Nat}
    (ht : (imgOuts u.left.toCirc f)[o]? = some t) :
    ∃ n ∈ u.left.cmds, (u.left.inp, i) ∈ u.left.ins n ∧ f n ∈ r.nodes ∧ Feeds c.toCirc (w i).1 (f n) ∧
      t.1 ∈ r.nodes ∧ ReflTransGen (In r.nodes c.toCirc) (f n) t.1 := by
  rcases hd with hd | ⟨n, hn, hi, m, p, hm, hp, ho⟩
  · exact absurd (h.bare _ (List.mem_of_getElem? hd)) (fun h' => (h.fit.left.2.cmd_mem h').2.1 rfl)
  · rw [imgOuts, List.getElem?_map, ho] at ht
    simp only [Option.map_some, Option.some.injEq] at ht
    subst ht
    obtain ⟨k, hk⟩ := List.getElem?_of_mem hi
    exact ⟨n, hn, hi, (h.mem _).mpr ⟨n, hn, rfl⟩,
      ⟨(h.emb.members n hn).1, w i, List.mem_of_getElem? (h.emb.input n hn k _ hk rfl), rfl⟩,
      (h.mem _).mpr ⟨m, hm, rfl⟩, h.path hn hm hp⟩

/-- Edges between remaining nodes stay paths of the first circuit. -/
theorem Spot.inv (h : Spot lin u c r f w) (hthrough : u.Through) (hc : Sane lin c) {base : Nat}
    (hb : Fresh c.toCirc base) {c0 : Circ} {U : Nat → Prop} (hU : ∀ n ∈ r.nodes, U n)
    (hinv : ∀ a b, U a → U b → Feeds c.toCirc a b → TransGen (Feeds c0) a b)
    {a b : Nat} (ha : U a) (hbU : U b) (hab : a < base) (hbb : b < base)
    (he : Feeds (after u c r f w base).toCirc a b) : TransGen (Feeds c0) a b := by
  have hsite := h.site hc hb
  have hRout : u.right.out ∈ u.right.members := (h.fit.right.1.members _).mpr (.inr rfl)
  obtain ⟨hm, s', hs', rfl⟩ := he
  obtain ⟨k, hk⟩ := List.getElem?_of_mem hs'
  rcases hsite.origin hm hk with ⟨hm, _, g, _⟩ | ⟨m, s, hm, rfl, g, _⟩ | ⟨o, t, s, hm, hnn', g1, hi, g2, he⟩
  · exact hinv _ _ ha hbU ⟨hm, s', List.mem_of_getElem? g, rfl⟩
  · omega
  · have hto := idxOf?_some hi
    rcases hsite.newCases hRout (List.mem_of_getElem? g2) with ⟨_, g⟩ | ⟨k1, k2, g⟩
    · rw [he, g] at hab
      simp only at hab
      omega
    · rw [he, g] at ha ⊢
      obtain ⟨n, _, _, q1, q2, q3, q4⟩ := h.dep (hthrough s.2 o (by rw [g2, ← k1])) hto
      have hp : ReflTransGen (Feeds c0) (f n) t.1 := In.map (fun a ha b hb => hinv a b (hU _ ha) (hU _ hb)) q4
      exact ((hinv _ _ ha (hU _ q1) q2).trans_left hp).trans
        (hinv _ _ (hU _ q3) hbU ⟨hm, t, List.mem_of_getElem? g1, rfl⟩)

/-- Rewrites at places that share no nodes, applied one after the other. -/
theorem applyAll_rel {Good : Rule → Prop} {Rel : TCirc → TCirc → Prop} (hrefl : ∀ c, Rel c c) {next : TCirc → Nat}
    (hstep : ∀ {u c r f w d}, Spot lin u c r f w → Good u → Sane lin c → Rel (after u c r f w (next c)) d → Rel c d)
    (hnext : ∀ c, Fresh c.toCirc (next c)) (c0 : Circ) : ∀ (rs : List Rewrite) (c : TCirc), Sane lin c →
    (∀ r ∈ rs, ∃ u f w, Spot lin u c r f w ∧ u.Through ∧ Good u) →
    rs.Pairwise Apart →
    (∀ r ∈ rs, ∀ a ∈ r.nodes, ∀ b, b ∉ r.nodes → Feeds c0 a b → ∀ d ∈ r.nodes, ¬ ReflTransGen (Feeds c0) b d) →
    (∀ a b, (∃ r ∈ rs, a ∈ r.nodes) → (∃ r ∈ rs, b ∈ r.nodes) → Feeds c.toCirc a b → TransGen (Feeds c0) a b) →
    ∃ d, applyAll next c rs = some d ∧ Sane lin d ∧
      (d.inp = c.inp ∧ d.out = c.out ∧ d.op c.inp = c.op c.inp ∧ d.op c.out = c.op c.out) ∧ Rel c d
  | [], c, hc, _, _, _, _ => ⟨c, rfl, hc, ⟨rfl, rfl, rfl, rfl⟩, hrefl c⟩
  | r :: rs, c, hc, hsp, hdis, hconv, hinv => by
    obtain ⟨u, f, w, h1, hth, hmeans⟩ := hsp r (by simp)
    have hb := hnext c
    obtain ⟨ha, hs, g1, g2, g3, g4⟩ := h1.apply hc hb
    rw [List.pairwise_cons] at hdis
    have hlt : ∀ a, (∃ r' ∈ rs, a ∈ r'.nodes) → a < next c := by
      rintro a ⟨r', hr', ha⟩
      obtain ⟨u2, f2, w2, h2, _⟩ := hsp r' (by simp [hr'])
      obtain ⟨m, hm, rfl⟩ := (h2.mem a).mp ha
      exact hb.members _ (h2.emb.members m hm).1
    obtain ⟨d, k1, k2, ⟨k3, k4, k5, k6⟩, k7⟩ := applyAll_rel hrefl hstep hnext c0 rs _ hs (by
        intro r' hr'
        obtain ⟨u2, f2, w2, h2, q1, q2⟩ := hsp r' (by simp [hr'])
        refine ⟨u2, f2, _, h1.keep h2 (hdis.1 r' hr') hc hb ?_, q1, q2⟩
        intro j o i hj ho hi ht hin
        obtain ⟨n, _, _, p1, p2, p3, p4⟩ := h1.dep (hth j o ho) ht
        obtain ⟨n2, _, _, e1, e2, e3⟩ := h2.fed hi
        have hU : ∀ n ∈ r.nodes, ∃ r' ∈ r :: rs, n ∈ r'.nodes := fun n hn => ⟨r, by simp, hn⟩
        have hU2 : ∀ n ∈ r'.nodes, ∃ r' ∈ r :: rs, n ∈ r'.nodes := fun n hn => ⟨r', by simp [hr'], hn⟩
        have t1 := hinv _ _ (hU2 _ hin) (hU _ p1) p2
        have t2 : ReflTransGen (Feeds c0) (f n) (w2 i).1 :=
          In.map (fun a ha b hb => hinv a b (hU _ ha) (hU _ hb)) p4
        have t3 := hinv _ _ (hU _ p3) (hU2 _ e2) ⟨e1, w2 i, e3, rfl⟩
        exact convex_path (hconv r' (by simp [hr'])) hin t1 (hdis.1 r' hr' _ p1)
          (t2.trans t3.to_reflTransGen) e2)
      hdis.2 (fun r' hr' => hconv r' (by simp [hr'])) (by
        rintro a b ⟨r1, hr1, ha1⟩ ⟨r2, hr2, hb2⟩ he
        exact h1.inv hth hc hb (U := fun n => ∃ r' ∈ r :: rs, n ∈ r'.nodes) (fun n hn => ⟨r, by simp, hn⟩)
          hinv ⟨r1, by simp [hr1], ha1⟩ ⟨r2, by simp [hr2], hb2⟩ (hlt a ⟨r1, hr1, ha1⟩)
          (hlt b ⟨r2, hr2, hb2⟩) he)
    refine ⟨d, by rw [applyAll, ha, Option.bind_some, k1], k2, ?_, hstep h1 hmeans hc k7⟩
    rw [g1, g2] at *
    exact ⟨k3, k4, by rw [k5, g3], by rw [k6, g4]⟩

theorem applyAll_sound {V : Type} (sem : Op → Nat → List V → Nat → V) {next : TCirc → Nat}
    (hnext : ∀ c, Fresh c.toCirc (next c)) (c0 : Circ) (rs : List Rewrite) (c : TCirc) (hc : Sane lin c)
    (hsp : ∀ r ∈ rs, ∃ u f w, Spot lin u c r f w ∧ u.Through ∧
      ∀ x y, Means sem u.left.toCirc x y ↔ Means sem u.right.toCirc x y)
    (hdis : rs.Pairwise Apart)
    (hconv : ∀ r ∈ rs, ∀ a ∈ r.nodes, ∀ b, b ∉ r.nodes → Feeds c0 a b → ∀ d ∈ r.nodes, ¬ ReflTransGen (Feeds c0) b d)
    (hinv : ∀ a b, (∃ r ∈ rs, a ∈ r.nodes) → (∃ r ∈ rs, b ∈ r.nodes) → Feeds c.toCirc a b → TransGen (Feeds c0) a b) :
    ∃ d, applyAll next c rs = some d ∧ Sane lin d ∧
      (d.inp = c.inp ∧ d.out = c.out ∧ d.op c.inp = c.op c.inp ∧ d.op c.out = c.op c.out) ∧
      ∀ x y, Means sem c.toCirc x y ↔ Means sem d.toCirc x y :=
  applyAll_rel (Good := fun u => ∀ x y, Means sem u.left.toCirc x y ↔ Means sem u.right.toCirc x y)
    (Rel := fun c d => ∀ x y, Means sem c.toCirc x y ↔ Means sem d.toCirc x y) (fun _ _ _ => Iff.rfl)
    (fun h hg hc hd x y => ((h.site hc (hnext _)).means sem hg x y).trans (hd x y)) hnext c0 rs c hc hsp hdis hconv hinv

/-- Sets of nodes that contain what comes after them. -/
theorem Spot.up (h : Spot lin u c r f w) (hnn : u.NoNew) (hc : Sane lin c) {base : Nat}
    (hb : Fresh c.toCirc base) {A : Nat → Prop} (hA : ∀ a b, A a → Feeds c.toCirc a b → A b) {a b : Nat}
    (ha : (a < base ∧ A a) ∨ (base ≤ a ∧ ∃ i, (∀ n ∈ u.left.cmds, (u.left.inp, i) ∈ u.left.ins n → A (f n)) ∧
      ∃ m ∈ u.right.cmds, (u.right.inp, i) ∈ u.right.ins m ∧ ReflTransGen (Feeds u.right.toCirc) m (a - base)))
    (he : Feeds (after u c r f w base).toCirc a b) :
    (b < base ∧ A b) ∨ (base ≤ b ∧ ∃ i, (∀ n ∈ u.left.cmds, (u.left.inp, i) ∈ u.left.ins n → A (f n)) ∧
      ∃ m ∈ u.right.cmds, (u.right.inp, i) ∈ u.right.ins m ∧ ReflTransGen (Feeds u.right.toCirc) m (b - base)) := by
  have hsite := h.site hc hb
  have hRout : u.right.out ∈ u.right.members := (h.fit.right.1.members _).mpr (.inr rfl)
  -- what feeds an input feeds all commands that use it
  have hin : ∀ i, A (w i).1 → ∀ n ∈ u.left.cmds, (u.left.inp, i) ∈ u.left.ins n → A (f n) := by
    intro i hi n hn hni
    obtain ⟨k, hk⟩ := List.getElem?_of_mem hni
    exact hA _ _ hi ⟨(h.emb.members n hn).1, w i, List.mem_of_getElem? (h.emb.input n hn k _ hk rfl), rfl⟩
  have hpath : ∀ {x y}, ReflTransGen (In r.nodes c.toCirc) x y → A x → A y := by
    intro x y hxy hx
    induction hxy with
    | refl => exact hx
    | tail _ hj ih => exact hA _ _ ih hj.2.2
  obtain ⟨hm, s', hs', rfl⟩ := he
  obtain ⟨k, hk⟩ := List.getElem?_of_mem hs'
  rcases hsite.origin hm hk with ⟨hm, _, g, _⟩ | ⟨m, s, hmr, rfl, g, he⟩ | ⟨o, t, s, hm, hnn', g1, hi, g2, he⟩
  · have h1 := hb.members b hm
    have h2 := hb.sources b hm s' (List.mem_of_getElem? g)
    rcases ha with ⟨_, ha⟩ | ⟨ha, _⟩
    · exact .inl ⟨h1, hA _ _ ha ⟨hm, s', List.mem_of_getElem? g, rfl⟩⟩
    · omega
  · right
    refine ⟨by omega, ?_⟩
    have hmm := (h.fit.right.1.cmd_mem hmr).1
    rcases hsite.newCases hmm (List.mem_of_getElem? g) with ⟨k1, e⟩ | ⟨k1, k2, e⟩
    · rw [he, e] at ha
      rcases ha with ⟨ha, _⟩ | ⟨_, i, q1, m0, q2, q3, q4⟩
      · simp only at ha; omega
      · refine ⟨i, q1, m0, q2, q3, ?_⟩
        simp only [Nat.add_sub_cancel_left] at q4 ⊢
        exact q4.tail ⟨hmm, s, List.mem_of_getElem? g, rfl⟩
    · rw [he, e] at ha
      rcases ha with ⟨_, ha⟩ | ⟨ha, _⟩
      · refine ⟨s.2, hin _ ha, m, hmr, ?_, ?_⟩
        · rw [← k1]; exact List.mem_of_getElem? g
        · simp only [Nat.add_sub_cancel_left]; exact .refl
      · have := (hsite.wires _ k2).2
        omega
  · left
    have hto := idxOf?_some hi
    have hbb := hb.members b hm
    have hend : ∀ i, Dep u.right.toCirc i o →
        (∀ n ∈ u.left.cmds, (u.left.inp, i) ∈ u.left.ins n → A (f n)) → A b := by
      intro i hd hall
      obtain ⟨n, q1, q2, _, _, _, q3⟩ := h.dep (hnn i o hd) hto
      exact hA _ _ (hpath q3 (hall n q1 q2)) ⟨hm, t, List.mem_of_getElem? g1, rfl⟩
    refine ⟨hbb, ?_⟩
    rcases hsite.newCases hRout (List.mem_of_getElem? g2) with ⟨k1, e⟩ | ⟨k1, k2, e⟩
    · rw [he, e] at ha
      rcases ha with ⟨ha, _⟩ | ⟨_, i, q1, m0, q2, q3, q4⟩
      · simp only at ha; omega
      · simp only [Nat.add_sub_cancel_left] at q4
        exact hend i (.inr ⟨m0, q2, q3, s.1, s.2, k1, q4, g2⟩) q1
    · rw [he, e] at ha
      rcases ha with ⟨_, ha⟩ | ⟨ha, _⟩
      · exact hend s.2 (.inl (by rw [g2, ← k1])) (hin _ ha)
      · have := (hsite.wires _ k2).2
        omega

/-- Convex places stay convex. -/
theorem Spot.convex {u2 : Rule} {r2 : Rewrite} {f2 : Nat → Nat} {w2 : Nat → Nat × Nat}
    (h1 : Spot lin u c r f w) (hnn : u.NoNew) (h2 : Spot lin u2 c r2 f2 w2) (hdis : ∀ n ∈ r.nodes, n ∉ r2.nodes)
    (hc : Sane lin c) {base : Nat} (hb : Fresh c.toCirc base)
    (hconv : ∀ a ∈ r2.nodes, ∀ b, b ∉ r2.nodes → Feeds c.toCirc a b → ∀ d ∈ r2.nodes,
      ¬ ReflTransGen (Feeds c.toCirc) b d) :
    ∀ a ∈ r2.nodes, ∀ b, b ∉ r2.nodes → Feeds (after u c r f w base).toCirc a b → ∀ d ∈ r2.nodes,
      ¬ ReflTransGen (Feeds (after u c r f w base).toCirc) b d := by
  intro a ha b hbn hab d hd hbd
  have hsite := h1.site hc hb
  have hRout : u.right.out ∈ u.right.members := (h1.fit.right.1.members _).mpr (.inr rfl)
  have hr2b : ∀ n ∈ r2.nodes, n < base := by
    intro n hn
    obtain ⟨m, hm, rfl⟩ := (h2.mem n).mp hn
    exact hb.members _ (h2.emb.members m hm).1
  -- what comes after a
  let A : Nat → Prop := fun x => ∃ y, y ∉ r2.nodes ∧ Feeds c.toCirc a y ∧ ReflTransGen (Feeds c.toCirc) y x
  have hA : ∀ x z, A x → Feeds c.toCirc x z → A z := by
    rintro x z ⟨y, q1, q2, q3⟩ hz
    exact ⟨y, q1, q2, q3.tail hz⟩
  have hAd : ∀ x, A x → x ∉ r2.nodes := by
    rintro x ⟨y, q1, q2, q3⟩ hx
    exact hconv a ha y q1 q2 x hx q3
  have hin : ∀ i, a = (w i).1 → ∀ n ∈ u.left.cmds, (u.left.inp, i) ∈ u.left.ins n → A (f n) := by
    intro i hi n hn hni
    obtain ⟨k, hk⟩ := List.getElem?_of_mem hni
    exact ⟨f n, hdis _ ((h1.mem _).mpr ⟨n, hn, rfl⟩),
      ⟨(h1.emb.members n hn).1, w i, List.mem_of_getElem? (h1.emb.input n hn k _ hk rfl), hi.symm⟩, .refl⟩
  have hpath : ∀ {x y}, ReflTransGen (In r.nodes c.toCirc) x y → A x → A y := by
    intro x y hxy hx
    induction hxy with
    | refl => exact hx
    | tail _ hj ih => exact hA _ _ ih hj.2.2
  have hstart : (b < base ∧ A b) ∨ (base ≤ b ∧ ∃ i,
      (∀ n ∈ u.left.cmds, (u.left.inp, i) ∈ u.left.ins n → A (f n)) ∧
      ∃ m ∈ u.right.cmds, (u.right.inp, i) ∈ u.right.ins m ∧
        ReflTransGen (Feeds u.right.toCirc) m (b - base)) := by
    have hab' := hr2b a ha
    obtain ⟨hm, s', hs', hsa⟩ := hab
    obtain ⟨k, hk⟩ := List.getElem?_of_mem hs'
    rcases hsite.origin hm hk with ⟨hm, _, g, _⟩ | ⟨m, s, hmr, rfl, g, he⟩ | ⟨o, t, s, hm, hnn', g1, hi, g2, he⟩
    · exact .inl ⟨hb.members b hm, b, hbn, ⟨hm, s', List.mem_of_getElem? g, hsa⟩, .refl⟩
    · right
      refine ⟨by omega, ?_⟩
      have hmm := (h1.fit.right.1.cmd_mem hmr).1
      rcases hsite.newCases hmm (List.mem_of_getElem? g) with ⟨k1, e⟩ | ⟨k1, k2, e⟩
      · rw [he, e] at hsa
        simp only at hsa; omega
      · rw [he, e] at hsa
        refine ⟨s.2, hin _ hsa.symm, m, hmr, ?_, ?_⟩
        · rw [← k1]; exact List.mem_of_getElem? g
        · simp only [Nat.add_sub_cancel_left]; exact .refl
    · left
      refine ⟨hb.members b hm, ?_⟩
      rcases hsite.newCases hRout (List.mem_of_getElem? g2) with ⟨k1, e⟩ | ⟨k1, k2, e⟩
      · rw [he, e] at hsa
        simp only at hsa; omega
      · rw [he, e] at hsa
        obtain ⟨n, q1, q2, _, _, _, q3⟩ := h1.dep (hnn s.2 o (.inl (by rw [g2, ← k1]))) (idxOf?_some hi)
        exact hA _ _ (hpath q3 (hin _ hsa.symm n q1 q2)) ⟨hm, t, List.mem_of_getElem? g1, rfl⟩
  have hall : (d < base ∧ A d) ∨ (base ≤ d ∧ ∃ i,
      (∀ n ∈ u.left.cmds, (u.left.inp, i) ∈ u.left.ins n → A (f n)) ∧
      ∃ m ∈ u.right.cmds, (u.right.inp, i) ∈ u.right.ins m ∧
        ReflTransGen (Feeds u.right.toCirc) m (d - base)) := by
    clear hd
    induction hbd with
    | refl => exact hstart
    | tail _ hj ih => exact h1.up hnn hc hb hA ih hj
  rcases hall with ⟨_, h⟩ | ⟨h, _⟩
  · exact hAd d h hd
  · have := hr2b d hd
    omega

/-- Without new dependencies there are no cycles. -/
theorem applyAll_acyclic {next : TCirc → Nat}
    (hnext : ∀ c, Fresh c.toCirc (next c)) : ∀ (rs : List Rewrite) (c : TCirc), Proper lin c →
    (∀ r ∈ rs, ∃ u f w, Spot lin u c r f w ∧ u.NoNew ∧
      ∀ a ∈ r.nodes, ∀ b, b ∉ r.nodes → Feeds c.toCirc a b → ∀ d ∈ r.nodes, ¬ ReflTransGen (Feeds c.toCirc) b d) →
    rs.Pairwise Apart → ∃ d, applyAll next c rs = some d ∧ Proper lin d
  | [], c, hc, _, _ => ⟨c, rfl, hc⟩
  | r :: rs, c, hc, hsp, hdis => by
    obtain ⟨u, f, w, h1, hnn, hconv⟩ := hsp r (by simp)
    have hb := hnext c
    obtain ⟨ha, hs, _⟩ := h1.apply hc.sane hb
    have hac := (h1.site hc.sane hb).acyclic h1.used hconv hc.acyclic h1.fit.right.2.acyclic
    rw [List.pairwise_cons] at hdis
    obtain ⟨d, k1, k2⟩ := applyAll_acyclic hnext rs _ ⟨hs.wf, hs.nodup, hs.inp, hs.typed, hac, hs.flat⟩ (by
        intro r' hr'
        obtain ⟨u2, f2, w2, h2, q1, q2⟩ := hsp r' (by simp [hr'])
        refine ⟨u2, f2, _, h1.keep h2 (hdis.1 r' hr') hc.sane hb ?_, q1,
          h1.convex hnn h2 (hdis.1 r' hr') hc.sane hb q2⟩
        intro j o i hj ho hi ht hin
        obtain ⟨n, _, _, p1, p2, p3, p4⟩ := h1.dep (hnn j o (.inl ho)) ht
        obtain ⟨n2, _, _, e1, e2, e3⟩ := h2.fed hi
        have t2 : ReflTransGen (Feeds c.toCirc) (f n) (w2 i).1 := In.map (fun _ _ _ _ h => .single h) p4
        exact q2 _ hin (f n) (hdis.1 r' hr' _ p1) p2 _ e2 (t2.tail ⟨e1, w2 i, e3, rfl⟩)) hdis.2
    exact ⟨d, by rw [applyAll, ha, Option.bind_some, k1], k2⟩

end Verif.Matching
