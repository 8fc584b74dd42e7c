import Verif.Model.RulesSpec
import Verif.Props.Matching

/-
Lemmas about rules and rewrites.
-/
namespace Verif.Matching

open Relation

theorem mem_imgIns {P : Circ} {f : Nat → Nat} {y : Nat × Nat} :
    (∃ g ∈ imgIns P f, y ∈ g) ↔
      ∃ (i n k : Nat), i < P.numInputs ∧ n ∈ P.members ∧ (P.ins n)[k]? = some (P.inp, i) ∧ y = (f n, k) := by
  simp only [imgIns, List.mem_map, List.mem_range]
  constructor
  · rintro ⟨g, ⟨i, hi, rfl⟩, hy⟩
    obtain ⟨x, hx, rfl⟩ := List.mem_map.mp hy
    obtain ⟨n, k⟩ := x
    exact ⟨i, n, k, hi, (mem_consumers.mp hx).1, (mem_consumers.mp hx).2, rfl⟩
  · rintro ⟨i, n, k, hi, h1, h2, rfl⟩
    exact ⟨_, ⟨i, hi, rfl⟩, List.mem_map.mpr ⟨(n, k), mem_consumers.mpr ⟨h1, h2⟩, rfl⟩⟩

theorem mem_ownIns {P : Circ} {n k : Nat} :
    (∃ g ∈ ownIns P, (n, k) ∈ g) ↔
      ∃ i, i < P.numInputs ∧ n ∈ P.members ∧ (P.ins n)[k]? = some (P.inp, i) := by
  simp only [ownIns, List.mem_map, List.mem_range]
  constructor
  · rintro ⟨g, ⟨i, hi, rfl⟩, hy⟩
    exact ⟨i, hi, (mem_consumers.mp hy).1, (mem_consumers.mp hy).2⟩
  · rintro ⟨i, hi, h1, h2⟩
    exact ⟨_, ⟨i, hi, rfl⟩, mem_consumers.mpr ⟨h1, h2⟩⟩

theorem Proper.sane {lin : Nat → Prop} {c : TCirc} (h : Proper lin c) : Sane lin c :=
  ⟨h.wf, h.nodup, h.inp, h.typed, h.flat⟩

/-- A copy where different inputs may be fed by one wire. -/
structure Emb (P C : Circ) (f : Nat → Nat) (w : Nat → Nat × Nat) : Prop where
  members : ∀ n ∈ P.cmds, f n ∈ C.members ∧ f n ≠ C.inp ∧ f n ≠ C.out
  inj : ∀ n ∈ P.cmds, ∀ n' ∈ P.cmds, f n = f n' → n = n'
  op : ∀ n ∈ P.cmds, C.op (f n) = P.op n
  edge : ∀ n ∈ P.cmds, ∀ (k : Nat) (s : Nat × Nat), (P.ins n)[k]? = some s → s.1 ≠ P.inp →
    (C.ins (f n))[k]? = some (f s.1, s.2)
  input : ∀ n ∈ P.cmds, ∀ (k : Nat) (s : Nat × Nat), (P.ins n)[k]? = some s → s.1 = P.inp →
    (C.ins (f n))[k]? = some (w s.2)

theorem Copy.emb {P C : Circ} {f : Nat → Nat} {w : Nat → Nat × Nat} (h : Copy P C f w) : Emb P C f w :=
  ⟨h.members, h.inj, h.op, h.edge, h.input⟩

theorem Circ.Plain.cmd_mem {P : Circ} (h : P.Plain) {n : Nat} (hn : n ∈ P.cmds) :
    n ∈ P.members ∧ n ≠ P.inp ∧ n ≠ P.out := by
  have := (h.members n).mpr (.inl hn)
  refine ⟨this, ?_, ?_⟩
  · rintro rfl; exact h.inp this
  · rintro rfl; exact h.out hn

/-- Inputs of the boundary of a copy are inputs of the pattern. -/
theorem img_in {P C : Circ} {f : Nat → Nat} {w : Nat → Nat × Nat} (hc : Emb P C f w) (hP : P.Plain)
    (hb : NoBare P) {n k : Nat} (hn : n ∈ P.cmds) (h : ∃ g ∈ imgIns P f, (f n, k) ∈ g) :
    ∃ i, i < P.numInputs ∧ (P.ins n)[k]? = some (P.inp, i) := by
  obtain ⟨i, n', k', hi, h1, h2, h3⟩ := mem_imgIns.mp h
  simp only [Prod.mk.injEq] at h3
  obtain ⟨h3, rfl⟩ := h3
  rcases (hP.members n').mp h1 with h | h
  · obtain rfl := hc.inj n hn n' h h3
    exact ⟨i, hi, h2⟩
  · subst h
    exact absurd (hb _ (List.mem_of_getElem? h2)) (fun h => (hP.cmd_mem h).2.1 rfl)

/-- Outputs of the boundary of a copy are outputs of the pattern. -/
theorem img_out {P C : Circ} {f : Nat → Nat} {w : Nat → Nat × Nat} (hc : Emb P C f w)
    (hb : NoBare P) {n p : Nat} (hn : n ∈ P.cmds) (h : (f n, p) ∈ imgOuts P f) :
    (n, p) ∈ P.ins P.out := by
  obtain ⟨s, hs, he⟩ := List.mem_map.mp h
  simp only [Prod.mk.injEq] at he
  obtain ⟨h1, rfl⟩ := he
  rw [← hc.inj s.1 (hb s hs) n hn h1]
  exact hs

/-- Inner edges of the pattern are inner edges of the copy. -/
theorem inner_img {P C : Circ} {f : Nat → Nat} {w : Nat → Nat × Nat} (hc : Emb P C f w) (hP : P.Plain)
    (hbare : NoBare P) {a b : Nat} (h : InnerEdge P (ownIns P) (P.ins P.out) a b) :
    (a ∈ P.cmds ∧ b ∈ P.cmds) ∧ InnerEdge C (imgIns P f) (imgOuts P f) (f a) (f b) := by
  obtain ⟨hb, k, s, hs, rfl, hg, ho⟩ := h
  have hbc : b ∈ P.cmds := by
    refine ((hP.members b).mp hb).resolve_right ?_
    rintro rfl
    exact ho (List.mem_of_getElem? hs)
  have hnin : ¬ (s.1 = P.inp ∧ s.2 < P.numInputs) := by
    rintro ⟨h1, h2⟩
    obtain ⟨g, hg1, hg2⟩ := mem_ownIns.mpr ⟨s.2, h2, hb, by rw [hs, ← h1]⟩
    exact hg g hg1 hg2
  have hsc : s.1 ∈ P.cmds := (hP.sources b hb s (List.mem_of_getElem? hs)).resolve_right hnin
  refine ⟨⟨hsc, hbc⟩, (hc.members b hbc).1, k, (f s.1, s.2),
    hc.edge b hbc k s hs (hP.cmd_mem hsc).2.1, rfl, ?_, ?_⟩
  · intro g hg1 hg2
    obtain ⟨i, hi, h2⟩ := img_in hc hP hbare hbc ⟨g, hg1, hg2⟩
    rw [hs] at h2
    simp only [Option.some.injEq] at h2
    exact hnin ⟨by rw [h2], by rw [h2]; exact hi⟩
  · intro h
    exact ho (img_out hc hbare hsc h)

/-- A copy belongs to its subgraph. -/
theorem img_comp {P C : Circ} {f : Nat → Nat} {w : Nat → Nat × Nat} (hc : Emb P C f w) (hP : P.Plain)
    (hbare : NoBare P) (hheld : Held P) (m : Nat) (hm : m ∈ P.cmds) : ∃ b, AtBoundary (imgIns P f) (imgOuts P f) b ∧
      ReflTransGen (Joined C (imgIns P f) (imgOuts P f)) b (f m) := by
  obtain ⟨b, hb, hbb, hr⟩ := hheld m hm
  refine ⟨f b, ?_, ?_⟩
  · rcases hbb with ⟨g, hg, k, hk⟩ | ⟨p, hp⟩
    · obtain ⟨i, hi, h1, h2⟩ := mem_ownIns.mp ⟨g, hg, hk⟩
      obtain ⟨g', hg', hk'⟩ := mem_imgIns.mpr ⟨i, b, k, hi, h1, h2, rfl⟩
      exact .inl ⟨g', hg', k, hk'⟩
    · exact .inr ⟨p, List.mem_map.mpr ⟨_, hp, rfl⟩⟩
  · clear hm hbb
    induction hr with
    | refl => exact .refl
    | tail _ hj ih =>
      refine ih.tail ?_
      rcases hj with h | h
      · exact .inl (inner_img hc hP hbare h).2
      · exact .inr (inner_img hc hP hbare h).2

/-- The nodes connected with the boundary of a copy are the copy. -/
theorem comp_img {P C : Circ} {f : Nat → Nat} {w : Nat → Nat × Nat} (hc : Emb P C f w) (hP : P.Plain)
    (hlen : ∀ n ∈ P.cmds, (C.ins (f n)).length = (P.ins n).length)
    (hbare : NoBare P) (hpriv : Private P C f) (hheld : Held P) (n : Nat) :
    (∃ b, AtBoundary (imgIns P f) (imgOuts P f) b ∧
      ReflTransGen (Joined C (imgIns P f) (imgOuts P f)) b n) ↔ ∃ m ∈ P.cmds, n = f m := by
  constructor
  · rintro ⟨b, hb, hr⟩
    have hb' : ∃ m ∈ P.cmds, b = f m := by
      rcases hb with ⟨g, hg, k, hk⟩ | ⟨p, hp⟩
      · obtain ⟨i, n', k', hi, h1, h2, h3⟩ := mem_imgIns.mp ⟨g, hg, hk⟩
        simp only [Prod.mk.injEq] at h3
        rcases (hP.members n').mp h1 with h | h
        · exact ⟨n', h, h3.1⟩
        · subst h
          exact absurd (hbare _ (List.mem_of_getElem? h2)) (fun h => (hP.cmd_mem h).2.1 rfl)
      · obtain ⟨s, hs, he⟩ := List.mem_map.mp hp
        simp only [Prod.mk.injEq] at he
        exact ⟨s.1, hbare s hs, he.1.symm⟩
    induction hr with
    | refl => exact hb'
    | @tail y z _ hj ih =>
      obtain ⟨m, hm, rfl⟩ := ih
      rcases hj with ⟨hz, k, s, h1, h2, h3, h4⟩ | ⟨hz, k, s, h1, rfl, h3, h4⟩
      · -- an edge from the copy
        refine hpriv m hm s.2 ?_ z hz ?_
        · intro h
          refine h4 (List.mem_map.mpr ⟨(m, s.2), h, ?_⟩)
          rw [← h2]
        · rw [← h2]; exact List.mem_of_getElem? h1
      · -- an edge into the copy
        have hk : k < (P.ins m).length := by
          rw [← hlen m hm]; exact (List.getElem?_eq_some_iff.mp h1).1
        have hs' := List.getElem?_eq_getElem hk
        rcases hP.sources m (hP.cmd_mem hm).1 _ (List.getElem_mem hk) with h | ⟨h, hlt⟩
        · have := hc.edge m hm k _ hs' (hP.cmd_mem h).2.1
          rw [h1] at this
          simp only [Option.some.injEq] at this
          exact ⟨_, h, by rw [this]⟩
        · exfalso
          obtain ⟨g, hg1, hg2⟩ := mem_imgIns.mpr ⟨_, m, k, hlt, (hP.cmd_mem hm).1,
            by rw [hs', ← h], rfl⟩
          exact h3 g hg1 hg2
  · rintro ⟨m, hm, rfl⟩
    exact img_comp hc hP hbare hheld m hm

/-- The subgraph of a copy consists of the copy. -/
theorem nodes_img {P C : Circ} {f : Nat → Nat} {w : Nat → Nat × Nat} (hc : Emb P C f w) (hP : P.Plain)
    (hlen : ∀ n ∈ P.cmds, (C.ins (f n)).length = (P.ins n).length)
    (hbare : NoBare P) (hpriv : Private P C f) (hheld : Held P) {nodes : List Nat}
    (hs : ∀ n, n ∈ nodes ↔ ∃ b, AtBoundary (imgIns P f) (imgOuts P f) b ∧
      ReflTransGen (Joined C (imgIns P f) (imgOuts P f)) b n) :
    ∀ n, n ∈ nodes ↔ ∃ m ∈ P.cmds, n = f m :=
  fun n => (hs n).trans (comp_img hc hP hlen hbare hpriv hheld n)

theorem wiresOf_spec {c : Circ} {w : Nat → Nat × Nat} : ∀ {gs : List (List (Nat × Nat))} {k : Nat},
    (∀ g ∈ gs, g ≠ []) → (∀ i ps, gs[i]? = some ps → ∀ x ∈ ps, (c.ins x.1)[x.2]? = some (w (k + i))) →
    wiresOf c gs = some ((List.range gs.length).map fun i => w (k + i))
  | [], _, _, _ => rfl
  | g :: gs, k, h1, h2 => by
    cases g with
    | nil => exact absurd rfl (h1 [] (by simp))
    | cons x g =>
      have hx := h2 0 _ rfl x (by simp)
      have ih := wiresOf_spec (c := c) (w := w) (gs := gs) (k := k + 1) (fun g hg => h1 g (by simp [hg]))
        (fun i ps hi y hy => by
          have := h2 (i + 1) ps (by simpa using hi) y hy
          rw [this]; congr 2; omega)
      simp only [wiresOf, List.head?_cons, Option.bind_some, hx, ih, Option.map_some,
        Option.some.injEq, List.length_cons, List.range_succ_eq_map, List.map_cons, List.map_map,
        Nat.add_zero, List.cons.injEq, true_and]
      apply List.map_congr_left
      intro i _
      simp only [Function.comp]
      congr 1; omega

/-- A place where a rewrite is applied: the copy of the left-hand side is the subgraph. -/
structure Site (P R : Circ) (C : Circ) (f : Nat → Nat) (w : Nat → Nat × Nat) (nodes : List Nat) (base : Nat) :
    Prop where
  plainP : P.Plain
  plainR : R.Plain
  bare : NoBare P
  copy : Emb P C f w
  len : ∀ n ∈ P.cmds, (C.ins (f n)).length = (P.ins n).length
  content : ∀ n ∈ P.cmds, C.content (f n) = P.content n
  mem : ∀ n, n ∈ nodes ↔ ∃ m ∈ P.cmds, n = f m
  leave : ∀ n ∈ C.members, n ∉ nodes → ∀ s ∈ C.ins n, s.1 ∈ nodes → s ∈ imgOuts P f
  wires : ∀ i, i < P.numInputs → (w i).1 ∉ nodes ∧ (w i).1 < base
  fresh : Fresh C base
  io : C.out ∈ C.members ∧ C.inp ∉ C.members
  inputs : R.numInputs = P.numInputs
  outputs : (R.ins R.out).length = (P.ins P.out).length

theorem Site.out_notin {P R C : Circ} {f w nodes base} (h : Site P R C f w nodes base) :
    C.out ∉ nodes ∧ C.inp ∉ nodes := by
  constructor
  · intro hn
    obtain ⟨m, hm, he⟩ := (h.mem _).mp hn
    exact (h.copy.members m hm).2.2 he.symm
  · intro hn
    obtain ⟨m, hm, he⟩ := (h.mem _).mp hn
    exact (h.copy.members m hm).2.1 he.symm

theorem Site.getD {P R C : Circ} {f w nodes base} (h : Site P R C f w nodes base) {i : Nat}
    (hi : i < R.numInputs) : ((List.range P.numInputs).map w).getD i (0, 0) = w i := by
  rw [h.inputs] at hi
  simp [List.getD_eq_getElem?_getD, hi]

/-- Values of ports of the replacement. -/
theorem Site.new_value {V : Type} {P R C : Circ} {f w nodes base} (h : Site P R C f w nodes base)
    {val' vR : Nat → Nat → V} (h1 : ∀ n ∈ R.cmds, ∀ p, val' (base + n) p = vR n p)
    (h2 : ∀ i, i < P.numInputs → val' (w i).1 (w i).2 = vR R.inp i) {n : Nat} (hn : n ∈ R.members) {s : Nat × Nat}
    (hs : s ∈ R.ins n) :
    val' (newSource base ((List.range P.numInputs).map w) R s).1
      (newSource base ((List.range P.numInputs).map w) R s).2 = vR s.1 s.2 := by
  rcases h.plainR.sources n hn s hs with hc | ⟨hi, hlt⟩
  · rw [newSource, if_neg (h.plainR.cmd_mem hc).2.1]
    exact h1 _ hc _
  · rw [newSource, if_pos hi, h.getD hlt, h2 _ (h.inputs ▸ hlt), hi]

/-- The circuit after the replacement. -/
def replaced (C R : Circ) (nodes : List Nat) (outs ws : List (Nat × Nat)) (base : Nat) : Circ where
  op := fun n => if base ≤ n then R.op (n - base) else C.op n
  content := fun n => if base ≤ n then R.content (n - base) else C.content n
  ins := fun n =>
    if base ≤ n then (R.ins (n - base)).map (newSource base ws R)
    else (C.ins n).map (oldSource base ws outs R)
  cmds := (C.cmds.filter fun n => n ∉ nodes) ++ (R.cmds.map (base + ·))
  members := (C.members.filter fun n => n ∉ nodes) ++
    (R.members.filter fun n => n ≠ R.inp ∧ n ≠ R.out).map (base + ·)
  inp := C.inp
  out := C.out
  numInputs := C.numInputs
  numOps := C.numOps - nodes.length + R.numOps

theorem mem_replaced {P R C : Circ} {f w nodes base outs ws} (h : Site P R C f w nodes base) {n : Nat} :
    n ∈ (replaced C R nodes outs ws base).members ↔
      (n ∈ C.members ∧ n ∉ nodes) ∨ ∃ m ∈ R.cmds, n = base + m := by
  simp only [replaced, List.mem_append, List.mem_filter, decide_eq_true_eq, List.mem_map]
  constructor
  · rintro (h1 | ⟨m, ⟨h1, h2, h3⟩, rfl⟩)
    · exact .inl h1
    · exact .inr ⟨m, ((h.plainR.members m).mp h1).resolve_right h3, rfl⟩
  · rintro (h1 | ⟨m, h1, rfl⟩)
    · exact .inl h1
    · exact .inr ⟨m, h.plainR.cmd_mem h1, rfl⟩

theorem idxOf?_some {l : List (Nat × Nat)} {s : Nat × Nat} {i : Nat} (h : l.idxOf? s = some i) :
    l[i]? = some s := by
  induction l generalizing i with
  | nil => simp at h
  | cons a l ih =>
    rw [List.idxOf?_cons] at h
    by_cases ha : a = s
    · simp [ha] at h; subst h; simp [ha]
    · simp [ha] at h
      obtain ⟨j, hj, rfl⟩ := h
      simpa using ih hj

theorem idxOf?_none {l : List (Nat × Nat)} {s : Nat × Nat} (h : l.idxOf? s = none) : s ∉ l := by
  rw [List.idxOf?_eq_none_iff] at h
  exact h

/-- Values of ports that stay. -/
theorem Site.old_value {V : Type} {P R C : Circ} {f w nodes base} (h : Site P R C f w nodes base)
    {val val' vR vP : Nat → Nat → V} (h1 : ∀ n ∈ R.cmds, ∀ p, val' (base + n) p = vR n p)
    (h2 : ∀ i, i < P.numInputs → val' (w i).1 (w i).2 = vR R.inp i)
    (h3 : ∀ n, n < base → n ∉ nodes → ∀ p, val' n p = val n p)
    (h4 : ∀ n ∈ P.cmds, ∀ p, val (f n) p = vP n p)
    (hy : (P.ins P.out).map (fun s => vP s.1 s.2) = (R.ins R.out).map (fun s => vR s.1 s.2))
    {n : Nat} (hn : n ∈ C.members) (hnn : n ∉ nodes) {s : Nat × Nat} (hs : s ∈ C.ins n) :
    val' (oldSource base ((List.range P.numInputs).map w) (imgOuts P f) R s).1
      (oldSource base ((List.range P.numInputs).map w) (imgOuts P f) R s).2 = val s.1 s.2 := by
  rw [oldSource]
  cases hi : (imgOuts P f).idxOf? s with
  | none =>
    have hni := idxOf?_none hi
    refine h3 _ (h.fresh.sources n hn s hs) ?_ _
    intro hin
    exact hni (h.leave n hn hnn s hs hin)
  | some i =>
    have hsi := idxOf?_some hi
    rw [imgOuts, List.getElem?_map] at hsi
    cases hp : (P.ins P.out)[i]? with
    | none => rw [hp] at hsi; simp at hsi
    | some t =>
      rw [hp] at hsi
      simp only [Option.map_some, Option.some.injEq] at hsi
      have hlt : i < (R.ins R.out).length := by
        rw [h.outputs]; exact (List.getElem?_eq_some_iff.mp hp).1
      have hr := List.getElem?_eq_getElem hlt
      simp only [List.getD_eq_getElem?_getD, hr, Option.getD_some]
      rw [h.new_value h1 h2 ((h.plainR.members _).mpr (.inr rfl)) (List.getElem_mem hlt)]
      have := congrArg (·[i]?) hy
      simp only [List.getElem?_map, hp, hr, Option.map_some, Option.some.injEq] at this
      rw [← this, ← hsi]
      exact (h4 _ (h.bare t (List.mem_of_getElem? hp)) _).symm

/-- The meaning is kept. -/
theorem Site.means {V : Type} {P R C : Circ} {f w nodes base} (h : Site P R C f w nodes base)
    (sem : Op → Nat → List V → Nat → V) (hrule : ∀ x y, Means sem P x y ↔ Means sem R x y)
    (x : Nat → V) (y : List V) :
    Means sem C x y ↔
      Means sem (replaced C R nodes (imgOuts P f) ((List.range P.numInputs).map w) base) x y := by
  have hout := h.out_notin
  have hge : ∀ n ∈ C.members, ¬ base ≤ n := fun n hn => by have := h.fresh.members n hn; omega
  have hob : ¬ base ≤ C.out := by have := h.fresh.io.2; omega
  have hib : ¬ base ≤ C.inp := by have := h.fresh.io.1; omega
  have hfb : ∀ m ∈ P.cmds, f m < base := fun m hm => h.fresh.members _ (h.copy.members m hm).1
  constructor
  · rintro ⟨val, hrun, hin, hy⟩
    -- the copy is a run of the left-hand side
    let vP : Nat → Nat → V := fun n p => if n = P.inp then val (w p).1 (w p).2 else val (f n) p
    have hvP : ∀ n ∈ P.cmds, ∀ p, val (f n) p = vP n p := by
      intro n hn p
      simp only [vP, if_neg (h.plainP.cmd_mem hn).2.1]
    have hrunP : Runs sem P vP := by
      intro n hn hi ho p
      have hnc := ((h.plainP.members n).mp hn).resolve_right ho
      obtain ⟨hf1, hf2, hf3⟩ := h.copy.members n hnc
      rw [← hvP n hnc, hrun (f n) hf1 hf2 hf3 p, h.copy.op n hnc, h.content n hnc]
      congr 1
      apply List.ext_getElem?
      intro k
      rw [List.getElem?_map, List.getElem?_map]
      cases hs : (P.ins n)[k]? with
      | none =>
        rw [List.getElem?_eq_none_iff, ← h.len n hnc] at hs
        rw [List.getElem?_eq_none hs]; rfl
      | some s =>
        rcases h.plainP.sources n hn s (List.mem_of_getElem? hs) with hc | ⟨hc, _⟩
        · rw [h.copy.edge n hnc k s hs (h.plainP.cmd_mem hc).2.1]
          simp only [Option.map_some, Option.some.injEq]
          exact hvP _ hc _
        · rw [h.copy.input n hnc k s hs hc]
          simp only [Option.map_some, vP, if_pos hc]
    obtain ⟨vR, hrunR, hinR, hyR⟩ := (hrule (vP P.inp) _).mp ⟨vP, hrunP, fun _ => rfl, rfl⟩
    let val' : Nat → Nat → V := fun n p => if base ≤ n then vR (n - base) p else val n p
    have h1 : ∀ n ∈ R.cmds, ∀ p, val' (base + n) p = vR n p := by
      intro n _ p
      simp [val']
    have h2 : ∀ i, i < P.numInputs → val' (w i).1 (w i).2 = vR R.inp i := by
      intro i hi
      have := (h.wires i hi).2
      simp only [val', if_neg (show ¬ base ≤ (w i).1 by omega)]
      rw [hinR]
      simp only [vP, if_true]
    have h3 : ∀ n, n < base → n ∉ nodes → ∀ p, val' n p = val n p := by
      intro n hn _ p
      simp only [val', if_neg (show ¬ base ≤ n by omega)]
    refine ⟨val', ?_, ?_, ?_⟩
    · intro n hn hi ho p
      rcases (mem_replaced h).mp hn with ⟨hm, hnn⟩ | ⟨m, hm, rfl⟩
      · rw [h3 n (h.fresh.members n hm) hnn, hrun n hm hi ho p]
        simp only [replaced, if_neg (hge n hm), List.map_map]
        congr 1
        apply List.map_congr_left
        intro s hs
        exact (h.old_value h1 h2 h3 hvP hyR.symm hm hnn hs).symm
      · obtain ⟨g1, g2, g3⟩ := h.plainR.cmd_mem hm
        rw [h1 m hm, hrunR m g1 g2 g3 p]
        simp only [replaced, Nat.le_add_right, if_true, Nat.add_sub_cancel_left, List.map_map]
        congr 1
        apply List.map_congr_left
        intro s hs
        exact (h.new_value h1 h2 g1 hs).symm
    · intro i
      simp only [replaced]
      rw [h3 _ h.fresh.io.1 hout.2]
      exact hin i
    · rw [← hy]
      simp only [replaced, if_neg hob, List.map_map]
      apply List.map_congr_left
      intro s hs
      exact h.old_value h1 h2 h3 hvP hyR.symm h.io.1 hout.1 hs
  · rintro ⟨val', hrun, hin, hy⟩
    let vR : Nat → Nat → V := fun n p => if n = R.inp then val' (w p).1 (w p).2 else val' (base + n) p
    have h1 : ∀ n ∈ R.cmds, ∀ p, val' (base + n) p = vR n p := by
      intro n hn p
      simp only [vR, if_neg (h.plainR.cmd_mem hn).2.1]
    have h2 : ∀ i, i < P.numInputs → val' (w i).1 (w i).2 = vR R.inp i := by
      intro i hi
      simp only [vR, if_true]
    have hrunR : Runs sem R vR := by
      intro n hn hi ho p
      have hnc := ((h.plainR.members n).mp hn).resolve_right ho
      rw [← h1 n hnc, hrun (base + n) ((mem_replaced h).mpr (.inr ⟨n, hnc, rfl⟩))
        (by simp only [replaced]; omega) (by simp only [replaced]; omega) p]
      simp only [replaced, Nat.le_add_right, if_true, Nat.add_sub_cancel_left, List.map_map]
      congr 1
      apply List.map_congr_left
      intro s hs
      exact h.new_value h1 h2 hn hs
    obtain ⟨vP, hrunP, hinP, hyP⟩ := (hrule (vR R.inp) _).mpr ⟨vR, hrunR, fun _ => rfl, rfl⟩
    classical
    let val : Nat → Nat → V := fun n p =>
      if hn : ∃ m ∈ P.cmds, n = f m then vP hn.choose p else val' n p
    have hvP : ∀ n ∈ P.cmds, ∀ p, val (f n) p = vP n p := by
      intro n hn p
      have hex : ∃ m ∈ P.cmds, f n = f m := ⟨n, hn, rfl⟩
      have : hex.choose = n :=
        h.copy.inj _ hex.choose_spec.1 n hn hex.choose_spec.2.symm
      simp only [val, dif_pos hex, this]
    have h3 : ∀ n, n < base → n ∉ nodes → ∀ p, val' n p = val n p := by
      intro n _ hn p
      simp only [val, dif_neg (fun hc => hn ((h.mem n).mpr hc))]
    refine ⟨val, ?_, ?_, ?_⟩
    · intro n hn hi ho p
      by_cases hnn : n ∈ nodes
      · obtain ⟨m, hm, rfl⟩ := (h.mem n).mp hnn
        obtain ⟨g1, g2, g3⟩ := h.plainP.cmd_mem hm
        rw [hvP m hm, hrunP m g1 g2 g3 p, h.copy.op m hm, h.content m hm]
        congr 1
        apply List.ext_getElem?
        intro k
        rw [List.getElem?_map, List.getElem?_map]
        cases hs : (P.ins m)[k]? with
        | none =>
          rw [List.getElem?_eq_none_iff, ← h.len m hm] at hs
          rw [List.getElem?_eq_none hs]; rfl
        | some s =>
          rcases h.plainP.sources m g1 s (List.mem_of_getElem? hs) with hc | ⟨hc, hlt⟩
          · rw [h.copy.edge m hm k s hs (h.plainP.cmd_mem hc).2.1]
            simp only [Option.map_some, Option.some.injEq]
            exact (hvP _ hc _).symm
          · rw [h.copy.input m hm k s hs hc]
            simp only [Option.map_some, Option.some.injEq]
            rw [← h3 _ (h.wires _ hlt).2 (h.wires _ hlt).1, h2 _ hlt, hc, hinP]
      · rw [← h3 n (h.fresh.members n hn) hnn,
          hrun n ((mem_replaced h).mpr (.inl ⟨hn, hnn⟩)) hi ho p]
        simp only [replaced, if_neg (hge n hn), List.map_map]
        congr 1
        apply List.map_congr_left
        intro s hs
        exact h.old_value h1 h2 h3 hvP hyP hn hnn hs
    · intro i
      rw [← h3 _ h.fresh.io.1 hout.2]
      exact hin i
    · rw [← hy]
      simp only [replaced, if_neg hob, List.map_map]
      apply List.map_congr_left
      intro s hs
      exact (h.old_value h1 h2 h3 hvP hyP h.io.1 hout.1 hs).symm

/-- Edges of the new circuit, seen from the old circuit and the replacement. -/
theorem Site.edge {P R C : Circ} {f w nodes base} (h : Site P R C f w nodes base) {a b : Nat}
    (he : Feeds (replaced C R nodes (imgOuts P f) ((List.range P.numInputs).map w) base) a b) :
    (b < base ∧ a < base ∧ b ∉ nodes ∧ Feeds C a b) ∨
    (b < base ∧ b ∉ nodes ∧ (∃ d ∈ nodes, Feeds C d b) ∧
      (base ≤ a ∨ ∃ i, i < P.numInputs ∧ a = (w i).1)) ∨
    (base ≤ b ∧ a < base ∧ ∃ i, i < P.numInputs ∧ a = (w i).1) ∨
    (base ≤ b ∧ base ≤ a ∧ Feeds R (a - base) (b - base)) := by
  obtain ⟨hb, t, ht, rfl⟩ := he
  have hnew : ∀ {n : Nat}, n ∈ R.members → ∀ s ∈ R.ins n,
      (s.1 ∈ R.cmds ∧ newSource base ((List.range P.numInputs).map w) R s = (base + s.1, s.2)) ∨
      ∃ i, i < P.numInputs ∧ newSource base ((List.range P.numInputs).map w) R s = w i := by
    intro n hn s hs
    rcases h.plainR.sources n hn s hs with hc | ⟨hi, hlt⟩
    · exact .inl ⟨hc, by rw [newSource, if_neg (h.plainR.cmd_mem hc).2.1]⟩
    · exact .inr ⟨s.2, h.inputs ▸ hlt, by rw [newSource, if_pos hi, h.getD hlt]⟩
  rcases (mem_replaced h).mp hb with ⟨hm, hnn⟩ | ⟨m, hm, rfl⟩
  · have hlt := h.fresh.members b hm
    simp only [replaced, if_neg (show ¬ base ≤ b by omega)] at ht
    obtain ⟨s, hs, rfl⟩ := List.mem_map.mp ht
    rw [oldSource]
    cases hi : (imgOuts P f).idxOf? s with
    | none =>
      exact .inl ⟨hlt, h.fresh.sources b hm s hs, hnn, hm, s, hs, rfl⟩
    | some i =>
      right; left
      have hsi := idxOf?_some hi
      have hmem := List.mem_of_getElem? hsi
      obtain ⟨q, hq, hq'⟩ := List.mem_map.mp hmem
      have hsn : s.1 ∈ nodes := by
        rw [← hq']; exact (h.mem _).mpr ⟨q.1, h.bare q hq, rfl⟩
      refine ⟨hlt, hnn, ⟨s.1, hsn, hm, s, hs, rfl⟩, ?_⟩
      have hltR : i < (R.ins R.out).length := by
        have := (List.getElem?_eq_some_iff.mp hsi).1
        rw [imgOuts, List.length_map] at this
        rw [h.outputs]; exact this
      simp only [List.getD_eq_getElem?_getD, List.getElem?_eq_getElem hltR, Option.getD_some]
      rcases hnew ((h.plainR.members _).mpr (.inr rfl)) _ (List.getElem_mem hltR) with ⟨_, h2⟩ | ⟨j, h1, h2⟩
      · left; rw [h2]; simp
      · right; exact ⟨j, h1, by rw [h2]⟩
  · simp only [replaced, Nat.le_add_right, if_true, Nat.add_sub_cancel_left] at ht
    obtain ⟨s, hs, rfl⟩ := List.mem_map.mp ht
    rcases hnew (h.plainR.cmd_mem hm).1 s hs with ⟨h1, h2⟩ | ⟨j, h1, h2⟩
    · right; right; right
      rw [h2]
      refine ⟨by omega, by simp, ?_⟩
      simp only [Nat.add_sub_cancel_left]
      exact ⟨(h.plainR.cmd_mem hm).1, s, hs, rfl⟩
    · right; right; left
      rw [h2]
      exact ⟨by omega, (h.wires j h1).2, j, h1, rfl⟩

open Classical in
/-- Before, in, or after the replaced part. -/
noncomputable def level (C : Circ) (nodes : List Nat) (base n : Nat) : Nat :=
  if base ≤ n then 1 else if ∃ d ∈ nodes, ReflTransGen (Feeds C) n d then 0 else 2

theorem Site.acyclic {P R C : Circ} {f w nodes base} (h : Site P R C f w nodes base)
    (hused : ∀ i, i < P.numInputs → ∃ n ∈ P.cmds, ∃ k : Nat, (P.ins n)[k]? = some (P.inp, i))
    (hconv : ∀ a ∈ nodes, ∀ b, b ∉ nodes → Feeds C a b → ∀ d ∈ nodes, ¬ ReflTransGen (Feeds C) b d)
    (hC : Acyclic C) (hR : Acyclic R) :
    Acyclic (replaced C R nodes (imgOuts P f) ((List.range P.numInputs).map w) base) := by
  have hw0 : ∀ i, i < P.numInputs → level C nodes base (w i).1 = 0 := by
    intro i hi
    obtain ⟨n, hn, k, hk⟩ := hused i hi
    have hlt := (h.wires i hi).2
    rw [level, if_neg (by omega), if_pos]
    refine ⟨f n, (h.mem _).mpr ⟨n, hn, rfl⟩, .single ⟨(h.copy.members n hn).1, w i, ?_, rfl⟩⟩
    exact List.mem_of_getElem? (h.copy.input n hn k _ hk rfl)
  have hd2 : ∀ b, b < base → b ∉ nodes → (∃ d ∈ nodes, Feeds C d b) → level C nodes base b = 2 := by
    rintro b hb hbn ⟨d, hd, hf⟩
    rw [level, if_neg (by omega), if_neg]
    rintro ⟨e, he, hr⟩
    exact hconv d hd b hbn hf e he hr
  have hn1 : ∀ b, base ≤ b → level C nodes base b = 1 := by
    intro b hb
    rw [level, if_pos hb]
  have key : ∀ a b, TransGen (Feeds (replaced C R nodes (imgOuts P f) ((List.range P.numInputs).map w) base)) a b →
      level C nodes base a ≤ level C nodes base b ∧
      (level C nodes base a = level C nodes base b →
        TransGen (Feeds C) a b ∨ (base ≤ a ∧ base ≤ b ∧ TransGen (Feeds R) (a - base) (b - base))) := by
    have step : ∀ a b, Feeds (replaced C R nodes (imgOuts P f) ((List.range P.numInputs).map w) base) a b →
        level C nodes base a ≤ level C nodes base b ∧
        (level C nodes base a = level C nodes base b →
          (a < base ∧ b < base ∧ Feeds C a b) ∨ (base ≤ a ∧ base ≤ b ∧ Feeds R (a - base) (b - base))) := by
      intro a b he
      rcases h.edge he with ⟨h1, h2, h3, h4⟩ | ⟨h1, h2, h3, h4⟩ | ⟨h1, h2, i, hi, rfl⟩ | ⟨h1, h2, h3⟩
      · refine ⟨?_, fun _ => .inl ⟨h2, h1, h4⟩⟩
        simp only [level, if_neg (show ¬ base ≤ a by omega), if_neg (show ¬ base ≤ b by omega)]
        by_cases hb : ∃ d ∈ nodes, ReflTransGen (Feeds C) b d
        · have ha : ∃ d ∈ nodes, ReflTransGen (Feeds C) a d := by
            obtain ⟨d, hd, hr⟩ := hb
            exact ⟨d, hd, hr.head h4⟩
          simp only [if_pos ha, if_pos hb]; omega
        · simp only [if_neg hb]; split <;> omega
      · rw [hd2 b h1 h2 h3]
        rcases h4 with h4 | ⟨i, hi, rfl⟩
        · rw [hn1 a h4]; exact ⟨by omega, fun h => by omega⟩
        · rw [hw0 i hi]; exact ⟨by omega, fun h => by omega⟩
      · rw [hw0 i hi, hn1 b h1]; exact ⟨by omega, fun h => by omega⟩
      · rw [hn1 a h2, hn1 b h1]
        exact ⟨by omega, fun _ => .inr ⟨h2, h1, h3⟩⟩
    intro a b hab
    induction hab with
    | single he =>
      obtain ⟨h1, h2⟩ := step _ _ he
      refine ⟨h1, fun h => ?_⟩
      rcases h2 h with ⟨_, _, h3⟩ | ⟨h3, h4, h5⟩
      · exact .inl (.single h3)
      · exact .inr ⟨h3, h4, .single h5⟩
    | @tail b c _ he ih =>
      obtain ⟨h1, h2⟩ := step _ _ he
      obtain ⟨i1, i2⟩ := ih
      refine ⟨by omega, fun heq => ?_⟩
      have hb1 : level C nodes base a = level C nodes base b := by omega
      have hb2 : level C nodes base b = level C nodes base c := by omega
      rcases h2 hb2 with ⟨g1, g2, g3⟩ | ⟨g1, g2, g3⟩
      · rcases i2 hb1 with k1 | ⟨_, k2, _⟩
        · exact .inl (k1.tail g3)
        · omega
      · rcases i2 hb1 with k1 | ⟨k1, _, k3⟩
        · -- a path of the old circuit cannot end in the replacement
          exfalso
          obtain ⟨y, _, hy⟩ := TransGen.tail'_iff.mp k1
          have := h.fresh.members b hy.1
          omega
        · exact .inr ⟨k1, g2, k3.tail g3⟩
  intro n hn
  rcases (key n n hn).2 rfl with h1 | ⟨_, _, h1⟩
  · exact hC n h1
  · exact hR _ h1

theorem fedPorts_nodup (s : Nat × Nat) (m : Nat) : ∀ (l : List (Nat × Nat)) (k : Nat),
    (fedPorts s m k l).Nodup ∧ ∀ x ∈ fedPorts s m k l, x.1 = m ∧ k ≤ x.2
  | [], k => by simp [fedPorts]
  | a :: l, k => by
    obtain ⟨h1, h2⟩ := fedPorts_nodup s m l (k + 1)
    rw [fedPorts]
    split
    · refine ⟨List.nodup_cons.mpr ⟨?_, h1⟩, ?_⟩
      · intro h
        have := (h2 _ h).2
        simp only at this
        omega
      · intro x hx
        rcases List.mem_cons.mp hx with rfl | hx
        · exact ⟨rfl, Nat.le_refl _⟩
        · have := h2 x hx
          exact ⟨this.1, by omega⟩
    · refine ⟨h1, fun x hx => ?_⟩
      have := h2 x hx
      exact ⟨this.1, by omega⟩

theorem consumers_nodup {c : Circ} (h : c.members.Nodup) (n p : Nat) : (consumers c n p).Nodup := by
  rw [consumers]
  generalize c.members = l at h
  induction l with
  | nil => simp
  | cons a l ih =>
    rw [List.nodup_cons] at h
    rw [List.flatMap_cons, List.nodup_append]
    refine ⟨(fedPorts_nodup _ _ _ _).1, ih h.2, ?_⟩
    rintro x hx y hy rfl
    obtain ⟨m, hm, hy⟩ := List.mem_flatMap.mp hy
    have h1 := ((fedPorts_nodup _ _ _ _).2 x hx).1
    have h2 := ((fedPorts_nodup _ _ _ _).2 x hy).1
    rw [h1] at h2
    subst h2
    exact h.1 hm

/-- One consumer. -/
theorem consumers_single {c : Circ} (h : c.members.Nodup) {n p : Nat} {x : Nat × Nat}
    (hx : x ∈ consumers c n p) (hu : ∀ y ∈ consumers c n p, y = x) : consumers c n p = [x] := by
  have hn := consumers_nodup h n p
  generalize consumers c n p = l at *
  cases l with
  | nil => simp at hx
  | cons a l =>
    have ha := hu a (by simp)
    subst ha
    cases l with
    | nil => rfl
    | cons b l =>
      have := hu b (by simp)
      subst this
      simp at hn

/-- What a consumer in the new circuit was before. -/
inductive Origin (P R C : Circ) (f : Nat → Nat) (w : Nat → Nat × Nat) (nodes : List Nat) (base : Nat)
    (n k : Nat) (s' : Nat × Nat) : Prop
  /-- A consumer that stays, of a port that stays. -/
  | kept (hn : n ∈ C.members) (hnn : n ∉ nodes) (hs : (C.ins n)[k]? = some s') (ho : s' ∉ imgOuts P f)
  /-- A consumer of the replacement. -/
  | new (m : Nat) (s : Nat × Nat) (hm : m ∈ R.cmds) (hn : n = base + m) (hs : (R.ins m)[k]? = some s)
      (he : s' = newSource base ((List.range P.numInputs).map w) R s)
  /-- A consumer of an output. -/
  | out (i : Nat) (t s : Nat × Nat) (hn : n ∈ C.members) (hnn : n ∉ nodes) (hs : (C.ins n)[k]? = some t)
      (hi : (imgOuts P f).idxOf? t = some i) (ht : (R.ins R.out)[i]? = some s)
      (he : s' = newSource base ((List.range P.numInputs).map w) R s)

theorem Site.origin {P R C : Circ} {f w nodes base} (h : Site P R C f w nodes base) {n k : Nat}
    {s' : Nat × Nat}
    (hn : n ∈ (replaced C R nodes (imgOuts P f) ((List.range P.numInputs).map w) base).members)
    (hs : ((replaced C R nodes (imgOuts P f) ((List.range P.numInputs).map w) base).ins n)[k]? = some s') :
    Origin P R C f w nodes base n k s' := by
  rcases (mem_replaced h).mp hn with ⟨hm, hnn⟩ | ⟨m, hm, rfl⟩
  · have hlt := h.fresh.members n hm
    simp only [replaced, if_neg (show ¬ base ≤ n by omega), List.getElem?_map, Option.map_eq_some_iff] at hs
    obtain ⟨t, ht, rfl⟩ := hs
    cases hi : (imgOuts P f).idxOf? t with
    | none =>
      have : oldSource base ((List.range P.numInputs).map w) (imgOuts P f) R t = t := by
        rw [oldSource, hi]
      rw [this]
      exact .kept hm hnn ht (idxOf?_none hi)
    | some i =>
      have hsi := idxOf?_some hi
      have hltR : i < (R.ins R.out).length := by
        have := (List.getElem?_eq_some_iff.mp hsi).1
        rw [imgOuts, List.length_map] at this
        rw [h.outputs]; exact this
      refine .out i t _ hm hnn ht hi (List.getElem?_eq_getElem hltR) ?_
      rw [oldSource, hi]
      simp only [List.getD_eq_getElem?_getD, List.getElem?_eq_getElem hltR, Option.getD_some]
  · simp only [replaced, Nat.le_add_right, if_true, Nat.add_sub_cancel_left, List.getElem?_map,
      Option.map_eq_some_iff] at hs
    obtain ⟨s, hs, rfl⟩ := hs
    exact .new m s hm rfl hs rfl

/-- What must be known about types for the new circuit to be well formed. -/
structure Site.Types (lin : Nat → Prop) (P : Circ) (R C : TCirc) (f : Nat → Nat) (w : Nat → Nat × Nat) : Prop where
  typedR : Typed lin R
  typedC : Typed lin C
  ins : ∀ i, i < P.numInputs → R.ty R.inp i = C.ty (w i).1 (w i).2
  outs : ∀ (i : Nat) (s t : Nat × Nat), (R.ins R.out)[i]? = some s → (imgOuts P f)[i]? = some t →
    R.ty s.1 s.2 = C.ty t.1 t.2

/-- The new types. -/
def newTy (C R : TCirc) (base n p : Nat) : Nat := if base ≤ n then R.ty (n - base) p else C.ty n p

theorem Site.newTy_source {P : Circ} {R C : TCirc} {f w nodes base lin}
    (h : Site P R.toCirc C.toCirc f w nodes base) (ht : Site.Types lin P R C f w) {n : Nat}
    (hn : n ∈ R.members) {s : Nat × Nat} (hs : s ∈ R.ins n) :
    newTy C R base (newSource base ((List.range P.numInputs).map w) R.toCirc s).1
      (newSource base ((List.range P.numInputs).map w) R.toCirc s).2 = R.ty s.1 s.2 := by
  rcases h.plainR.sources n hn s hs with hc | ⟨hi, hlt⟩
  · rw [newSource, if_neg (h.plainR.cmd_mem hc).2.1]
    simp [newTy]
  · have hlt' : s.2 < P.numInputs := h.inputs ▸ hlt
    have := (h.wires _ hlt').2
    rw [newSource, if_pos hi, h.getD hlt, newTy, if_neg (by omega), ← ht.ins _ hlt', hi]

/-- The kind of a consumer in the new circuit is that of the type of its source. -/
theorem Site.typed {P : Circ} {R C : TCirc} {f w nodes base lin}
    (h : Site P R.toCirc C.toCirc f w nodes base) (ht : Site.Types lin P R C f w) :
    Typed lin { toCirc := replaced C.toCirc R.toCirc nodes (imgOuts P f) ((List.range P.numInputs).map w) base,
                ty := newTy C R base } := by
  intro n hn k s' hs
  rcases h.origin hn hs with ⟨hm, hnn, h1, _⟩ | ⟨m, s, hm, rfl, h1, rfl⟩ | ⟨i, t, s, hm, hnn, h1, hi, h2, rfl⟩
  · have hlt := h.fresh.members n hm
    have := h.fresh.sources n hm s' (List.mem_of_getElem? h1)
    simp only [replaced, if_neg (show ¬ base ≤ n by omega), newTy, if_neg (show ¬ base ≤ s'.1 by omega)]
    exact ht.typedC n hm k s' h1
  · have hmm := (h.plainR.cmd_mem hm).1
    simp only [replaced, Nat.le_add_right, if_true, Nat.add_sub_cancel_left]
    rw [h.newTy_source ht hmm (List.mem_of_getElem? h1)]
    exact ht.typedR m hmm k s h1
  · have hlt := h.fresh.members n hm
    simp only [replaced, if_neg (show ¬ base ≤ n by omega)]
    rw [h.newTy_source ht ((h.plainR.members _).mpr (.inr rfl)) (List.mem_of_getElem? h2),
      ht.outs i s t h2 (idxOf?_some hi)]
    exact ht.typedC n hm k t h1

/-- A port of the replacement, where both of two consumers come from the replacement or its outputs. -/
theorem Site.newSource_inj {P R C : Circ} {f w nodes base} (h : Site P R C f w nodes base)
    {Q : Nat × Nat → Prop}
    (hwinj : ∀ i j, i < P.numInputs → j < P.numInputs → Q (w i) → w i = w j → i = j) {n n' : Nat}
    (hn : n ∈ R.members) (hn' : n' ∈ R.members) {s s' : Nat × Nat} (hs : s ∈ R.ins n) (hs' : s' ∈ R.ins n')
    (hQ : Q (newSource base ((List.range P.numInputs).map w) R s))
    (he : newSource base ((List.range P.numInputs).map w) R s =
      newSource base ((List.range P.numInputs).map w) R s') : s = s' := by
  rcases h.plainR.sources n hn s hs with hc | ⟨hi, hlt⟩ <;>
  rcases h.plainR.sources n' hn' s' hs' with hc' | ⟨hi', hlt'⟩
  · rw [newSource, if_neg (h.plainR.cmd_mem hc).2.1, newSource, if_neg (h.plainR.cmd_mem hc').2.1] at he
    simp only [Prod.mk.injEq] at he
    exact Prod.ext (by omega) he.2
  · rw [newSource, if_neg (h.plainR.cmd_mem hc).2.1, newSource, if_pos hi', h.getD hlt'] at he
    have := (h.wires s'.2 (h.inputs ▸ hlt')).2
    rw [← he] at this
    simp only at this
    omega
  · rw [newSource, if_pos hi, h.getD hlt, newSource, if_neg (h.plainR.cmd_mem hc').2.1] at he
    have := (h.wires s.2 (h.inputs ▸ hlt)).2
    rw [he] at this
    simp only at this
    omega
  · rw [newSource, if_pos hi, h.getD hlt] at hQ
    rw [newSource, if_pos hi, h.getD hlt, newSource, if_pos hi', h.getD hlt'] at he
    exact Prod.ext (by rw [hi, hi']) (hwinj _ _ (h.inputs ▸ hlt) (h.inputs ▸ hlt') hQ he)

/-- A port of the replacement is not a port that stays with a consumer that stays, if it is linear. -/
theorem Site.kept_new {P : Circ} {R C : TCirc} {f w nodes base lin}
    (h : Site P R.toCirc C.toCirc f w nodes base) (ht : Site.Types lin P R C f w)
    (hC : C.toCirc.WF)
    (hused : ∀ i, i < P.numInputs → ∃ n ∈ P.cmds, ∃ k : Nat, (P.ins n)[k]? = some (P.inp, i))
    {n k : Nat} (hn : n ∈ C.members) (hnn : n ∉ nodes) {s s' : Nat × Nat} (hs' : (C.ins n)[k]? = some s')
    (hl : lin (C.ty s'.1 s'.2)) {m : Nat} (hm : m ∈ R.members) (hs : s ∈ R.ins m)
    (he : s' = newSource base ((List.range P.numInputs).map w) R.toCirc s) : False := by
  rcases h.plainR.sources m hm s hs with hc | ⟨hi, hlt⟩
  · rw [newSource, if_neg (h.plainR.cmd_mem hc).2.1] at he
    have := h.fresh.sources n hn s' (List.mem_of_getElem? hs')
    rw [he] at this
    simp only at this
    omega
  · rw [newSource, if_pos hi, h.getD hlt] at he
    obtain ⟨q, hq, j, hj⟩ := hused s.2 (h.inputs ▸ hlt)
    have h1 := h.copy.input q hq j _ hj rfl
    simp only at h1
    rw [← he] at h1
    have hlin := (ht.typedC n hn k s' hs').mpr hl
    have hcons := hC.linear n hn k s' hlin hs'
    have : (f q, j) ∈ consumers C.toCirc s'.1 s'.2 :=
      mem_consumers.mpr ⟨(h.copy.members q hq).1, h1⟩
    rw [hcons] at this
    simp only [List.mem_singleton, Prod.mk.injEq] at this
    exact hnn ((h.mem n).mpr ⟨q, hq, this.1.symm⟩)

theorem Site.nodup {P R C : Circ} {f w nodes base} (h : Site P R C f w nodes base)
    (hC : C.members.Nodup) (hR : R.members.Nodup) (outs ws) :
    (replaced C R nodes outs ws base).members.Nodup := by
  simp only [replaced]
  rw [List.nodup_append]
  refine ⟨hC.filter _, ?_, ?_⟩
  · rw [List.Nodup, List.pairwise_map]
    refine (hR.filter _).imp ?_
    intro a b hab he
    exact hab (by omega)
  · rintro a ha b hb rfl
    obtain ⟨m, _, rfl⟩ := List.mem_map.mp hb
    have := h.fresh.members _ (List.mem_filter.mp ha).1
    omega

/-- The new circuit is well formed. -/
theorem Site.wf {P : Circ} {R C : TCirc} {f w nodes base lin}
    (h : Site P R.toCirc C.toCirc f w nodes base) (ht : Site.Types lin P R C f w)
    (hC : C.toCirc.WF) (hR : R.toCirc.WF) (hCn : C.members.Nodup) (hRn : R.members.Nodup)
    (hused : ∀ i, i < P.numInputs → ∃ n ∈ P.cmds, ∃ k : Nat, (P.ins n)[k]? = some (P.inp, i))
    (hmem : ∀ i, i < P.numInputs → (w i).1 ∈ C.members ∨ (w i).1 = C.inp) :
    (replaced C.toCirc R.toCirc nodes (imgOuts P f) ((List.range P.numInputs).map w) base).WF := by
  -- linear wires feed one input
  have hwinj : ∀ i j, i < P.numInputs → j < P.numInputs →
      lin (newTy C R base (w i).1 (w i).2) → w i = w j → i = j := by
    intro i j hi hj hl he
    obtain ⟨n, hn, k, hk⟩ := hused i hi
    obtain ⟨n', hn', k', hk'⟩ := hused j hj
    have h1 := h.copy.input n hn k _ hk rfl
    have h2 := h.copy.input n' hn' k' _ hk' rfl
    simp only at h1 h2
    have := (h.wires i hi).2
    rw [newTy, if_neg (by omega)] at hl
    have hm := (h.copy.members n hn).1
    have hcons := hC.linear (f n) hm k _ ((ht.typedC (f n) hm k _ h1).mpr hl) h1
    have hmem2 : (f n', k') ∈ consumers C.toCirc (w i).1 (w i).2 :=
      mem_consumers.mpr ⟨(h.copy.members n' hn').1, by rw [h2, he]⟩
    rw [hcons] at hmem2
    simp only [List.mem_singleton, Prod.mk.injEq] at hmem2
    obtain ⟨g1, rfl⟩ := hmem2
    obtain rfl := h.copy.inj n' hn' n hn g1
    rw [hk] at hk'
    simpa using hk'
  have hout := h.out_notin
  have hob := h.fresh.io.2
  have hib := h.fresh.io.1
  refine ⟨?_, ?_, ?_, ?_, ?_, ?_⟩
  · intro n hn
    rcases (mem_replaced h).mp hn with ⟨hm, hnn⟩ | ⟨m, hm, rfl⟩
    · have hlt := h.fresh.members n hm
      simp only [replaced, if_neg (show ¬ base ≤ n by omega), List.length_map]
      exact hC.length n hm
    · simp only [replaced, Nat.le_add_right, if_true, Nat.add_sub_cancel_left, List.length_map]
      exact hR.length m (h.plainR.cmd_mem hm).1
  · intro n hn
    simp only [replaced, List.mem_append, List.mem_filter, decide_eq_true_eq, List.mem_map] at hn
    rcases hn with ⟨h1, h2⟩ | ⟨m, hm, rfl⟩
    · obtain ⟨g1, g2, g3⟩ := hC.cmds n h1
      exact ⟨(mem_replaced h).mpr (.inl ⟨g1, h2⟩), g2, g3⟩
    · refine ⟨(mem_replaced h).mpr (.inr ⟨m, hm, rfl⟩), ?_, ?_⟩ <;> simp only [replaced] <;> omega
  · exact ⟨(mem_replaced h).mpr (.inl ⟨h.io.1, hout.1⟩), hC.out.2⟩
  · simp only [replaced, if_neg (show ¬ base ≤ C.inp by omega), hC.inp, List.map_nil]
  · intro n hn s' hs'
    obtain ⟨k, hk⟩ := List.getElem?_of_mem hs'
    have hnew : ∀ m ∈ R.members, ∀ s ∈ R.ins m,
        (newSource base ((List.range P.numInputs).map w) R.toCirc s).1 ∈
          (replaced C.toCirc R.toCirc nodes (imgOuts P f) ((List.range P.numInputs).map w) base).members ∨
        (newSource base ((List.range P.numInputs).map w) R.toCirc s).1 = C.inp := by
      intro m hm s hs
      rcases h.plainR.sources m hm s hs with hc | ⟨hi, hlt⟩
      · rw [newSource, if_neg (h.plainR.cmd_mem hc).2.1]
        exact .inl ((mem_replaced h).mpr (.inr ⟨_, hc, rfl⟩))
      · have hlt' : s.2 < P.numInputs := h.inputs ▸ hlt
        rw [newSource, if_pos hi, h.getD hlt]
        rcases hmem _ hlt' with h1 | h1
        · exact .inl ((mem_replaced h).mpr (.inl ⟨h1, (h.wires _ hlt').1⟩))
        · exact .inr h1
    rcases h.origin hn hk with ⟨hm, hnn, h1, ho⟩ | ⟨m, s, hm, rfl, h1, rfl⟩ | ⟨i, t, s, hm, hnn, h1, hi, h2, rfl⟩
    · rcases hC.sources n hm s' (List.mem_of_getElem? h1) with g | g
      · refine .inl ((mem_replaced h).mpr (.inl ⟨g, ?_⟩))
        intro hin
        exact ho (h.leave n hm hnn s' (List.mem_of_getElem? h1) hin)
      · exact .inr g
    · exact hnew m (h.plainR.cmd_mem hm).1 s (List.mem_of_getElem? h1)
    · exact hnew _ ((h.plainR.members _).mpr (.inr rfl)) s (List.mem_of_getElem? h2)
  · intro n hn k s' hl hs'
    have htyped := h.typed ht
    have hlin := (htyped n hn k s' hs').mp hl
    apply consumers_single (h.nodup hCn hRn _ _)
    · exact mem_consumers.mpr ⟨hn, hs'⟩
    rintro ⟨n2, k2⟩ hc2
    obtain ⟨hn2, hs2⟩ := mem_consumers.mp hc2
    -- consumers of one linear port of the replacement are the same
    have hRuniq : ∀ m ∈ R.members, ∀ (j : Nat) (s : Nat × Nat), (R.ins m)[j]? = some s →
        s' = newSource base ((List.range P.numInputs).map w) R.toCirc s →
        ∀ m2 ∈ R.members, ∀ (j2 : Nat) (s2 : Nat × Nat), (R.ins m2)[j2]? = some s2 →
        s' = newSource base ((List.range P.numInputs).map w) R.toCirc s2 → m2 = m ∧ j2 = j := by
      intro m hm j s hj he m2 hm2 j2 s2 hj2 he2
      have hss := h.newSource_inj (Q := fun t => lin (newTy C R base t.1 t.2)) hwinj hm hm2
        (List.mem_of_getElem? hj) (List.mem_of_getElem? hj2) (he ▸ hlin) (he ▸ he2)
      subst hss
      have hty := h.newTy_source ht hm (List.mem_of_getElem? hj)
      rw [← he] at hty
      have hlR : lin (R.ty s.1 s.2) := hty ▸ hlin
      have := hR.linear m hm j s ((ht.typedR m hm j s hj).mpr hlR) hj
      have hmem2 : (m2, j2) ∈ consumers R.toCirc s.1 s.2 := mem_consumers.mpr ⟨hm2, hj2⟩
      rw [this] at hmem2
      simpa using hmem2
    have hCty : ∀ n ∈ C.members, ∀ k : Nat, (C.ins n)[k]? = some s' → lin (C.ty s'.1 s'.2) := by
      intro n hn k hk
      have := h.fresh.sources n hn s' (List.mem_of_getElem? hk)
      simpa only [newTy, if_neg (show ¬ base ≤ s'.1 by omega)] using hlin
    have hRout : R.out ∈ R.members := (h.plainR.members _).mpr (.inr rfl)
    rcases h.origin hn hs' with ⟨hm, hnn, h1, ho⟩ | ⟨m, s, hm, rfl, h1, he⟩ | ⟨i, t, s, hm, hnn, h1, hi, h2, he⟩
    · have hlC := hCty n hm k h1
      rcases h.origin hn2 hs2 with ⟨hm', _, h1', _⟩ | ⟨m', s2, hm', rfl, h1', he'⟩ | ⟨i', t', s2, _, _, _, _, h2', he'⟩
      · have := hC.linear n hm k s' ((ht.typedC n hm k s' h1).mpr hlC) h1
        have hmem2 : (n2, k2) ∈ consumers C.toCirc s'.1 s'.2 := mem_consumers.mpr ⟨hm', h1'⟩
        rw [this] at hmem2
        simpa using hmem2
      · exact (h.kept_new ht hC hused hm hnn h1 hlC (h.plainR.cmd_mem hm').1 (List.mem_of_getElem? h1') he').elim
      · exact (h.kept_new ht hC hused hm hnn h1 hlC hRout (List.mem_of_getElem? h2') he').elim
    · have hmm := (h.plainR.cmd_mem hm).1
      rcases h.origin hn2 hs2 with ⟨hm', hnn', h1', _⟩ | ⟨m', s2, hm', rfl, h1', he'⟩ | ⟨i', t', s2, _, _, _, _, h2', he'⟩
      · exact (h.kept_new ht hC hused hm' hnn' h1' (hCty n2 hm' k2 h1') hmm (List.mem_of_getElem? h1) he).elim
      · obtain ⟨g1, g2⟩ := hRuniq m hmm k s h1 he m' (h.plainR.cmd_mem hm').1 k2 s2 h1' he'
        rw [g1, g2]
      · obtain ⟨g1, g2⟩ := hRuniq m hmm k s h1 he R.out hRout i' s2 h2' he'
        exact absurd g1.symm (h.plainR.cmd_mem hm).2.2
    · rcases h.origin hn2 hs2 with ⟨hm', hnn', h1', _⟩ | ⟨m', s2, hm', rfl, h1', he'⟩ | ⟨i', t', s2, hm', _, h1', hi', h2', he'⟩
      · exact (h.kept_new ht hC hused hm' hnn' h1' (hCty n2 hm' k2 h1') hRout (List.mem_of_getElem? h2) he).elim
      · obtain ⟨g1, g2⟩ := hRuniq R.out hRout i s h2 he m' (h.plainR.cmd_mem hm').1 k2 s2 h1' he'
        exact absurd g1 (h.plainR.cmd_mem hm').2.2
      · obtain ⟨_, rfl⟩ := hRuniq R.out hRout i s h2 he R.out hRout i' s2 h2' he'
        have h3 := idxOf?_some hi
        have h3' := idxOf?_some hi'
        rw [h3] at h3'
        simp only [Option.some.injEq] at h3'
        subst h3'
        have hty := h.newTy_source ht hRout (List.mem_of_getElem? h2)
        rw [← he] at hty
        have hlR : lin (C.ty t.1 t.2) := by
          rw [← ht.outs _ s t h2 h3, ← hty]
          exact hlin
        have := hC.linear n hm k t ((ht.typedC n hm k t h1).mpr hlR) h1
        have hmem2 : (n2, k2) ∈ consumers C.toCirc t.1 t.2 := mem_consumers.mpr ⟨hm', h1'⟩
        rw [this] at hmem2
        simpa using hmem2

end Verif.Matching
