import Verif.Lemmas.RulesFind

/-
Property C94: rules whose sides mean the same never change the meaning of a circuit.
-/
namespace Verif.Matching

/-- A matcher is made exactly if all left-hand sides make patterns, and keeps patterns and right-hand
sides in the order of the rules. -/
theorem C94_from_rules (choose : Pattern → Option Walk) (rules : List Rule) (m : Matcher) :
    fromRules choose rules = .ok m ↔
      m.patterns.length = rules.length ∧ m.rights = rules.map Rule.right ∧
      ∀ (i : Nat) (u : Rule) (p : CPattern), rules[i]? = some u → m.patterns[i]? = some p →
        tryFromCircuit choose u.left.toCirc = .ok p := by
  rw [fromRules, Res.bind_ok]
  constructor
  · rintro ⟨ps, h1, h2⟩
    simp only [Res.ok.injEq] at h2
    subst h2
    obtain ⟨g1, g2⟩ := patternsOf_ok.mp h1
    refine ⟨by simpa using g1, rfl, ?_⟩
    intro i u p hu hp
    exact g2 i u.left p (by simp [hu]) hp
  · rintro ⟨h1, h2, h3⟩
    refine ⟨m.patterns, patternsOf_ok.mpr ⟨by simpa using h1, ?_⟩, by rw [← h2]⟩
    intro i l p hl hp
    rw [List.getElem?_map, Option.map_eq_some_iff] at hl
    obtain ⟨u, hu, rfl⟩ := hl
    exact h3 i u p hu hp

/-- A left-hand side that makes a pattern has no wire from an input to an output. -/
theorem noBare {choose : Pattern → Option Walk} {P : Circ} (hP : P.WF) (hpl : P.Plain) {p : CPattern}
    (hok : tryFromCircuit choose P = .ok p) : NoBare P := by
  have h0 : P.numOps ≠ 0 := by
    intro h
    rw [tryFromCircuit, if_pos h] at hok
    simp at hok
  obtain ⟨_, _, _, _, h⟩ := (C68_pattern_iff choose P hP h0).2.mp ⟨p, hok⟩
  intro s hs
  refine (hpl.sources _ hP.out.1 s hs).resolve_right ?_
  rintro ⟨h1, h2⟩
  obtain ⟨k, hk⟩ := List.getElem?_of_mem hs
  exact h k s.2 h2 (by rw [hk, ← h1])

/-- The pattern of a circuit has its commands. -/
theorem patternOk {choose : Pattern → Option Walk} {P : Circ} {p : CPattern}
    (hok : tryFromCircuit choose P = .ok p) :
    addCmds P P.cmds = some p.pattern ∧ choose p.pattern = some p.walk := by
  rw [tryFromCircuit] at hok
  split at hok
  · simp at hok
  · cases ha : addCmds P P.cmds with
    | none => rw [ha] at hok; simp at hok
    | some q =>
      rw [ha] at hok
      simp only at hok
      cases hw : choose q with
      | none => rw [hw] at hok; simp at hok
      | some w =>
        rw [hw] at hok
        simp only at hok
        split at hok
        · simp at hok
        · simp at hok
          subst hok
          exact ⟨rfl, hw⟩

theorem Circ.Plain.closed {P : Circ} (h : P.Plain) : P.Closed := by
  intro n hn s hs
  rcases h.sources n (h.cmd_mem hn).1 s hs with h1 | h1
  · exact .inl h1
  · exact .inr h1.1

/-- Matches of a rule are copies of its left-hand side with its boundary. -/
theorem match_copy {choose : Pattern → Option Walk} (hch : ∀ p w, choose p = some w → w.Valid p)
    {P C : Circ} (hP : P.WF) (hpl : P.Plain) (hC : C.WF) (hio : NoIO P C) {p : CPattern}
    (hok : tryFromCircuit choose P = .ok p) {root : Nat} (hr : root ∈ C.members) {l : List (Nat × Nat)}
    (hl : getMatchMap C p root = .found l) :
    ∃ f w, Copy P C f w ∧ f p.walk.root = root ∧ boundary l p = some (imgIns P f, imgOuts P f) ∧
      ∀ (i : Nat) (ps : List (Nat × Nat)), (imgIns P f)[i]? = some ps → ∀ x ∈ ps, (C.ins x.1)[x.2]? = some (w i) := by
  obtain ⟨ha, hw⟩ := patternOk hok
  obtain ⟨f, w, ins, h1, h0, h2, rfl, h4⟩ := C68_boundary hP hpl.closed hio hC
    (fun i x hx => (hpl.members _).mp (mem_consumers.mp (show (x.1, x.2) ∈ _ from hx)).1)
    (fun s hs => hpl.sources _ hP.out.1 s hs) hok (hch _ _ hw) hr hl
  exact ⟨f, w, h1, h0, h2, h4⟩

/-- Every rewrite that is found replaces a copy of the left-hand side of one of the rules by the
right-hand side of the same rule, which has the right signature; and the subgraph was checked. -/
theorem C94_found (choose : Pattern → Option Walk) (hch : ∀ p w, choose p = some w → w.Valid p)
    {lin : Nat → Prop} {rules : List Rule} (hrules : ∀ u ∈ rules, u.Fit lin) {m : Matcher}
    (hm : fromRules choose rules = .ok m) {x : Ext} {c : TCirc} (hc : c.toCirc.WF)
    (hx : SubsOK x c.toCirc) (hio : ∀ u ∈ rules, NoIO u.left.toCirc c.toCirc)
    {rs : List Rewrite} (hf : findMatches x m c = .ok rs) {r : Rewrite} (hr : r ∈ rs) :
    ∃ u ∈ rules, ∃ f w, Proposes u c r f w ∧ NoBare u.left.toCirc ∧
      SubOK c.toCirc r.ins r.outs r.nodes ∧
      subSig c r.ins r.outs = some (circSig u.right) ∧
      ∀ (i : Nat) (ps : List (Nat × Nat)), r.ins[i]? = some ps → ∀ x ∈ ps, (c.ins x.1)[x.2]? = some (w i) := by
  obtain ⟨hl, hrights, hpat⟩ := (C94_from_rules choose rules m).mp hm
  obtain ⟨n, hn, id, hid, a, ht, hr'⟩ := (findMatchesFrom_mem hf r).mp hr
  rw [tryMatch] at ht
  cases hp : m.patterns[id]? with
  | none => rw [hp] at ht; simp at ht
  | some p =>
    rw [hp] at ht
    simp only at ht
    have hidlt : id < rules.length := by
      rw [← hl]; exact (List.getElem?_eq_some_iff.mp hp).1
    have hu := List.getElem?_eq_getElem hidlt
    have hmem := List.getElem_mem hidlt
    have hok := hpat id _ p hu hp
    have hfit := hrules _ hmem
    cases hg : getMatchMap c.toCirc p n with
    | none => rw [hg] at ht; simp at ht
    | panic => rw [hg] at ht; simp at ht
    | found l =>
      rw [hg] at ht
      simp only at ht
      obtain ⟨f, w, h1, _, h2, h3⟩ := match_copy hch hfit.left.1 hfit.left.2 hc (hio _ hmem) hok
        (hc.cmds n hn).1 hg
      rw [h2] at ht
      simp only at ht
      cases hs : x.sub (imgIns rules[id].left.toCirc f) (imgOuts rules[id].left.toCirc f) with
      | notConvex => rw [hs] at ht; simp at ht
      | other => rw [hs] at ht; simp at ht
      | ok nodes =>
        rw [hs] at ht
        simp only [Res.ok.injEq, Option.some.injEq] at ht
        subst ht
        rw [matchToRewrite, hrights, List.getElem?_map, hu] at hr'
        simp only [Option.map_some] at hr'
        cases hsig : subSig c (imgIns rules[id].left.toCirc f) (imgOuts rules[id].left.toCirc f) with
        | none => rw [hsig] at hr'; simp at hr'
        | some sg =>
          rw [hsig] at hr'
          simp only at hr'
          split at hr'
          · rename_i heq
            simp only [Res.ok.injEq] at hr'
            subst hr'
            exact ⟨_, hmem, f, w, ⟨h1, rfl, rfl, rfl⟩, noBare hfit.left.1 hfit.left.2 hok,
              hx _ _ _ hs, by rw [← heq]; exact hsig, h3⟩
          · simp at hr'

/-- `find_match` gives the first of the rewrites of `find_matches`. -/
theorem C94_find_match {x : Ext} {m : Matcher} {c : TCirc} {rs : List Rewrite}
    (hf : findMatches x m c = .ok rs) : findMatch x m c = .ok rs.head? :=
  findMatchFrom_head hf

/-- Where the rewrite is applied. -/
theorem site_of {lin : Nat → Prop} {u : Rule} (hu : u.Fit lin) {c : TCirc} (hc : Sane lin c)
    {r : Rewrite} {f : Nat → Nat} {w : Nat → Nat × Nat} (hp : Proposes u c r f w)
    (hbare : NoBare u.left.toCirc) (hsub : SubOK c.toCirc r.ins r.outs r.nodes)
    (hsig : subSig c r.ins r.outs = some (circSig u.right))
    (hsrc : ∀ (i : Nat) (ps : List (Nat × Nat)), r.ins[i]? = some ps → ∀ x ∈ ps, (c.ins x.1)[x.2]? = some (w i))
    (hpriv : Private u.left.toCirc c.toCirc f) {base : Nat} (hb : Fresh c.toCirc base) :
    Site u.left.toCirc u.right.toCirc c.toCirc f w r.nodes base ∧
    Site.Types lin u.left.toCirc u.right c f w ∧
    wiresOf c.toCirc r.ins = some ((List.range u.left.numInputs).map w) ∧
    (∀ i, i < u.left.numInputs → ∃ n ∈ u.left.cmds, ∃ k : Nat, (u.left.ins n)[k]? = some (u.left.inp, i)) ∧
    ∀ i, i < u.left.numInputs → (w i).1 ∈ c.members ∨ (w i).1 = c.inp := by
  obtain ⟨hcopy, hins, houts, _⟩ := hp
  have hlen : ∀ n ∈ u.left.cmds, (c.ins (f n)).length = (u.left.ins n).length := by
    intro n hn
    rw [hc.wf.length _ (hcopy.members n hn).1, hu.left.1.length n (hu.left.2.cmd_mem hn).1, hcopy.op n hn]
  have hmem : ∀ n, n ∈ r.nodes ↔ ∃ m ∈ u.left.cmds, n = f m :=
    nodes_img hcopy.emb hu.left.2 hlen hbare hpriv hu.held (by
      intro n; rw [hsub.component n, hins, houts])
  have hgl : (imgIns u.left.toCirc f).length = u.left.numInputs := by simp [imgIns]
  have hused : ∀ i, i < u.left.numInputs → ∃ n ∈ u.left.cmds, ∃ k : Nat,
      (u.left.ins n)[k]? = some (u.left.inp, i) := by
    intro i hi
    have hg := hsub.groups ((consumers u.left.toCirc u.left.inp i).map fun x => (f x.1, x.2)) (by
      rw [hins]
      exact List.mem_map.mpr ⟨i, List.mem_range.mpr hi, rfl⟩)
    cases hcs : consumers u.left.toCirc u.left.inp i with
    | nil => rw [hcs] at hg; simp at hg
    | cons y ys =>
      obtain ⟨n, k⟩ := y
      have hy : (n, k) ∈ consumers u.left.toCirc u.left.inp i := by rw [hcs]; simp
      obtain ⟨h1, h2⟩ := mem_consumers.mp hy
      rcases (hu.left.2.members n).mp h1 with h | h
      · exact ⟨n, h, k, h2⟩
      · subst h
        exact absurd (hbare _ (List.mem_of_getElem? h2)) (fun h => (hu.left.2.cmd_mem h).2.1 rfl)
  have hwsrc : ∀ i, i < u.left.numInputs → ∃ n ∈ u.left.cmds, ∃ k : Nat,
      (c.ins (f n))[k]? = some (w i) ∧ ∃ g ∈ r.ins, (f n, k) ∈ g := by
    intro i hi
    obtain ⟨n, hn, k, hk⟩ := hused i hi
    refine ⟨n, hn, k, hcopy.input n hn k _ hk rfl, ?_⟩
    rw [hins]
    exact mem_imgIns.mpr ⟨i, n, k, hi, (hu.left.2.cmd_mem hn).1, hk, rfl⟩
  have hw : ∀ i, i < u.left.numInputs → (w i).1 ∉ r.nodes ∧ (w i).1 < base := by
    intro i hi
    obtain ⟨n, hn, k, h1, h2⟩ := hwsrc i hi
    have hfn := (hmem (f n)).mpr ⟨n, hn, rfl⟩
    exact ⟨(hsub.enter (f n) hfn k _ h1).mp h2,
      hb.sources (f n) (hcopy.members n hn).1 _ (List.mem_of_getElem? h1)⟩
  have htypes : inTypes c r.ins = some ((List.range u.left.numInputs).map fun i => c.ty (w i).1 (w i).2) := by
    have := inTypes_spec (c := c) (w := w) (gs := r.ins) (k := 0) hsub.groups (by simpa using hsrc)
    rw [this, hins, hgl]
    simp
  rw [subSig, htypes] at hsig
  simp only [Option.map_some, Option.some.injEq, circSig, Prod.mk.injEq] at hsig
  obtain ⟨hs1, hs2⟩ := hsig
  have hni : u.right.numInputs = u.left.numInputs := by
    have := congrArg List.length hs1
    simpa using this.symm
  rw [houts] at hs2
  have hno : (u.right.ins u.right.out).length = (u.left.ins u.left.out).length := by
    have := congrArg List.length hs2
    simpa [imgOuts] using this.symm
  refine ⟨⟨hu.left.2, hu.right.1, hbare, hcopy.emb, hlen, ?_, hmem, ?_, hw, hb,
    ⟨hc.wf.out.1, hc.inp⟩, hni, hno⟩, ⟨hu.right.2.typed, hc.typed, ?_, ?_⟩, ?_, hused, ?_⟩
  · intro n hn
    rw [hc.flat _ (hcopy.members n hn).1, hu.flat n hn]
  · intro n hn hnn s hs hin
    have := hsub.leave n hn hnn s hs hin
    rwa [houts] at this
  · intro i hi
    have := congrArg (·[i]?) hs1
    simp only [List.getElem?_map, List.getElem?_range (hni ▸ hi), List.getElem?_range hi, Option.map_some,
      Option.some.injEq] at this
    exact this.symm
  · intro i s t hs ht
    have := congrArg (·[i]?) hs2
    simp only [List.getElem?_map, hs, ht, Option.map_some, Option.some.injEq] at this
    exact this.symm
  · have := wiresOf_spec (c := c.toCirc) (w := w) (gs := r.ins) (k := 0) hsub.groups (by simpa using hsrc)
    rw [this, hins, hgl]
    simp
  · intro i hi
    obtain ⟨n, hn, k, h1, _⟩ := hwsrc i hi
    exact hc.wf.sources (f n) (hcopy.members n hn).1 _ (List.mem_of_getElem? h1)

/-- The circuit after a rewrite. -/
theorem apply_found (choose : Pattern → Option Walk) (hch : ∀ p w, choose p = some w → w.Valid p)
    {lin : Nat → Prop} {rules : List Rule} (hrules : ∀ u ∈ rules, u.Fit lin)
    {m : Matcher} (hm : fromRules choose rules = .ok m) {x : Ext} {c : TCirc} (hc : Proper lin c)
    (hx : SubsOK x c.toCirc) (hio : ∀ u ∈ rules, NoIO u.left.toCirc c.toCirc)
    {rs : List Rewrite} (hf : findMatches x m c = .ok rs) {r : Rewrite} (hr : r ∈ rs)
    (hpriv : ∀ u ∈ rules, ∀ f w, Proposes u c r f w → Private u.left.toCirc c.toCirc f)
    {base : Nat} (hb : Fresh c.toCirc base) :
    ∃ c', applyRw c base r = some c' ∧ Proper lin c' ∧
      (c'.inp = c.inp ∧ c'.out = c.out ∧ c'.op c.inp = c.op c.inp ∧ c'.op c.out = c.op c.out) ∧
      ∃ u ∈ rules, ∃ f w, Site u.left.toCirc u.right.toCirc c.toCirc f w r.nodes base ∧
        c'.toCirc = replaced c.toCirc u.right.toCirc r.nodes (imgOuts u.left.toCirc f)
          ((List.range u.left.numInputs).map w) base := by
  obtain ⟨u, hu, f, w, hp, hbare, hsub, hsig, hsrc⟩ := C94_found choose hch hrules hm hc.wf hx hio hf hr
  have hfit := hrules u hu
  obtain ⟨hsite, hty, hws, hused, hwm⟩ := site_of hfit hc.sane hp hbare hsub hsig hsrc (hpriv u hu f w hp) hb
  refine ⟨{ toCirc := replaced c.toCirc u.right.toCirc r.nodes (imgOuts u.left.toCirc f)
              ((List.range u.left.numInputs).map w) base, ty := newTy c u.right base }, ?_, ?_, ?_, u, hu, f, w, hsite, rfl⟩
  · rw [applyRw, hws, Option.map_some, hp.repl, hp.outs]
    rfl
  · refine ⟨hsite.wf hty hc.wf hfit.right.2.wf hc.nodup hfit.right.2.nodup hused hwm,
      hsite.nodup hc.nodup hfit.right.2.nodup _ _, ?_, hsite.typed hty,
      hsite.acyclic hused hsub.convex hc.acyclic hfit.right.2.acyclic, ?_⟩
    · intro h
      rcases (mem_replaced hsite).mp h with ⟨h1, _⟩ | ⟨k, _, h1⟩
      · exact hc.inp h1
      · have := hb.io.1
        simp only [replaced] at h1
        omega
    · intro n hn
      rcases (mem_replaced hsite).mp hn with ⟨h1, _⟩ | ⟨k, h1, rfl⟩
      · have := hb.members n h1
        simp only [replaced, if_neg (show ¬ base ≤ n by omega)]
        exact hc.flat n h1
      · simp only [replaced, Nat.le_add_right, if_true, Nat.add_sub_cancel_left]
        exact hfit.right.2.flat k (hfit.right.1.cmd_mem h1).1
  · have h1 := hb.io.1
    have h2 := hb.io.2
    refine ⟨rfl, rfl, ?_, ?_⟩
    · simp only [replaced, if_neg (show ¬ base ≤ c.inp by omega)]
    · simp only [replaced, if_neg (show ¬ base ≤ c.out by omega)]

/-- One rewrite: it can be applied, the new circuit is well formed and without cycles, and it means the
same, if the sides of the rules mean the same. -/
theorem C94_sound_partial {V : Type} (sem : Op → Nat → List V → Nat → V)
    (choose : Pattern → Option Walk) (hch : ∀ p w, choose p = some w → w.Valid p)
    {lin : Nat → Prop} {rules : List Rule} (hrules : ∀ u ∈ rules, u.Fit lin)
    (hmeans : ∀ u ∈ rules, ∀ x y, Means sem u.left.toCirc x y ↔ Means sem u.right.toCirc x y)
    {m : Matcher} (hm : fromRules choose rules = .ok m) {x : Ext} {c : TCirc} (hc : Proper lin c)
    (hx : SubsOK x c.toCirc) (hio : ∀ u ∈ rules, NoIO u.left.toCirc c.toCirc)
    {rs : List Rewrite} (hf : findMatches x m c = .ok rs) {r : Rewrite} (hr : r ∈ rs)
    (hpriv : ∀ u ∈ rules, ∀ f w, Proposes u c r f w → Private u.left.toCirc c.toCirc f)
    {base : Nat} (hb : Fresh c.toCirc base) :
    ∃ c', applyRw c base r = some c' ∧ Proper lin c' ∧
      (c'.inp = c.inp ∧ c'.out = c.out ∧ c'.op c.inp = c.op c.inp ∧ c'.op c.out = c.op c.out) ∧
      ∀ inputs outputs, Means sem c.toCirc inputs outputs ↔ Means sem c'.toCirc inputs outputs := by
  obtain ⟨c', h1, h2, h3, u, hu, f, w, hsite, he⟩ := apply_found choose hch hrules hm hc hx hio hf hr hpriv hb
  refine ⟨c', h1, h2, h3, ?_⟩
  rw [he]
  exact hsite.means sem (hmeans u hu)

/-- Any number of rewrites, each found in the circuit that is there. -/
theorem C94_many_partial {V : Type} (sem : Op → Nat → List V → Nat → V)
    (choose : Pattern → Option Walk) (hch : ∀ p w, choose p = some w → w.Valid p)
    {lin : Nat → Prop} {rules : List Rule} (hrules : ∀ u ∈ rules, u.Fit lin)
    (hmeans : ∀ u ∈ rules, ∀ x y, Means sem u.left.toCirc x y ↔ Means sem u.right.toCirc x y)
    {c d : TCirc} (h : Reaches choose rules c d) (hc : Proper lin c)
    (hio : ∀ u ∈ rules, NoIO u.left.toCirc c.toCirc) :
    Proper lin d ∧ ∀ inputs outputs, Means sem c.toCirc inputs outputs ↔ Means sem d.toCirc inputs outputs := by
  induction h with
  | refl c => exact ⟨hc, fun _ _ => Iff.rfl⟩
  | step x m rs r base hm hx hf hr hpriv hb ha _ ih =>
    obtain ⟨c', h1, h2, ⟨g1, g2, g3, g4⟩, h3⟩ :=
      C94_sound_partial sem choose hch hrules hmeans hm hc hx hio hf hr hpriv hb
    rw [ha] at h1
    simp only [Option.some.injEq] at h1
    subst h1
    obtain ⟨h4, h5⟩ := ih h2 (by
      intro u hu n hn
      rw [g1, g2, g3, g4]
      exact hio u hu n hn)
    exact ⟨h4, fun i o => (h3 i o).trans (h5 i o)⟩

/-- The boundary of a copy depends only on the commands. -/
theorem img_congr {P : Circ} (hP : P.Plain) (hb : NoBare P) {f g : Nat → Nat} (h : ∀ n ∈ P.cmds, f n = g n) :
    imgIns P f = imgIns P g ∧ imgOuts P f = imgOuts P g := by
  constructor
  · apply List.map_congr_left
    intro i _
    apply List.map_congr_left
    rintro ⟨n, k⟩ hx
    obtain ⟨h1, h2⟩ := mem_consumers.mp hx
    rcases (hP.members n).mp h1 with hc | hc
    · simp only [h n hc]
    · subst hc
      exact absurd (hb _ (List.mem_of_getElem? h2)) (fun h => (hP.cmd_mem h).2.1 rfl)
  · apply List.map_congr_left
    intro s hs
    rw [h _ (hb s hs)]

theorem addCmds_fst {c : Circ} : ∀ {ns : List Nat} {p : Pattern}, addCmds c ns = some p →
    p.requires.map Prod.fst = ns
  | [], p, h => by
    simp only [addCmds, Option.some.injEq] at h
    subst h; rfl
  | n :: ns, p, h => by
    rw [addCmds] at h
    simp only [Option.bind_eq_some_iff, Option.map_eq_some_iff] at h
    obtain ⟨es, _, q, hq, rfl⟩ := h
    simp [addCmds_fst hq]

/-- Nothing is missed: every copy of a left-hand side whose subgraph passes the check is among the
rewrites. -/
theorem C94_complete (choose : Pattern → Option Walk) (hch : ∀ p w, choose p = some w → w.Valid p)
    {lin : Nat → Prop} {rules : List Rule} (hrules : ∀ u ∈ rules, u.Fit lin) {m : Matcher}
    (hm : fromRules choose rules = .ok m) {x : Ext} {c : TCirc} (hc : Proper lin c)
    (hauto : AutoOK x m c.toCirc) (hio : ∀ u ∈ rules, NoIO u.left.toCirc c.toCirc)
    {rs : List Rewrite} (hf : findMatches x m c = .ok rs)
    {u : Rule} (hu : u ∈ rules) {f : Nat → Nat} {w : Nat → Nat × Nat}
    (hcopy : Copy u.left.toCirc c.toCirc f w) (hcmds : ∀ n ∈ u.left.cmds, f n ∈ c.cmds)
    {nodes : List Nat} (hs : x.sub (imgIns u.left.toCirc f) (imgOuts u.left.toCirc f) = .ok nodes) :
    (⟨nodes, imgIns u.left.toCirc f, imgOuts u.left.toCirc f, u.right⟩ : Rewrite) ∈ rs := by
  obtain ⟨hl, hrights, hpat⟩ := (C94_from_rules choose rules m).mp hm
  obtain ⟨id, hid⟩ := List.getElem?_of_mem hu
  have hidlt : id < m.patterns.length := by
    rw [hl]; exact (List.getElem?_eq_some_iff.mp hid).1
  have hp := List.getElem?_eq_getElem hidlt
  generalize m.patterns[id] = p at hp
  have hok := hpat id u p hid hp
  have hfit := hrules u hu
  obtain ⟨ha, hw⟩ := patternOk hok
  have hval := hch _ _ hw
  have hroot : p.walk.root ∈ u.left.cmds := by
    have := hval.root
    rwa [addCmds_fst ha] at this
  have hrm : f p.walk.root ∈ c.members := (hcopy.members _ hroot).1
  obtain ⟨l, hfl⟩ := (C68_found_iff hfit.left.1 hfit.left.2.closed ha hval hc.wf (hio u hu) hrm).mpr
    ⟨f, w, hcopy, rfl⟩
  obtain ⟨f', w', h1, h0, h2, _⟩ := match_copy hch hfit.left.1 hfit.left.2 hc.wf (hio u hu) hok hrm hfl
  have huniq : ∀ n ∈ u.left.cmds, f n = f' n := by
    obtain ⟨_, hh⟩ := C68_found hfit.left.1 hfit.left.2.closed ha hval hc.wf (hio u hu) hrm
    obtain ⟨f0, _, _, _, _, h3⟩ := hh l hfl
    intro n hn
    rw [h3 f w hcopy rfl n hn, h3 f' w' h1 h0 n hn]
  obtain ⟨e1, e2⟩ := img_congr hfit.left.2 (noBare hfit.left.1 hfit.left.2 hok) huniq
  have hin : id ∈ x.auto (f p.walk.root) := (hauto _ _).mpr ⟨p, hp, l, hfl⟩
  have htry : tryMatch x m c.toCirc (f p.walk.root) id = .ok (some ⟨id, f p.walk.root, nodes,
      imgIns u.left.toCirc f, imgOuts u.left.toCirc f⟩) := by
    rw [tryMatch, hp]
    simp only
    rw [hfl]
    simp only
    rw [h2]
    simp only
    rw [← e1, ← e2, hs]
  -- all rewrites were made, so this one was made as well
  have hall : ∀ {ns : List Nat} {rs : List Rewrite}, findMatchesFrom x m c ns = .ok rs →
      f p.walk.root ∈ ns → ∃ r, matchToRewrite m c ⟨id, f p.walk.root, nodes, imgIns u.left.toCirc f,
        imgOuts u.left.toCirc f⟩ = .ok r := by
    intro ns
    induction ns with
    | nil => intro rs _ h; simp at h
    | cons n ns ih =>
      intro rs h hn
      obtain ⟨as, g1, g2⟩ := Res.bind_ok.mp h
      obtain ⟨r1, g3, g4⟩ := Res.bind_ok.mp g2
      obtain ⟨r2, g5, _⟩ := Res.bind_ok.mp g4
      rcases List.mem_cons.mp hn with rfl | hn
      · have hmem := (tryAll_mem g1 _).mpr ⟨id, hin, htry⟩
        have : ∀ {as : List Match} {rs : List Rewrite}, toRewrites m c as = .ok rs → ∀ a ∈ as,
            ∃ r, matchToRewrite m c a = .ok r := by
          intro as
          induction as with
          | nil => intro rs _ a ha; simp at ha
          | cons b bs ih =>
            intro rs h a ha
            obtain ⟨r0, k1, k2⟩ := Res.bind_ok.mp h
            obtain ⟨_, k3, _⟩ := Res.bind_ok.mp k2
            rcases List.mem_cons.mp ha with rfl | ha
            · exact ⟨r0, k1⟩
            · exact ih k3 a ha
        exact this g3 _ hmem
      · exact ih g5 hn
  obtain ⟨r, hr⟩ := hall hf (hcmds _ hroot)
  have hmem := (findMatchesFrom_mem hf r).mpr ⟨_, hcmds _ hroot, id, hin, _, htry, hr⟩
  have hr' := hr
  rw [matchToRewrite, hrights, List.getElem?_map, hid] at hr'
  simp only [Option.map_some] at hr'
  cases hsig : subSig c (imgIns u.left.toCirc f) (imgOuts u.left.toCirc f) with
  | none => rw [hsig] at hr'; simp at hr'
  | some sg =>
    rw [hsig] at hr'
    simp only at hr'
    split at hr'
    · simp only [Res.ok.injEq] at hr'
      rw [hr']
      exact hmem
    · simp at hr'

/-- A copy has the signature of the pattern. -/
theorem copy_sig {P c : TCirc} (hpl : P.toCirc.Plain) (hbare : NoBare P.toCirc) {inTy outTy : Op → Nat → Nat}
    (hty : OpTypes inTy outTy P) (hcty : OpTypes inTy outTy c) {f : Nat → Nat} {w : Nat → Nat × Nat}
    (h1 : Copy P.toCirc c.toCirc f w)
    (h3 : ∀ (i : Nat) (ps : List (Nat × Nat)), (imgIns P.toCirc f)[i]? = some ps →
      ∀ x ∈ ps, (c.ins x.1)[x.2]? = some (w i)) (hgroups : ∀ g ∈ imgIns P.toCirc f, g ≠ []) :
    subSig c (imgIns P.toCirc f) (imgOuts P.toCirc f) = some (circSig P) := by
  have hint : inTypes c (imgIns P.toCirc f) =
      some ((List.range P.numInputs).map (P.ty P.inp)) := by
    have := inTypes_spec (c := c) (w := w) (gs := imgIns P.toCirc f) (k := 0) hgroups
      (by simpa using h3)
    rw [this]
    simp only [imgIns, List.length_map, List.length_range, Nat.zero_add, Option.some.injEq]
    apply List.map_congr_left
    intro i hi
    have hi' := List.mem_range.mp hi
    have hg := hgroups ((consumers P.toCirc P.inp i).map fun x => (f x.1, x.2))
      (List.mem_map.mpr ⟨i, hi, rfl⟩)
    cases hcs : consumers P.toCirc P.inp i with
    | nil => rw [hcs] at hg; simp at hg
    | cons y ys =>
      obtain ⟨n', k⟩ := y
      have hy : (n', k) ∈ consumers P.toCirc P.inp i := by rw [hcs]; simp
      obtain ⟨g1, g2⟩ := mem_consumers.mp hy
      have hnc : n' ∈ P.cmds := by
        rcases (hpl.members n').mp g1 with h | h
        · exact h
        · subst h
          exact absurd (hbare _ (List.mem_of_getElem? g2)) (fun h => (hpl.cmd_mem h).2.1 rfl)
      obtain ⟨k1, k2, k3⟩ := hpl.cmd_mem hnc
      obtain ⟨j1, j2, j3⟩ := h1.members n' hnc
      have e1 := hty.inp n' k1 k2 k3 k _ g2
      have e2 := hcty.inp (f n') j1 j2 j3 k _ (h1.input n' hnc k _ g2 rfl)
      simp only at e1 e2
      rw [e2, h1.op n' hnc, e1]
  have hout : (imgOuts P.toCirc f).map (fun s => c.ty s.1 s.2) =
      (P.ins P.out).map fun s => P.ty s.1 s.2 := by
    rw [imgOuts, List.map_map]
    apply List.map_congr_left
    intro s hs'
    have hnc := hbare s hs'
    obtain ⟨k1, k2, k3⟩ := hpl.cmd_mem hnc
    obtain ⟨j1, j2, j3⟩ := h1.members s.1 hnc
    simp only [Function.comp]
    rw [hcty.out _ j1 j2 j3, hty.out _ k1 k2 k3, h1.op _ hnc]
  rw [subSig, hint, Option.map_some, hout]
  rfl

/-- The search succeeds if the sides of every rule have the same signature and the check of subgraphs
gives no other errors. -/
theorem C94_total (choose : Pattern → Option Walk) (hch : ∀ p w, choose p = some w → w.Valid p)
    {lin : Nat → Prop} {rules : List Rule} (hrules : ∀ u ∈ rules, u.Fit lin)
    (hsides : ∀ u ∈ rules, circSig u.left = circSig u.right) {inTy outTy : Op → Nat → Nat}
    (hty : ∀ u ∈ rules, OpTypes inTy outTy u.left) {m : Matcher}
    (hm : fromRules choose rules = .ok m) {x : Ext} {c : TCirc} (hc : Proper lin c)
    (hcty : OpTypes inTy outTy c) (hauto : AutoOK x m c.toCirc) (hx : SubsOK x c.toCirc)
    (hother : ∀ i o, x.sub i o ≠ .other) (hio : ∀ u ∈ rules, NoIO u.left.toCirc c.toCirc) :
    ∃ rs, findMatches x m c = .ok rs := by
  obtain ⟨hl, hrights, hpat⟩ := (C94_from_rules choose rules m).mp hm
  have hmatch : ∀ n ∈ c.cmds, ∀ id ∈ x.auto n, ∃ o, tryMatch x m c.toCirc n id = .ok o ∧
      ∀ a, o = some a → ∃ r, matchToRewrite m c a = .ok r := by
    intro n hn id hid
    obtain ⟨p, hp, l, hfl⟩ := (hauto n id).mp hid
    have hidlt : id < rules.length := by
      rw [← hl]; exact (List.getElem?_eq_some_iff.mp hp).1
    have hu := List.getElem?_eq_getElem hidlt
    have hmem := List.getElem_mem hidlt
    generalize rules[id] = u at hu hmem
    have hok := hpat id u p hu hp
    have hfit := hrules u hmem
    obtain ⟨f, w, h1, _, h2, h3⟩ := match_copy hch hfit.left.1 hfit.left.2 hc.wf (hio u hmem) hok
      (hc.wf.cmds n hn).1 hfl
    rw [tryMatch, hp]
    simp only
    rw [hfl]
    simp only
    rw [h2]
    simp only
    cases hs : x.sub (imgIns u.left.toCirc f) (imgOuts u.left.toCirc f) with
    | other => exact absurd hs (hother _ _)
    | notConvex => exact ⟨none, rfl, by simp⟩
    | ok nodes =>
      refine ⟨_, rfl, ?_⟩
      intro a ha
      simp only [Option.some.injEq] at ha
      subst ha
      have hsub := hx _ _ _ hs
      have hbare := noBare hfit.left.1 hfit.left.2 hok
      refine ⟨⟨nodes, imgIns u.left.toCirc f, imgOuts u.left.toCirc f, u.right⟩, ?_⟩
      rw [matchToRewrite, hrights, List.getElem?_map, hu]
      simp only [Option.map_some]
      rw [copy_sig hfit.left.2 hbare (hty u hmem) hcty h1 h3 hsub.groups]
      simp only
      rw [if_pos (hsides u hmem)]
  have hroot : ∀ n ∈ c.cmds, ∃ as, findRooted x m c.toCirc n = .ok as ∧ ∃ rs, toRewrites m c as = .ok rs := by
    intro n hn
    have key : ∀ ids : List Nat, (∀ id ∈ ids, id ∈ x.auto n) →
        ∃ as, tryAll x m c.toCirc n ids = .ok as ∧ ∃ rs, toRewrites m c as = .ok rs := by
      intro ids
      induction ids with
      | nil => intro _; exact ⟨[], rfl, [], rfl⟩
      | cons id ids ih =>
        intro h
        obtain ⟨as, h1, rs, h2⟩ := ih (fun i hi => h i (by simp [hi]))
        obtain ⟨o, h3, h4⟩ := hmatch n hn id (h id (by simp))
        cases o with
        | none =>
          refine ⟨as, ?_, rs, h2⟩
          rw [tryAll, h3, h1]; rfl
        | some a =>
          obtain ⟨r, hr⟩ := h4 a rfl
          refine ⟨a :: as, ?_, r :: rs, ?_⟩
          · rw [tryAll, h3, h1]; rfl
          · rw [toRewrites, hr, h2]; rfl
    exact key _ (fun _ h => h)
  have hall : ∀ ns : List Nat, (∀ n ∈ ns, n ∈ c.cmds) → ∃ rs, findMatchesFrom x m c ns = .ok rs := by
    intro ns
    induction ns with
    | nil => intro _; exact ⟨[], rfl⟩
    | cons n ns ih =>
      intro h
      obtain ⟨rs, h1⟩ := ih (fun i hi => h i (by simp [hi]))
      obtain ⟨as, h2, rs', h3⟩ := hroot n (h n (by simp))
      refine ⟨rs' ++ rs, ?_⟩
      rw [findMatchesFrom, h2]
      simp only [Res.bind]
      rw [h3]
      simp only
      rw [h1]
  exact hall _ (fun _ h => h)

/-- A list of rewriters, however nested, proposes what its members propose. -/
theorem C94_rewriters {α β : Type} (f : α → List β) (r : Rewriter α) (b : β) :
    b ∈ r.rewrites f ↔ ∃ a, Rewriter.Has a r ∧ b ∈ f a := by
  induction r with
  | one a =>
    constructor
    · intro h; exact ⟨a, .one, h⟩
    · rintro ⟨_, h, hb⟩; cases h; exact hb
  | nil =>
    constructor
    · intro h; simp [Rewriter.rewrites] at h
    · rintro ⟨_, h, _⟩; cases h
  | cons h t ih1 ih2 =>
    rw [Rewriter.rewrites, List.mem_append, ih1, ih2]
    constructor
    · rintro (⟨a, h1, h2⟩ | ⟨a, h1, h2⟩)
      · exact ⟨a, .head _ _ h1, h2⟩
      · exact ⟨a, .tail _ _ h1, h2⟩
    · rintro ⟨a, h1, h2⟩
      cases h1 with
      | head _ _ h1 => exact .inl ⟨a, h1, h2⟩
      | tail _ _ h1 => exact .inr ⟨a, h1, h2⟩

/-! ### Deviations -/

/-- A gate on one qubit, and an operation without outputs that reports a bit. -/
def gate (name : Nat) : Op := ⟨name, [.linear]⟩
def report : Op := ⟨20, [.copy]⟩

/-- A measurement: port 0 is the qubit, port 1 the bit. -/
def meas : Op := ⟨21, [.linear]⟩

/-- A circuit of gates on one qubit, one after the other. -/
def line1 (names : List Nat) (numInputs : Nat) : TCirc where
  toCirc := mk (names.mapIdx fun i g => (i + 2, gate g, 0, [(if i = 0 then 0 else i + 1, 0)])) []
    [(if names.isEmpty then 0 else names.length + 1, 0)] [.linear] numInputs
  ty _ _ := 0

/-- A choice of a root: the first command, and all edges (enough for patterns of one command). -/
def first (p : Pattern) : Option Walk :=
  match p.requires with
  | [(n, _)] => some ⟨n, p.edges⟩
  | _ => none

/-- External parts for a circuit of two commands that each match one rule, the first `a` and the
second `b`. -/
def twoExt (a b : Nat) : Ext where
  auto n := if n = 2 then [a] else if n = 3 then [b] else []
  sub i _ :=
    match i with
    | [[(n, _)]] => .ok [n]
    | _ => .other

/-- One rule with sides of different signatures makes `find_matches` fail, although another rule
matches and its rewrite is fine; `find_match` gives that rewrite, or fails as well if the other
match comes first. Nothing is checked when rules are made. -/
theorem C94_one_bad_rule :
    let good : Rule := ⟨line1 [5] 1, line1 [7] 1⟩
    let bad : Rule := ⟨line1 [6] 1, line1 [7] 2⟩
    ∃ m, fromRules first [good, bad] = .ok m ∧
      findMatches (twoExt 0 1) m (line1 [5, 6] 1) = .err .signature ∧
      (∃ r, findMatch (twoExt 0 1) m (line1 [5, 6] 1) = .ok (some r) ∧ r.nodes = [2]) ∧
      findMatch (twoExt 1 0) m (line1 [6, 5] 1) = .err .signature :=
  ⟨_, rfl, rfl, ⟨_, rfl, rfl⟩, rfl⟩

/-- A measurement whose bit is not used, and the circuit in which the bit is reported. -/
def quiet : TCirc where
  toCirc := mk [(2, meas, 0, [(0, 0)])] [] [(2, 0)] [.linear] 1
  ty _ p := p
def loud : TCirc where
  toCirc := mk [(2, meas, 0, [(0, 0)]), (3, report, 0, [(2, 1)])] [] [(2, 0)] [.linear] 1
  ty _ p := p

theorem inner_loud (a b : Nat) :
    InnerEdge loud.toCirc [[(2, 0)]] [(2, 0)] a b → a = 2 ∧ b = 3 := by
  rintro ⟨hb, k, s, hs, rfl, hg, ho⟩
  have hm : loud.members = [1, 2, 3] := rfl
  rw [hm] at hb
  have hk : k = 0 := by
    have : ∀ n ∈ [1, 2, 3], (loud.ins n).length ≤ 1 := by decide +kernel
    have h1 := this b hb
    have h2 := (List.getElem?_eq_some_iff.mp hs).1
    omega
  subst hk
  have key : ∀ n ∈ [1, 2, 3], ∀ s ∈ (loud.ins n)[0]?, (n, 0) ≠ (2, 0) → s ≠ (2, 0) → s.1 = 2 ∧ n = 3 := by
    decide +kernel
  exact key b hb s hs (by simpa using hg [(2, 0)] (by simp)) (by simpa using ho)

/-- An operation that only consumes a value which the left-hand side keeps for itself becomes part of the
subgraph, as it is connected with it and with nothing else. The check of the subgraph passes by its
documented definition, and the rewrite removes the operation: the report is lost. -/
theorem C94_consumer_removed :
    SubOK loud.toCirc [[(2, 0)]] [(2, 0)] [2, 3] ∧
    (let x : Ext := ⟨fun n => if n = 2 then [0] else [], fun _ _ => .ok [2, 3]⟩
     ∃ m r c', fromRules first [⟨quiet, quiet⟩] = .ok m ∧ findMatches x m loud = .ok [r] ∧
       applyRw loud 10 r = some c' ∧ loud.members.map loud.op = [⟨101, [.linear]⟩, meas, report] ∧
       c'.members.map c'.op = [⟨101, [.linear]⟩, meas]) := by
  refine ⟨⟨?_, by decide, ?_, by decide +kernel, by decide +kernel, ?_⟩, ?_⟩
  · intro n
    constructor
    · intro hn
      refine ⟨2, .inl ⟨[(2, 0)], by simp, 0, by simp⟩, ?_⟩
      simp only [List.mem_cons, List.not_mem_nil, or_false] at hn
      rcases hn with rfl | rfl
      · exact .refl
      · refine .single (.inl ⟨by decide, 0, (2, 1), rfl, rfl, by decide, by decide⟩)
    · rintro ⟨b, hb, hr⟩
      have hb' : b = 2 := by
        rcases hb with ⟨g, hg, k, hk⟩ | ⟨p, hp⟩
        · simp only [List.mem_singleton] at hg
          subst hg
          simp at hk; exact hk.1
        · simp at hp; exact hp.1
      subst hb'
      induction hr with
      | refl => simp
      | tail _ hj _ =>
        rcases hj with hj | hj
        · obtain ⟨_, rfl⟩ := inner_loud _ _ hj; simp
        · obtain ⟨rfl, _⟩ := inner_loud _ _ hj; simp
  · intro n hn k s hs
    have hk : k = 0 := by
      have : ∀ n ∈ [2, 3], (loud.ins n).length ≤ 1 := by decide +kernel
      have h1 := this n hn
      have h2 := (List.getElem?_eq_some_iff.mp hs).1
      omega
    subst hk
    have key : ∀ n ∈ [2, 3], ∀ s ∈ (loud.ins n)[0]?, ((n, 0) ∈ [(2, 0)] ↔ s.1 ∉ [2, 3]) := by
      decide +kernel
    have := key n hn s hs
    simpa using this
  · intro a ha b hb hf d hd hr
    have hb1 : b = 1 := by
      have := hf.1
      have hm : loud.members = [1, 2, 3] := rfl
      rw [hm] at this
      simp at this hb
      omega
    subst hb1
    -- the output node feeds nothing
    rcases Relation.ReflTransGen.cases_head hr with h | ⟨e, he, _⟩
    · subst h; simp at hd
    · obtain ⟨h1, s, hs, h2⟩ := he
      have hm : loud.members = [1, 2, 3] := rfl
      rw [hm] at h1
      have key : ∀ n ∈ [1, 2, 3], ∀ s ∈ loud.ins n, s.1 ≠ 1 := by decide +kernel
      exact key e h1 s hs h2
  · refine ⟨_, _, _, rfl, rfl, rfl, ?_, ?_⟩ <;> decide +kernel

/-! ### Examples -/

/-- No cycles if nodes can be numbered upwards. -/
theorem acyclic_of_rank {c : Circ} (rk : Nat → Nat) (h : ∀ n ∈ c.members, ∀ s ∈ c.ins n, rk s.1 < rk n) :
    Acyclic c := by
  have key : ∀ a b, Relation.TransGen (Feeds c) a b → rk a < rk b := by
    intro a b hab
    induction hab with
    | single hf =>
      obtain ⟨h1, s, h2, rfl⟩ := hf
      exact h _ h1 s h2
    | tail _ hf ih =>
      obtain ⟨h1, s, h2, rfl⟩ := hf
      exact Nat.lt_trans ih (h _ h1 s h2)
  intro n hn
  exact absurd (key n n hn) (Nat.lt_irrefl _)

/-- Checks that can be decided, for one input port per node. -/
theorem wf_of_one {c : Circ} (h1 : ∀ n ∈ c.members, (c.ins n).length = 1 ∧ (c.op n).kinds.length = 1)
    (h2 : ∀ n ∈ c.cmds, n ∈ c.members ∧ n ≠ c.inp ∧ n ≠ c.out) (h3 : c.out ∈ c.members ∧ c.out ≠ c.inp)
    (h4 : c.ins c.inp = []) (h5 : ∀ n ∈ c.members, ∀ s ∈ c.ins n, s.1 ∈ c.members ∨ s.1 = c.inp)
    (h6 : ∀ n ∈ c.members, ∀ s ∈ c.ins n, consumers c s.1 s.2 = [(n, 0)]) : c.WF := by
  refine ⟨fun n hn => by rw [(h1 n hn).1, (h1 n hn).2], h2, h3, h4, h5, ?_⟩
  intro n hn k s _ hs
  have hk : k = 0 := by
    have := (List.getElem?_eq_some_iff.mp hs).1
    rw [(h1 n hn).1] at this
    omega
  subst hk
  exact h6 n hn s (List.mem_of_getElem? hs)

/-- The rule that replaces gate 5 by gates 7 and 7. -/
def rule57 : Rule := ⟨line1 [5] 1, line1 [7, 7] 1⟩

theorem rule57_fit : rule57.Fit fun _ => True := by
  refine ⟨⟨wf_of_one (by decide +kernel) (by decide +kernel) (by decide +kernel) rfl (by decide +kernel) (by decide +kernel),
    ⟨?_, by decide +kernel, by decide +kernel, by decide +kernel⟩⟩,
    ⟨⟨?_, by decide +kernel, by decide +kernel, by decide +kernel⟩,
      ⟨wf_of_one (by decide +kernel) (by decide +kernel) (by decide +kernel) rfl (by decide +kernel) (by decide +kernel),
       by decide +kernel, by decide +kernel, ?_, acyclic_of_rank (fun n => if n = 1 then 100 else n) (by decide +kernel),
       by decide +kernel⟩⟩, by decide +kernel, ?_⟩
  · intro n
    show n ∈ [1, 2] ↔ n ∈ [2] ∨ n = 1
    simp [or_comm]
  · intro n
    show n ∈ [1, 2, 3] ↔ n ∈ [2, 3] ∨ n = 1
    simp [or_comm]
  · intro n hn k s hs
    have hm : rule57.right.members = [1, 2, 3] := rfl
    rw [hm] at hn
    have hk : k = 0 := by
      have : ∀ n ∈ [1, 2, 3], (rule57.right.ins n).length ≤ 1 := by decide +kernel
      have h1 := this n hn
      have h2 := (List.getElem?_eq_some_iff.mp hs).1
      omega
    subst hk
    have : ∀ n ∈ [1, 2, 3], (rule57.right.op n).kinds[0]? = some .linear := by decide +kernel
    simp [this n hn]
  · intro n hn
    have hn' : n = 2 := by
      have : rule57.left.cmds = [2] := rfl
      rw [this] at hn
      simpa using hn
    subst hn'
    exact ⟨2, hn, .inr ⟨0, by decide +kernel⟩, .refl⟩

/-- The rewrite of gate 5 in a circuit of gates 5 and 6, and the circuit afterwards. -/
example : ∃ m r c', fromRules first [rule57] = .ok m ∧
    findMatches ⟨fun n => if n = 2 then [0] else [], fun _ _ => .ok [2]⟩ m (line1 [5, 6] 1) = .ok [r] ∧
    r.nodes = [2] ∧ applyRw (line1 [5, 6] 1) 10 r = some c' ∧
    c'.members = [1, 3, 12, 13] ∧ c'.ins 12 = [(0, 0)] ∧ c'.ins 13 = [(12, 0)] ∧ c'.ins 3 = [(13, 0)] ∧
    c'.ins 1 = [(3, 0)] :=
  ⟨_, _, _, rfl, rfl, rfl, rfl, by decide +kernel, by decide +kernel, by decide +kernel, by decide +kernel,
    by decide +kernel⟩

/-- Sides that mean the same: gate 5 adds two, gate 7 adds one. -/
example : ∀ x y, Means (fun o _ (l : List Nat) _ => if o = gate 5 then l.sum + 2 else l.sum + 1)
      rule57.left.toCirc x y ↔
    Means (fun o _ (l : List Nat) _ => if o = gate 5 then l.sum + 2 else l.sum + 1) rule57.right.toCirc x y := by
  intro x y
  constructor
  · rintro ⟨val, h1, h2, rfl⟩
    have h3 := h1 2 (by decide) (by decide) (by decide) 0
    have h4 := h2 0
    refine ⟨fun n p => if n = 0 then x p else if n = 2 then x 0 + 1 else x 0 + 2, ?_, fun i => rfl, ?_⟩
    · intro n hn hi ho p
      have hn' : n = 2 ∨ n = 3 := by
        have : rule57.right.members = [1, 2, 3] := rfl
        rw [this] at hn
        have ho' : n ≠ 1 := ho
        simp at hn
        omega
      rcases hn' with rfl | rfl
      · rfl
      · show x 0 + 2 = if gate 7 = gate 5 then _ else ([x 0 + 1] : List Nat).sum + 1
        rw [if_neg (by decide)]
        rfl
    · show [x 0 + 2] = [val 2 0]
      have : val 2 0 = ([val 0 0] : List Nat).sum + 2 := h3
      have h5 : val 0 0 = x 0 := h4
      rw [this, h5]
      simp
  · rintro ⟨val, h1, h2, rfl⟩
    have h3 : val 2 0 = ([val 0 0] : List Nat).sum + 1 := h1 2 (by decide) (by decide) (by decide) 0
    have h3' : val 3 0 = ([val 2 0] : List Nat).sum + 1 := h1 3 (by decide) (by decide) (by decide) 0
    have h4 : val 0 0 = x 0 := h2 0
    refine ⟨fun n p => if n = 0 then x p else x 0 + 2, ?_, fun i => rfl, ?_⟩
    · intro n hn hi ho p
      have hn' : n = 2 := by
        have : rule57.left.members = [1, 2] := rfl
        rw [this] at hn
        have ho' : n ≠ 1 := ho
        simp at hn
        omega
      subst hn'
      rfl
    · show [x 0 + 2] = [val 3 0]
      rw [h3', h3, h4]
      simp

end Verif.Matching
