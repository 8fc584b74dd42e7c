import Verif.Lemmas.ParamClass
import Verif.Props.EccRun

/-
Property C98: the rewriter of equivalence classes of circuits with parameters.
-/
namespace Verif.Matching

open Relation

variable {D R : Type} [Fintype D] [DecidableEq D] [CommSemiring R]

/-- Rules of classes fit, and their sides have the same amplitudes, up to a common factor. -/
theorem C98_agree (A : Weights D R) {K : R → Prop} {lin : Nat → Prop} {eccs : List (Tket.Ecc.EqCircClass TCirc)}
    (hok : ∀ e ∈ eccs, ParamClass lin A K e) {u : Rule} (hu : ClassRule eccs u) :
    Mixed lin A.arity u.left ∧ Mixed lin A.arity u.right ∧ u.Fit lin ∧ u.Agree A K := by
  obtain ⟨e, he, i, j, c, t, h1, h2, _, _, h3, h4⟩ := hu
  have hc := List.mem_of_getElem? h1
  have ht := List.mem_of_getElem? h2
  obtain ⟨gl, _, _⟩ := ((hok e he).mixed c hc).wires h3
  obtain ⟨gr, _, _⟩ := ((hok e he).mixed t ht).wires h4
  obtain ⟨k, hk, hs⟩ := (hok e he).same c hc t ht
  have hlen : (c.ins c.out).length = (t.ins t.out).length := by
    have := congrArg (fun s => s.2.length) ((hok e he).sig c hc t ht)
    simpa [circSig] using this
  exact ⟨gl, gr, gl.fit gr, gl.range, gr.range, gl.proper.nodup, k, hk,
    Mixed.agree_wires ((hok e he).mixed c hc) ((hok e he).mixed t ht) hlen hs h3 h4⟩

/-- Every rewrite that the rewriter proposes replaces a copy of a circuit of a class, without its empty wires, by
another circuit of this class without these wires; the place was checked, and if every operation leads to the
outputs, no value inside of it is used elsewhere. -/
theorem C98_found (A : Weights D R) {K : R → Prop} (choose : Pattern → Option Walk)
    (hch : ∀ p w, choose p = some w → w.Valid p) {lin : Nat → Prop} {eccs : List (Tket.Ecc.EqCircClass TCirc)}
    (hok : ∀ e ∈ eccs, ParamClass lin A K e) {M : Tket.Ecc.Rewriter TCirc CPattern}
    (hM : eccRewriter choose eccs = some M) {x : Ext} {c : TCirc} (hc : Sane lin c) (hlive : Alive c.toCirc)
    (hx : SubsOK x c.toCirc) (hio : ClassIO eccs c.toCirc) {rs : List Rewrite} (hf : eccRewrites x M c = some rs)
    {r : Rewrite} (hin : r ∈ rs) : ∃ u, ClassRule eccs u ∧ ∃ f w, Placed u c r f w := by
  obtain ⟨M', h0, hpat, _⟩ := Tket.Ecc.C17_rewrites_stay_in_class (eccPattern choose) emptyOf eccs
  rw [eccRewriter] at hM
  rw [hM, Option.some.injEq] at h0
  subst h0
  rw [eccRewrites, Option.bind_eq_some_iff] at hf
  obtain ⟨as, has, hf⟩ := hf
  rw [Option.map_eq_some_iff] at hf
  obtain ⟨l, hl, rfl⟩ := hf
  obtain ⟨rl, hrl, hin⟩ := List.mem_flatten.mp hin
  obtain ⟨a, ha, hrl'⟩ := (collect_some hl rl).mp hrl
  obtain ⟨n, hn, id, hid, ht⟩ := (allMatches_mem has a).mp ha
  cases hp : M.patterns[id]? with
  | none => rw [tryMatch, hp] at ht; simp at ht
  | some p =>
    obtain ⟨ts, pe, g1, g2, e, he, i, c0, g3, rfl, g4, g5⟩ := hpat id p hp
    have hc0 := List.mem_of_getElem? g4
    rw [eccPattern, Option.bind_eq_some_iff] at g3
    obtain ⟨d, g6, g7⟩ := g3
    have gd := ((hok e he).mixed c0 hc0).wires g6
    have hokd : tryFromCircuit choose d.toCirc = .ok p := by
      split at g7
      · rename_i hq
        simp only [Option.some.injEq] at g7
        rw [hq, g7]
      · simp at g7
    obtain ⟨hid', f, w, k1, k2, k3, k4⟩ := tryMatch_found hch gd.1.proper.wf gd.1.plain hc.wf (by
      intro m hm
      have hm' : m ∈ c0.cmds := gd.2.1 ▸ hm
      rw [gd.2.2 m hm']
      exact hio e he c0 hc0 m hm') hx (hc.wf.cmds n hn).1 hp hokd ht
    rw [matchRewrites, hid', g1, g2] at hrl'
    simp only [Option.bind_some] at hrl'
    obtain ⟨t, htm, hrt⟩ := (collect_some hrl' r).mp hin
    rw [Option.bind_eq_some_iff] at hrt
    obtain ⟨repl, k5, k6⟩ := hrt
    rw [toRewrite, Option.bind_eq_some_iff] at k6
    obtain ⟨sg, k7, k8⟩ := k6
    split_ifs at k8 with hsig
    simp only [Option.some.injEq] at k8
    subst k8
    obtain ⟨_, j, q1, q2, q3, q4⟩ := g5 t htm
    have hbare := noBare gd.1.proper.wf gd.1.plain hokd
    refine ⟨⟨d, repl⟩, ⟨e, he, i, j, c0, t, q1, q2, q3, q4, g6, k5⟩, f, w, ⟨k1, k2, k3, rfl⟩, hbare, k4, ?_,
      SubOK.private (nodes := a.nodes) k1.emb gd.1.plain ?_ hbare gd.1.held (by rw [← k2, ← k3]; exact k4) hlive⟩
    · rw [← hsig]
      exact k7
    · intro m hm
      rw [hc.wf.length _ (k1.members m hm).1, gd.1.proper.wf.length m (gd.1.plain.cmd_mem hm).1, k1.op m hm]

/-- The rewriter for classes of circuits with parameters and outputs of one type: it can be made, and proposing
rewrites does not panic, if the automaton and the check of subgraphs meet their contracts. -/
theorem C98_total (A : Weights D R) {K : R → Prop} (choose : Pattern → Option Walk)
    (hch : ∀ p w, choose p = some w → w.Valid p) {lin : Nat → Prop} {eccs : List (Tket.Ecc.EqCircClass TCirc)}
    (hok : ∀ e ∈ eccs, ParamClass lin A K e) {qubit : Nat} (hq : ∀ e ∈ eccs, ∀ d ∈ e.circuits, ∀ s ∈ d.ins d.out, d.ty s.1 s.2 = qubit)
    {inTy outTy : Op → Nat → Nat} (hty : ∀ e ∈ eccs, ∀ d ∈ e.circuits, OpTypes inTy outTy d) :
    ∃ M, eccRewriter choose eccs = some M ∧ ∀ {x : Ext} {c : TCirc}, Sane lin c → OpTypes inTy outTy c →
      SubsOK x c.toCirc → ClassIO eccs c.toCirc → AutoOK x ⟨M.patterns, []⟩ c.toCirc → (∀ i o, x.sub i o ≠ .other) →
      ∃ rs, eccRewrites x M c = some rs := by
  obtain ⟨M, h0, hpat, _⟩ := Tket.Ecc.C17_rewrites_stay_in_class (eccPattern choose) emptyOf eccs
  refine ⟨M, h0, ?_⟩
  intro x c hc hcty hx hio hauto hother
  have hinfo : ∀ n ∈ c.cmds, ∀ id ∈ x.auto n, ∃ o, tryMatch x ⟨M.patterns, []⟩ c.toCirc n id = .ok o ∧
      ∀ a, o = some a → matchRewrites M c a ≠ none := by
    intro n hn id hid
    obtain ⟨p, hp, l, hfl⟩ := (hauto n id).mp hid
    obtain ⟨ts, pe, g1, g2, e, he, i, c0, g3, rfl, g4, g5⟩ := hpat id p hp
    have hc0 := List.mem_of_getElem? g4
    have hg0 := (hok e he).mixed c0 hc0
    rw [eccPattern, Option.bind_eq_some_iff] at g3
    obtain ⟨d, g6, g7⟩ := g3
    have gd := hg0.wires g6
    have hokd : tryFromCircuit choose d.toCirc = .ok p := by
      split at g7
      · rename_i hq
        simp only [Option.some.injEq] at g7
        rw [hq, g7]
      · simp at g7
    have hbare := noBare gd.1.proper.wf gd.1.plain hokd
    obtain ⟨f, w, h1, _, h2, h3⟩ := match_copy hch gd.1.proper.wf gd.1.plain hc.wf (by
      intro m hm
      have hm' : m ∈ c0.cmds := gd.2.1 ▸ hm
      rw [gd.2.2 m hm']
      exact hio e he c0 hc0 m hm') hokd (hc.wf.cmds n hn).1 hfl
    rw [tryMatch, hp]
    simp only
    rw [hfl]
    simp only
    rw [h2]
    simp only
    cases hs : x.sub (imgIns d.toCirc f) (imgOuts d.toCirc f) with
    | other => exact absurd hs (hother _ _)
    | notConvex => exact ⟨none, rfl, by simp⟩
    | ok nodes =>
      refine ⟨_, rfl, ?_⟩
      intro a ha
      simp only [Option.some.injEq] at ha
      subst ha
      have hsub := hx _ _ _ hs
      have hsig := copy_sig gd.1.plain hbare (hg0.opTypes (hty e he c0 hc0) g6) hcty h1 h3 hsub.groups
      rw [matchRewrites, g1, g2]
      simp only [Option.bind_some]
      obtain ⟨r, hr⟩ := collect_total (f := fun t => (shrink t (emptyOf c0)).bind fun repl =>
          toRewrite c ⟨id, n, nodes, imgIns d.toCirc f, imgOuts d.toCirc f⟩ repl) (l := ts) (by
        intro t htm
        obtain ⟨hin, j, q1, q2, q3, q4⟩ := g5 t htm
        have ht := List.mem_of_getElem? q2
        have hgt := (hok e he).mixed t ht
        obtain ⟨d', k1, k2, k3⟩ := hg0.wires_total (emptyOf_sorted c0) (by simp)
        obtain ⟨repl, l1, l2, l3⟩ := hgt.wires_total (emptyOf_sorted c0) (by simpa using hin)
        have hdd : d' = d := by
          have : some d' = some d := k1.symm.trans g6
          simpa using this
        subst hdd
        have hss := (hok e he).sig c0 hc0 t ht
        have s1 : c0.numInputs = t.numInputs := by
          simpa [circSig] using congrArg (fun s => s.1.length) hss
        have s2 : (c0.ins c0.out).length = (t.ins t.out).length := by
          simpa [circSig] using congrArg (fun s => s.2.length) hss
        have t1 := hg0.wires_outputs (hq e he c0 hc0) k1
        have t2 := hgt.wires_outputs (hq e he t ht) l1
        have heq : circSig d' = circSig repl := by
          refine Prod.ext (hg0.wires_inputs hgt (congrArg Prod.fst hss) k1 l1) ?_
          show (d'.ins d'.out).map (fun s => d'.ty s.1 s.2) = (repl.ins repl.out).map fun s => repl.ty s.1 s.2
          rw [List.map_congr_left t1, List.map_congr_left t2, List.map_const', List.map_const']
          congr 1
          omega
        have : shrink t (emptyOf c0) = some repl := l1
        rw [this, Option.bind_some, toRewrite, hsig, Option.bind_some, if_pos heq]
        simp)
      rw [hr]
      simp
  obtain ⟨as, has⟩ := allMatches_total (x := x) (ps := M.patterns) (c := c) fun n hn id hid =>
    ⟨_, (hinfo n hn id hid).choose_spec.1⟩
  obtain ⟨l, hl⟩ := collect_total (f := matchRewrites M c) (l := as) (by
    intro a ha
    obtain ⟨n, hn, id, hid, ht⟩ := (allMatches_mem has a).mp ha
    obtain ⟨o, h1, h2⟩ := hinfo n hn id hid
    rw [ht] at h1
    simp only [Res.ok.injEq] at h1
    exact h2 a h1.symm)
  exact ⟨l.flatten, by rw [eccRewrites, has, Option.bind_some, hl]; rfl⟩

/-- Each proposed rewrite can be applied, in circuits that throw nothing away; the new circuit is well formed,
without cycles, throws nothing away, and has the same amplitudes, up to a factor of the classes. -/
theorem C98_rewrite_partial (A : Weights D R) {K : R → Prop} (choose : Pattern → Option Walk)
    (hch : ∀ p w, choose p = some w → w.Valid p) {lin : Nat → Prop} {eccs : List (Tket.Ecc.EqCircClass TCirc)}
    (hok : ∀ e ∈ eccs, ParamClass lin A K e) {M : Tket.Ecc.Rewriter TCirc CPattern}
    (hM : eccRewriter choose eccs = some M) {x : Ext} {c : TCirc} (hc : Proper lin c) (hr : InRange A c.toCirc)
    (hbusy : Busy lin A.arity c)
    (hx : SubsOK x c.toCirc) (hio : ClassIO eccs c.toCirc) {rs : List Rewrite} (hf : eccRewrites x M c = some rs)
    {r : Rewrite} (hin : r ∈ rs) {base : Nat} (hb : Fresh c.toCirc base) :
    ∃ c', applyRw c base r = some c' ∧ Proper lin c' ∧ InRange A c'.toCirc ∧ Busy lin A.arity c' ∧
      ClassIO eccs c'.toCirc ∧ SameUpTo A K c.toCirc c'.toCirc := by
  obtain ⟨u, hu, f, w, hp⟩ := C98_found A choose hch hok hM hc.sane (hbusy.alive hc) hx hio hf hin
  obtain ⟨hl, hr', hfit, hag⟩ := C98_agree A hok hu
  have hspot := hp.spot hfit hc.sane hb
  obtain ⟨h1, h2, g1, g2, g3, g4⟩ := hspot.apply hc.sane hb
  have hsite := hspot.site hc.sane hb
  refine ⟨_, h1, ⟨h2.wf, h2.nodup, h2.inp, h2.typed, ?_, h2.flat⟩, hspot.inRange hc.sane hb hr hag.right,
    hspot.busy hc.sane hb hl hr' hbusy, ?_,
    hsite.same hc.nodup hfit hag⟩
  · exact hsite.acyclic hspot.used hp.sub.convex hc.acyclic hfit.right.2.acyclic
  · intro e he d hd n hn
    rw [g1, g2, g3, g4]
    exact hio e he d hd n hn

/-- Any number of rewrites, one after the other. -/
theorem C98_many_partial (A : Weights D R) {K : R → Prop} (hK : Factors K) (choose : Pattern → Option Walk)
    (hch : ∀ p w, choose p = some w → w.Valid p) {lin : Nat → Prop} {eccs : List (Tket.Ecc.EqCircClass TCirc)}
    (hok : ∀ e ∈ eccs, ParamClass lin A K e) {M : Tket.Ecc.Rewriter TCirc CPattern}
    (hM : eccRewriter choose eccs = some M) {c d : TCirc} (h : EccReaches M c d) (hc : Proper lin c)
    (hr : InRange A c.toCirc) (hbusy : Busy lin A.arity c) (hio : ClassIO eccs c.toCirc) :
    Proper lin d ∧ InRange A d.toCirc ∧ Busy lin A.arity d ∧ SameUpTo A K c.toCirc d.toCirc := by
  induction h with
  | refl c => exact ⟨hc, hr, hbusy, .refl hK _⟩
  | step x rs r base hx hf hin hb ha _ ih =>
    obtain ⟨c', h1, h2, h3, h3', h4, h5⟩ := C98_rewrite_partial A choose hch hok hM hc hr hbusy hx hio hf hin hb
    rw [ha, Option.some.injEq] at h1
    subst h1
    obtain ⟨k1, k2, k3, k4⟩ := ih h2 h3 h3' h4
    exact ⟨k1, k2, k3, h5.trans hK k4⟩

/-- If all operations are isometries for fixed parameters, wires from inputs to outputs of a right-hand side are paths in the left-hand
side: values cannot get to an output in any other way. -/
theorem C98_through [StarRing R] [Nontrivial R] [Nontrivial D] (A : Weights D R) {K : R → Prop} {lin : Nat → Prop}
    {eccs : List (Tket.Ecc.EqCircClass TCirc)} (hok : ∀ e ∈ eccs, ParamClass lin A K e) (hiso : ParamIso lin A eccs)
    {u : Rule} (hu : ClassRule eccs u)
    (hlen : (u.left.ins u.left.out).length = (u.right.ins u.right.out).length) : u.Through := by
  obtain ⟨gl, _, _, hag⟩ := C98_agree A hok hu
  obtain ⟨e, he, i0, _, c, _, h1, _, _, _, h3, _⟩ := hu
  have hc := List.mem_of_getElem? h1
  obtain ⟨_, hcmds, hops⟩ := ((hok e he).mixed c hc).wires h3
  intro i o hio
  obtain ⟨k, _, hs⟩ := hag.same
  refine gl.path ?_ (by rw [hlen]; exact (List.getElem?_eq_some_iff.mp hio).1) ?_
  · intro n hn
    have hn' : n ∈ c.cmds := hcmds ▸ hn
    rw [hops n hn', ((hok e he).mixed c hc).wires_ty h3 n hn']
    exact hiso e he c hc n hn'
  · intro x y hy
    rw [hs, amplitude_wire hio hy, mul_zero]

/-- The rewrites that a strategy chooses, applied together, in circuits where every operation leads to the outputs. -/
theorem C98_strategy_partial [StarRing R] [Nontrivial R] [Nontrivial D] (A : Weights D R) {K : R → Prop} (hK : Factors K) (choose : Pattern → Option Walk)
    (hch : ∀ p w, choose p = some w → w.Valid p) {lin : Nat → Prop} {eccs : List (Tket.Ecc.EqCircClass TCirc)}
    (hok : ∀ e ∈ eccs, ParamClass lin A K e) (hiso : ParamIso lin A eccs)
    {M : Tket.Ecc.Rewriter TCirc CPattern} (hM : eccRewriter choose eccs = some M)
    {next : TCirc → Nat} (hnext : ∀ c, Fresh c.toCirc (next c))
    {inv pre post : Rewrite → List Nat} (hinv : ∀ r, ∀ n ∈ r.nodes, n ∈ inv r) {x : Ext} {c : TCirc}
    (hc : Sane lin c) (hlive : Alive c.toCirc) (hr : InRange A c.toCirc)
    (hbusy : Busy lin A.arity c) (hx : SubsOK x c.toCirc) (hio : ClassIO eccs c.toCirc)
    {rs as : List Rewrite} (hf : eccRewrites x M c = some rs) (hsub : ∀ a ∈ as, a ∈ rs)
    (hchosen : Chosen (Rewrite.view inv pre post) rs as) :
    ∃ d, applyAll next c as = some d ∧ Sane lin d ∧ InRange A d.toCirc ∧ Busy lin A.arity d ∧ ClassIO eccs d.toCirc ∧
      SameUpTo A K c.toCirc d.toCirc := by
  obtain ⟨d, h1, h2, ⟨g1, g2, g3, g4⟩, h3, h4, h5⟩ := applyAll_rel (lin := lin) (Good := fun u => Mixed lin A.arity u.left ∧ Mixed lin A.arity u.right ∧ u.Agree A K)
    (Rel := fun c d => SameUpTo A K c.toCirc d.toCirc ∧ (InRange A c.toCirc → InRange A d.toCirc) ∧
      (Busy lin A.arity c → Busy lin A.arity d))
    (fun c => ⟨.refl hK _, id, id⟩)
    (fun h hg hc hd => ⟨((h.site hc (hnext _)).same hc.nodup h.fit hg.2.2).trans hK hd.1,
      fun g => hd.2.1 (h.inRange hc (hnext _) g hg.2.2.right), fun g => hd.2.2 (h.busy hc (hnext _) hg.1 hg.2.1 g)⟩)
    hnext c.toCirc as c hc (by
      intro a ha
      obtain ⟨u, hu, f, w, hp⟩ := C98_found A choose hch hok hM hc hlive hx hio hf (hsub a ha)
      obtain ⟨hl, hr', hfit, hag⟩ := C98_agree A hok hu
      have hspot := hp.spot hfit hc (hnext c)
      exact ⟨u, f, w, hspot, C98_through A hok hiso hu hspot.outputs.symm, hl, hr', hag⟩)
    (C95_chosen_apart hinv hchosen) (by
      intro a ha
      obtain ⟨u, hu, f, w, hp⟩ := C98_found A choose hch hok hM hc hlive hx hio hf (hsub a ha)
      exact hp.sub.convex) (fun _ _ _ _ h => .single h)
  refine ⟨d, h1, h2, h4 hr, h5 hbusy, ?_, h3⟩
  intro e he d' hd n hn
  rw [g1, g2, g3, g4]
  exact hio e he d' hd n hn

/-- The optimiser with the rewriter of equivalence classes: whatever the queue, the costs, the strategy, the
order and the limits are, the resulting circuit has the amplitudes of the first one, up to a common factor, and
no cycle leads to its outputs, if in the circuits where rewrites are looked for every operation leads to the
outputs. -/
theorem C98_badger_partial {P Δ : Type} [LinearOrder P] [StarRing R] [Nontrivial R] [Nontrivial D] (A : Weights D R) {K : R → Prop} (hK : Factors K)
    (choose : Pattern → Option Walk) (hch : ∀ p w, choose p = some w → w.Valid p) {lin : Nat → Prop}
    {eccs : List (Tket.Ecc.EqCircClass TCirc)} (hok : ∀ e ∈ eccs, ParamClass lin A K e)
    (hiso : ParamIso lin A eccs)
    {M : Tket.Ecc.Rewriter TCirc CPattern} (hM : eccRewriter choose eccs = some M)
    {next : TCirc → Nat} (hnext : ∀ c, Fresh c.toCirc (next c))
    {inv pre post : Rewrite → List Nat} (hinv : ∀ r, ∀ n ∈ r.nodes, n ∈ inv r)
    (value : TCirc → Nat) (add : P → Δ → P) {results : TCirc → List (TCirc × Δ)}
    (hlive : ∀ c, Sane lin c → OutAcyclic c.toCirc → Busy lin A.arity c → ∀ r ∈ results c, Alive c.toCirc)
    (hresults : ∀ c, ∀ r ∈ results c, EccStep M next (Rewrite.view inv pre post) c r.1)
    (o : Tket.Backtracking.Opts P) (fuel : Nat) {c : TCirc} {cost : P} (hc : Sane lin c) (hr : InRange A c.toCirc)
    (hbusy : Busy lin A.arity c) (hio : ClassIO eccs c.toCirc) {r : Tket.Backtracking.Out (TCirc × P) P}
    (hrun : Tket.Backtracking.optimise (badgerSpace value add results) o fuel (c, cost) () = .done r) :
    Sane lin r.best.1 ∧ OutAcyclic r.best.1.toCirc ∧ SameUpTo A K c.toCirc r.best.1.toCirc := by
  have key := Tket.Backtracking.optimise_keep (badgerSpace value add results) o fuel hrun
    (Q := fun s => Sane lin s.1 ∧ OutAcyclic s.1.toCirc ∧ InRange A s.1.toCirc ∧ Busy lin A.arity s.1 ∧ ClassIO eccs s.1.toCirc ∧
      SameUpTo A K c.toCirc s.1.toCirc)
    (fun h => ⟨hc, (hashOf_iff hc value).mp h, hr, hbusy, hio, .refl hK _⟩) (by
      intro s ctx hs t ht hh
      obtain ⟨h1, h2, h3, h3', h4, h5⟩ := hs
      obtain ⟨q, hq, rfl⟩ := List.mem_map.mp ht
      obtain ⟨x, rs, as, hx, hf, hsub, hchosen, ha⟩ := hresults _ q hq
      obtain ⟨d, g1, g2, g3, g3', g4, g5⟩ := C98_strategy_partial A hK choose hch hok hiso hM hnext hinv h1
        (hlive _ h1 h2 h3' q hq) h3 h3' hx
        h4 hf hsub hchosen
      rw [ha, Option.some.injEq] at g1
      subst g1
      exact ⟨g2, (hashOf_iff g2 value).mp hh, g3, g3', g4, h5.trans hK g5⟩)
  exact ⟨key.1, key.2.1, key.2.2.2.2.2⟩

/-! ### Any rules, in circuits where every operation leads to the outputs -/

/-- The condition of C94, C95 and C96 that values inside of a match are not used elsewhere holds in circuits where
every operation leads to the outputs. -/
theorem C94_alive (choose : Pattern → Option Walk) (hch : ∀ p w, choose p = some w → w.Valid p)
    {lin : Nat → Prop} {rules : List Rule} (hrules : ∀ u ∈ rules, u.Fit lin) {m : Matcher}
    (hm : fromRules choose rules = .ok m) {x : Ext} {c : TCirc} (hc : c.toCirc.WF) (hlive : Alive c.toCirc)
    (hx : SubsOK x c.toCirc) (hio : ∀ u ∈ rules, NoIO u.left.toCirc c.toCirc)
    {rs : List Rewrite} (hf : findMatches x m c = .ok rs) {r : Rewrite} (hr : r ∈ rs) :
    ∀ u ∈ rules, ∀ f w, Proposes u c r f w → Private u.left.toCirc c.toCirc f := by
  intro u hu f w hp
  obtain ⟨_, _, _, _, _, _, hsub, _, _⟩ := C94_found choose hch hrules hm hc hx hio hf hr
  obtain ⟨hl, _, hpat⟩ := (C94_from_rules choose rules m).mp hm
  obtain ⟨i, hi, hui⟩ := List.mem_iff_getElem.mp hu
  have hq : m.patterns[i]? = some m.patterns[i] := List.getElem?_eq_getElem (by omega)
  have hfit := hrules u hu
  have hbare := noBare hfit.left.1 hfit.left.2 (hpat i u _ (by rw [List.getElem?_eq_getElem hi, hui]) hq)
  refine SubOK.private (nodes := r.nodes) hp.copy.emb hfit.left.2 ?_ hbare hfit.held
    (by rw [← hp.ins, ← hp.outs]; exact hsub) hlive
  intro n hn
  rw [hc.length _ (hp.copy.members n hn).1, hfit.left.1.length n (hfit.left.2.cmd_mem hn).1, hp.copy.op n hn]

/-- Every rewrite that is found keeps the meaning, in circuits where every operation leads to the outputs. -/
theorem C94_alive_sound {V : Type} (sem : Op → Nat → List V → Nat → V)
    (choose : Pattern → Option Walk) (hch : ∀ p w, choose p = some w → w.Valid p)
    {lin : Nat → Prop} {rules : List Rule} (hrules : ∀ u ∈ rules, u.Fit lin)
    (hmeans : ∀ u ∈ rules, ∀ x y, Means sem u.left.toCirc x y ↔ Means sem u.right.toCirc x y)
    {m : Matcher} (hm : fromRules choose rules = .ok m) {x : Ext} {c : TCirc} (hc : Proper lin c)
    (hlive : Alive c.toCirc) (hx : SubsOK x c.toCirc) (hio : ∀ u ∈ rules, NoIO u.left.toCirc c.toCirc)
    {rs : List Rewrite} (hf : findMatches x m c = .ok rs) {r : Rewrite} (hr : r ∈ rs)
    {base : Nat} (hb : Fresh c.toCirc base) :
    ∃ c', applyRw c base r = some c' ∧ Proper lin c' ∧
      ∀ inputs outputs, Means sem c.toCirc inputs outputs ↔ Means sem c'.toCirc inputs outputs := by
  obtain ⟨c', h1, h2, _, h3⟩ := C94_sound_partial sem choose hch hrules hmeans hm hc hx hio hf hr
    (C94_alive choose hch hrules hm hc.wf hlive hx hio hf hr) hb
  exact ⟨c', h1, h2, h3⟩

/-- Every rewrite that is found keeps the amplitudes, in circuits where every operation leads to the outputs. -/
theorem C96_alive_rewrite (A : Weights D R) {K : R → Prop}
    (choose : Pattern → Option Walk) (hch : ∀ p w, choose p = some w → w.Valid p)
    {lin : Nat → Prop} {rules : List Rule} (hrules : ∀ u ∈ rules, u.Fit lin) (hagree : ∀ u ∈ rules, u.Agree A K)
    {m : Matcher} (hm : fromRules choose rules = .ok m) {x : Ext} {c : TCirc} (hc : Proper lin c)
    (hlive : Alive c.toCirc) (hx : SubsOK x c.toCirc) (hio : ∀ u ∈ rules, NoIO u.left.toCirc c.toCirc)
    {rs : List Rewrite} (hf : findMatches x m c = .ok rs) {r : Rewrite} (hr : r ∈ rs)
    {base : Nat} (hb : Fresh c.toCirc base) :
    ∃ c', applyRw c base r = some c' ∧ Proper lin c' ∧ SameUpTo A K c.toCirc c'.toCirc := by
  obtain ⟨c', h1, h2, _, h3⟩ := C96_rewrite_partial A choose hch hrules hagree hm hc hx hio hf hr
    (C94_alive choose hch hrules hm hc.wf hlive hx hio hf hr) hb
  exact ⟨c', h1, h2, h3⟩

section Examples

/-- A rotation by an angle, which is a parameter, and the sum of two angles. -/
def rz : Op := ⟨40, [.linear, .copy]⟩
def sumOp : Op := ⟨41, [.copy, .copy]⟩

/-- The rotation by half turns; wires of qubits ignore the second part of a value, wires of angles the first. -/
def turns : Weights (Bool × Bool) ℂ where
  arity _ := 1
  weight o _ xs ys :=
    if o = rz then
      match xs with
      | [q, t] => if ys = [q] then (if q.1 && t.2 then -1 else 1) else 0
      | _ => 0
    else if o = sumOp then
      match xs with
      | [s, t] => if ys = [(false, xor s.2 t.2)] then 1 else 0
      | _ => 0
    else 0

/-- Qubits have type 0, angles have type 1. -/
def angleTy (sums : List Nat) (n p : Nat) : Nat := if (n = 0 ∧ p ≠ 0) ∨ n ∈ sums then 1 else 0

def sumLeft : TCirc where
  toCirc := mk [(2, sumOp, 0, [(0, 1), (0, 2)]), (3, rz, 0, [(0, 0), (2, 0)])] [] [(3, 0)] [.linear] 3
  ty := angleTy [2]
def sumRight : TCirc where
  toCirc := mk [(2, rz, 0, [(0, 0), (0, 1)]), (3, rz, 0, [(2, 0), (0, 2)])] [] [(3, 0)] [.linear] 3
  ty := angleTy []

/-- A rotation by a sum is two rotations. -/
def classSum : Tket.Ecc.EqCircClass TCirc := ⟨sumLeft, [sumRight]⟩

/-- A circuit where an angle is used for a sum and for a rotation. -/
def sumHost : TCirc where
  toCirc := mk [(2, sumOp, 0, [(0, 1), (0, 2)]), (3, rz, 0, [(0, 0), (2, 0)]), (4, rz, 0, [(3, 0), (0, 1)])] []
    [(4, 0)] [.linear] 3
  ty := angleTy [2]

theorem proper_check {c : TCirc} (h1 : ∀ n ∈ c.members, (c.ins n).length = (c.op n).kinds.length)
    (h2 : ∀ n ∈ c.cmds, n ∈ c.members ∧ n ≠ c.inp ∧ n ≠ c.out) (h3 : c.out ∈ c.members ∧ c.out ≠ c.inp)
    (h4 : c.ins c.inp = []) (h5 : ∀ n ∈ c.members, ∀ s ∈ c.ins n, s.1 ∈ c.members ∨ s.1 = c.inp)
    (h6 : ∀ n ∈ c.members, ∀ k ∈ List.range (c.ins n).length, (c.op n).kinds[k]? = some .linear →
      ∀ s ∈ (c.ins n)[k]?, consumers c.toCirc s.1 s.2 = [(n, k)])
    (h7 : c.members.Nodup ∧ c.inp ∉ c.members ∧ ∀ n ∈ c.members, c.content n = 0)
    (h8 : ∀ n ∈ c.members, ∀ k ∈ List.range (c.ins n).length, ∀ s ∈ (c.ins n)[k]?,
      ((c.op n).kinds[k]? = some .linear ↔ c.ty s.1 s.2 = 0))
    (h9 : ∀ n ∈ c.members, ∀ s ∈ c.ins n, (if s.1 = 1 then 1000 else s.1) < (if n = 1 then 1000 else n)) :
    Proper (fun t => t = 0) c :=
  ⟨⟨h1, h2, h3, h4, h5, fun n hn k s hk hs => h6 n hn k (port hs) hk s hs⟩, h7.1, h7.2.1,
    fun n hn k s hs => h8 n hn k (port hs) s hs, acyclic_of_rank (fun n => if n = 1 then 1000 else n) h9, h7.2.2⟩

theorem sumLeft_mixed : Mixed (fun t => t = 0) turns.arity sumLeft := by
  refine ⟨proper_check (by decide +kernel) (by decide +kernel) (by decide +kernel) rfl (by decide +kernel)
    (by decide +kernel) (by decide +kernel) (by decide +kernel) (by decide +kernel),
    ⟨?_, by decide +kernel, by decide +kernel, by decide +kernel⟩, ?_, by decide +kernel, ?_, by decide +kernel,
    fun _ _ => Nat.one_pos⟩
  · intro n
    show n ∈ [1, 2, 3] ↔ n ∈ [2, 3] ∨ n = 1
    simp [or_comm]
  · show ∀ n ∈ sumLeft.members, ∀ s ∈ sumLeft.ins n, s.1 = sumLeft.inp ∨ s.2 < 1
    decide +kernel
  · show ∀ n ∈ sumLeft.cmds, ∀ p < 1, ∃ m ∈ sumLeft.members, (n, p) ∈ sumLeft.ins m
    decide +kernel

theorem sumRight_mixed : Mixed (fun t => t = 0) turns.arity sumRight := by
  refine ⟨proper_check (by decide +kernel) (by decide +kernel) (by decide +kernel) rfl (by decide +kernel)
    (by decide +kernel) (by decide +kernel) (by decide +kernel) (by decide +kernel),
    ⟨?_, by decide +kernel, by decide +kernel, by decide +kernel⟩, ?_, by decide +kernel, ?_, by decide +kernel,
    fun _ _ => Nat.one_pos⟩
  · intro n
    show n ∈ [1, 2, 3] ↔ n ∈ [2, 3] ∨ n = 1
    simp [or_comm]
  · show ∀ n ∈ sumRight.members, ∀ s ∈ sumRight.ins n, s.1 = sumRight.inp ∨ s.2 < 1
    decide +kernel
  · show ∀ n ∈ sumRight.cmds, ∀ p < 1, ∃ m ∈ sumRight.members, (n, p) ∈ sumRight.ins m
    decide +kernel

theorem sum_amplitude (x : Nat → Bool × Bool) (y : List (Bool × Bool)) :
    amplitude turns sumLeft.toCirc x y = amplitude turns sumRight.toCirc x y := by
  have hl : sumLeft.toCirc.ports turns = [(2, 0), (3, 0)] := by
    show sumLeft.toCirc.inner.flatMap (fun n => (List.range 1).map fun p => (n, p)) = _
    decide +kernel
  have hli : sumLeft.toCirc.inner = [2, 3] := by decide +kernel
  have hr : sumRight.toCirc.ports turns = [(2, 0), (3, 0)] := by
    show sumRight.toCirc.inner.flatMap (fun n => (List.range 1).map fun p => (n, p)) = _
    decide +kernel
  have hri : sumRight.toCirc.inner = [2, 3] := by decide +kernel
  have l1 : sumLeft.op 2 = sumOp := by decide +kernel
  have l2 : sumLeft.ins 2 = [(0, 1), (0, 2)] := by decide +kernel
  have l3 : sumLeft.op 3 = rz := by decide +kernel
  have l4 : sumLeft.ins 3 = [(0, 0), (2, 0)] := by decide +kernel
  have l5 : sumLeft.ins sumLeft.out = [(3, 0)] := by decide +kernel
  have r1 : sumRight.op 2 = rz := by decide +kernel
  have r2 : sumRight.ins 2 = [(0, 0), (0, 1)] := by decide +kernel
  have r3 : sumRight.op 3 = rz := by decide +kernel
  have r4 : sumRight.ins 3 = [(2, 0), (0, 2)] := by decide +kernel
  have r5 : sumRight.ins sumRight.out = [(3, 0)] := by decide +kernel
  have hne : sumOp ≠ rz := by decide
  rw [amplitude, amplitude, hl, hli, hr, hri]
  simp only [sumOver, List.map_cons, List.map_nil, List.prod_cons, List.prod_nil, entryAt,
    l1, l2, l3, l4, l5, r1, r2, r3, r4, r5, turns, if_pos, if_neg hne, List.range_one, Function.update]
  generalize x 0 = q, x 1 = s, x 2 = t
  obtain ⟨q1, q2⟩ := q
  obtain ⟨s1, s2⟩ := s
  obtain ⟨t1, t2⟩ := t
  simp only [Fintype.sum_prod_type, Fintype.sum_bool]
  cases q1 <;> cases q2 <;> cases s2 <;> cases t2 <;> simp

theorem classSum_cases {c : TCirc} (hc : c ∈ classSum.circuits) : c = sumLeft ∨ c = sumRight := by
  simpa [Tket.Ecc.EqCircClass.circuits, classSum] using hc

theorem classSum_ok : ParamClass (fun t => t = 0) turns phase classSum := by
  have hsig : circSig sumLeft = circSig sumRight := by decide +kernel
  refine ⟨?_, ?_, ?_⟩
  · intro c hc
    rcases classSum_cases hc with rfl | rfl
    · exact sumLeft_mixed
    · exact sumRight_mixed
  · intro c hc d hd
    rcases classSum_cases hc with rfl | rfl <;> rcases classSum_cases hd with rfl | rfl
    · rfl
    · exact hsig
    · exact hsig.symm
    · rfl
  · intro c hc d hd
    refine ⟨1, by simp [phase], fun x y => ?_⟩
    rw [one_mul]
    rcases classSum_cases hc with rfl | rfl <;> rcases classSum_cases hd with rfl | rfl
    · rfl
    · exact sum_amplitude x y
    · exact (sum_amplitude x y).symm
    · rfl

theorem turns_sum (o : Op) (F : List (Bool × Bool) → ℂ) :
    ∑ g : Fin (turns.arity o) → Bool × Bool, F (List.ofFn g) = ∑ z, F [z] := by
  show ∑ g : Fin 1 → Bool × Bool, F (List.ofFn g) = _
  rw [← (Equiv.funUnique (Fin 1) (Bool × Bool)).symm.sum_comp]
  simp

/-- Rotations are unitary for every angle, and sums are functions of angles. -/
theorem classSum_iso : ParamIso (fun t => t = 0) turns [classSum] := by
  have hrz : ParamOp turns rz 0 fun _ => True := by
    refine ⟨?_, fun _ _ _ _ _ _ _ _ _ _ h => absurd trivial h⟩
    intro a b ha hb hs
    obtain ⟨a0, a1, rfl⟩ := List.length_eq_two.mp ha
    obtain ⟨b0, b1, rfl⟩ := List.length_eq_two.mp hb
    have h1 : a1 = b1 := by simpa using hs 1 (by simp [rz])
    subst h1
    rw [turns_sum rz fun g => star (turns.weight rz 0 [a0, a1] g) * turns.weight rz 0 [b0, a1] g]
    simp only [turns, if_pos, List.cons.injEq, and_true]
    by_cases h : a0 = b0
    · subst h
      cases a0.1 && a1.2 <;> simp
    · simp only [h, if_false]
      refine Finset.sum_eq_zero fun z _ => ?_
      by_cases hz : z = a0
      · subst hz
        simp [h]
      · simp [hz]
  have hsum : ParamOp turns sumOp 0 fun _ => False := by
    have hne : sumOp ≠ rz := by decide
    have key : ∀ a b : List (Bool × Bool), a.length = 2 → b.length = 2 → SameParams sumOp a b → a = b := by
      intro a b ha hb hs
      obtain ⟨a0, a1, rfl⟩ := List.length_eq_two.mp ha
      obtain ⟨b0, b1, rfl⟩ := List.length_eq_two.mp hb
      have h0 : a0 = b0 := by simpa using hs 0 (by simp [sumOp])
      have h1 : a1 = b1 := by simpa using hs 1 (by simp [sumOp])
      rw [h0, h1]
    refine ⟨?_, ?_⟩
    · intro a b ha hb hs
      obtain rfl := key a b ha hb hs
      obtain ⟨a0, a1, rfl⟩ := List.length_eq_two.mp ha
      rw [turns_sum sumOp fun g => star (turns.weight sumOp 0 [a0, a1] g) * turns.weight sumOp 0 [a0, a1] g]
      simp [turns, hne]
    · intro a b ha hb hs g g' hg hg' p _
      obtain rfl := key a b ha hb hs
      obtain ⟨a0, a1, rfl⟩ := List.length_eq_two.mp ha
      simp only [turns, if_neg hne, if_pos, ne_eq, ite_eq_right_iff, one_ne_zero, imp_false, not_not] at hg hg'
      exact congrFun (List.ofFn_injective (hg.trans hg'.symm)) p
  have hweak : ∀ {o : Op} {P Q : Nat → Prop}, ParamOp turns o 0 P → (∀ p < 1, Q p ↔ P p) → ParamOp turns o 0 Q :=
    fun h hp => ⟨h.iso, fun a b ha hb hs g g' hg hg' p hn =>
      h.det a b ha hb hs g g' hg hg' p fun hpp => hn ((hp p p.2).mpr hpp)⟩
  intro e he c hc n hn
  rw [List.mem_singleton.mp he] at hc
  rcases classSum_cases hc with rfl | rfl
  · have h : n = 2 ∨ n = 3 := by
      have : n ∈ [2, 3] := hn
      simpa using this
    rcases h with rfl | rfl
    · exact hweak hsum (by decide +kernel)
    · exact hweak hrz (by decide +kernel)
  · have h : n = 2 ∨ n = 3 := by
      have : n ∈ [2, 3] := hn
      simpa using this
    rcases h with rfl | rfl
    · exact hweak hrz (by decide +kernel)
    · exact hweak hrz (by decide +kernel)

theorem sumHost_proper : Proper (fun t => t = 0) sumHost :=
  proper_check (by decide +kernel) (by decide +kernel) (by decide +kernel) rfl (by decide +kernel)
    (by decide +kernel) (by decide +kernel) (by decide +kernel) (by decide +kernel)

/-- Nothing is thrown away. -/
theorem sumHost_busy : Busy (fun t => t = 0) turns.arity sumHost := by
  refine ⟨?_, ?_⟩
  · show ∀ n ∈ sumHost.members, n ≠ sumHost.out → ∀ p < 1, sumHost.ty n p = 0 → ∃ m ∈ sumHost.members, (n, p) ∈ sumHost.ins m
    decide +kernel
  · have : ∀ n ∈ sumHost.members, n ≠ sumHost.out → ∃ m ∈ sumHost.members, (n, 0) ∈ sumHost.ins m := by decide +kernel
    exact fun n hn ho => ⟨0, this n hn ho⟩

theorem sumHost_range : InRange turns sumHost.toCirc := by
  have : ∀ n ∈ sumHost.members, ∀ s ∈ sumHost.ins n, s.1 = sumHost.inp ∨ s.2 < 1 := by decide +kernel
  exact this

theorem sumHost_io : ClassIO [classSum] sumHost.toCirc := by
  intro e he d hd
  rw [List.mem_singleton.mp he] at hd
  rcases classSum_cases hd with rfl | rfl <;> unfold NoIO <;> decide +kernel

/-- The automaton finds the rotation by a sum, and the subgraph is checked. -/
def sumParts : Ext where
  auto n := if n = 3 then [0] else []
  sub i o := if i = [[(3, 0)], [(2, 0)], [(2, 1)]] ∧ o = [(3, 0)] then .ok [2, 3] else .notConvex

theorem sumHost_placed : Placed ⟨sumLeft, sumRight⟩ sumHost
    ⟨[2, 3], imgIns sumLeft.toCirc id, imgOuts sumLeft.toCirc id, sumRight⟩ id fun i => (0, i) :=
  placed_check (u := ⟨sumLeft, sumRight⟩) (f := id) (w := fun i => (0, i)) (sumLeft_mixed.fit sumRight_mixed) sumHost_proper.wf
    [2, 3] [4, 1] (by decide +kernel) (by decide +kernel) (by decide +kernel) (by decide +kernel) (by decide +kernel)
    (by decide +kernel) (by decide +kernel) (by decide +kernel) (by decide +kernel) (by decide +kernel)
    (by decide +kernel) (by decide +kernel) (by decide +kernel) (by decide +kernel)

theorem sumHost_subs : SubsOK sumParts sumHost.toCirc := by
  intro i o nodes h
  simp only [sumParts] at h
  split_ifs at h with h1
  simp only [SubRes.ok.injEq] at h
  obtain ⟨rfl, rfl⟩ := h1
  subst h
  exact sumHost_placed.sub

/-- The rewrite that is found. -/
def sumRewrite : Rewrite := ⟨[2, 3], [[(3, 0)], [(2, 0)], [(2, 1)]], [(3, 0)], sumRight⟩

/-- What the rewriter of the class finds. -/
theorem classSum_rewrites : ∃ M rs d, eccRewriter greedy [classSum] = some M ∧ eccRewrites sumParts M sumHost = some rs ∧
    applyAll nextFree sumHost rs = some d ∧ (M.patterns.length = 2 ∧ d.members.length = 4) ∧
    rs.map (Rewrite.view Rewrite.nodes (fun _ => [2]) fun _ => [2]) =
      [sumRewrite].map (Rewrite.view Rewrite.nodes (fun _ => [2]) fun _ => [2]) := by
  have h : ((eccRewriter greedy [classSum]).bind fun M => (eccRewrites sumParts M sumHost).bind fun rs =>
      (applyAll nextFree sumHost rs).map fun d => decide ((M.patterns.length = 2 ∧ d.members.length = 4) ∧
        rs.map (Rewrite.view Rewrite.nodes (fun _ => [2]) fun _ => [2]) =
          [sumRewrite].map (Rewrite.view Rewrite.nodes (fun _ => [2]) fun _ => [2]))) = some true := by
    decide +kernel
  simp only [Option.bind_eq_some_iff, Option.map_eq_some_iff, decide_eq_true_eq] at h
  obtain ⟨M, hM, rs, hrs, d, hd, h⟩ := h
  exact ⟨M, rs, d, hM, hrs, hd, h⟩

/-- The rewrite keeps the amplitudes for all angles. -/
example : ∃ M rs r c', eccRewriter greedy [classSum] = some M ∧ eccRewrites sumParts M sumHost = some rs ∧ r ∈ rs ∧
    applyRw sumHost (nextFree sumHost) r = some c' ∧ SameUpTo turns phase sumHost.toCirc c'.toCirc := by
  obtain ⟨M, rs, _, hM, hrs, _, _, hv⟩ := classSum_rewrites
  have hlen : rs.length = 1 := by simpa using congrArg List.length hv
  obtain ⟨r, hr⟩ := List.exists_mem_of_length_pos (l := rs) (by omega)
  obtain ⟨c', h1, _, _, _, _, h2⟩ := C98_rewrite_partial turns greedy greedy_valid (lin := fun t => t = 0) (K := phase) (by
    intro e he
    rw [List.mem_singleton.mp he]
    exact classSum_ok) hM sumHost_proper sumHost_range sumHost_busy sumHost_subs sumHost_io hrs hr (nextFree_fresh _)
  exact ⟨M, rs, r, c', hM, hrs, hr, h1, h2⟩

/-- The rewrites that a strategy chooses. -/
example : ∃ M rs d, eccRewriter greedy [classSum] = some M ∧ eccRewrites sumParts M sumHost = some rs ∧ rs.length = 1 ∧
    applyAll nextFree sumHost rs = some d ∧ SameUpTo turns phase sumHost.toCirc d.toCirc := by
  obtain ⟨M, rs, d, hM, hrs, hd, _, hv⟩ := classSum_rewrites
  have hlen : rs.length = 1 := by simpa using congrArg List.length hv
  have hch : Chosen (Rewrite.view Rewrite.nodes (fun _ => [2]) fun _ => [2]) rs rs := by
    refine .exhaustive 1 (fun _ _ => ⟨rfl, rfl⟩) ((Tket.Strategy.exhaustiveGreedy 1 (
      [sumRewrite].map (Rewrite.view Rewrite.nodes (fun _ => [2]) fun _ => [2]))).head (by decide +kernel)) ?_ ?_
    · rw [hv]
      exact List.head_mem _
    · rw [hv]
      decide +kernel
  obtain ⟨d', h1, _, _, _, _, h2⟩ := C98_strategy_partial turns phase_factors greedy greedy_valid (lin := fun t => t = 0) (by
    intro e he
    rw [List.mem_singleton.mp he]
    exact classSum_ok) classSum_iso hM nextFree_fresh (fun _ _ h => h) sumHost_proper.sane
    (sumHost_busy.alive sumHost_proper) sumHost_range sumHost_busy sumHost_subs sumHost_io hrs (fun _ h => h) hch
  rw [hd, Option.some.injEq] at h1
  subst h1
  exact ⟨M, rs, d, hM, hrs, hlen, hd, h2⟩

/-- The class meets the conditions under which nothing fails. -/
example : ∃ M, eccRewriter greedy [classSum] = some M := by
  obtain ⟨M, hM, _⟩ := C98_total turns greedy greedy_valid (lin := fun t => t = 0) (K := phase) (eccs := [classSum]) (by
    intro e he
    rw [List.mem_singleton.mp he]
    exact classSum_ok) (qubit := 0) (by
    intro e he d hd
    rw [List.mem_singleton.mp he] at hd
    rcases classSum_cases hd with rfl | rfl <;> decide +kernel)
    (inTy := fun o k => if o = sumOp ∨ (o = rz ∧ k = 1) then 1 else 0) (outTy := fun o _ => if o = sumOp then 1 else 0) (by
    intro e he d hd
    rw [List.mem_singleton.mp he] at hd
    have hout : ∀ n : Nat, n = 2 ∨ n = 3 → ∀ l p, angleTy l n p = angleTy l n 0 := by
      intro n hn l p
      have : n ≠ 0 := by omega
      simp [angleTy, this]
    have hl : ∀ n ∈ [1, 2, 3], n ≠ 1 → n = 2 ∨ n = 3 := by decide
    rcases classSum_cases hd with rfl | rfl
    · refine ⟨fun n hn _ ho p => ?_, fun n hn hi ho k s hs => ?_⟩
      · have h := hl n hn ho
        rw [show sumLeft.ty n p = angleTy [2] n p from rfl, hout n h]
        rcases h with rfl | rfl <;> decide +kernel
      · have : ∀ n ∈ sumLeft.members, n ≠ sumLeft.inp → n ≠ sumLeft.out → ∀ k ∈ List.range (sumLeft.ins n).length,
            ∀ s ∈ (sumLeft.ins n)[k]?, sumLeft.ty s.1 s.2 = if sumLeft.op n = sumOp ∨ (sumLeft.op n = rz ∧ k = 1) then 1 else 0 := by
          decide +kernel
        exact this n hn hi ho k (port hs) s hs
    · refine ⟨fun n hn _ ho p => ?_, fun n hn hi ho k s hs => ?_⟩
      · have h := hl n hn ho
        rw [show sumRight.ty n p = angleTy [] n p from rfl, hout n h]
        rcases h with rfl | rfl <;> decide +kernel
      · have : ∀ n ∈ sumRight.members, n ≠ sumRight.inp → n ≠ sumRight.out → ∀ k ∈ List.range (sumRight.ins n).length,
            ∀ s ∈ (sumRight.ins n)[k]?, sumRight.ty s.1 s.2 = if sumRight.op n = sumOp ∨ (sumRight.op n = rz ∧ k = 1) then 1 else 0 := by
          decide +kernel
        exact this n hn hi ho k (port hs) s hs)
  exact ⟨M, hM⟩

end Examples

end Verif.Matching
