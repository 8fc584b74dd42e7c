import Verif.Lemmas.Through
import Verif.Props.Ecc
import Verif.Props.Amplitude

/-
Property C97: the rewriter of equivalence classes, from classes to rewritten circuits.
-/
namespace Verif.Matching

open Relation

variable {D R : Type} [Fintype D] [DecidableEq D] [CommSemiring R]

/-- Which wires are removed, and what is left: a wire of a circuit of gates is empty if it goes from an input
to an output; it can be removed; what is left is a circuit of gates, whose amplitudes are those of the circuit
with any value on the wire. -/
theorem C97_wire (A : Weights D R) {lin : Nat → Prop} {c : TCirc} (hc : Gates lin A.arity c) (k : Nat) :
    (k ∈ emptyOf c ↔ k < c.numInputs ∧ ∃ j : Nat, (c.ins c.out)[j]? = some (c.inp, k)) ∧
    ∀ j : Nat, (c.ins c.out)[j]? = some (c.inp, k) → ∃ d, removeWire c k = some d ∧ Gates lin A.arity d ∧
      d.numInputs + 1 = c.numInputs ∧ d.cmds = c.cmds ∧
      ∀ x y a, amplitude A d.toCirc x y =
        amplitude A c.toCirc (fun i => if i < k then x i else if i = k then a else x (i - 1)) (y.insertIdx j a) := by
  refine ⟨hc.mixed.mem_empty, ?_⟩
  intro j hj
  have hk : k < c.numInputs := by
    rcases hc.plain.sources _ hc.proper.wf.out.1 _ (List.mem_of_getElem? hj) with h1 | h1
    · exact absurd rfl (hc.plain.cmd_mem h1).2.1
    · exact h1.2
  refine ⟨_, hc.mixed.removeWire hj, hc.cut hj, ?_, rfl, fun x y a => hc.mixed.amplitude_cut hj x y a⟩
  show c.numInputs - 1 + 1 = _
  omega

/-- Rules of classes are circuits of gates with the same amplitudes, up to a common factor, even if an empty
wire goes to different outputs. -/
theorem C97_agree (A : Weights D R) {K : R → Prop} {lin : Nat → Prop} {eccs : List (Tket.Ecc.EqCircClass TCirc)}
    (hok : ∀ e ∈ eccs, ClassOK lin A K e) {u : Rule} (hu : ClassRule eccs u) :
    Gates lin A.arity u.left ∧ Gates lin A.arity u.right ∧ u.Fit lin ∧ u.Agree A K := by
  obtain ⟨e, he, i, j, c, t, h1, h2, _, _, h3, h4⟩ := hu
  have hc := List.mem_of_getElem? h1
  have ht := List.mem_of_getElem? h2
  obtain ⟨gl, _, _⟩ := ((hok e he).gates c hc).wires h3
  obtain ⟨gr, _, _⟩ := ((hok e he).gates t ht).wires h4
  obtain ⟨k, hk, hs⟩ := (hok e he).same c hc t ht
  have hlen : (c.ins c.out).length = (t.ins t.out).length := by
    have := congrArg (fun s => s.2.length) ((hok e he).sig c hc t ht)
    simpa [circSig] using this
  exact ⟨gl, gr, gl.mixed.fit gr.mixed, gl.range, gr.range, gl.proper.nodup, k, hk,
    Mixed.agree_wires ((hok e he).gates c hc).mixed ((hok e he).gates t ht).mixed hlen hs h3 h4⟩

/-- Every rewrite that the rewriter proposes replaces a copy of a circuit of a class, without its empty wires, by
another circuit of this class without these wires; the place was checked, and no value inside of it is used
elsewhere. -/
theorem C97_found (A : Weights D R) {K : R → Prop} (choose : Pattern → Option Walk)
    (hch : ∀ p w, choose p = some w → w.Valid p) {lin : Nat → Prop} {eccs : List (Tket.Ecc.EqCircClass TCirc)}
    (hok : ∀ e ∈ eccs, ClassOK lin A K e) {M : Tket.Ecc.Rewriter TCirc CPattern}
    (hM : eccRewriter choose eccs = some M) {x : Ext} {c : TCirc} (hc : Sane lin c) (hr : InRange A c.toCirc)
    (hx : SubsOK x c.toCirc) (hio : ClassIO eccs c.toCirc) {rs : List Rewrite} (hf : eccRewrites x M c = some rs)
    {r : Rewrite} (hin : r ∈ rs) : ∃ u, ClassRule eccs u ∧ ∃ f w, Placed u c r f w := by
  obtain ⟨M', h0, hpat, _⟩ := Tket.Ecc.C17_rewrites_stay_in_class (eccPattern choose) emptyOf eccs
  rw [eccRewriter] at hM
  rw [hM, Option.some.injEq] at h0
  subst h0
  rw [eccRewrites, Option.bind_eq_some_iff] at hf
  obtain ⟨as, has, hf⟩ := hf
  rw [Option.map_eq_some_iff] at hf
  obtain ⟨l, hl, rfl⟩ := hf
  obtain ⟨rl, hrl, hin⟩ := List.mem_flatten.mp hin
  obtain ⟨a, ha, hrl'⟩ := (collect_some hl rl).mp hrl
  obtain ⟨n, hn, id, hid, ht⟩ := (allMatches_mem has a).mp ha
  cases hp : M.patterns[id]? with
  | none => rw [tryMatch, hp] at ht; simp at ht
  | some p =>
    obtain ⟨ts, pe, g1, g2, e, he, i, c0, g3, rfl, g4, g5⟩ := hpat id p hp
    have hc0 := List.mem_of_getElem? g4
    rw [eccPattern, Option.bind_eq_some_iff] at g3
    obtain ⟨d, g6, g7⟩ := g3
    have gd := ((hok e he).gates c0 hc0).wires g6
    have hokd : tryFromCircuit choose d.toCirc = .ok p := by
      split at g7
      · rename_i hq
        simp only [Option.some.injEq] at g7
        rw [hq, g7]
      · simp at g7
    obtain ⟨hid', f, w, k1, k2, k3, k4⟩ := tryMatch_found hch gd.1.proper.wf gd.1.plain hc.wf (by
      intro m hm
      have hm' : m ∈ c0.cmds := gd.2.1 ▸ hm
      rw [gd.2.2 m hm']
      exact hio e he c0 hc0 m hm') hx (hc.wf.cmds n hn).1 hp hokd ht
    rw [matchRewrites, hid', g1, g2] at hrl'
    simp only [Option.bind_some] at hrl'
    obtain ⟨t, htm, hrt⟩ := (collect_some hrl' r).mp hin
    rw [Option.bind_eq_some_iff] at hrt
    obtain ⟨repl, k5, k6⟩ := hrt
    rw [toRewrite, Option.bind_eq_some_iff] at k6
    obtain ⟨sg, k7, k8⟩ := k6
    split_ifs at k8 with hsig
    simp only [Option.some.injEq] at k8
    subst k8
    obtain ⟨_, j, q1, q2, q3, q4⟩ := g5 t htm
    refine ⟨⟨d, repl⟩, ⟨e, he, i, j, c0, t, q1, q2, q3, q4, g6, k5⟩, f, w, ⟨k1, k2, k3, rfl⟩,
      noBare gd.1.proper.wf gd.1.plain hokd, k4, ?_, gd.1.private hc.wf hr k1.emb⟩
    rw [← hsig]
    exact k7

/-- Every match of a pattern leads to a rewrite for every target. -/
theorem C97_all (choose : Pattern → Option Walk) {eccs : List (Tket.Ecc.EqCircClass TCirc)}
    {M : Tket.Ecc.Rewriter TCirc CPattern} (hM : eccRewriter choose eccs = some M) {x : Ext} {c : TCirc}
    {rs : List Rewrite} (hf : eccRewrites x M c = some rs) {e : Tket.Ecc.EqCircClass TCirc} (he : e ∈ eccs)
    {i j : Nat} {c0 t d repl : TCirc} (h : Tket.Ecc.Exchange e i j c0 t) (hd : shrink c0 (emptyOf c0) = some d)
    {p : CPattern} (hp : tryFromCircuit choose d.toCirc = .ok p) (hsub : ∀ w ∈ emptyOf c0, w ∈ emptyOf t)
    (hrepl : shrink t (emptyOf c0) = some repl) :
    ∃ id : Nat, M.patterns[id]? = some p ∧ ∀ n ∈ c.cmds, id ∈ x.auto n → ∀ a,
      tryMatch x ⟨M.patterns, []⟩ c.toCirc n id = .ok (some a) → ⟨a.nodes, a.ins, a.outs, repl⟩ ∈ rs := by
  obtain ⟨M', h0, _, hall⟩ := Tket.Ecc.C17_rewrites_stay_in_class (eccPattern choose) emptyOf eccs
  rw [eccRewriter] at hM
  rw [hM, Option.some.injEq] at h0
  subst h0
  obtain ⟨id, ts, g1, g2, g3, g4⟩ := hall e he i j c0 t p h (by
    rw [eccPattern, hd, Option.bind_some, hp]) hsub
  refine ⟨id, g1, ?_⟩
  intro n hn hid a ha
  rw [eccRewrites, Option.bind_eq_some_iff] at hf
  obtain ⟨as, has, hf⟩ := hf
  rw [Option.map_eq_some_iff] at hf
  obtain ⟨l, hl, rfl⟩ := hf
  have hmem := (allMatches_mem has a).mpr ⟨n, hn, id, hid, ha⟩
  have hid' : a.id = id := by
    rw [tryMatch, g1] at ha
    simp only at ha
    split at ha
    · simp at ha
    · simp at ha
    · split at ha
      · simp at ha
      · split at ha
        · simp only [Res.ok.injEq, Option.some.injEq] at ha
          rw [← ha]
        · simp at ha
        · simp at ha
  obtain ⟨rl, hrl⟩ := collect_each hl hmem
  refine List.mem_flatten.mpr ⟨rl, (collect_some hl rl).mpr ⟨a, hmem, hrl⟩, ?_⟩
  rw [matchRewrites, hid', g2, g3] at hrl
  simp only [Option.bind_some] at hrl
  obtain ⟨r, hr⟩ := collect_each hrl g4
  have hmem' := (collect_some hrl r).mpr ⟨t, g4, hr⟩
  rw [hrepl, Option.bind_some, toRewrite, Option.bind_eq_some_iff] at hr
  obtain ⟨sg, _, k8⟩ := hr
  split_ifs at k8
  simp only [Option.some.injEq] at k8
  rw [k8]
  exact hmem'

/-- The rewriter for classes of circuits on qubits: it can be made, and proposing rewrites does not panic, if the
automaton and the check of subgraphs meet their contracts. -/
theorem C97_total (A : Weights D R) {K : R → Prop} (choose : Pattern → Option Walk)
    (hch : ∀ p w, choose p = some w → w.Valid p) {lin : Nat → Prop} {eccs : List (Tket.Ecc.EqCircClass TCirc)}
    (hok : ∀ e ∈ eccs, ClassOK lin A K e) {qubit : Nat} (hq : ∀ e ∈ eccs, ∀ d ∈ e.circuits, ∀ n p, d.ty n p = qubit)
    {inTy outTy : Op → Nat → Nat} (hty : ∀ e ∈ eccs, ∀ d ∈ e.circuits, OpTypes inTy outTy d) :
    ∃ M, eccRewriter choose eccs = some M ∧ ∀ {x : Ext} {c : TCirc}, Sane lin c → OpTypes inTy outTy c →
      SubsOK x c.toCirc → ClassIO eccs c.toCirc → AutoOK x ⟨M.patterns, []⟩ c.toCirc → (∀ i o, x.sub i o ≠ .other) →
      ∃ rs, eccRewrites x M c = some rs := by
  obtain ⟨M, h0, hpat, _⟩ := Tket.Ecc.C17_rewrites_stay_in_class (eccPattern choose) emptyOf eccs
  refine ⟨M, h0, ?_⟩
  intro x c hc hcty hx hio hauto hother
  have hinfo : ∀ n ∈ c.cmds, ∀ id ∈ x.auto n, ∃ o, tryMatch x ⟨M.patterns, []⟩ c.toCirc n id = .ok o ∧
      ∀ a, o = some a → matchRewrites M c a ≠ none := by
    intro n hn id hid
    obtain ⟨p, hp, l, hfl⟩ := (hauto n id).mp hid
    obtain ⟨ts, pe, g1, g2, e, he, i, c0, g3, rfl, g4, g5⟩ := hpat id p hp
    have hc0 := List.mem_of_getElem? g4
    have hg0 := (hok e he).gates c0 hc0
    rw [eccPattern, Option.bind_eq_some_iff] at g3
    obtain ⟨d, g6, g7⟩ := g3
    have gd := hg0.wires g6
    have hokd : tryFromCircuit choose d.toCirc = .ok p := by
      split at g7
      · rename_i hq
        simp only [Option.some.injEq] at g7
        rw [hq, g7]
      · simp at g7
    have hbare := noBare gd.1.proper.wf gd.1.plain hokd
    obtain ⟨f, w, h1, _, h2, h3⟩ := match_copy hch gd.1.proper.wf gd.1.plain hc.wf (by
      intro m hm
      have hm' : m ∈ c0.cmds := gd.2.1 ▸ hm
      rw [gd.2.2 m hm']
      exact hio e he c0 hc0 m hm') hokd (hc.wf.cmds n hn).1 hfl
    rw [tryMatch, hp]
    simp only
    rw [hfl]
    simp only
    rw [h2]
    simp only
    cases hs : x.sub (imgIns d.toCirc f) (imgOuts d.toCirc f) with
    | other => exact absurd hs (hother _ _)
    | notConvex => exact ⟨none, rfl, by simp⟩
    | ok nodes =>
      refine ⟨_, rfl, ?_⟩
      intro a ha
      simp only [Option.some.injEq] at ha
      subst ha
      have hsub := hx _ _ _ hs
      have hsig := copy_sig gd.1.plain hbare (hg0.mixed.opTypes (hty e he c0 hc0) g6) hcty h1 h3 hsub.groups
      rw [matchRewrites, g1, g2]
      simp only [Option.bind_some]
      obtain ⟨r, hr⟩ := collect_total (f := fun t => (shrink t (emptyOf c0)).bind fun repl =>
          toRewrite c ⟨id, n, nodes, imgIns d.toCirc f, imgOuts d.toCirc f⟩ repl) (l := ts) (by
        intro t htm
        obtain ⟨hin, j, q1, q2, q3, q4⟩ := g5 t htm
        have ht := List.mem_of_getElem? q2
        have hgt := (hok e he).gates t ht
        obtain ⟨d', k1, k2, k3⟩ := hg0.mixed.wires_total (emptyOf_sorted c0) (by simp)
        obtain ⟨repl, l1, l2, l3⟩ := hgt.mixed.wires_total (emptyOf_sorted c0) (by simpa using hin)
        have hdd : d' = d := by
          have : some d' = some d := k1.symm.trans g6
          simpa using this
        subst hdd
        have hss := (hok e he).sig c0 hc0 t ht
        have s1 : c0.numInputs = t.numInputs := by
          simpa [circSig] using congrArg (fun s => s.1.length) hss
        have s2 : (c0.ins c0.out).length = (t.ins t.out).length := by
          simpa [circSig] using congrArg (fun s => s.2.length) hss
        have t1 := removeWires_ty (hq e he c0 hc0) k1
        have t2 := removeWires_ty (hq e he t ht) l1
        have heq : circSig d' = circSig repl := by
          have e1 : d'.numInputs = repl.numInputs := by omega
          have e2 : (d'.ins d'.out).length = (repl.ins repl.out).length := by omega
          have f1 : d'.ty d'.inp = fun _ => qubit := funext (t1 d'.inp)
          have f2 : repl.ty repl.inp = fun _ => qubit := funext (t2 repl.inp)
          rw [circSig, circSig, f1, f2, e1]
          simp only [t1, t2, List.map_const', e2]
        have : shrink t (emptyOf c0) = some repl := l1
        rw [this, Option.bind_some, toRewrite, hsig, Option.bind_some, if_pos heq]
        simp)
      rw [hr]
      simp
  obtain ⟨as, has⟩ := allMatches_total (x := x) (ps := M.patterns) (c := c) fun n hn id hid =>
    ⟨_, (hinfo n hn id hid).choose_spec.1⟩
  obtain ⟨l, hl⟩ := collect_total (f := matchRewrites M c) (l := as) (by
    intro a ha
    obtain ⟨n, hn, id, hid, ht⟩ := (allMatches_mem has a).mp ha
    obtain ⟨o, h1, h2⟩ := hinfo n hn id hid
    rw [ht] at h1
    simp only [Res.ok.injEq] at h1
    exact h2 a h1.symm)
  exact ⟨l.flatten, by rw [eccRewrites, has, Option.bind_some, hl]; rfl⟩

/-- Each proposed rewrite can be applied; the new circuit is well formed, without cycles, and has the same
amplitudes, up to a factor of the classes. -/
theorem C97_rewrite (A : Weights D R) {K : R → Prop} (choose : Pattern → Option Walk)
    (hch : ∀ p w, choose p = some w → w.Valid p) {lin : Nat → Prop} {eccs : List (Tket.Ecc.EqCircClass TCirc)}
    (hok : ∀ e ∈ eccs, ClassOK lin A K e) {M : Tket.Ecc.Rewriter TCirc CPattern}
    (hM : eccRewriter choose eccs = some M) {x : Ext} {c : TCirc} (hc : Proper lin c) (hr : InRange A c.toCirc)
    (hx : SubsOK x c.toCirc) (hio : ClassIO eccs c.toCirc) {rs : List Rewrite} (hf : eccRewrites x M c = some rs)
    {r : Rewrite} (hin : r ∈ rs) {base : Nat} (hb : Fresh c.toCirc base) :
    ∃ c', applyRw c base r = some c' ∧ Proper lin c' ∧ InRange A c'.toCirc ∧ ClassIO eccs c'.toCirc ∧
      SameUpTo A K c.toCirc c'.toCirc := by
  obtain ⟨u, hu, f, w, hp⟩ := C97_found A choose hch hok hM hc.sane hr hx hio hf hin
  obtain ⟨_, _, hfit, hag⟩ := C97_agree A hok hu
  have hspot := hp.spot hfit hc.sane hb
  obtain ⟨h1, h2, g1, g2, g3, g4⟩ := hspot.apply hc.sane hb
  have hsite := hspot.site hc.sane hb
  refine ⟨_, h1, ⟨h2.wf, h2.nodup, h2.inp, h2.typed, ?_, h2.flat⟩, hspot.inRange hc.sane hb hr hag.right, ?_,
    hsite.same hc.nodup hfit hag⟩
  · exact hsite.acyclic hspot.used hp.sub.convex hc.acyclic hfit.right.2.acyclic
  · intro e he d hd n hn
    rw [g1, g2, g3, g4]
    exact hio e he d hd n hn

/-- Any number of rewrites, one after the other. -/
theorem C97_many (A : Weights D R) {K : R → Prop} (hK : Factors K) (choose : Pattern → Option Walk)
    (hch : ∀ p w, choose p = some w → w.Valid p) {lin : Nat → Prop} {eccs : List (Tket.Ecc.EqCircClass TCirc)}
    (hok : ∀ e ∈ eccs, ClassOK lin A K e) {M : Tket.Ecc.Rewriter TCirc CPattern}
    (hM : eccRewriter choose eccs = some M) {c d : TCirc} (h : EccReaches M c d) (hc : Proper lin c)
    (hr : InRange A c.toCirc) (hio : ClassIO eccs c.toCirc) :
    Proper lin d ∧ InRange A d.toCirc ∧ SameUpTo A K c.toCirc d.toCirc := by
  induction h with
  | refl c => exact ⟨hc, hr, .refl hK _⟩
  | step x rs r base hx hf hin hb ha _ ih =>
    obtain ⟨c', h1, h2, h3, h4, h5⟩ := C97_rewrite A choose hch hok hM hc hr hx hio hf hin hb
    rw [ha, Option.some.injEq] at h1
    subst h1
    obtain ⟨k1, k2, k3⟩ := ih h2 h3 h4
    exact ⟨k1, k2, h5.trans hK k3⟩

/-- If all gates are isometries, wires from inputs to outputs of a right-hand side are paths in the left-hand
side: values cannot get to an output in any other way. -/
theorem C97_through [StarRing R] [Nontrivial R] [Nontrivial D] (A : Weights D R) {K : R → Prop} {lin : Nat → Prop}
    {eccs : List (Tket.Ecc.EqCircClass TCirc)} (hok : ∀ e ∈ eccs, ClassOK lin A K e) (hiso : ClassIso A eccs)
    {u : Rule} (hu : ClassRule eccs u)
    (hlen : (u.left.ins u.left.out).length = (u.right.ins u.right.out).length) : u.Through := by
  obtain ⟨gl, _, _, hag⟩ := C97_agree A hok hu
  obtain ⟨e, he, i0, _, c, _, h1, _, _, _, h3, _⟩ := hu
  have hc := List.mem_of_getElem? h1
  obtain ⟨_, hcmds, hops⟩ := ((hok e he).gates c hc).wires h3
  intro i o hio
  obtain ⟨k, _, hs⟩ := hag.same
  refine gl.path ?_ (by rw [hlen]; exact (List.getElem?_eq_some_iff.mp hio).1) ?_
  · intro n hn
    have hn' : n ∈ c.cmds := hcmds ▸ hn
    rw [hops n hn']
    exact hiso e he c hc n hn'
  · intro x y hy
    rw [hs, amplitude_wire hio hy, mul_zero]

/-- The rewrites that a strategy chooses, applied together. -/
theorem C97_strategy [StarRing R] [Nontrivial R] [Nontrivial D] (A : Weights D R) {K : R → Prop} (hK : Factors K) (choose : Pattern → Option Walk)
    (hch : ∀ p w, choose p = some w → w.Valid p) {lin : Nat → Prop} {eccs : List (Tket.Ecc.EqCircClass TCirc)}
    (hok : ∀ e ∈ eccs, ClassOK lin A K e) (hiso : ClassIso A eccs)
    {M : Tket.Ecc.Rewriter TCirc CPattern} (hM : eccRewriter choose eccs = some M)
    {next : TCirc → Nat} (hnext : ∀ c, Fresh c.toCirc (next c))
    {inv pre post : Rewrite → List Nat} (hinv : ∀ r, ∀ n ∈ r.nodes, n ∈ inv r) {x : Ext} {c : TCirc}
    (hc : Sane lin c) (hr : InRange A c.toCirc) (hx : SubsOK x c.toCirc) (hio : ClassIO eccs c.toCirc)
    {rs as : List Rewrite} (hf : eccRewrites x M c = some rs) (hsub : ∀ a ∈ as, a ∈ rs)
    (hchosen : Chosen (Rewrite.view inv pre post) rs as) :
    ∃ d, applyAll next c as = some d ∧ Sane lin d ∧ InRange A d.toCirc ∧ ClassIO eccs d.toCirc ∧
      SameUpTo A K c.toCirc d.toCirc := by
  obtain ⟨d, h1, h2, ⟨g1, g2, g3, g4⟩, h3, h4⟩ := applyAll_rel (lin := lin) (Good := fun u => u.Agree A K)
    (Rel := fun c d => SameUpTo A K c.toCirc d.toCirc ∧ (InRange A c.toCirc → InRange A d.toCirc))
    (fun c => ⟨.refl hK _, id⟩)
    (fun h hg hc hd => ⟨((h.site hc (hnext _)).same hc.nodup h.fit hg).trans hK hd.1,
      fun g => hd.2 (h.inRange hc (hnext _) g hg.right)⟩)
    hnext c.toCirc as c hc (by
      intro a ha
      obtain ⟨u, hu, f, w, hp⟩ := C97_found A choose hch hok hM hc hr hx hio hf (hsub a ha)
      obtain ⟨_, _, hfit, hag⟩ := C97_agree A hok hu
      have hspot := hp.spot hfit hc (hnext c)
      exact ⟨u, f, w, hspot, C97_through A hok hiso hu hspot.outputs.symm, hag⟩)
    (C95_chosen_apart hinv hchosen) (by
      intro a ha
      obtain ⟨u, hu, f, w, hp⟩ := C97_found A choose hch hok hM hc hr hx hio hf (hsub a ha)
      exact hp.sub.convex) (fun _ _ _ _ h => .single h)
  refine ⟨d, h1, h2, h4 hr, ?_, h3⟩
  intro e he d' hd n hn
  rw [g1, g2, g3, g4]
  exact hio e he d' hd n hn

/-- The optimiser with the rewriter of equivalence classes: whatever the queue, the costs, the strategy, the
order and the limits are, the resulting circuit has the amplitudes of the first one, up to a common factor, and
no cycle leads to its outputs. -/
theorem C97_badger {P Δ : Type} [LinearOrder P] [StarRing R] [Nontrivial R] [Nontrivial D] (A : Weights D R) {K : R → Prop} (hK : Factors K)
    (choose : Pattern → Option Walk) (hch : ∀ p w, choose p = some w → w.Valid p) {lin : Nat → Prop}
    {eccs : List (Tket.Ecc.EqCircClass TCirc)} (hok : ∀ e ∈ eccs, ClassOK lin A K e)
    (hiso : ClassIso A eccs)
    {M : Tket.Ecc.Rewriter TCirc CPattern} (hM : eccRewriter choose eccs = some M)
    {next : TCirc → Nat} (hnext : ∀ c, Fresh c.toCirc (next c))
    {inv pre post : Rewrite → List Nat} (hinv : ∀ r, ∀ n ∈ r.nodes, n ∈ inv r)
    (value : TCirc → Nat) (add : P → Δ → P) {results : TCirc → List (TCirc × Δ)}
    (hresults : ∀ c, ∀ r ∈ results c, EccStep M next (Rewrite.view inv pre post) c r.1)
    (o : Tket.Backtracking.Opts P) (fuel : Nat) {c : TCirc} {cost : P} (hc : Sane lin c) (hr : InRange A c.toCirc)
    (hio : ClassIO eccs c.toCirc) {r : Tket.Backtracking.Out (TCirc × P) P}
    (hrun : Tket.Backtracking.optimise (badgerSpace value add results) o fuel (c, cost) () = .done r) :
    Sane lin r.best.1 ∧ OutAcyclic r.best.1.toCirc ∧ SameUpTo A K c.toCirc r.best.1.toCirc := by
  have key := Tket.Backtracking.optimise_keep (badgerSpace value add results) o fuel hrun
    (Q := fun s => Sane lin s.1 ∧ OutAcyclic s.1.toCirc ∧ InRange A s.1.toCirc ∧ ClassIO eccs s.1.toCirc ∧
      SameUpTo A K c.toCirc s.1.toCirc)
    (fun h => ⟨hc, (hashOf_iff hc value).mp h, hr, hio, .refl hK _⟩) (by
      intro s ctx hs t ht hh
      obtain ⟨h1, h2, h3, h4, h5⟩ := hs
      obtain ⟨q, hq, rfl⟩ := List.mem_map.mp ht
      obtain ⟨x, rs, as, hx, hf, hsub, hchosen, ha⟩ := hresults _ q hq
      obtain ⟨d, g1, g2, g3, g4, g5⟩ := C97_strategy A hK choose hch hok hiso hM hnext hinv h1 h3 hx
        h4 hf hsub hchosen
      rw [ha, Option.some.injEq] at g1
      subst g1
      exact ⟨g2, (hashOf_iff g2 value).mp hh, g3, g4, h5.trans hK g5⟩)
  exact ⟨key.1, key.2.1, key.2.2.2.2⟩

section Examples

/-- Gates on the second of two qubits, one after the other. -/
def line2 (names : List Nat) : TCirc where
  toCirc := mk (names.mapIdx fun i g => (i + 2, gate g, 0, [(if i = 0 then 0 else i + 1, if i = 0 then 1 else 0)])) []
    [(0, 0), (if names.isEmpty then 0 else names.length + 1, if names.isEmpty then 1 else 0)] [.linear, .linear] 2
  ty _ _ := 0

/-- A class of two circuits with an empty wire. -/
def class57 : Tket.Ecc.EqCircClass TCirc := ⟨line2 [5], [line2 [7, 7]]⟩

theorem gates_check {c : TCirc} (h0 : c.toCirc.Plain) (h1 : ∀ n ∈ c.members, (c.ins n).length = (c.op n).kinds.length)
    (h2 : ∀ n ∈ c.cmds, n ∈ c.members ∧ n ≠ c.inp ∧ n ≠ c.out) (h3 : c.out ∈ c.members ∧ c.out ≠ c.inp)
    (h4 : c.ins c.inp = []) (h5 : ∀ n ∈ c.members, ∀ s ∈ c.ins n, s.1 ∈ c.members ∨ s.1 = c.inp)
    (h6 : ∀ n ∈ c.members, ∀ k ∈ List.range (c.ins n).length, ∀ s ∈ (c.ins n)[k]?, consumers c.toCirc s.1 s.2 = [(n, k)])
    (h7 : c.members.Nodup ∧ c.inp ∉ c.members ∧ ∀ n ∈ c.members, c.content n = 0)
    (h8 : ∀ n ∈ c.members, ∀ k ∈ (c.op n).kinds, k = .linear)
    (h9 : ∀ n ∈ c.members, ∀ s ∈ c.ins n, (if s.1 = 1 then 1000 else s.1) < (if n = 1 then 1000 else n))
    (h10 : ∀ n ∈ c.members, ∀ s ∈ c.ins n, s.1 = c.inp ∨ s.2 < 1)
    (h11 : ∀ n ∈ c.cmds, ∃ m ∈ c.members, (n, 0) ∈ c.ins m)
    (h12 : ∀ i ∈ List.range c.numInputs, ∃ m ∈ c.members, (c.inp, i) ∈ c.ins m) : Gates (fun _ => True) rots.arity c := by
  refine ⟨⟨wf_check h1 h2 h3 h4 h5 h6, h7.1, h7.2.1, typed_check ?_, acyclic_of_rank (fun n => if n = 1 then 1000 else n) h9,
    h7.2.2⟩, h0, h10, h8, ?_, fun i hi => h12 i (List.mem_range.mpr hi), fun _ _ => Nat.one_pos⟩
  · intro n hn k hk
    rw [List.mem_range, h1 n hn] at hk
    rw [List.getElem?_eq_getElem hk, h8 n hn _ (List.getElem_mem hk)]
  · intro n hn p hp
    obtain rfl : p = 0 := Nat.lt_one_iff.mp hp
    exact h11 n hn

theorem line2_5 : Gates (fun _ => True) rots.arity (line2 [5]) := by
  refine gates_check ⟨?_, by decide +kernel, by decide +kernel, by decide +kernel⟩ (by decide +kernel) (by decide +kernel)
    (by decide +kernel) rfl (by decide +kernel) (by decide +kernel) (by decide +kernel) (by decide +kernel)
    (by decide +kernel) (by decide +kernel) (by decide +kernel) (by decide +kernel)
  intro n
  show n ∈ [1, 2] ↔ n ∈ [2] ∨ n = 1
  simp [or_comm]

theorem line2_77 : Gates (fun _ => True) rots.arity (line2 [7, 7]) := by
  refine gates_check ⟨?_, by decide +kernel, by decide +kernel, by decide +kernel⟩ (by decide +kernel) (by decide +kernel)
    (by decide +kernel) rfl (by decide +kernel) (by decide +kernel) (by decide +kernel) (by decide +kernel)
    (by decide +kernel) (by decide +kernel) (by decide +kernel) (by decide +kernel)
  intro n
  show n ∈ [1, 2, 3] ↔ n ∈ [2, 3] ∨ n = 1
  simp [or_comm]

theorem line2_amplitude (x : Nat → Bool) (y : List Bool) :
    amplitude rots (line2 [5]).toCirc x y = Complex.I * amplitude rots (line2 [7, 7]).toCirc x y := by
  have hl : (line2 [5]).toCirc.ports rots = [(2, 0)] := by decide +kernel
  have hli : (line2 [5]).toCirc.inner = [2] := by decide +kernel
  have hr : (line2 [7, 7]).toCirc.ports rots = [(2, 0), (3, 0)] := by decide +kernel
  have hri : (line2 [7, 7]).toCirc.inner = [2, 3] := by decide +kernel
  have l1 : (line2 [5]).op 2 = gate 5 := by decide +kernel
  have l2 : (line2 [5]).ins 2 = [(0, 1)] := by decide +kernel
  have l3 : (line2 [5]).ins (line2 [5]).out = [(0, 0), (2, 0)] := by decide +kernel
  have r1 : (line2 [7, 7]).op 2 = gate 7 := by decide +kernel
  have r2 : (line2 [7, 7]).ins 2 = [(0, 1)] := by decide +kernel
  have r3 : (line2 [7, 7]).op 3 = gate 7 := by decide +kernel
  have r4 : (line2 [7, 7]).ins 3 = [(2, 0)] := by decide +kernel
  have r5 : (line2 [7, 7]).ins (line2 [7, 7]).out = [(0, 0), (3, 0)] := by decide +kernel
  have hne : gate 7 ≠ gate 5 := by decide
  rw [amplitude, amplitude, hl, hli, hr, hri]
  simp only [sumOver, Fintype.sum_bool, List.map_cons, List.map_nil, List.prod_cons, List.prod_nil, entryAt,
    l1, l2, l3, r1, r2, r3, r4, r5, rots, if_pos, if_neg hne, List.range_one, Function.update]
  have h1 := exp_quarter
  have h2 := exp_quarter'
  by_cases hx : x 1 = true
  · by_cases hy : y = [x 0, true] <;> by_cases hy' : y = [x 0, false] <;> simp_all [Complex.I_mul_I]
  · by_cases hy : y = [x 0, true] <;> by_cases hy' : y = [x 0, false] <;> simp_all

theorem class57_ok : ClassOK (fun _ => True) rots phase class57 := by
  have key : ∀ c ∈ class57.circuits, c = line2 [5] ∨ c = line2 [7, 7] := by
    intro c hc
    simpa [Tket.Ecc.EqCircClass.circuits, class57] using hc
  have hsig : circSig (line2 [5]) = circSig (line2 [7, 7]) := by decide +kernel
  have hf : SameUpTo rots phase (line2 [5]).toCirc (line2 [7, 7]).toCirc :=
    ⟨Complex.I, by simp [phase], line2_amplitude⟩
  have hb : SameUpTo rots phase (line2 [7, 7]).toCirc (line2 [5]).toCirc :=
    ⟨-Complex.I, by simp [phase], fun x y => by
      rw [line2_amplitude, ← mul_assoc, neg_mul, Complex.I_mul_I, neg_neg, one_mul]⟩
  refine ⟨?_, ?_, ?_⟩
  · intro c hc
    rcases key c hc with rfl | rfl
    · exact line2_5
    · exact line2_77
  · intro c hc d hd
    rcases key c hc with rfl | rfl <;> rcases key d hd with rfl | rfl
    · rfl
    · exact hsig
    · exact hsig.symm
    · rfl
  · intro c hc d hd
    rcases key c hc with rfl | rfl <;> rcases key d hd with rfl | rfl
    · exact .refl phase_factors _
    · exact hf
    · exact hb
    · exact .refl phase_factors _

/-- The gates of the class are unitary. -/
theorem class57_iso : ClassIso rots [class57] := by
  have key : ∀ o, o = gate 5 ∨ o = gate 7 → IsoOp rots o 0 := by
    intro o ho a b ha hb
    have hk : o.kinds.length = 1 := by rcases ho with rfl | rfl <;> rfl
    rw [hk] at ha hb
    obtain ⟨a0, rfl⟩ := List.length_eq_one_iff.mp ha
    obtain ⟨b0, rfl⟩ := List.length_eq_one_iff.mp hb
    have hsum : ∀ F : List Bool → ℂ, ∑ g : Fin (rots.arity o) → Bool, F (List.ofFn g) = F [true] + F [false] := by
      intro F
      show ∑ g : Fin 1 → Bool, F (List.ofFn g) = _
      rw [← (Equiv.funUnique (Fin 1) Bool).symm.sum_comp]
      simp
    rw [hsum fun g => star (rots.weight o 0 [a0] g) * rots.weight o 0 [b0] g]
    have hne : gate 7 ≠ gate 5 := by decide
    have e1 : (starRingEnd ℂ) (Complex.exp (Real.pi / 4 * Complex.I)) * Complex.exp (Real.pi / 4 * Complex.I) = 1 := by
      rw [← Complex.exp_conj, ← Complex.exp_add]; simp [Complex.conj_ofNat]
    have e2 : (starRingEnd ℂ) (Complex.exp (-(Real.pi / 4 * Complex.I))) * Complex.exp (-(Real.pi / 4 * Complex.I)) = 1 := by
      rw [← Complex.exp_conj, ← Complex.exp_add]; simp [Complex.conj_ofNat]
    rcases ho with rfl | rfl
    · cases a0 <;> cases b0 <;> simp [rots]
    · cases a0 <;> cases b0 <;> simp [rots, hne, e1, e2]
  intro e he c hc n hn
  rw [List.mem_singleton.mp he] at hc
  have hcs : c = line2 [5] ∨ c = line2 [7, 7] := by simpa [Tket.Ecc.EqCircClass.circuits, class57] using hc
  have h5 : ∀ n ∈ (line2 [5]).cmds, (line2 [5]).op n = gate 5 := by decide +kernel
  have h7 : ∀ n ∈ (line2 [7, 7]).cmds, (line2 [7, 7]).op n = gate 7 := by decide +kernel
  rcases hcs with rfl | rfl
  · exact key _ (.inl (h5 n hn))
  · exact key _ (.inr (h7 n hn))

/-- An edge that can be followed, and the others. -/
def pick (known : List NodeID) : List Edge → Option (Edge × List Edge)
  | [] => none
  | e :: es =>
    if e.src ∈ known then some (e, es)
    else match e.reverse with
      | some r => if r.src ∈ known then some (r, es) else (pick known es).map fun x => (x.1, e :: x.2)
      | none => (pick known es).map fun x => (x.1, e :: x.2)

/-- Edges followed, as long as there is one. -/
def trail : Nat → List NodeID → List Edge → List Edge
  | 0, _, _ => []
  | k + 1, known, es =>
    match pick known es with
    | some (e, rest) => e :: trail k (e.dst :: known) rest
    | none => []

instance : ∀ (known : List NodeID) (es : List Edge), Decidable (Reached known es)
  | _, [] => .isTrue trivial
  | known, e :: es =>
    haveI : Decidable (Reached (e.dst :: known) es) := instDecidableReached (e.dst :: known) es
    inferInstanceAs (Decidable (e.src ∈ known ∧ Reached (e.dst :: known) es))

/-- A choice of the root and the order of the edges: the first node from which all others are reached. -/
def greedy (p : Pattern) : Option Walk :=
  (p.requires.map Prod.fst).findSome? fun n =>
    let w : Walk := ⟨n, trail p.edges.length [.node n] p.edges⟩
    if (∀ e ∈ w.edges, e ∈ p.edges ∨ ∃ e' ∈ p.edges, e'.reverse = some e) ∧
        (∀ e ∈ p.edges, e ∈ w.edges ∨ ∃ r ∈ w.edges, e.reverse = some r) ∧ Reached [.node w.root] w.edges ∧
        (∀ m ∈ p.requires.map Prod.fst, m = w.root ∨ ∃ e ∈ w.edges, e.dst = .node m) then some w else none

theorem greedy_valid (p : Pattern) (w : Walk) (h : greedy p = some w) : w.Valid p := by
  obtain ⟨n, hn, h⟩ := List.exists_of_findSome?_eq_some h
  simp only at h
  split_ifs at h with h1
  simp only [Option.some.injEq] at h
  subst h
  exact ⟨h1.1, h1.2.1, h1.2.2.1, hn, h1.2.2.2⟩

/-- What the rewriter of the class finds: both circuits have patterns, and the targets have one qubit. -/
theorem class57_rewrites : ∃ M rs d, eccRewriter greedy [class57] = some M ∧ eccRewrites twoParts M two = some rs ∧
    applyAll nextFree two rs = some d ∧ (M.patterns.length = 2 ∧ d.members.length = 6) ∧
    rs.map (fun r => (r.repl.numInputs, r.repl.cmds)) = [(1, [2, 3]), (1, [2, 3])] ∧
    rs.map (Rewrite.view Rewrite.nodes (fun _ => [2]) fun _ => [2]) =
      [two1, two2].map (Rewrite.view Rewrite.nodes (fun _ => [2]) fun _ => [2]) := by
  have h : ((eccRewriter greedy [class57]).bind fun M => (eccRewrites twoParts M two).bind fun rs =>
      (applyAll nextFree two rs).map fun d => decide ((M.patterns.length = 2 ∧ d.members.length = 6) ∧
        rs.map (fun r => (r.repl.numInputs, r.repl.cmds)) = [(1, [2, 3]), (1, [2, 3])] ∧
        rs.map (Rewrite.view Rewrite.nodes (fun _ => [2]) fun _ => [2]) =
          [two1, two2].map (Rewrite.view Rewrite.nodes (fun _ => [2]) fun _ => [2]))) = some true := by
    decide +kernel
  simp only [Option.bind_eq_some_iff, Option.map_eq_some_iff, decide_eq_true_eq] at h
  obtain ⟨M, hM, rs, hrs, d, hd, h⟩ := h
  exact ⟨M, rs, d, hM, hrs, hd, h⟩

theorem two_subs : SubsOK twoParts two.toCirc := by
  intro i o nodes h
  simp only [twoParts] at h
  split_ifs at h with h1 h2
  · simp only [SubRes.ok.injEq] at h
    obtain ⟨rfl, rfl⟩ := h1
    subst h
    exact two_placed1.sub
  · simp only [SubRes.ok.injEq] at h
    obtain ⟨rfl, rfl⟩ := h2
    subst h
    exact two_placed2.sub

theorem two_io : ClassIO [class57] two.toCirc := by
  intro e he d hd
  rw [List.mem_singleton.mp he] at hd
  have hcs : d = line2 [5] ∨ d = line2 [7, 7] := by simpa [Tket.Ecc.EqCircClass.circuits, class57] using hd
  rcases hcs with rfl | rfl <;> unfold NoIO <;> decide +kernel

theorem two_range : InRange rots two.toCirc := by
  have : ∀ n ∈ two.members, ∀ s ∈ two.ins n, s.1 = two.inp ∨ s.2 < 1 := by decide +kernel
  exact this

/-- All rewrites together. -/
example : ∃ M rs d, eccRewriter greedy [class57] = some M ∧ eccRewrites twoParts M two = some rs ∧ rs.length = 2 ∧
    applyAll nextFree two rs = some d ∧ d.members.length = 6 ∧ SameUpTo rots phase two.toCirc d.toCirc := by
  obtain ⟨M, rs, d, hM, hrs, hd, ⟨_, hd6⟩, _, hv⟩ := class57_rewrites
  have hok : ∀ e ∈ [class57], ClassOK (fun _ => True) rots phase e := by
    intro e he
    rw [List.mem_singleton.mp he]
    exact class57_ok
  have hlen : rs.length = 2 := by simpa using congrArg List.length hv
  have hch : Chosen (Rewrite.view Rewrite.nodes (fun _ => [2]) fun _ => [2]) rs rs := by
    refine .exhaustive 1 (fun _ _ => ⟨rfl, rfl⟩) ((Tket.Strategy.exhaustiveGreedy 1 ([two1, two2].map
      (Rewrite.view Rewrite.nodes (fun _ => [2]) fun _ => [2]))).head (by decide +kernel)) ?_ ?_
    · rw [hv]
      exact List.head_mem _
    · rw [hv]
      decide +kernel
  obtain ⟨d', h1, _, _, _, h2⟩ := C97_strategy rots phase_factors greedy greedy_valid hok class57_iso hM nextFree_fresh
    (fun _ _ h => h) two_proper.sane two_range two_subs two_io hrs (fun _ h => h) hch
  rw [hd, Option.some.injEq] at h1
  subst h1
  exact ⟨M, rs, d, hM, hrs, hlen, hd, hd6, h2⟩

/-- One of the rewrites. -/
example : ∃ M rs r c', eccRewriter greedy [class57] = some M ∧ eccRewrites twoParts M two = some rs ∧ r ∈ rs ∧
    applyRw two (nextFree two) r = some c' ∧ SameUpTo rots phase two.toCirc c'.toCirc := by
  obtain ⟨M, rs, _, hM, hrs, _, _, _, hv⟩ := class57_rewrites
  have hlen : rs.length = 2 := by simpa using congrArg List.length hv
  obtain ⟨r, hr⟩ := List.exists_mem_of_length_pos (l := rs) (by omega)
  obtain ⟨c', h1, _, _, _, h2⟩ := C97_rewrite rots greedy greedy_valid (lin := fun _ => True) (K := phase) (by
    intro e he
    rw [List.mem_singleton.mp he]
    exact class57_ok) hM two_proper two_range two_subs two_io hrs hr (nextFree_fresh _)
  exact ⟨M, rs, r, c', hM, hrs, hr, h1, h2⟩

/-- The class meets the conditions under which nothing fails. -/
example : ∃ M, eccRewriter greedy [class57] = some M := by
  obtain ⟨M, hM, _⟩ := C97_total rots greedy greedy_valid (lin := fun _ => True) (K := phase) (eccs := [class57]) (by
    intro e he
    rw [List.mem_singleton.mp he]
    exact class57_ok) (qubit := 0) (by
    intro e he d hd
    rw [List.mem_singleton.mp he] at hd
    have hcs : d = line2 [5] ∨ d = line2 [7, 7] := by simpa [Tket.Ecc.EqCircClass.circuits, class57] using hd
    rcases hcs with rfl | rfl <;> exact fun _ _ => rfl) (inTy := fun _ _ => 0) (outTy := fun _ _ => 0) (by
    intro e he d hd
    rw [List.mem_singleton.mp he] at hd
    have hcs : d = line2 [5] ∨ d = line2 [7, 7] := by simpa [Tket.Ecc.EqCircClass.circuits, class57] using hd
    rcases hcs with rfl | rfl <;> exact ⟨fun _ _ _ _ _ => rfl, fun _ _ _ _ _ _ _ => rfl⟩)
  exact ⟨M, hM⟩

/-- The first wire of a circuit of the class is empty; without it one qubit is left. -/
example : emptyOf (line2 [7, 7]) = [0] ∧ ∃ d, removeWire (line2 [7, 7]) 0 = some d ∧ d.numInputs = 1 ∧
    d.ins 2 = [(0, 0)] ∧ d.ins d.out = [(3, 0)] :=
  ⟨by decide +kernel, _, rfl, rfl, by decide +kernel, by decide +kernel⟩

end Examples

end Verif.Matching
