import Verif.Model.GateRulesSpec
import Verif.Props.EccRun

/-
Properties C94, C95 and C96 for rules of gates: the conditions of the partial theorems follow.
-/
namespace Verif.Matching

open Relation

variable {D R : Type} [Fintype D] [DecidableEq D] [CommSemiring R]

theorem GateRule.fit {A : Weights D R} {K : R → Prop} {lin : Nat → Prop} {u : Rule} (h : GateRule lin A K u) :
    u.Fit lin := h.left.mixed.fit h.right.mixed

theorem GateRule.agree {A : Weights D R} {K : R → Prop} {lin : Nat → Prop} {u : Rule} (h : GateRule lin A K u) :
    u.Agree A K := by
  obtain ⟨k, hk, hs⟩ := h.same
  exact ⟨h.left.range, h.right.range, h.left.proper.nodup, k, hk, hs⟩

theorem GateRule.private {A : Weights D R} {K : R → Prop} {lin : Nat → Prop} {u : Rule} (h : GateRule lin A K u)
    {c : TCirc} (hc : c.toCirc.WF) (hr : InRange A c.toCirc) {r : Rewrite} {f : Nat → Nat} {w : Nat → Nat × Nat}
    (hp : Proposes u c r f w) : Private u.left.toCirc c.toCirc f := h.left.private hc hr hp.copy.emb

/-- Wires from inputs to outputs of the right-hand side are paths in the left-hand side. -/
theorem C96_gates_through [StarRing R] [Nontrivial R] [Nontrivial D] (A : Weights D R) {K : R → Prop}
    {lin : Nat → Prop} {u : Rule} (h : GateRule lin A K u) (hiso : GateIso A u)
    (hlen : (u.left.ins u.left.out).length = (u.right.ins u.right.out).length) : u.Through := by
  obtain ⟨k, _, hs⟩ := h.same
  intro i o hio
  refine h.left.path hiso (by rw [hlen]; exact (List.getElem?_eq_some_iff.mp hio).1) ?_
  intro x y hy
  rw [hs, amplitude_wire hio hy, mul_zero]

/-- Every rewrite that is found can be applied and keeps all amplitudes up to a factor. -/
theorem C96_gates_rewrite (A : Weights D R) {K : R → Prop} (choose : Pattern → Option Walk)
    (hch : ∀ p w, choose p = some w → w.Valid p) {lin : Nat → Prop} {rules : List Rule}
    (hrules : ∀ u ∈ rules, GateRule lin A K u) {m : Matcher} (hm : fromRules choose rules = .ok m) {x : Ext} {c : TCirc}
    (hc : Proper lin c) (hr : InRange A c.toCirc) (hx : SubsOK x c.toCirc)
    (hio : ∀ u ∈ rules, NoIO u.left.toCirc c.toCirc) {rs : List Rewrite} (hf : findMatches x m c = .ok rs)
    {r : Rewrite} (hin : r ∈ rs) {base : Nat} (hb : Fresh c.toCirc base) :
    ∃ c', applyRw c base r = some c' ∧ Proper lin c' ∧ InRange A c'.toCirc ∧
      (c'.inp = c.inp ∧ c'.out = c.out ∧ c'.op c.inp = c.op c.inp ∧ c'.op c.out = c.op c.out) ∧
      SameUpTo A K c.toCirc c'.toCirc := by
  have hpriv : ∀ u ∈ rules, ∀ f w, Proposes u c r f w → Private u.left.toCirc c.toCirc f :=
    fun u hu f w hp => (hrules u hu).private hc.wf hr hp
  obtain ⟨c', h1, h2, h3, h4⟩ := C96_rewrite_partial A choose hch (fun u hu => (hrules u hu).fit)
    (fun u hu => (hrules u hu).agree) hm hc hx hio hf hin hpriv hb
  refine ⟨c', h1, h2, ?_, h3, h4⟩
  obtain ⟨u, hu, f, w, hp, g2, g3, g4, _⟩ := C94_found choose hch (fun u hu => (hrules u hu).fit) hm hc.wf hx hio hf hin
  have hplaced : Placed u c r f w := ⟨hp, g2, g3, g4, hpriv u hu f w hp⟩
  have hspot := hplaced.spot (hrules u hu).fit hc.sane hb
  obtain ⟨k1, _⟩ := hspot.apply hc.sane hb
  rw [h1, Option.some.injEq] at k1
  rw [k1]
  exact hspot.inRange hc.sane hb hr (hrules u hu).agree.right

/-- Any number of rewrites, one after the other. -/
theorem C96_gates_many (A : Weights D R) {K : R → Prop} (hK : Factors K) (choose : Pattern → Option Walk)
    (hch : ∀ p w, choose p = some w → w.Valid p) {lin : Nat → Prop} {rules : List Rule}
    (hrules : ∀ u ∈ rules, GateRule lin A K u) {c d : TCirc} (h : RuleReaches choose rules c d) (hc : Proper lin c)
    (hr : InRange A c.toCirc) (hio : ∀ u ∈ rules, NoIO u.left.toCirc c.toCirc) :
    Proper lin d ∧ InRange A d.toCirc ∧ SameUpTo A K c.toCirc d.toCirc := by
  induction h with
  | refl c => exact ⟨hc, hr, .refl hK _⟩
  | step x m rs r base hm hx hf hin hb ha _ ih =>
    obtain ⟨c', h1, h2, h3, ⟨g1, g2, g3, g4⟩, h4⟩ := C96_gates_rewrite A choose hch hrules hm hc hr hx hio hf hin hb
    rw [ha, Option.some.injEq] at h1
    subst h1
    obtain ⟨k1, k2, k3⟩ := ih h2 h3 (by
      intro u hu n hn
      rw [g1, g2, g3, g4]
      exact hio u hu n hn)
    exact ⟨k1, k2, h4.trans hK k3⟩

/-- The rewrites that a strategy chooses, applied together. -/
theorem C96_gates_strategy [StarRing R] [Nontrivial R] [Nontrivial D] (A : Weights D R) {K : R → Prop} (hK : Factors K)
    (choose : Pattern → Option Walk) (hch : ∀ p w, choose p = some w → w.Valid p) {lin : Nat → Prop}
    {rules : List Rule} (hrules : ∀ u ∈ rules, GateRule lin A K u) (hiso : ∀ u ∈ rules, GateIso A u)
    {next : TCirc → Nat} (hnext : ∀ c, Fresh c.toCirc (next c))
    {inv pre post : Rewrite → List Nat} (hinv : ∀ r, ∀ n ∈ r.nodes, n ∈ inv r)
    {m : Matcher} (hm : fromRules choose rules = .ok m) {x : Ext} {c : TCirc} (hc : Sane lin c)
    (hr : InRange A c.toCirc) (hx : SubsOK x c.toCirc) (hio : ∀ u ∈ rules, NoIO u.left.toCirc c.toCirc)
    {rs as : List Rewrite} (hf : findMatches x m c = .ok rs) (hsub : ∀ a ∈ as, a ∈ rs)
    (hchosen : Chosen (Rewrite.view inv pre post) rs as) :
    ∃ d, applyAll next c as = some d ∧ Sane lin d ∧ InRange A d.toCirc ∧
      (d.inp = c.inp ∧ d.out = c.out ∧ d.op c.inp = c.op c.inp ∧ d.op c.out = c.op c.out) ∧
      SameUpTo A K c.toCirc d.toCirc := by
  have hplaced : ∀ a ∈ as, ∃ u ∈ rules, ∃ f w, Placed u c a f w := fun a ha =>
    placed_of_found hch (fun u hu => (hrules u hu).fit) hm hc.wf hx hio hf
      (fun _ _ u hu _ _ hp => (hrules u hu).private hc.wf hr hp) (hsub a ha)
  obtain ⟨d, h1, h2, h3, h4, h5⟩ := applyAll_rel (lin := lin) (Good := fun u => u.Agree A K)
    (Rel := fun c d => SameUpTo A K c.toCirc d.toCirc ∧ (InRange A c.toCirc → InRange A d.toCirc))
    (fun c => ⟨.refl hK _, id⟩)
    (fun h hg hc hd => ⟨((h.site hc (hnext _)).same hc.nodup h.fit hg).trans hK hd.1,
      fun g => hd.2 (h.inRange hc (hnext _) g hg.right)⟩)
    hnext c.toCirc as c hc (by
      intro a ha
      obtain ⟨u, hu, f, w, hp⟩ := hplaced a ha
      have hspot := hp.spot (hrules u hu).fit hc (hnext c)
      exact ⟨u, f, w, hspot, C96_gates_through A (hrules u hu) (hiso u hu) hspot.outputs.symm, (hrules u hu).agree⟩)
    (C95_chosen_apart hinv hchosen) (by
      intro a ha
      obtain ⟨u, hu, f, w, hp⟩ := hplaced a ha
      exact hp.sub.convex) (fun _ _ _ _ h => .single h)
  exact ⟨d, h1, h2, h5 hr, h3, h4⟩

/-- The optimiser. -/
theorem C96_gates_badger {P Δ : Type} [LinearOrder P] [StarRing R] [Nontrivial R] [Nontrivial D] (A : Weights D R)
    {K : R → Prop} (hK : Factors K) (choose : Pattern → Option Walk) (hch : ∀ p w, choose p = some w → w.Valid p)
    {lin : Nat → Prop} {rules : List Rule} (hrules : ∀ u ∈ rules, GateRule lin A K u) (hiso : ∀ u ∈ rules, GateIso A u)
    {next : TCirc → Nat} (hnext : ∀ c, Fresh c.toCirc (next c))
    {inv pre post : Rewrite → List Nat} (hinv : ∀ r, ∀ n ∈ r.nodes, n ∈ inv r)
    (value : TCirc → Nat) (add : P → Δ → P) {results : TCirc → List (TCirc × Δ)}
    (hresults : ∀ c, ∀ r ∈ results c, RuleStep choose rules next (Rewrite.view inv pre post) c r.1)
    (o : Tket.Backtracking.Opts P) (fuel : Nat) {c : TCirc} {cost : P} (hc : Sane lin c) (hr : InRange A c.toCirc)
    (hio : ∀ u ∈ rules, NoIO u.left.toCirc c.toCirc) {r : Tket.Backtracking.Out (TCirc × P) P}
    (hrun : Tket.Backtracking.optimise (badgerSpace value add results) o fuel (c, cost) () = .done r) :
    Sane lin r.best.1 ∧ OutAcyclic r.best.1.toCirc ∧ SameUpTo A K c.toCirc r.best.1.toCirc := by
  have key := Tket.Backtracking.optimise_keep (badgerSpace value add results) o fuel hrun
    (Q := fun s => Sane lin s.1 ∧ OutAcyclic s.1.toCirc ∧ InRange A s.1.toCirc ∧
      (∀ u ∈ rules, NoIO u.left.toCirc s.1.toCirc) ∧ SameUpTo A K c.toCirc s.1.toCirc)
    (fun h => ⟨hc, (hashOf_iff hc value).mp h, hr, hio, .refl hK _⟩) (by
      intro s ctx hs t ht hh
      obtain ⟨h1, h2, h3, h4, h5⟩ := hs
      obtain ⟨q, hq, rfl⟩ := List.mem_map.mp ht
      obtain ⟨x, m, rs, as, hm, hx, hf, hsub, hchosen, ha⟩ := hresults _ q hq
      obtain ⟨d, g1, g2, g3, ⟨e1, e2, e3, e4⟩, g5⟩ := C96_gates_strategy A hK choose hch hrules hiso hnext hinv hm h1 h3 hx
        h4 hf hsub hchosen
      rw [ha, Option.some.injEq] at g1
      subst g1
      refine ⟨g2, (hashOf_iff g2 value).mp hh, g3, ?_, h5.trans hK g5⟩
      intro u hu n hn
      show _ ≠ q.1.op q.1.inp ∧ _ ≠ q.1.op q.1.out
      rw [e1, e2, e3, e4]
      exact h4 u hu n hn)
  exact ⟨key.1, key.2.1, key.2.2.2.2⟩

/-! ### Examples -/

section Examples

theorem rule57_gates : GateRule (fun _ => True) rots phase rule57 := by
  obtain ⟨k, hk, hs⟩ := rule57_agree.same
  refine ⟨gates_check rule57_fit.left.2 (by decide +kernel) (by decide +kernel)
    (by decide +kernel) rfl (by decide +kernel) (by decide +kernel) (by decide +kernel) (by decide +kernel)
    (by decide +kernel) (by decide +kernel) (by decide +kernel) (by decide +kernel),
    gates_check rule57_fit.right.1 (by decide +kernel) (by decide +kernel)
    (by decide +kernel) rfl (by decide +kernel) (by decide +kernel) (by decide +kernel) (by decide +kernel)
    (by decide +kernel) (by decide +kernel) (by decide +kernel) (by decide +kernel), k, hk, hs⟩

theorem rule57_iso : GateIso rots rule57 := by
  have h1 : ∀ n ∈ rule57.left.cmds, rule57.left.op n = (line2 [5]).op 2 := by decide +kernel
  intro n hn
  rw [h1 n hn]
  exact class57_iso class57 (List.mem_singleton_self _) (line2 [5]) (by simp [Tket.Ecc.EqCircClass.circuits, class57]) 2
    (by decide +kernel)

/-- What is found with the rule, applied together. -/
example : ∃ m rs d, fromRules greedy [rule57] = .ok m ∧ findMatches twoParts m two = .ok rs ∧ rs.length = 2 ∧
    applyAll nextFree two rs = some d ∧ SameUpTo rots phase two.toCirc d.toCirc := by
  obtain ⟨d, h1, _, _, _, h2⟩ := C96_gates_strategy rots phase_factors greedy greedy_valid (rules := [rule57])
    (lin := fun _ => True) (by
      intro u hu
      rw [List.mem_singleton.mp hu]
      exact rule57_gates) (by
      intro u hu
      rw [List.mem_singleton.mp hu]
      exact rule57_iso) nextFree_fresh (inv := Rewrite.nodes) (pre := fun _ => [2]) (post := fun _ => [2])
    (fun _ _ h => h) (x := twoParts) (rs := [two1, two2]) (as := [two1, two2]) rfl two_proper.sane two_range two_subs (by
      intro u hu
      rw [List.mem_singleton.mp hu]
      unfold NoIO
      decide +kernel) rfl (fun _ h => h) (.exhaustive 1 (by decide +kernel) ((Tket.Strategy.exhaustiveGreedy 1 ([two1, two2].map
      (Rewrite.view Rewrite.nodes (fun _ => [2]) fun _ => [2]))).head (by decide +kernel))
      (List.head_mem _) (by decide +kernel))
  exact ⟨_, _, d, rfl, rfl, rfl, h1, h2⟩

end Examples

end Verif.Matching
