import Verif.Lemmas.TogetherCheck
import Verif.Props.Strategy

/-
Property C95: rewrites applied together, the strategies that choose them, and the optimiser that follows
them keep the meaning of a circuit.
-/
namespace Verif.Matching

open Relation

/-- Rewrites at checked places that share no nodes can all be applied, in the given order; the circuit
stays well formed, but for cycles, and means the same. -/
theorem C95_together_partial {V : Type} (sem : Op → Nat → List V → Nat → V) {lin : Nat → Prop}
    {rules : List Rule} (hrules : ∀ u ∈ rules, u.Fit lin)
    (hmeans : ∀ u ∈ rules, ∀ x y, Means sem u.left.toCirc x y ↔ Means sem u.right.toCirc x y)
    (hthrough : ∀ u ∈ rules, u.Through) {next : TCirc → Nat} (hnext : ∀ c, Fresh c.toCirc (next c))
    {c : TCirc} (hc : Sane lin c) {as : List Rewrite} (hat : ∀ a ∈ as, ∃ u ∈ rules, ∃ f w, Placed u c a f w)
    (hapart : as.Pairwise Apart) :
    ∃ d, applyAll next c as = some d ∧ Sane lin d ∧
      (d.inp = c.inp ∧ d.out = c.out ∧ d.op c.inp = c.op c.inp ∧ d.op c.out = c.op c.out) ∧
      ∀ inputs outputs, Means sem c.toCirc inputs outputs ↔ Means sem d.toCirc inputs outputs := by
  refine applyAll_sound sem hnext c.toCirc as c hc ?_ hapart ?_ (fun _ _ _ _ h => .single h)
  · intro a ha
    obtain ⟨u, hu, f, w, hp⟩ := hat a ha
    exact ⟨u, f, w, hp.spot (hrules u hu) hc (hnext c), hthrough u hu, hmeans u hu⟩
  · intro a ha
    obtain ⟨u, hu, f, w, hp⟩ := hat a ha
    exact hp.sub.convex

/-- If in no rule an output of the right-hand side depends on an input on which it does not depend in
the left-hand side, no cycles arise. -/
theorem C95_no_new_partial {lin : Nat → Prop} {rules : List Rule} (hrules : ∀ u ∈ rules, u.Fit lin)
    (hnew : ∀ u ∈ rules, u.NoNew) {next : TCirc → Nat} (hnext : ∀ c, Fresh c.toCirc (next c))
    {c : TCirc} (hc : Proper lin c) {as : List Rewrite} (hat : ∀ a ∈ as, ∃ u ∈ rules, ∃ f w, Placed u c a f w)
    (hapart : as.Pairwise Apart) : ∃ d, applyAll next c as = some d ∧ Proper lin d := by
  refine applyAll_acyclic hnext as c hc ?_ hapart
  intro a ha
  obtain ⟨u, hu, f, w, hp⟩ := hat a ha
  exact ⟨u, f, w, hp.spot (hrules u hu) hc.sane (hnext c), hnew u hu, hp.sub.convex⟩

/-- Rewrites that a strategy applies together share no nodes. -/
theorem C95_chosen_apart {inv pre post : Rewrite → List Nat} (hinv : ∀ r, ∀ n ∈ r.nodes, n ∈ inv r)
    {rs as : List Rewrite} (h : Chosen (Rewrite.view inv pre post) rs as) : as.Pairwise Apart := by
  cases h with
  | greedy h =>
    have := (Tket.Strategy.C15_greedy_strategy (rs.map (Rewrite.view inv pre post))).2.1
    rw [← h, List.pairwise_map] at this
    exact this.imp fun hab n hn hn' => hab ⟨n, hn, hn'⟩
  | exhaustive n hn res hres h =>
    have := ((Tket.Strategy.C16_exhaustive_greedy n (rs.map (Rewrite.view inv pre post)) (by
      intro r hr
      obtain ⟨r', hr', rfl⟩ := List.mem_map.mp hr
      exact hn r' hr')).2 res hres).2.1
    rw [← h, List.pairwise_map] at this
    exact this.imp fun {a b} hab n hn hn' => hab ⟨n, hinv a n hn, hinv b n hn'⟩
  | threshold under res hres h =>
    rw [Tket.Strategy.C16_exhaustive_threshold, List.mem_map] at hres
    obtain ⟨r, _, rfl⟩ := hres
    have hl := congrArg List.length h
    rw [List.length_map] at hl
    cases as with
    | nil => exact .nil
    | cons a as =>
      cases as with
      | nil => exact List.pairwise_singleton _ _
      | cons b bs => simp at hl

/-- Rewrites that were found are at checked places. -/
theorem placed_of_found {choose : Pattern → Option Walk} (hch : ∀ p w, choose p = some w → w.Valid p)
    {lin : Nat → Prop} {rules : List Rule} (hrules : ∀ u ∈ rules, u.Fit lin) {m : Matcher}
    (hm : fromRules choose rules = .ok m) {x : Ext} {c : TCirc} (hc : c.toCirc.WF)
    (hx : SubsOK x c.toCirc) (hio : ∀ u ∈ rules, NoIO u.left.toCirc c.toCirc)
    {rs : List Rewrite} (hf : findMatches x m c = .ok rs)
    (hpriv : ∀ r ∈ rs, ∀ u ∈ rules, ∀ f w, Proposes u c r f w → Private u.left.toCirc c.toCirc f)
    {r : Rewrite} (hr : r ∈ rs) : ∃ u ∈ rules, ∃ f w, Placed u c r f w := by
  obtain ⟨u, hu, f, w, h1, h2, h3, h4, _⟩ := C94_found choose hch hrules hm hc hx hio hf hr
  exact ⟨u, hu, f, w, h1, h2, h3, h4, hpriv r hr u hu f w h1⟩

/-- The rewrites of the rules that a strategy chooses, out of those that were found, can be applied
together; the circuit means the same. Without new dependencies in the rules there are no cycles. -/
theorem C95_strategy_partial {V : Type} (sem : Op → Nat → List V → Nat → V)
    (choose : Pattern → Option Walk) (hch : ∀ p w, choose p = some w → w.Valid p)
    {lin : Nat → Prop} {rules : List Rule} (hrules : ∀ u ∈ rules, u.Fit lin)
    (hmeans : ∀ u ∈ rules, ∀ x y, Means sem u.left.toCirc x y ↔ Means sem u.right.toCirc x y)
    (hthrough : ∀ u ∈ rules, u.Through) {next : TCirc → Nat} (hnext : ∀ c, Fresh c.toCirc (next c))
    {inv pre post : Rewrite → List Nat} (hinv : ∀ r, ∀ n ∈ r.nodes, n ∈ inv r)
    {m : Matcher} (hm : fromRules choose rules = .ok m) {x : Ext} {c : TCirc} (hc : Sane lin c)
    (hx : SubsOK x c.toCirc) (hio : ∀ u ∈ rules, NoIO u.left.toCirc c.toCirc)
    {rs as : List Rewrite} (hf : findMatches x m c = .ok rs)
    (hpriv : ∀ r ∈ rs, ∀ u ∈ rules, ∀ f w, Proposes u c r f w → Private u.left.toCirc c.toCirc f)
    (hsub : ∀ a ∈ as, a ∈ rs) (hchosen : Chosen (Rewrite.view inv pre post) rs as) :
    ∃ d, applyAll next c as = some d ∧ Sane lin d ∧
      (d.inp = c.inp ∧ d.out = c.out ∧ d.op c.inp = c.op c.inp ∧ d.op c.out = c.op c.out) ∧
      (∀ inputs outputs, Means sem c.toCirc inputs outputs ↔ Means sem d.toCirc inputs outputs) ∧
      (Acyclic c.toCirc → (∀ u ∈ rules, u.NoNew) → Acyclic d.toCirc) := by
  have hat : ∀ a ∈ as, ∃ u ∈ rules, ∃ f w, Placed u c a f w := fun a ha =>
    placed_of_found hch hrules hm hc.wf hx hio hf hpriv (hsub a ha)
  have hap := C95_chosen_apart hinv hchosen
  obtain ⟨d, h1, h2, h3, h4⟩ := C95_together_partial sem hrules hmeans hthrough hnext hc hat hap
  refine ⟨d, h1, h2, h3, h4, ?_⟩
  intro hac hnew
  obtain ⟨d', g1, g2⟩ := C95_no_new_partial hrules hnew hnext
    (c := c) ⟨hc.wf, hc.nodup, hc.inp, hc.typed, hac, hc.flat⟩ hat hap
  rw [h1] at g1
  simp only [Option.some.injEq] at g1
  subst g1
  exact g2.acyclic

/-- Applying one rewrite at a time, as `ExhaustiveThresholdStrategy` does, never makes cycles, whatever
the rules are. -/
theorem C95_threshold_partial {V : Type} (sem : Op → Nat → List V → Nat → V)
    (choose : Pattern → Option Walk) (hch : ∀ p w, choose p = some w → w.Valid p)
    {lin : Nat → Prop} {rules : List Rule} (hrules : ∀ u ∈ rules, u.Fit lin)
    (hmeans : ∀ u ∈ rules, ∀ x y, Means sem u.left.toCirc x y ↔ Means sem u.right.toCirc x y)
    {next : TCirc → Nat} (hnext : ∀ c, Fresh c.toCirc (next c)) {inv pre post : Rewrite → List Nat}
    {m : Matcher} (hm : fromRules choose rules = .ok m) {x : Ext} {c : TCirc} (hc : Proper lin c)
    (hx : SubsOK x c.toCirc) (hio : ∀ u ∈ rules, NoIO u.left.toCirc c.toCirc)
    {rs as : List Rewrite} (hf : findMatches x m c = .ok rs)
    (hpriv : ∀ r ∈ rs, ∀ u ∈ rules, ∀ f w, Proposes u c r f w → Private u.left.toCirc c.toCirc f)
    (hsub : ∀ a ∈ as, a ∈ rs) {under : List Nat → List Nat → Bool} {res : Tket.Strategy.Result (List Int)}
    (hres : res ∈ Tket.Strategy.exhaustiveThreshold under (rs.map (Rewrite.view inv pre post)))
    (has : as.map (Rewrite.view inv pre post) = res.applied) :
    ∃ d, applyAll next c as = some d ∧ Proper lin d ∧
      ∀ inputs outputs, Means sem c.toCirc inputs outputs ↔ Means sem d.toCirc inputs outputs := by
  rw [Tket.Strategy.C16_exhaustive_threshold, List.mem_map] at hres
  obtain ⟨r, _, rfl⟩ := hres
  have hl := congrArg List.length has
  rw [List.length_map] at hl
  cases as with
  | nil => simp at hl
  | cons a as =>
    cases as with
    | cons b bs => simp at hl
    | nil =>
      obtain ⟨d, h1, h2, _, h3⟩ := C94_sound_partial sem choose hch hrules hmeans hm hc hx hio hf
        (hsub a (by simp)) (hpriv a (hsub a (by simp))) (hnext c)
      exact ⟨d, by simp only [applyAll, h1, Option.bind_some], h2, h3⟩

/-- A circuit has a hash exactly if no cycle leads to its outputs. -/
theorem C95_hash {lin : Nat → Prop} {c : TCirc} (hc : Sane lin c) (value : TCirc → Nat) :
    hashOf value c ≠ none ↔ OutAcyclic c.toCirc :=
  hashOf_iff hc value

/-- If no cycle leads to the outputs, there is at most one list of outputs for given inputs; without
cycles, there is exactly one. -/
theorem C95_defined {V : Type} (sem : Op → Nat → List V → Nat → V) {lin : Nat → Prop} {c : TCirc} :
    (Sane lin c → OutAcyclic c.toCirc → ∀ x y y', Means sem c.toCirc x y → Means sem c.toCirc x y' → y = y') ∧
    (Proper lin c → ∀ x, ∃ y, Means sem c.toCirc x y ∧ ∀ y', Means sem c.toCirc x y' → y' = y) := by
  refine ⟨fun hc ho x y y' => means_unique sem hc ho, ?_⟩
  intro hc x
  obtain ⟨y, hy⟩ := means_total sem hc x
  exact ⟨y, hy, fun y' h => means_unique sem hc.sane (fun n hn _ => hc.acyclic n hn) h hy⟩

/-- The optimiser: whatever the queue, the costs, the strategy, the order and the limits are, the
resulting circuit means the same as the first one and no cycle leads to its outputs; without new
dependencies in the rules there are no cycles at all. -/
theorem C95_badger_partial {V P Δ : Type} [LinearOrder P] (sem : Op → Nat → List V → Nat → V)
    (choose : Pattern → Option Walk) (hch : ∀ p w, choose p = some w → w.Valid p)
    {lin : Nat → Prop} {rules : List Rule} (hrules : ∀ u ∈ rules, u.Fit lin)
    (hmeans : ∀ u ∈ rules, ∀ x y, Means sem u.left.toCirc x y ↔ Means sem u.right.toCirc x y)
    (hthrough : ∀ u ∈ rules, u.Through) {next : TCirc → Nat} (hnext : ∀ c, Fresh c.toCirc (next c))
    {inv pre post : Rewrite → List Nat} (hinv : ∀ r, ∀ n ∈ r.nodes, n ∈ inv r)
    (value : TCirc → Nat) (add : P → Δ → P) {results : TCirc → List (TCirc × Δ)}
    (hresults : ∀ c, ∀ r ∈ results c, Step choose rules next (Rewrite.view inv pre post) c r.1)
    (o : Tket.Backtracking.Opts P) (fuel : Nat) {c : TCirc} {cost : P} (hc : Sane lin c)
    (hio : ∀ u ∈ rules, NoIO u.left.toCirc c.toCirc) {r : Tket.Backtracking.Out (TCirc × P) P}
    (hrun : Tket.Backtracking.optimise (badgerSpace value add results) o fuel (c, cost) () = .done r) :
    Sane lin r.best.1 ∧ OutAcyclic r.best.1.toCirc ∧
    (∀ inputs outputs, Means sem c.toCirc inputs outputs ↔ Means sem r.best.1.toCirc inputs outputs) ∧
    (Acyclic c.toCirc → (∀ u ∈ rules, u.NoNew) → Acyclic r.best.1.toCirc) := by
  have key := Tket.Backtracking.optimise_keep (badgerSpace value add results) o fuel hrun
    (Q := fun s => Sane lin s.1 ∧ OutAcyclic s.1.toCirc ∧ (∀ u ∈ rules, NoIO u.left.toCirc s.1.toCirc) ∧
      (∀ x y, Means sem c.toCirc x y ↔ Means sem s.1.toCirc x y) ∧
      (Acyclic c.toCirc → (∀ u ∈ rules, u.NoNew) → Acyclic s.1.toCirc))
    (fun h => ⟨hc, (hashOf_iff hc value).mp h, hio, fun _ _ => Iff.rfl, fun h _ => h⟩) (by
      intro s ctx hs t ht hh
      obtain ⟨h1, h2, h3, h4, h5⟩ := hs
      obtain ⟨q, hq, rfl⟩ := List.mem_map.mp ht
      obtain ⟨x, m, rs, as, hm, hx, hf, hpriv, hsub, hchosen, ha⟩ := hresults _ q hq
      obtain ⟨d, g1, g2, ⟨e1, e2, e3, e4⟩, g3, g4⟩ := C95_strategy_partial sem choose hch hrules hmeans
        hthrough hnext hinv hm h1 hx h3 hf hpriv hsub hchosen
      rw [ha] at g1
      simp only [Option.some.injEq] at g1
      subst g1
      refine ⟨g2, (hashOf_iff g2 value).mp hh, ?_, fun a b => (h4 a b).trans (g3 a b),
        fun k1 k2 => g4 (h5 k1 k2) k2⟩
      intro u hu n hn
      show _ ≠ q.1.op q.1.inp ∧ _ ≠ q.1.op q.1.out
      rw [e1, e2, e3, e4]
      exact h3 u hu n hn)
  exact ⟨key.1, key.2.1, key.2.2.2.1, key.2.2.2.2⟩

/-! ### Deviations -/

/-- Costs for the examples: numbers of commands. -/
def oldCost (r : Rewrite) : List Nat := [r.nodes.length]
def newCost (r : Rewrite) : List Nat := [r.repl.cmds.length]

/-- The documentation of `invalidation_set` says that rewrites can be composed if their sets are
disjoint. This is wrong for acyclic circuits, even if the sets contain all neighbours: a rule with the same
meaning on both sides, two places without common neighbours, both applied by the greedy and the
exhaustive greedy strategy, and the circuit afterwards has a cycle. The optimiser relies on the missing
hash to find such circuits; but this one has a hash, since the cycle does not lead to the outputs. -/
theorem C95_cycle :
    let view := Rewrite.view (around knot.toCirc) oldCost newCost
    swapRule.Fit (fun _ => True) ∧ swapRule.Through ∧
    (∀ x y, Means bits swapRule.left.toCirc x y ↔ Means bits swapRule.right.toCirc x y) ∧
    Proper (fun _ => True) knot ∧
    Placed swapRule knot knotA inA atA ∧ Placed swapRule knot knotB inB atB ∧
    (∀ n ∈ around knot.toCirc knotA, n ∉ around knot.toCirc knotB) ∧
    [knotA, knotB].map view = (Tket.Strategy.greedy ([knotA, knotB].map view)).applied ∧
    ((Tket.Strategy.exhaustiveGreedy 1 ([knotA, knotB].map view)).head?.map (·.applied) =
      some ([knotA, knotB].map view)) ∧
    ∃ d, applyAll nextFree knot [knotA, knotB] = some d ∧ ¬ Acyclic d.toCirc ∧
      ∀ value, hashOf value d = some (value d) := by
  refine ⟨swap_fit, ?_, swap_means, knot_proper, knot_placedA, knot_placedB, by decide +kernel,
    by decide +kernel, by decide +kernel, ?_⟩
  · intro i o h
    have : ∀ s ∈ swapRule.right.ins swapRule.right.out, s.1 ≠ swapRule.right.inp := by decide +kernel
    exact absurd rfl (this _ (List.mem_of_getElem? h))
  · obtain ⟨d, hd⟩ : ∃ d, applyAll nextFree knot [knotA, knotB] = some d :=
      Option.isSome_iff_exists.mp (by decide +kernel)
    refine ⟨d, hd, ?_, ?_⟩
    · have hmem : ((applyAll nextFree knot [knotA, knotB]).map fun d => d.members) =
          some [1, 4, 5, 10, 11, 12, 13, 14, 15, 16, 19, 20, 23, 24] := by decide +kernel
      have hins : ((applyAll nextFree knot [knotA, knotB]).map fun d => [4, 5, 15, 16, 19, 20, 23, 24].map d.ins) =
          some [[(20, 0)], [(24, 0)], [(4, 0)], [(5, 0)], [(16, 0), (0, 2)], [(0, 1), (19, 1)], [(15, 0), (0, 4)],
            [(0, 3), (23, 1)]] := by decide +kernel
      rw [hd] at hmem hins
      simp only [Option.map_some, Option.some.injEq, List.map_cons, List.map_nil, List.cons.injEq,
        and_true] at hmem hins
      obtain ⟨h4, h5, h15, h16, h19, h20, h23, h24⟩ := hins
      intro hac
      have e1 : Feeds d.toCirc 19 20 := ⟨by rw [hmem]; simp, _, by rw [h20]; exact .tail _ (.head _), rfl⟩
      have e2 : Feeds d.toCirc 20 4 := ⟨by rw [hmem]; simp, _, by rw [h4]; exact .head _, rfl⟩
      have e3 : Feeds d.toCirc 4 15 := ⟨by rw [hmem]; simp, _, by rw [h15]; exact .head _, rfl⟩
      have e4 : Feeds d.toCirc 15 23 := ⟨by rw [hmem]; simp, _, by rw [h23]; exact .head _, rfl⟩
      have e5 : Feeds d.toCirc 23 24 := ⟨by rw [hmem]; simp, _, by rw [h24]; exact .tail _ (.head _), rfl⟩
      have e6 : Feeds d.toCirc 24 5 := ⟨by rw [hmem]; simp, _, by rw [h5]; exact .head _, rfl⟩
      have e7 : Feeds d.toCirc 5 16 := ⟨by rw [hmem]; simp, _, by rw [h16]; exact .head _, rfl⟩
      have e8 : Feeds d.toCirc 16 19 := ⟨by rw [hmem]; simp, _, by rw [h19]; exact .head _, rfl⟩
      exact hac 19 (((((((TransGen.single e1).tail e2).tail e3).tail e4).tail e5).tail e6).tail e7 |>.tail e8)
    · intro value
      have hv : ((applyAll nextFree knot [knotA, knotB]).map fun d => decide (d.out ∈ visited d.toCirc)) =
          some true := by decide +kernel
      rw [hd] at hv
      simp only [Option.map_some, Option.some.injEq, decide_eq_true_eq] at hv
      rw [hashOf, if_pos hv]

/-! ### Examples -/

/-- The rule has no new dependencies. -/
theorem rule57_noNew : rule57.NoNew := by
  intro i o h
  have hio : i = 0 ∧ o = 0 := by
    have hi : ∀ n ∈ rule57.right.cmds, ∀ s ∈ rule57.right.ins n, s.1 = rule57.right.inp → s.2 = 0 := by decide +kernel
    have ho : (rule57.right.ins rule57.right.out) = [(3, 0)] := by decide +kernel
    have key : ∀ s : Nat × Nat, (rule57.right.ins rule57.right.out)[o]? = some s → o = 0 ∧ s = (3, 0) := by
      intro s hs
      rw [ho] at hs
      rcases o with _ | o
      · simpa using hs.symm
      · simp at hs
    rcases h with h | ⟨n, hn, h1, m, p, _, _, h2⟩
    · have h3 := (key _ h).2
      have h4 : rule57.right.inp = 0 := rfl
      rw [h4] at h3
      simp at h3
    · exact ⟨hi n hn _ h1 rfl, (key _ h2).1⟩
  obtain ⟨rfl, rfl⟩ := hio
  exact .inr ⟨2, by decide, by decide +kernel, 2, 0, by decide, .refl, by decide +kernel⟩

theorem Rule.NoNew.through {u : Rule} (h : u.NoNew) : u.Through := fun i o hi => h i o (.inl hi)

/-- A circuit with two places for the rule. -/
def two : TCirc := line1 [5, 6, 5] 1
def two1 : Rewrite := ⟨[2], [[(2, 0)]], [(2, 0)], rule57.right⟩
def two2 : Rewrite := ⟨[4], [[(4, 0)]], [(4, 0)], rule57.right⟩
def twoParts : Ext where
  auto n := if n = 2 ∨ n = 4 then [0] else []
  sub i o :=
    if i = [[(2, 0)]] ∧ o = [(2, 0)] then .ok [2]
    else if i = [[(4, 0)]] ∧ o = [(4, 0)] then .ok [4] else .notConvex

theorem two_proper : Proper (fun _ => True) two :=
  ⟨wf_check (by decide +kernel) (by decide +kernel) (by decide +kernel) rfl (by decide +kernel) (by decide +kernel),
   by decide +kernel, by decide +kernel, typed_check (by decide +kernel),
   acyclic_of_rank (fun n => if n = 1 then 1000 else n) (by decide +kernel), by decide +kernel⟩

theorem two_placed1 : Placed rule57 two two1 (fun _ => 2) (fun _ => (0, 0)) :=
  placed_check (f := fun _ => 2) (w := fun _ => (0, 0)) rule57_fit two_proper.wf [2] [3, 4, 1] rfl
    (by decide +kernel) (by decide +kernel) (by decide +kernel) (by decide +kernel) (by decide +kernel)
    (by decide +kernel) (by decide +kernel) (by decide +kernel) (by decide +kernel) (by decide +kernel)
    (by decide +kernel) (by decide +kernel) (by decide +kernel)

theorem two_placed2 : Placed rule57 two two2 (fun _ => 4) (fun _ => (3, 0)) :=
  placed_check (f := fun _ => 4) (w := fun _ => (3, 0)) rule57_fit two_proper.wf [4] [1] rfl
    (by decide +kernel) (by decide +kernel) (by decide +kernel) (by decide +kernel) (by decide +kernel)
    (by decide +kernel) (by decide +kernel) (by decide +kernel) (by decide +kernel) (by decide +kernel)
    (by decide +kernel) (by decide +kernel) (by decide +kernel)

/-- Both rewrites are found and applied. -/
example : ∃ m d, fromRules first [rule57] = .ok m ∧ findMatches twoParts m two = .ok [two1, two2] ∧
    applyAll nextFree two [two1, two2] = some d ∧ d.members.length = 6 ∧
    [two1, two2].Pairwise Apart ∧
    (∃ f w, Placed rule57 two two1 f w) ∧ (∃ f w, Placed rule57 two two2 f w) ∧ rule57.Through ∧
    Chosen (Rewrite.view Rewrite.nodes (fun _ => [2]) fun _ => [2]) [two1, two2] [two1, two2] :=
  ⟨_, _, rfl, rfl, rfl, by decide +kernel, by simp [Apart, two1, two2], ⟨_, _, two_placed1⟩, ⟨_, _, two_placed2⟩,
    rule57_noNew.through,
    .exhaustive 1 (by decide +kernel) ((Tket.Strategy.exhaustiveGreedy 1 ([two1, two2].map
      (Rewrite.view Rewrite.nodes (fun _ => [2]) fun _ => [2]))).head (by decide +kernel))
      (List.head_mem _) (by decide +kernel)⟩

/-- A step of the optimiser. -/
example : ∃ d, Step first [rule57] nextFree (Rewrite.view Rewrite.nodes (fun _ => [2]) fun _ => [2]) two d := by
  refine ⟨_, twoParts, _, [two1, two2], [two1, two2], rfl, ?_, rfl, ?_, fun _ h => h, ?_, rfl⟩
  · intro i o nodes h
    simp only [twoParts] at h
    split_ifs at h with h1 h2
    · simp only [SubRes.ok.injEq] at h
      obtain ⟨rfl, rfl⟩ := h1
      subst h
      exact two_placed1.sub
    · simp only [SubRes.ok.injEq] at h
      obtain ⟨rfl, rfl⟩ := h2
      subst h
      exact two_placed2.sub
  · intro r _ u hu f w _ m hm p hp n hn hin
    simp only [List.mem_singleton] at hu
    subst hu
    have h0 : ∀ n ∈ two.members, ∀ s ∈ two.ins n, s.2 = 0 := by decide +kernel
    have hp0 : p = 0 := h0 n hn _ hin
    have hm2 : ∀ m ∈ rule57.left.cmds, (m, 0) ∈ rule57.left.ins rule57.left.out := by decide +kernel
    subst hp0
    exact absurd (hm2 m hm) hp
  · exact .exhaustive 1 (by decide +kernel) ((Tket.Strategy.exhaustiveGreedy 1 ([two1, two2].map
      (Rewrite.view Rewrite.nodes (fun _ => [2]) fun _ => [2]))).head (by decide +kernel))
      (List.head_mem _) (by decide +kernel)

end Verif.Matching
