import Verif.Lemmas.Threads
import Verif.Props.GateRules
import Verif.Props.ParamClass

/-
Properties C95, C96 and C98 with several threads: in every execution, the circuit that is returned means the same
and has the same amplitudes as the input.
-/
namespace Verif.Matching

open Relation

/-- The optimiser with several threads and one queue: whatever the interleaving, the costs, the strategy, the order
and the limits are, the resulting circuit means the same as the first one and no cycle leads to its outputs. -/
theorem C95_threads_partial {V P Δ : Type} [LinearOrder P] (sem : Op → Nat → List V → Nat → V)
    (choose : Pattern → Option Walk) (hch : ∀ p w, choose p = some w → w.Valid p)
    {lin : Nat → Prop} {rules : List Rule} (hrules : ∀ u ∈ rules, u.Fit lin)
    (hmeans : ∀ u ∈ rules, ∀ x y, Means sem u.left.toCirc x y ↔ Means sem u.right.toCirc x y)
    (hthrough : ∀ u ∈ rules, u.Through) {next : TCirc → Nat} (hnext : ∀ c, Fresh c.toCirc (next c))
    {inv pre post : Rewrite → List Nat} (hinv : ∀ r, ∀ n ∈ r.nodes, n ∈ inv r)
    (value : TCirc → Nat) (add : P → Δ → P) {results : TCirc → List (TCirc × Δ)}
    (hresults : ∀ c, ∀ r ∈ results c, Step choose rules next (Rewrite.view inv pre post) c r.1)
    (o : ThreadOpts) {c : TCirc} {cost : P} (hc : Sane lin c)
    (hio : ∀ u ∈ rules, NoIO u.left.toCirc c.toCirc) {cfg : Tket.Parallel.Cfg TCirc P}
    (hcfg : threadsCfg value add results o c cost = some cfg) {r : TCirc} {p : P} (hrun : Returns cfg r p) :
    (Sane lin r ∧ OutAcyclic r.toCirc ∧
      (∀ inputs outputs, Means sem c.toCirc inputs outputs ↔ Means sem r.toCirc inputs outputs) ∧
      (Acyclic c.toCirc → (∀ u ∈ rules, u.NoNew) → Acyclic r.toCirc)) ∧ p ≤ cost := by
  have key := returns_keep hcfg hrun
    (Q := fun s => Sane lin s ∧ OutAcyclic s.toCirc ∧ (∀ u ∈ rules, NoIO u.left.toCirc s.toCirc) ∧
      (∀ x y, Means sem c.toCirc x y ↔ Means sem s.toCirc x y) ∧
      (Acyclic c.toCirc → (∀ u ∈ rules, u.NoNew) → Acyclic s.toCirc))
    (fun h => ⟨hc, (hashOf_iff hc value).mp h, hio, fun _ _ => Iff.rfl, fun h _ => h⟩) (by
      intro s hs q hq hh
      obtain ⟨h1, h2, h3, h4, h5⟩ := hs
      obtain ⟨x, m, rs, as, hm, hx, hf, hpriv, hsub, hchosen, ha⟩ := hresults _ q hq
      obtain ⟨d, g1, g2, ⟨e1, e2, e3, e4⟩, g3, g4⟩ := C95_strategy_partial sem choose hch hrules hmeans
        hthrough hnext hinv hm h1 hx h3 hf hpriv hsub hchosen
      rw [ha] at g1
      simp only [Option.some.injEq] at g1
      subst g1
      refine ⟨g2, (hashOf_iff g2 value).mp hh, ?_, fun a b => (h4 a b).trans (g3 a b),
        fun k1 k2 => g4 (h5 k1 k2) k2⟩
      intro u hu n hn
      show _ ≠ q.1.op q.1.inp ∧ _ ≠ q.1.op q.1.out
      rw [e1, e2, e3, e4]
      exact h3 u hu n hn)
  exact ⟨⟨key.1.1, key.1.2.1, key.1.2.2.2.1, key.1.2.2.2.2⟩, key.2⟩

variable {D R : Type} [Fintype D] [DecidableEq D] [CommSemiring R]

/-- Amplitudes, for any rules. -/
theorem C96_threads_partial {P Δ : Type} [LinearOrder P] (A : Weights D R) {K : R → Prop} (hK : Factors K)
    (choose : Pattern → Option Walk) (hch : ∀ p w, choose p = some w → w.Valid p)
    {lin : Nat → Prop} {rules : List Rule} (hrules : ∀ u ∈ rules, u.Fit lin) (hagree : ∀ u ∈ rules, u.Agree A K)
    (hthrough : ∀ u ∈ rules, u.Through) {next : TCirc → Nat} (hnext : ∀ c, Fresh c.toCirc (next c))
    {inv pre post : Rewrite → List Nat} (hinv : ∀ r, ∀ n ∈ r.nodes, n ∈ inv r)
    (value : TCirc → Nat) (add : P → Δ → P) {results : TCirc → List (TCirc × Δ)}
    (hresults : ∀ c, ∀ r ∈ results c, Step choose rules next (Rewrite.view inv pre post) c r.1)
    (o : ThreadOpts) {c : TCirc} {cost : P} (hc : Sane lin c)
    (hio : ∀ u ∈ rules, NoIO u.left.toCirc c.toCirc) {cfg : Tket.Parallel.Cfg TCirc P}
    (hcfg : threadsCfg value add results o c cost = some cfg) {r : TCirc} {p : P} (hrun : Returns cfg r p) :
    (Sane lin r ∧ OutAcyclic r.toCirc ∧ SameUpTo A K c.toCirc r.toCirc) ∧ p ≤ cost := by
  have key := returns_keep hcfg hrun
    (Q := fun s => Sane lin s ∧ OutAcyclic s.toCirc ∧ (∀ u ∈ rules, NoIO u.left.toCirc s.toCirc) ∧
      SameUpTo A K c.toCirc s.toCirc)
    (fun h => ⟨hc, (hashOf_iff hc value).mp h, hio, .refl hK _⟩) (by
      intro s hs q hq hh
      obtain ⟨h1, h2, h3, h4⟩ := hs
      obtain ⟨x, m, rs, as, hm, hx, hf, hpriv, hsub, hchosen, ha⟩ := hresults _ q hq
      obtain ⟨d, g1, g2, ⟨e1, e2, e3, e4⟩, g3⟩ := C96_strategy_partial A hK choose hch hrules hagree
        hthrough hnext hinv hm h1 hx h3 hf hpriv hsub hchosen
      rw [ha] at g1
      simp only [Option.some.injEq] at g1
      subst g1
      refine ⟨g2, (hashOf_iff g2 value).mp hh, ?_, h4.trans hK g3⟩
      intro u hu n hn
      show _ ≠ q.1.op q.1.inp ∧ _ ≠ q.1.op q.1.out
      rw [e1, e2, e3, e4]
      exact h3 u hu n hn)
  exact ⟨⟨key.1.1, key.1.2.1, key.1.2.2.2⟩, key.2⟩

/-- Amplitudes, for rules of gates, without further conditions. -/
theorem C96_gates_threads {P Δ : Type} [LinearOrder P] [StarRing R] [Nontrivial R] [Nontrivial D] (A : Weights D R)
    {K : R → Prop} (hK : Factors K) (choose : Pattern → Option Walk) (hch : ∀ p w, choose p = some w → w.Valid p)
    {lin : Nat → Prop} {rules : List Rule} (hrules : ∀ u ∈ rules, GateRule lin A K u) (hiso : ∀ u ∈ rules, GateIso A u)
    {next : TCirc → Nat} (hnext : ∀ c, Fresh c.toCirc (next c))
    {inv pre post : Rewrite → List Nat} (hinv : ∀ r, ∀ n ∈ r.nodes, n ∈ inv r)
    (value : TCirc → Nat) (add : P → Δ → P) {results : TCirc → List (TCirc × Δ)}
    (hresults : ∀ c, ∀ r ∈ results c, RuleStep choose rules next (Rewrite.view inv pre post) c r.1)
    (o : ThreadOpts) {c : TCirc} {cost : P} (hc : Sane lin c) (hr : InRange A c.toCirc)
    (hio : ∀ u ∈ rules, NoIO u.left.toCirc c.toCirc) {cfg : Tket.Parallel.Cfg TCirc P}
    (hcfg : threadsCfg value add results o c cost = some cfg) {r : TCirc} {p : P} (hrun : Returns cfg r p) :
    (Sane lin r ∧ OutAcyclic r.toCirc ∧ SameUpTo A K c.toCirc r.toCirc) ∧ p ≤ cost := by
  have key := returns_keep hcfg hrun
    (Q := fun s => Sane lin s ∧ OutAcyclic s.toCirc ∧ InRange A s.toCirc ∧
      (∀ u ∈ rules, NoIO u.left.toCirc s.toCirc) ∧ SameUpTo A K c.toCirc s.toCirc)
    (fun h => ⟨hc, (hashOf_iff hc value).mp h, hr, hio, .refl hK _⟩) (by
      intro s hs q hq hh
      obtain ⟨h1, h2, h3, h4, h5⟩ := hs
      obtain ⟨x, m, rs, as, hm, hx, hf, hsub, hchosen, ha⟩ := hresults _ q hq
      obtain ⟨d, g1, g2, g3, ⟨e1, e2, e3, e4⟩, g5⟩ := C96_gates_strategy A hK choose hch hrules hiso hnext hinv hm h1 h3 hx
        h4 hf hsub hchosen
      rw [ha, Option.some.injEq] at g1
      subst g1
      refine ⟨g2, (hashOf_iff g2 value).mp hh, g3, ?_, h5.trans hK g5⟩
      intro u hu n hn
      show _ ≠ q.1.op q.1.inp ∧ _ ≠ q.1.op q.1.out
      rw [e1, e2, e3, e4]
      exact h4 u hu n hn)
  exact ⟨⟨key.1.1, key.1.2.1, key.1.2.2.2.2⟩, key.2⟩

/-- Amplitudes, for classes with parameters. -/
theorem C98_threads_partial {P Δ : Type} [LinearOrder P] [StarRing R] [Nontrivial R] [Nontrivial D] (A : Weights D R)
    {K : R → Prop} (hK : Factors K)
    (choose : Pattern → Option Walk) (hch : ∀ p w, choose p = some w → w.Valid p) {lin : Nat → Prop}
    {eccs : List (Tket.Ecc.EqCircClass TCirc)} (hok : ∀ e ∈ eccs, ParamClass lin A K e)
    (hiso : ParamIso lin A eccs)
    {M : Tket.Ecc.Rewriter TCirc CPattern} (hM : eccRewriter choose eccs = some M)
    {next : TCirc → Nat} (hnext : ∀ c, Fresh c.toCirc (next c))
    {inv pre post : Rewrite → List Nat} (hinv : ∀ r, ∀ n ∈ r.nodes, n ∈ inv r)
    (value : TCirc → Nat) (add : P → Δ → P) {results : TCirc → List (TCirc × Δ)}
    (hlive : ∀ c, Sane lin c → OutAcyclic c.toCirc → Busy lin A.arity c → ∀ r ∈ results c, Alive c.toCirc)
    (hresults : ∀ c, ∀ r ∈ results c, EccStep M next (Rewrite.view inv pre post) c r.1)
    (o : ThreadOpts) {c : TCirc} {cost : P} (hc : Sane lin c) (hr : InRange A c.toCirc)
    (hbusy : Busy lin A.arity c) (hio : ClassIO eccs c.toCirc) {cfg : Tket.Parallel.Cfg TCirc P}
    (hcfg : threadsCfg value add results o c cost = some cfg) {r : TCirc} {p : P} (hrun : Returns cfg r p) :
    (Sane lin r ∧ OutAcyclic r.toCirc ∧ SameUpTo A K c.toCirc r.toCirc) ∧ p ≤ cost := by
  have key := returns_keep hcfg hrun
    (Q := fun s => Sane lin s ∧ OutAcyclic s.toCirc ∧ InRange A s.toCirc ∧ Busy lin A.arity s ∧
      ClassIO eccs s.toCirc ∧ SameUpTo A K c.toCirc s.toCirc)
    (fun h => ⟨hc, (hashOf_iff hc value).mp h, hr, hbusy, hio, .refl hK _⟩) (by
      intro s hs q hq hh
      obtain ⟨h1, h2, h3, h3', h4, h5⟩ := hs
      obtain ⟨x, rs, as, hx, hf, hsub, hchosen, ha⟩ := hresults _ q hq
      obtain ⟨d, g1, g2, g3, g3', g4, g5⟩ := C98_strategy_partial A hK choose hch hok hiso hM hnext hinv h1
        (hlive _ h1 h2 h3' q hq) h3 h3' hx
        h4 hf hsub hchosen
      rw [ha, Option.some.injEq] at g1
      subst g1
      exact ⟨g2, (hashOf_iff g2 value).mp hh, g3, g3', g4, h5.trans hK g5⟩)
  exact ⟨⟨key.1.1, key.1.2.1, key.1.2.2.2.2.2⟩, key.2⟩

/-! ### Example -/

/-- A circuit with two places for a rule, two threads: some execution returns a cheaper circuit, and the theorem
applies to it. -/
example : ∃ (value : TCirc → Nat) (results : TCirc → List (TCirc × Unit)) (cfg : Tket.Parallel.Cfg TCirc Nat)
    (r : TCirc) (p : Nat), threadsCfg value (fun c _ => c - 2) results ⟨2, 10, none, true⟩ two 4 = some cfg ∧
    Returns cfg r p ∧ p ≤ 2 ∧ SameUpTo rots phase two.toCirc r.toCirc := by
  classical
  obtain ⟨d, hd⟩ : ∃ d, applyAll nextFree two [two1, two2] = some d :=
    Option.isSome_iff_exists.mp (by decide +kernel)
  have hhash : (applyAll nextFree two [two1, two2]).map (hashOf fun _ => 0) = some (some 0) := by decide +kernel
  rw [hd, Option.map_some, Option.some.injEq] at hhash
  have h0 : hashOf (fun _ => 0) two = some 0 := by decide +kernel
  let results : TCirc → List (TCirc × Unit) := fun c => if c = two then [(d, ())] else []
  have hcfg : threadsCfg (fun _ => 0) (fun c _ => c - 2) results ⟨2, 10, none, true⟩ two 4 = some
      { nThreads := 2, cap := 10, maxCount := none, timeout := true, init := ⟨two, 4, 0⟩,
        next := fun s p => (results s).map fun r => (r.1, p - 2, hashOf (fun _ => 0) r.1) } := by
    simp only [threadsCfg, h0, Option.map_some]
  obtain ⟨s, h1, h2, h3⟩ := Tket.Parallel.improvement_returned (tb := Tket.PQueue.TieBreak.recent)
    (cfg := { nThreads := 2, cap := 10, maxCount := none, timeout := true, init := ⟨two, 4, 0⟩,
              next := fun s p => (results s).map fun r => (r.1, p - 2, hashOf (fun _ => 0) r.1) })
    (hn := Nat.succ_pos 1) (hcap := Nat.succ_pos 9) (ht := rfl) (t := d) (q := 2) (h := 0) (hnext := by simp [results, hhash])
  refine ⟨_, results, _, s.best.1, s.best.2, hcfg, ⟨s, h1, h2, rfl⟩, h3, ?_⟩
  refine (C96_gates_threads rots phase_factors greedy greedy_valid (rules := [rule57]) (lin := fun _ => True) (by
      intro u hu
      rw [List.mem_singleton.mp hu]
      exact rule57_gates) (by
      intro u hu
      rw [List.mem_singleton.mp hu]
      exact rule57_iso) nextFree_fresh (inv := Rewrite.nodes) (pre := fun _ => [2]) (post := fun _ => [2])
    (fun _ _ h => h) _ _ ?_ _ two_proper.sane two_range (by
      intro u hu
      rw [List.mem_singleton.mp hu]
      unfold NoIO
      decide +kernel) hcfg ⟨s, h1, h2, rfl⟩).1.2.2
  intro c r hr
  simp only [results] at hr
  split_ifs at hr with hc
  · rw [List.mem_singleton.mp hr, hc]
    exact ⟨twoParts, _, [two1, two2], [two1, two2], rfl, two_subs, rfl, fun _ h => h,
      .exhaustive 1 (by decide +kernel) ((Tket.Strategy.exhaustiveGreedy 1 ([two1, two2].map
      (Rewrite.view Rewrite.nodes (fun _ => [2]) fun _ => [2]))).head (by decide +kernel))
      (List.head_mem _) (by decide +kernel), hd⟩
  · simp at hr

end Verif.Matching
