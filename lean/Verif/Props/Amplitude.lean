import Verif.Lemmas.Amplitude
import Verif.Props.Together
import Mathlib.Analysis.SpecialFunctions.Complex.Circle
import Mathlib.Algebra.BigOperators.Fin

/-
Property C96: rewrites keep all amplitudes, up to a common factor, if the sides of the rules have the same
amplitudes, up to a common factor.
-/
namespace Verif.Matching

open Relation

variable {D R : Type} [Fintype D] [DecidableEq D] [CommSemiring R]

/-- Every rewrite that is found can be applied; the new circuit is well formed, without cycles, and has the
same amplitudes, up to a factor of the rules. -/
theorem C96_rewrite_partial (A : Weights D R) {K : R → Prop}
    (choose : Pattern → Option Walk) (hch : ∀ p w, choose p = some w → w.Valid p)
    {lin : Nat → Prop} {rules : List Rule} (hrules : ∀ u ∈ rules, u.Fit lin) (hagree : ∀ u ∈ rules, u.Agree A K)
    {m : Matcher} (hm : fromRules choose rules = .ok m) {x : Ext} {c : TCirc} (hc : Proper lin c)
    (hx : SubsOK x c.toCirc) (hio : ∀ u ∈ rules, NoIO u.left.toCirc c.toCirc)
    {rs : List Rewrite} (hf : findMatches x m c = .ok rs) {r : Rewrite} (hr : r ∈ rs)
    (hpriv : ∀ u ∈ rules, ∀ f w, Proposes u c r f w → Private u.left.toCirc c.toCirc f)
    {base : Nat} (hb : Fresh c.toCirc base) :
    ∃ c', applyRw c base r = some c' ∧ Proper lin c' ∧
      (c'.inp = c.inp ∧ c'.out = c.out ∧ c'.op c.inp = c.op c.inp ∧ c'.op c.out = c.op c.out) ∧
      SameUpTo A K c.toCirc c'.toCirc := by
  obtain ⟨c', h1, h2, h3, u, hu, f, w, hsite, he⟩ := apply_found choose hch hrules hm hc hx hio hf hr hpriv hb
  refine ⟨c', h1, h2, h3, ?_⟩
  rw [he]
  exact hsite.same hc.nodup (hrules u hu) (hagree u hu)

/-- Any number of rewrites, one after the other. -/
theorem C96_many_partial (A : Weights D R) {K : R → Prop} (hK : Factors K)
    (choose : Pattern → Option Walk) (hch : ∀ p w, choose p = some w → w.Valid p)
    {lin : Nat → Prop} {rules : List Rule} (hrules : ∀ u ∈ rules, u.Fit lin) (hagree : ∀ u ∈ rules, u.Agree A K)
    {c d : TCirc} (h : Reaches choose rules c d) (hc : Proper lin c)
    (hio : ∀ u ∈ rules, NoIO u.left.toCirc c.toCirc) : Proper lin d ∧ SameUpTo A K c.toCirc d.toCirc := by
  induction h with
  | refl c => exact ⟨hc, .refl hK _⟩
  | step x m rs r base hm hx hf hr hpriv hb ha _ ih =>
    obtain ⟨c', h1, h2, ⟨g1, g2, g3, g4⟩, k3⟩ :=
      C96_rewrite_partial A choose hch hrules hagree hm hc hx hio hf hr hpriv hb
    rw [ha, Option.some.injEq] at h1
    subst h1
    obtain ⟨h4, h5⟩ := ih h2 (by
      intro u hu n hn
      rw [g1, g2, g3, g4]
      exact hio u hu n hn)
    exact ⟨h4, k3.trans hK h5⟩

/-- Rewrites at checked places that share no nodes, applied together. -/
theorem C96_together_partial (A : Weights D R) {K : R → Prop} (hK : Factors K) {lin : Nat → Prop}
    {rules : List Rule} (hrules : ∀ u ∈ rules, u.Fit lin) (hagree : ∀ u ∈ rules, u.Agree A K)
    (hthrough : ∀ u ∈ rules, u.Through) {next : TCirc → Nat} (hnext : ∀ c, Fresh c.toCirc (next c))
    {c : TCirc} (hc : Sane lin c) {as : List Rewrite} (hat : ∀ a ∈ as, ∃ u ∈ rules, ∃ f w, Placed u c a f w)
    (hapart : as.Pairwise Apart) :
    ∃ d, applyAll next c as = some d ∧ Sane lin d ∧
      (d.inp = c.inp ∧ d.out = c.out ∧ d.op c.inp = c.op c.inp ∧ d.op c.out = c.op c.out) ∧
      SameUpTo A K c.toCirc d.toCirc := by
  refine applyAll_rel (Good := fun u => u.Agree A K) (Rel := fun c d => SameUpTo A K c.toCirc d.toCirc)
    (fun c => .refl hK _) (fun h hg hc hd => ((h.site hc (hnext _)).same hc.nodup h.fit hg).trans hK hd)
    hnext c.toCirc as c hc ?_ hapart ?_ (fun _ _ _ _ h => .single h)
  · intro a ha
    obtain ⟨u, hu, f, w, hp⟩ := hat a ha
    exact ⟨u, f, w, hp.spot (hrules u hu) hc (hnext c), hthrough u hu, hagree u hu⟩
  · intro a ha
    obtain ⟨u, hu, f, w, hp⟩ := hat a ha
    exact hp.sub.convex

/-- The rewrites that a strategy chooses. -/
theorem C96_strategy_partial (A : Weights D R) {K : R → Prop} (hK : Factors K)
    (choose : Pattern → Option Walk) (hch : ∀ p w, choose p = some w → w.Valid p)
    {lin : Nat → Prop} {rules : List Rule} (hrules : ∀ u ∈ rules, u.Fit lin) (hagree : ∀ u ∈ rules, u.Agree A K)
    (hthrough : ∀ u ∈ rules, u.Through) {next : TCirc → Nat} (hnext : ∀ c, Fresh c.toCirc (next c))
    {inv pre post : Rewrite → List Nat} (hinv : ∀ r, ∀ n ∈ r.nodes, n ∈ inv r)
    {m : Matcher} (hm : fromRules choose rules = .ok m) {x : Ext} {c : TCirc} (hc : Sane lin c)
    (hx : SubsOK x c.toCirc) (hio : ∀ u ∈ rules, NoIO u.left.toCirc c.toCirc)
    {rs as : List Rewrite} (hf : findMatches x m c = .ok rs)
    (hpriv : ∀ r ∈ rs, ∀ u ∈ rules, ∀ f w, Proposes u c r f w → Private u.left.toCirc c.toCirc f)
    (hsub : ∀ a ∈ as, a ∈ rs) (hchosen : Chosen (Rewrite.view inv pre post) rs as) :
    ∃ d, applyAll next c as = some d ∧ Sane lin d ∧
      (d.inp = c.inp ∧ d.out = c.out ∧ d.op c.inp = c.op c.inp ∧ d.op c.out = c.op c.out) ∧
      SameUpTo A K c.toCirc d.toCirc :=
  C96_together_partial A hK hrules hagree hthrough hnext hc
    (fun a ha => placed_of_found hch hrules hm hc.wf hx hio hf hpriv (hsub a ha)) (C95_chosen_apart hinv hchosen)

/-- The optimiser: whatever the queue, the costs, the strategy, the order and the limits are, the
resulting circuit has the amplitudes of the first one, up to a common factor, and no cycle leads to its
outputs. -/
theorem C96_badger_partial {P Δ : Type} [LinearOrder P] (A : Weights D R) {K : R → Prop} (hK : Factors K)
    (choose : Pattern → Option Walk) (hch : ∀ p w, choose p = some w → w.Valid p)
    {lin : Nat → Prop} {rules : List Rule} (hrules : ∀ u ∈ rules, u.Fit lin) (hagree : ∀ u ∈ rules, u.Agree A K)
    (hthrough : ∀ u ∈ rules, u.Through) {next : TCirc → Nat} (hnext : ∀ c, Fresh c.toCirc (next c))
    {inv pre post : Rewrite → List Nat} (hinv : ∀ r, ∀ n ∈ r.nodes, n ∈ inv r)
    (value : TCirc → Nat) (add : P → Δ → P) {results : TCirc → List (TCirc × Δ)}
    (hresults : ∀ c, ∀ r ∈ results c, Step choose rules next (Rewrite.view inv pre post) c r.1)
    (o : Tket.Backtracking.Opts P) (fuel : Nat) {c : TCirc} {cost : P} (hc : Sane lin c)
    (hio : ∀ u ∈ rules, NoIO u.left.toCirc c.toCirc) {r : Tket.Backtracking.Out (TCirc × P) P}
    (hrun : Tket.Backtracking.optimise (badgerSpace value add results) o fuel (c, cost) () = .done r) :
    Sane lin r.best.1 ∧ OutAcyclic r.best.1.toCirc ∧ SameUpTo A K c.toCirc r.best.1.toCirc := by
  have key := Tket.Backtracking.optimise_keep (badgerSpace value add results) o fuel hrun
    (Q := fun s => Sane lin s.1 ∧ OutAcyclic s.1.toCirc ∧ (∀ u ∈ rules, NoIO u.left.toCirc s.1.toCirc) ∧
      SameUpTo A K c.toCirc s.1.toCirc)
    (fun h => ⟨hc, (hashOf_iff hc value).mp h, hio, .refl hK _⟩) (by
      intro s ctx hs t ht hh
      obtain ⟨h1, h2, h3, h4⟩ := hs
      obtain ⟨q, hq, rfl⟩ := List.mem_map.mp ht
      obtain ⟨x, m, rs, as, hm, hx, hf, hpriv, hsub, hchosen, ha⟩ := hresults _ q hq
      obtain ⟨d, g1, g2, ⟨e1, e2, e3, e4⟩, g3⟩ := C96_strategy_partial A hK choose hch hrules hagree
        hthrough hnext hinv hm h1 hx h3 hf hpriv hsub hchosen
      rw [ha] at g1
      simp only [Option.some.injEq] at g1
      subst g1
      refine ⟨g2, (hashOf_iff g2 value).mp hh, ?_, h4.trans hK g3⟩
      intro u hu n hn
      show _ ≠ q.1.op q.1.inp ∧ _ ≠ q.1.op q.1.out
      rw [e1, e2, e3, e4]
      exact h3 u hu n hn)
  exact ⟨key.1, key.2.1, key.2.2.2⟩

/-- What amplitudes are: operations are applied one after the other, in any order in which no operation
comes before one whose results it uses, and each has every result with its entry as weight. -/
theorem C96_run (A : Weights D R) {lin : Nat → Prop} {c : TCirc} (hc : Sane lin c) {order : List Nat}
    (hperm : order.Perm (c.members.filter fun n => n ≠ c.inp ∧ n ≠ c.out))
    (horder : order.Pairwise fun a b => ∀ s ∈ c.ins a, s.1 ≠ b) (x : Nat → D) (y : List D) :
    amplitude A c.toCirc x y = run A c.toCirc y order fun s => x s.2 := by
  have hn : order.Nodup := hperm.nodup_iff.mpr (hc.nodup.filter _)
  have hp : (c.ports A).Perm (portsOf (fun n => A.arity (c.op n)) order) := (hperm.symm).flatMap_right _
  rw [← sumOver_run A c.toCirc y hn horder, amplitude, sumOver_perm hp (portsOf_nodup _ (hc.nodup.filter _))]
  refine sumOver_congr _ fun v _ => ?_
  congr 1
  exact (hperm.symm.map _).prod_eq

/-- For operations that are functions, amplitudes say what the circuit computes. -/
theorem C96_functions (arity : Op → Nat) (sem : Op → Nat → List D → Nat → D)
    {lin : Nat → Prop} {c : TCirc} (hc : Proper lin c)
    (hr : InRange (Weights.ofFun (R := R) arity sem) c.toCirc)
    (ho : ∀ n ∈ c.members, ∀ s ∈ c.ins n, s.1 ≠ c.out) (x : Nat → D) (y : List D) :
    (Means sem c.toCirc x y → amplitude (Weights.ofFun (R := R) arity sem) c.toCirc x y = 1) ∧
    (¬ Means sem c.toCirc x y → amplitude (Weights.ofFun (R := R) arity sem) c.toCirc x y = 0) := by
  obtain ⟨y', h1, h2⟩ := amplitude_ofFun (R := R) arity sem hc hr ho x y
  constructor
  · intro h
    rw [h2, if_pos (means_unique sem hc.sane (fun n hn _ => hc.acyclic n hn) h1 h)]
  · intro h
    rw [h2, if_neg]
    rintro rfl
    exact h h1

/-! ### Examples -/

section Examples

/-- Factors of absolute value one. -/
def phase (k : ℂ) : Prop := ‖k‖ = 1

theorem phase_factors : Factors phase := ⟨norm_one, fun a b ha hb => by rw [phase, norm_mul, ha, hb, mul_one]⟩

/-- Gate 5 is `Z`, gate 7 the rotation `Rz` by a quarter of a turn, all others are `H` without its factor. -/
noncomputable def rots : Weights Bool ℂ where
  arity _ := 1
  weight o _ i j :=
    if o = gate 5 then
      (if i = j then (if i = [true] then -1 else 1) else 0)
    else if o = gate 7 then
      (if i = j then Complex.exp ((if i = [true] then 1 else -1) * (Real.pi / 4 * Complex.I)) else 0)
    else if i = [true] ∧ j = [true] then -1 else 1

theorem exp_quarter : Complex.exp (Real.pi / 4 * Complex.I) * Complex.exp (Real.pi / 4 * Complex.I) = Complex.I := by
  rw [← Complex.exp_add, ← add_mul, show (Real.pi / 4 + Real.pi / 4 : ℂ) = Real.pi / 2 by ring]
  exact Complex.exp_pi_div_two_mul_I

theorem exp_quarter' : Complex.exp (-(Real.pi / 4 * Complex.I)) * Complex.exp (-(Real.pi / 4 * Complex.I)) = -Complex.I := by
  rw [← Complex.exp_add, ← neg_mul, ← add_mul, show (-(Real.pi / 4) + -(Real.pi / 4) : ℂ) = -Real.pi / 2 by ring]
  exact Complex.exp_neg_pi_div_two_mul_I

theorem rule57_agree : rule57.Agree rots phase := by
  refine ⟨?_, ?_, by decide +kernel, Complex.I, by simp [phase], ?_⟩
  · have : ∀ n ∈ rule57.left.members, ∀ s ∈ rule57.left.ins n, s.2 < 1 := by decide +kernel
    exact fun n hn s hs => .inr (this n hn s hs)
  · have : ∀ n ∈ rule57.right.members, ∀ s ∈ rule57.right.ins n, s.2 < 1 := by decide +kernel
    exact fun n hn s hs => .inr (this n hn s hs)
  · intro x y
    have hl : rule57.left.ports rots = [(2, 0)] := by decide +kernel
    have hli : rule57.left.inner = [2] := by decide +kernel
    have hr : rule57.right.ports rots = [(2, 0), (3, 0)] := by decide +kernel
    have hri : rule57.right.inner = [2, 3] := by decide +kernel
    have l1 : rule57.left.op 2 = gate 5 := by decide +kernel
    have l2 : rule57.left.ins 2 = [(0, 0)] := by decide +kernel
    have l3 : rule57.left.ins rule57.left.out = [(2, 0)] := by decide +kernel
    have r1 : rule57.right.op 2 = gate 7 := by decide +kernel
    have r2 : rule57.right.ins 2 = [(0, 0)] := by decide +kernel
    have r3 : rule57.right.op 3 = gate 7 := by decide +kernel
    have r4 : rule57.right.ins 3 = [(2, 0)] := by decide +kernel
    have r5 : rule57.right.ins rule57.right.out = [(3, 0)] := by decide +kernel
    have hne : gate 7 ≠ gate 5 := by decide
    rw [amplitude, amplitude, hl, hli, hr, hri]
    simp only [sumOver, Fintype.sum_bool, List.map_cons, List.map_nil, List.prod_cons, List.prod_nil, entryAt,
      l1, l2, l3, r1, r2, r3, r4, r5, rots, if_pos, if_neg hne, List.range_one, Function.update]
    have h1 := exp_quarter
    have h2 := exp_quarter'
    by_cases hx : x 0 = true
    · by_cases hy : y = [true] <;> by_cases hy' : y = [false] <;> simp_all [Complex.I_mul_I]
    · by_cases hy : y = [true] <;> by_cases hy' : y = [false] <;> simp_all

/-- Two rewrites with this rule. -/
example : ∃ d, applyAll nextFree two [two1, two2] = some d ∧ d.members.length = 6 ∧
    SameUpTo rots phase two.toCirc d.toCirc := by
  have hrules : ∀ u ∈ [rule57], u.Fit fun _ => True := by
    intro u hu
    rw [List.mem_singleton.mp hu]
    exact rule57_fit
  have hagree : ∀ u ∈ [rule57], u.Agree rots phase := by
    intro u hu
    rw [List.mem_singleton.mp hu]
    exact rule57_agree
  have hthrough : ∀ u ∈ [rule57], u.Through := by
    intro u hu
    rw [List.mem_singleton.mp hu]
    exact rule57_noNew.through
  obtain ⟨d, h1, _, _, h2⟩ := C96_together_partial rots phase_factors hrules hagree hthrough nextFree_fresh
    two_proper.sane (as := [two1, two2]) (by
      intro a ha
      simp only [List.mem_cons, List.not_mem_nil, or_false] at ha
      rcases ha with rfl | rfl
      · exact ⟨_, by simp, _, _, two_placed1⟩
      · exact ⟨_, by simp, _, _, two_placed2⟩) (by simp [Apart, two1, two2])
  refine ⟨d, h1, ?_, h2⟩
  have : (applyAll nextFree two [two1, two2]).map (fun d => d.members.length) = some 6 := by decide +kernel
  rw [h1] at this
  simpa using this

/-- An order of operations. -/
example (x : Nat → Bool) (y : List Bool) :
    amplitude rots two.toCirc x y = run rots two.toCirc y [2, 3, 4] fun s => x s.2 :=
  C96_run rots two_proper.sane (by decide +kernel)
    (by simp only [List.pairwise_cons]; refine ⟨?_, ?_, ?_, .nil⟩ <;> decide +kernel) x y

/-- A circuit with controlled gates. -/
example (x : Nat → Bool) (y : List Bool) (h : Means bits swapRule.right.toCirc x y) :
    amplitude (Weights.ofFun (R := ℂ) (fun o => o.kinds.length) bits) swapRule.right.toCirc x y = 1 := by
  have hr : ∀ n ∈ swapRule.right.members, ∀ s ∈ swapRule.right.ins n,
      s.1 = swapRule.right.inp ∨ s.2 < (swapRule.right.op s.1).kinds.length := by decide +kernel
  exact (C96_functions (fun o => o.kinds.length) bits swap_fit.right.2 hr (by decide +kernel) x y).1 h

end Examples

end Verif.Matching
