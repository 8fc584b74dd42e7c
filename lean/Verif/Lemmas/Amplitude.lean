import Verif.Model.AmplitudeSpec
import Verif.Lemmas.TogetherBadger
import Mathlib.Algebra.BigOperators.GroupWithZero.Finset
import Mathlib.Tactic.Ring
import Mathlib.Data.List.Perm.Basic
import Mathlib.Algebra.BigOperators.Group.List.Basic

/-
Lemmas about amplitudes.
-/
namespace Verif.Matching

open scoped BigOperators

section Sums

variable {D R : Type} [Fintype D]

theorem sumOver_append [AddCommMonoid R] : ∀ (a b : List (Nat × Nat)) (F : (Nat × Nat → D) → R) (v : Nat × Nat → D),
    sumOver (a ++ b) F v = sumOver a (fun v => sumOver b F v) v
  | [], _, _, _ => rfl
  | s :: a, b, F, v => by
    simp only [List.cons_append, sumOver]
    exact Finset.sum_congr rfl fun d _ => sumOver_append a b F _

theorem sumOver_congr [AddCommMonoid R] : ∀ (ps : List (Nat × Nat)) {F G : (Nat × Nat → D) → R} {v : Nat × Nat → D},
    (∀ v', (∀ q, q ∉ ps → v' q = v q) → F v' = G v') → sumOver ps F v = sumOver ps G v
  | [], _, _, v, h => h v fun _ _ => rfl
  | s :: ss, F, G, v, h => by
    refine Finset.sum_congr rfl fun d _ => sumOver_congr ss ?_
    intro v' hv
    refine h v' fun q hq => ?_
    rw [List.mem_cons, not_or] at hq
    rw [hv q hq.2, Function.update_of_ne hq.1]

theorem sumOver_perm [AddCommMonoid R] {ps qs : List (Nat × Nat)} (h : ps.Perm qs) :
    ∀ (_ : ps.Nodup) (F : (Nat × Nat → D) → R) (v : Nat × Nat → D), sumOver ps F v = sumOver qs F v := by
  induction h with
  | nil => intro _ _ _; rfl
  | cons s _ ih =>
    intro hn F v
    exact Finset.sum_congr rfl fun d _ => ih (List.nodup_cons.mp hn).2 F _
  | swap a b l =>
    intro hn F v
    simp only [sumOver]
    rw [Finset.sum_comm]
    refine Finset.sum_congr rfl fun d _ => Finset.sum_congr rfl fun e _ => ?_
    have hne : a ≠ b := by
      intro h
      rw [List.nodup_cons] at hn
      exact hn.1 (by simp [h])
    rw [Function.update_comm hne]
  | trans h1 _ ih1 ih2 =>
    intro hn F v
    rw [ih1 hn, ih2 (h1.nodup_iff.mp hn)]

theorem sumOver_mul [CommSemiring R] (k : R) : ∀ (ps : List (Nat × Nat)) (F : (Nat × Nat → D) → R) (v : Nat × Nat → D),
    sumOver ps (fun v => k * F v) v = k * sumOver ps F v
  | [], _, _ => rfl
  | s :: ss, F, v => by
    simp only [sumOver, Finset.mul_sum]
    exact Finset.sum_congr rfl fun d _ => sumOver_mul k ss F _

theorem sumOver_sum [AddCommMonoid R] {ι : Type} (t : Finset ι) : ∀ (ps : List (Nat × Nat))
    (F : ι → (Nat × Nat → D) → R) (v : Nat × Nat → D),
    sumOver ps (fun v => ∑ i ∈ t, F i v) v = ∑ i ∈ t, sumOver ps (F i) v
  | [], _, _ => rfl
  | s :: ss, F, v => by
    simp only [sumOver]
    rw [Finset.sum_comm]
    exact Finset.sum_congr rfl fun d _ => sumOver_sum t ss F _

/-- Sums over renamed ports. -/
theorem sumOver_map [AddCommMonoid R] (φ : Nat × Nat → Nat × Nat) : ∀ (ps : List (Nat × Nat)) (I : Nat × Nat → Prop)
    {F G : (Nat × Nat → D) → R} {v u : Nat × Nat → D}, (ps.map φ).Nodup →
    (∀ i, I i → φ i ∉ ps.map φ) → (∀ i, I i → u i = v (φ i)) →
    (∀ v' u', (∀ i, I i ∨ i ∈ ps → u' i = v' (φ i)) → (∀ q, q ∉ ps.map φ → v' q = v q) → F v' = G u') →
    sumOver (ps.map φ) F v = sumOver ps G u
  | [], I, _, _, v, u, _, _, hu, h => h v u (fun i hi => hu i (by simpa using hi)) fun _ _ => rfl
  | s :: ss, I, F, G, v, u, hn, hI, hu, h => by
    simp only [List.map_cons, sumOver]
    rw [List.map_cons, List.nodup_cons] at hn
    refine Finset.sum_congr rfl fun d _ => sumOver_map φ ss (fun i => I i ∨ i = s) hn.2 ?_ ?_ ?_
    · rintro i (hi | rfl)
      · exact fun hm => hI i hi (by simp only [List.map_cons]; exact .tail _ hm)
      · exact hn.1
    · rintro i (hi | rfl)
      · have h1 : φ i ≠ φ s := fun he => hI i hi (by rw [he]; simp)
        have h2 : i ≠ s := fun he => h1 (by rw [he])
        rw [Function.update_of_ne h1, Function.update_of_ne h2, hu i hi]
      · rw [Function.update_self, Function.update_self]
    · intro v' u' h1 h2
      refine h v' u' ?_ ?_
      · rintro i (hi | hi)
        · exact h1 i (.inl (.inl hi))
        · rcases List.mem_cons.mp hi with rfl | hi
          · exact h1 _ (.inl (.inr rfl))
          · exact h1 i (.inr hi)
      · intro q hq
        rw [List.map_cons, List.mem_cons, not_or] at hq
        rw [h2 q hq.2, Function.update_of_ne hq.1]

/-- The sum weighted by a function of the outputs. -/
def weighted [CommSemiring R] (A : Weights D R) (c : Circ) (x : Nat → D) (B : List D → R) : R :=
  sumOver (c.ports A) (fun v => (c.inner.map (entryAt A c v)).prod * B ((c.ins c.out).map v)) (fun s => x s.2)

theorem weighted_eq [DecidableEq D] [CommSemiring R] (A : Weights D R) (c : Circ) (x : Nat → D) (B : List D → R) :
    weighted A c x B = ∑ g : Fin (c.ins c.out).length → D, amplitude A c x (List.ofFn g) * B (List.ofFn g) := by
  have : ∀ g : Fin (c.ins c.out).length → D, amplitude A c x (List.ofFn g) * B (List.ofFn g) =
      sumOver (c.ports A) (fun v => B (List.ofFn g) * ((c.inner.map (entryAt A c v)).prod *
        if (c.ins c.out).map v = List.ofFn g then 1 else 0)) (fun s => x s.2) := by
    intro g
    rw [sumOver_mul, mul_comm]
    rfl
  simp only [this]
  rw [← sumOver_sum]
  refine sumOver_congr _ fun v _ => ?_
  have hl : ∃ g0 : Fin (c.ins c.out).length → D, (c.ins c.out).map v = List.ofFn g0 :=
    ⟨fun i => v ((c.ins c.out)[i]), by
      apply List.ext_getElem
      · simp
      · intro i h1 h2
        simp⟩
  obtain ⟨g0, hg0⟩ := hl
  rw [hg0, Finset.sum_eq_single g0]
  · simp [mul_comm]
  · intro g _ hne
    have : List.ofFn g0 ≠ List.ofFn g := fun h => hne (List.ofFn_injective h).symm
    simp [this]
  · simp

/-- Equal entries give equal weighted sums. -/
theorem weighted_of_amplitude [DecidableEq D] [CommSemiring R] {A : Weights D R} {c d : Circ} {k : R}
    (hl : (d.ins d.out).length = (c.ins c.out).length)
    (h : ∀ x y, amplitude A c x y = k * amplitude A d x y) (x : Nat → D) (B : List D → R) :
    weighted A c x B = k * weighted A d x B := by
  rw [weighted_eq, weighted_eq, Finset.mul_sum]
  generalize hk : (c.ins c.out).length = m at *
  rw [hl]
  refine Finset.sum_congr rfl fun g _ => ?_
  rw [h, mul_assoc]

end Sums

variable {D R : Type} [Fintype D]

theorem mem_ports {A : Weights D R} {c : Circ} {s : Nat × Nat} :
    s ∈ c.ports A ↔ s.1 ∈ c.inner ∧ s.2 < A.arity (c.op s.1) := by
  rw [Circ.ports, List.mem_flatMap]
  constructor
  · rintro ⟨n, hn, hs⟩
    obtain ⟨p, hp, rfl⟩ := List.mem_map.mp hs
    exact ⟨hn, List.mem_range.mp hp⟩
  · rintro ⟨h1, h2⟩
    exact ⟨s.1, h1, List.mem_map.mpr ⟨s.2, List.mem_range.mpr h2, rfl⟩⟩

/-- Ports of a list of nodes. -/
def portsOf (ar : Nat → Nat) (ns : List Nat) : List (Nat × Nat) :=
  ns.flatMap fun n => (List.range (ar n)).map fun p => (n, p)

theorem portsOf_nodup (ar : Nat → Nat) : ∀ {ns : List Nat}, ns.Nodup → (portsOf ar ns).Nodup
  | [], _ => List.nodup_nil
  | n :: ns, h => by
    rw [List.nodup_cons] at h
    rw [portsOf, List.flatMap_cons]
    refine List.Nodup.append ?_ (portsOf_nodup ar h.2) ?_
    · exact List.Nodup.map (fun a b h => by simpa using h) List.nodup_range
    · rintro ⟨a, b⟩ h1 h2
      obtain ⟨p, _, hp⟩ := List.mem_map.mp h1
      obtain ⟨m, hm, hs⟩ := List.mem_flatMap.mp h2
      obtain ⟨q, _, hq⟩ := List.mem_map.mp hs
      simp only [Prod.mk.injEq] at hp hq
      exact h.1 (by rw [hp.1, ← hq.1]; exact hm)

theorem Circ.Plain.inner {P : Circ} (h : P.Plain) {n : Nat} : n ∈ P.inner ↔ n ∈ P.cmds := by
  rw [Circ.inner, List.mem_filter]
  simp only [decide_eq_true_eq]
  constructor
  · rintro ⟨h1, _, h2⟩
    exact ((h.members n).mp h1).resolve_right h2
  · intro h1
    exact h.cmd_mem h1

/-- Where ports of a side of a rule are in the circuit. -/
def place (inp : Nat) (f : Nat → Nat) (w : Nat → Nat × Nat) (s : Nat × Nat) : Nat × Nat :=
  if s.1 = inp then w s.2 else (f s.1, s.2)

/-- The operations that stay. -/
def keptOf (C : Circ) (nodes : List Nat) : List Nat :=
  (C.members.filter fun n => n ∉ nodes).filter fun n => n ≠ C.inp ∧ n ≠ C.out

/-- Reading a wire when the outputs of the subgraph have the values `y`. -/
def rd (outs : List (Nat × Nat)) (v : Nat × Nat → D) (y : List D) (s : Nat × Nat) : D :=
  match outs.idxOf? s with
  | some i => y.getD i (v s)
  | none => v s

/-- The part of the sum that stays, as a function of the outputs of the subgraph. -/
def rest [CommSemiring R] (A : Weights D R) (C : Circ) (nodes : List Nat) (outs : List (Nat × Nat)) (B : List D → R)
    (v : Nat × Nat → D) (y : List D) : R :=
  ((keptOf C nodes).map fun n => A.weight (C.op n) (C.content n) ((C.ins n).map (rd outs v y))
    ((List.range (A.arity (C.op n))).map fun p => v (n, p))).prod * B ((C.ins C.out).map (rd outs v y))

/-- Ports of a side, where they are. -/
theorem ports_place {A : Weights D R} {P : Circ} (hP : P.Plain) (f : Nat → Nat) (w : Nat → Nat × Nat) {op : Nat → Op}
    (hop : ∀ n ∈ P.cmds, op (f n) = P.op n) :
    (P.ports A).map (place P.inp f w) = portsOf (fun n => A.arity (op n)) (P.inner.map f) := by
  rw [Circ.ports, portsOf, List.map_flatMap, List.flatMap_map]
  have : ∀ {l : List Nat}, (∀ n ∈ l, n ∈ P.cmds) →
      (l.flatMap fun a => ((List.range (A.arity (P.op a))).map fun p => (a, p)).map (place P.inp f w)) =
      l.flatMap fun a => (List.range (A.arity (op (f a)))).map fun p => (f a, p) := by
    intro l
    induction l with
    | nil => intro _; rfl
    | cons n l ih =>
      intro h
      have hn := h n (by simp)
      rw [List.flatMap_cons, List.flatMap_cons, ih (fun m hm => h m (by simp [hm])), List.map_map, hop n hn]
      congr 1
      apply List.map_congr_left
      intro p _
      simp only [Function.comp, place, if_neg (hP.cmd_mem hn).2.1]
  exact this fun n hn => hP.inner.mp hn

theorem perm_inner {P R C : Circ} {f w nodes base} (h : Site P R C f w nodes base)
    (hC : C.members.Nodup) (hP : P.members.Nodup) : C.inner.Perm (keptOf C nodes ++ P.inner.map f) := by
  have hPi : P.inner.Nodup := hP.filter _
  have hmap : (P.inner.map f).Nodup := by
    refine List.Nodup.map_on ?_ hPi
    intro a ha b hb
    exact h.copy.inj a (h.plainP.inner.mp ha) b (h.plainP.inner.mp hb)
  rw [Circ.inner, List.perm_ext_iff_of_nodup (hC.filter _)]
  · intro n
    rw [ List.mem_append, keptOf, List.mem_filter, List.mem_filter, List.mem_filter, List.mem_map]
    simp only [decide_eq_true_eq]
    constructor
    · rintro ⟨h1, h2⟩
      by_cases hn : n ∈ nodes
      · obtain ⟨m, hm, rfl⟩ := (h.mem n).mp hn
        exact .inr ⟨m, h.plainP.inner.mpr hm, rfl⟩
      · exact .inl ⟨⟨h1, hn⟩, h2⟩
    · rintro (⟨⟨h1, _⟩, h2⟩ | ⟨m, hm, rfl⟩)
      · exact ⟨h1, h2⟩
      · have hm' := h.plainP.inner.mp hm
        exact h.copy.members m hm'
  · refine List.Nodup.append ((hC.filter _).filter _) hmap ?_
    intro n h1 h2
    obtain ⟨m, hm, rfl⟩ := List.mem_map.mp h2
    rw [keptOf, List.mem_filter, List.mem_filter] at h1
    simp only [decide_eq_true_eq] at h1
    exact h1.1.2 ((h.mem _).mpr ⟨m, h.plainP.inner.mp hm, rfl⟩)

theorem inner_replaced {P R C : Circ} {f w nodes base} (h : Site P R C f w nodes base) (outs ws : List (Nat × Nat)) :
    (replaced C R nodes outs ws base).inner = keptOf C nodes ++ R.inner.map (base + ·) := by
  have h1 := h.fresh.io.1
  have h2 := h.fresh.io.2
  show List.filter _ ((C.members.filter fun n => n ∉ nodes) ++
    (R.members.filter fun n => n ≠ R.inp ∧ n ≠ R.out).map (base + ·)) = _
  rw [List.filter_append]
  congr 1
  refine List.filter_eq_self.mpr ?_
  intro a ha
  obtain ⟨m, _, rfl⟩ := List.mem_map.mp ha
  have g : base + m ≠ C.inp ∧ base + m ≠ C.out := by omega
  exact decide_eq_true g

theorem keptOf_mem {C : Circ} {nodes : List Nat} {n : Nat} (h : n ∈ keptOf C nodes) :
    n ∈ C.members ∧ n ∉ nodes ∧ n ≠ C.inp ∧ n ≠ C.out := by
  rw [keptOf, List.mem_filter, List.mem_filter] at h
  simp only [decide_eq_true_eq] at h
  exact ⟨h.1.1, h.1.2, h.2⟩

theorem portsOf_append (ar : Nat → Nat) (a b : List Nat) : portsOf ar (a ++ b) = portsOf ar a ++ portsOf ar b :=
  List.flatMap_append

theorem portsOf_congr {ar ar' : Nat → Nat} {l : List Nat} (h : ∀ n ∈ l, ar n = ar' n) :
    portsOf ar l = portsOf ar' l := by
  induction l with
  | nil => rfl
  | cons n l ih =>
    rw [portsOf, List.flatMap_cons, portsOf, List.flatMap_cons, h n (by simp)]
    congr 1
    exact ih fun m hm => h m (by simp [hm])

/-- A sum over the ports of a side where it stands is the sum of the side. -/
theorem side_sum [DecidableEq D] [CommSemiring R] {A : Weights D R} {S C : Circ} (hS : S.Plain) (hSn : S.members.Nodup)
    (hr : InRange A S) (g : Nat → Nat) (w : Nat → Nat × Nat) (nodes : List Nat) (outs : List (Nat × Nat))
    (B : List D → R) (v : Nat × Nat → D)
    (hinj : ∀ a ∈ S.cmds, ∀ b ∈ S.cmds, g a = g b → a = b)
    (hw : ∀ i, i < S.numInputs → ∀ n ∈ S.cmds, (w i).1 ≠ g n)
    (C' : Circ) (hop : ∀ n ∈ S.cmds, C'.op (g n) = S.op n) (hcon : ∀ n ∈ S.cmds, C'.content (g n) = S.content n)
    (hins : ∀ n ∈ S.cmds, C'.ins (g n) = (S.ins n).map (place S.inp g w))
    (hrest : ∀ (v' u' : Nat × Nat → D), (∀ s ∈ S.ins S.out, u' s = v' (place S.inp g w s)) →
      (∀ q : Nat × Nat, (∀ n ∈ S.cmds, q.1 ≠ g n) → v' q = v q) →
      ((keptOf C nodes).map (entryAt A C' v')).prod * B ((C'.ins C'.out).map v') =
        rest A C nodes outs B v ((S.ins S.out).map u')) :
    sumOver ((S.ports A).map (place S.inp g w))
      (fun v' => ((keptOf C nodes ++ S.inner.map g).map (entryAt A C' v')).prod * B ((C'.ins C'.out).map v')) v =
    weighted A S (fun i => v (w i)) (rest A C nodes outs B v) := by
  have hplace : ∀ s ∈ S.ports A, place S.inp g w s = (g s.1, s.2) := by
    intro s hs
    have := hS.inner.mp (mem_ports.mp hs).1
    rw [place, if_neg (hS.cmd_mem this).2.1]
  refine sumOver_map _ _ (fun s => s.1 = S.inp ∧ s.2 < S.numInputs) ?_ ?_ ?_ ?_
  · refine List.Nodup.map_on ?_ (portsOf_nodup _ (hSn.filter _))
    intro a ha b hb he
    rw [hplace a ha, hplace b hb, Prod.mk.injEq] at he
    exact Prod.ext (hinj _ (hS.inner.mp (mem_ports.mp ha).1) _ (hS.inner.mp (mem_ports.mp hb).1) he.1) he.2
  · rintro i ⟨h1, h2⟩ hm
    obtain ⟨s, hs, he⟩ := List.mem_map.mp hm
    rw [hplace s hs, place, if_pos h1] at he
    exact hw _ h2 _ (hS.inner.mp (mem_ports.mp hs).1) (by rw [← he])
  · rintro i ⟨h1, _⟩
    rw [place, if_pos h1]
  · intro v' u' hu hv
    have hsrc : ∀ n ∈ S.members, ∀ s ∈ S.ins n, u' s = v' (place S.inp g w s) := by
      intro n hn s hs
      rcases hS.sources n hn s hs with hc | hc
      · refine hu s (.inr (mem_ports.mpr ⟨hS.inner.mpr hc, ?_⟩))
        exact (hr n hn s hs).resolve_left (hS.cmd_mem hc).2.1
      · exact hu s (.inl hc)
    rw [List.map_append, List.prod_append, List.map_map]
    have hin : S.inner.map (entryAt A C' v' ∘ g) = S.inner.map (entryAt A S u') := by
      apply List.map_congr_left
      intro n hn
      have hc := hS.inner.mp hn
      simp only [Function.comp, entryAt, hop n hc, hcon n hc, hins n hc, List.map_map]
      congr 1
      · apply List.map_congr_left
        intro s hs
        exact (hsrc n (hS.cmd_mem hc).1 s hs).symm
      · apply List.map_congr_left
        intro p hp
        rw [hu (n, p) (.inr (mem_ports.mpr ⟨hn, List.mem_range.mp hp⟩)), place, if_neg (hS.cmd_mem hc).2.1]
    rw [hin, ← hrest v' u' (hsrc S.out ((hS.members _).mpr (.inr rfl))) ?_]
    · ring
    · intro q hq
      refine hv q ?_
      intro hm
      obtain ⟨s, hs, he⟩ := List.mem_map.mp hm
      rw [hplace s hs] at he
      exact hq _ (hS.inner.mp (mem_ports.mp hs).1) (by rw [← he])

/-- Amplitudes are kept. -/
theorem Site.amplitude [DecidableEq D] [CommSemiring R] {A : Weights D R} {P Q C : Circ} {f w nodes base}
    (h : Site P Q C f w nodes base) (hC : C.members.Nodup) (hP : P.members.Nodup) (hQ : Q.members.Nodup)
    (rP : InRange A P) (rQ : InRange A Q) {k : R}
    (hrule : ∀ x y, Matching.amplitude A P x y = k * Matching.amplitude A Q x y) (x : Nat → D) (B : List D → R) :
    weighted A C x B =
      k * weighted A (replaced C Q nodes (imgOuts P f) ((List.range P.numInputs).map w) base) x B := by
  have hout := h.out_notin
  have hfb : ∀ m ∈ P.cmds, f m < base := fun m hm => h.fresh.members _ (h.copy.members m hm).1
  have hob : ¬ base ≤ C.out := by have := h.fresh.io.2; omega
  set C' := replaced C Q nodes (imgOuts P f) ((List.range P.numInputs).map w) base with hC'
  -- the old circuit
  have e1 : weighted A C x B = sumOver (portsOf (fun n => A.arity (C.op n)) (keptOf C nodes))
      (fun v => weighted A P (fun i => v (w i)) (rest A C nodes (imgOuts P f) B v)) (fun s => x s.2) := by
    have hp := perm_inner h hC hP
    have hperm : (C.ports A).Perm (portsOf (fun n => A.arity (C.op n)) (keptOf C nodes) ++
        (P.ports A).map (place P.inp f w)) := by
      rw [ports_place h.plainP f w h.copy.op, ← portsOf_append]
      exact hp.flatMap_right _
    rw [weighted, sumOver_perm hperm (portsOf_nodup _ (hC.filter _)), sumOver_append]
    refine sumOver_congr _ fun v _ => ?_
    rw [← side_sum h.plainP hP rP f w nodes (imgOuts P f) B v h.copy.inj ?_ C h.copy.op h.content ?_ ?_]
    · refine sumOver_congr _ fun v' _ => ?_
      rw [(hp.map _).prod_eq]
    · intro i hi n hn he
      exact (h.wires i hi).1 (he ▸ (h.mem _).mpr ⟨n, hn, rfl⟩)
    · intro n hn
      apply List.ext_getElem?
      intro j
      rw [List.getElem?_map]
      cases hs : (P.ins n)[j]? with
      | none =>
        rw [List.getElem?_eq_none_iff, ← h.len n hn] at hs
        rw [List.getElem?_eq_none hs]; rfl
      | some s =>
        rcases h.plainP.sources n (h.plainP.cmd_mem hn).1 s (List.mem_of_getElem? hs) with hc | ⟨hc, _⟩
        · rw [h.copy.edge n hn j s hs (h.plainP.cmd_mem hc).2.1, Option.map_some, place,
            if_neg (h.plainP.cmd_mem hc).2.1]
        · rw [h.copy.input n hn j s hs hc, Option.map_some, place, if_pos hc]
    · intro v' u' hu hv
      have hread : ∀ n ∈ C.members, n ∉ nodes → ∀ s ∈ C.ins n, v' s = rd (imgOuts P f) v ((P.ins P.out).map u') s := by
        intro n hn hnn s hs
        rw [rd]
        cases hi : (imgOuts P f).idxOf? s with
        | none =>
          refine hv s ?_
          intro m hm he
          exact idxOf?_none hi (h.leave n hn hnn s hs ((h.mem _).mpr ⟨m, hm, he⟩))
        | some i =>
          have hsi := idxOf?_some hi
          rw [imgOuts, List.getElem?_map, Option.map_eq_some_iff] at hsi
          obtain ⟨t, ht, rfl⟩ := hsi
          have hm := List.mem_of_getElem? ht
          simp only [List.getD_eq_getElem?_getD, List.getElem?_map, ht, Option.map_some, Option.getD_some]
          rw [hu t hm, place, if_neg (h.plainP.cmd_mem (h.bare t hm)).2.1]
      rw [rest]
      congr 2
      · apply List.map_congr_left
        intro n hn
        obtain ⟨g1, g2, _⟩ := keptOf_mem hn
        rw [entryAt]
        congr 1
        · exact List.map_congr_left fun s hs => hread n g1 g2 s hs
        · apply List.map_congr_left
          intro p _
          refine hv (n, p) ?_
          intro m hm he
          exact g2 ((h.mem _).mpr ⟨m, hm, he⟩)
      · exact List.map_congr_left fun s hs => hread _ h.io.1 hout.1 s hs
  -- the new circuit
  have e2 : weighted A C' x B = sumOver (portsOf (fun n => A.arity (C.op n)) (keptOf C nodes))
      (fun v => weighted A Q (fun i => v (w i)) (rest A C nodes (imgOuts P f) B v)) (fun s => x s.2) := by
    have hkb : ∀ n ∈ keptOf C nodes, ¬ base ≤ n := by
      intro n hn
      have := h.fresh.members n (keptOf_mem hn).1
      omega
    have hop : ∀ n, C'.op (base + n) = Q.op n := by
      intro n
      simp only [hC', replaced, Nat.le_add_right, if_true, Nat.add_sub_cancel_left]
    have hports : C'.ports A = portsOf (fun n => A.arity (C.op n)) (keptOf C nodes) ++
        (Q.ports A).map (place Q.inp (base + ·) w) := by
      have : C'.ports A = portsOf (fun n => A.arity (C'.op n)) C'.inner := rfl
      rw [this, ports_place h.plainR (op := C'.op) (base + ·) w (fun n _ => hop n), inner_replaced h, portsOf_append]
      congr 1
      apply portsOf_congr
      intro n hn
      simp only [hC', replaced, if_neg (hkb n hn)]
    have hnew : ∀ n ∈ Q.members, ∀ s ∈ Q.ins n,
        newSource base ((List.range P.numInputs).map w) Q s = place Q.inp (base + ·) w s := by
      intro n hn s hs
      rcases h.newCases hn hs with ⟨g1, g2⟩ | ⟨g1, _, g2⟩
      · rw [g2, place, if_neg (h.plainR.cmd_mem g1).2.1]
      · rw [g2, place, if_pos (by rw [g1])]
    rw [weighted, hports, sumOver_append]
    refine sumOver_congr _ fun v _ => ?_
    rw [← side_sum h.plainR hQ rQ (base + ·) w nodes (imgOuts P f) B v ?_ ?_ C' (fun n _ => hop n) ?_ ?_ ?_]
    · refine sumOver_congr _ fun v' _ => ?_
      rw [inner_replaced h]
    · intro a _ b _ he
      simpa using he
    · intro i hi n _ he
      have := (h.wires i (h.inputs ▸ hi)).2
      omega
    · intro n _
      simp only [hC', replaced, Nat.le_add_right, if_true, Nat.add_sub_cancel_left]
    · intro n hn
      simp only [hC', replaced, Nat.le_add_right, if_true, Nat.add_sub_cancel_left]
      exact List.map_congr_left fun s hs => hnew n (h.plainR.cmd_mem hn).1 s hs
    · intro v' u' hu hv
      have hRout : Q.out ∈ Q.members := (h.plainR.members _).mpr (.inr rfl)
      have hread : ∀ n ∈ C.members, ∀ s ∈ C.ins n,
          v' (oldSource base ((List.range P.numInputs).map w) (imgOuts P f) Q s) =
            rd (imgOuts P f) v ((Q.ins Q.out).map u') s := by
        intro n hn s hs
        rw [rd]
        cases hi : (imgOuts P f).idxOf? s with
        | none =>
          rw [oldSource, hi]
          refine hv s ?_
          intro m hm he
          have := h.fresh.sources n hn s hs
          omega
        | some i =>
          have hsi := idxOf?_some hi
          have hltR : i < (Q.ins Q.out).length := by
            have := (List.getElem?_eq_some_iff.mp hsi).1
            rw [imgOuts, List.length_map] at this
            rw [h.outputs]; exact this
          have ht := List.getElem?_eq_getElem hltR
          have hm := List.mem_of_getElem? ht
          rw [oldSource, hi]
          simp only [List.getD_eq_getElem?_getD, List.getElem?_map, ht, Option.map_some, Option.getD_some]
          rw [hu _ hm, hnew _ hRout _ hm]
      rw [rest]
      congr 2
      · apply List.map_congr_left
        intro n hn
        obtain ⟨g1, g2, _⟩ := keptOf_mem hn
        simp only [entryAt, hC', replaced, if_neg (hkb n hn), List.map_map]
        congr 1
        · exact List.map_congr_left fun s hs => hread n g1 s hs
        · apply List.map_congr_left
          intro p _
          refine hv (n, p) ?_
          intro m hm he
          exact hkb n hn (by simp only at he; omega)
      · simp only [hC', replaced, if_neg hob, List.map_map]
        exact List.map_congr_left fun s hs => hread _ h.io.1 s hs
  rw [e1, e2, ← sumOver_mul]
  exact sumOver_congr _ fun v _ => weighted_of_amplitude h.outputs hrule _ _

theorem amplitude_weighted [DecidableEq D] [CommSemiring R] (A : Weights D R) (c : Circ) (x : Nat → D) (y : List D) :
    amplitude A c x y = weighted A c x fun l => if l = y then 1 else 0 := rfl

theorem Site.same [DecidableEq D] [CommSemiring R] {A : Weights D R} {K : R → Prop} {lin : Nat → Prop} {u : Rule}
    {C : Circ} {f w nodes base} (h : Site u.left.toCirc u.right.toCirc C f w nodes base) (hC : C.members.Nodup)
    (hu : u.Fit lin) (ha : u.Agree A K) :
    SameUpTo A K C (replaced C u.right.toCirc nodes (imgOuts u.left.toCirc f)
      ((List.range u.left.numInputs).map w) base) := by
  obtain ⟨k, hk, hs⟩ := ha.same
  refine ⟨k, hk, fun x y => ?_⟩
  rw [amplitude_weighted, amplitude_weighted]
  exact h.amplitude hC ha.once hu.right.2.nodup ha.left ha.right hs x _

theorem SameUpTo.refl [DecidableEq D] [CommSemiring R] {A : Weights D R} {K : R → Prop} (hK : Factors K) (c : Circ) :
    SameUpTo A K c c := ⟨1, hK.one, fun x y => by rw [one_mul]⟩

theorem SameUpTo.trans [DecidableEq D] [CommSemiring R] {A : Weights D R} {K : R → Prop} (hK : Factors K)
    {c d e : Circ} (h : SameUpTo A K c d) (g : SameUpTo A K d e) : SameUpTo A K c e := by
  obtain ⟨k, hk, h⟩ := h
  obtain ⟨l, hl, g⟩ := g
  exact ⟨k * l, hK.mul k l hk hl, fun x y => by rw [h, g, mul_assoc]⟩

theorem sumOver_run [DecidableEq D] [CommSemiring R] (A : Weights D R) (c : Circ) (y : List D) : ∀ {l : List Nat},
    l.Nodup → (l.Pairwise fun a b => ∀ s ∈ c.ins a, s.1 ≠ b) → ∀ v,
    sumOver (portsOf (fun n => A.arity (c.op n)) l)
      (fun v => (l.map (entryAt A c v)).prod * if (c.ins c.out).map v = y then 1 else 0) v = run A c y l v
  | [], _, _, v => by simp [portsOf, sumOver, run]
  | n :: l, hn, hl, v => by
    rw [List.nodup_cons] at hn
    rw [List.pairwise_cons] at hl
    have hp : portsOf (fun n => A.arity (c.op n)) (n :: l) =
        ((List.range (A.arity (c.op n))).map fun p => (n, p)) ++ portsOf (fun n => A.arity (c.op n)) l := rfl
    rw [hp, sumOver_append, run]
    refine sumOver_congr _ fun v1 _ => ?_
    rw [← sumOver_run A c y hn.2 hl.2 v1, ← sumOver_mul]
    refine sumOver_congr _ fun v2 h2 => ?_
    have hout : ∀ q : Nat × Nat, q.1 ∉ l → v2 q = v1 q := by
      intro q hq
      refine h2 q fun hm => hq ?_
      obtain ⟨m, hml, hs⟩ := List.mem_flatMap.mp hm
      obtain ⟨p, _, rfl⟩ := List.mem_map.mp hs
      exact hml
    have he : entryAt A c v2 n = entryAt A c v1 n := by
      rw [entryAt, entryAt]
      congr 1
      · exact List.map_congr_left fun s hs => hout s fun hm => hl.1 _ hm s hs rfl
      · exact List.map_congr_left fun p _ => hout (n, p) hn.1
    rw [List.map_cons, List.prod_cons, he, mul_assoc]

theorem sumOver_point [AddCommMonoid R] (val : Nat × Nat → D) : ∀ {ps : List (Nat × Nat)} {F : (Nat × Nat → D) → R}
    {v : Nat × Nat → D}, ps.Nodup →
    (∀ v', (∀ q, q ∉ ps → v' q = v q) → (∃ q ∈ ps, v' q ≠ val q) → F v' = 0) →
    sumOver ps F v = F fun q => if q ∈ ps then val q else v q
  | [], F, v, _, _ => by simp [sumOver]
  | s :: ss, F, v, hn, h => by
    rw [List.nodup_cons] at hn
    have hz : ∀ (ps : List (Nat × Nat)) (v : Nat × Nat → D), sumOver ps (fun _ => (0 : R)) v = 0 := by
      intro ps
      induction ps with
      | nil => intro _; rfl
      | cons _ _ ih => intro v; simp [sumOver, ih]
    rw [sumOver, Finset.sum_eq_single (val s)]
    · rw [sumOver_point val hn.2]
      · congr 1
        funext q
        by_cases hq : q = s
        · subst hq
          simp [hn.1]
        · simp [hq]
      · rintro v' h1 ⟨q, hq, h2⟩
        refine h v' ?_ ⟨q, List.mem_cons_of_mem _ hq, h2⟩
        intro q' hq'
        rw [List.mem_cons, not_or] at hq'
        rw [h1 q' hq'.2, Function.update_of_ne hq'.1]
    · intro d _ hd
      rw [← hz ss (Function.update v s d)]
      refine sumOver_congr _ fun v' h1 => h v' ?_ ⟨s, by simp, ?_⟩
      · intro q hq
        rw [List.mem_cons, not_or] at hq
        rw [h1 q hq.2, Function.update_of_ne hq.1]
      · rw [h1 s hn.1, Function.update_self]
        exact hd
    · intro h
      exact absurd (Finset.mem_univ _) h

omit [Fintype D] in
theorem entryAt_ofFun [DecidableEq D] [CommSemiring R] {arity : Op → Nat} {sem : Op → Nat → List D → Nat → D}
    {c : Circ} {v : Nat × Nat → D} {n : Nat} :
    entryAt (Weights.ofFun (R := R) arity sem) c v n =
      if ∀ p < arity (c.op n), v (n, p) = sem (c.op n) (c.content n) ((c.ins n).map v) p then 1 else 0 := by
  rw [entryAt, Weights.ofFun]
  simp only
  congr 1
  rw [eq_iff_iff]
  constructor
  · intro h p hp
    have := congrArg (·[p]?) h
    simpa [hp] using this
  · intro h
    exact List.map_congr_left fun p hp => h p (List.mem_range.mp hp)

/-- Entries of functions. -/
theorem amplitude_ofFun [DecidableEq D] [CommSemiring R] (arity : Op → Nat) (sem : Op → Nat → List D → Nat → D)
    {lin : Nat → Prop} {c : TCirc} (hc : Proper lin c)
    (hr : InRange (Weights.ofFun (R := R) arity sem) c.toCirc)
    (ho : ∀ n ∈ c.members, ∀ s ∈ c.ins n, s.1 ≠ c.out) (x : Nat → D) (y : List D) :
    ∃ y', Means sem c.toCirc x y' ∧
      amplitude (Weights.ofFun (R := R) arity sem) c.toCirc x y = if y' = y then 1 else 0 := by
  obtain ⟨y', hy⟩ := means_total sem hc x
  refine ⟨y', hy, ?_⟩
  obtain ⟨val, hruns, hin, rfl⟩ := hy
  have hinner : ∀ n, n ∈ c.inner ↔ n ∈ c.members ∧ n ≠ c.out := by
    intro n
    rw [Circ.inner, List.mem_filter]
    simp only [decide_eq_true_eq]
    exact ⟨fun h => ⟨h.1, h.2.2⟩, fun h => ⟨h.1, fun he => hc.inp (he ▸ h.1), h.2⟩⟩
  -- where wires come from
  have hsrc : ∀ n ∈ c.members, ∀ s ∈ c.ins n, s.1 = c.inp ∨ s ∈ c.ports (Weights.ofFun (R := R) arity sem) := by
    intro n hn s hs
    rcases hc.wf.sources n hn s hs with h | h
    · right
      rw [mem_ports, hinner]
      refine ⟨⟨h, ho n hn s hs⟩, (hr n hn s hs).resolve_left fun he => hc.inp ?_⟩
      rwa [← he]
    · exact .inl h
  have hports : ∀ q ∈ c.ports (Weights.ofFun (R := R) arity sem), q.1 ≠ c.inp := by
    intro q hq he
    exact hc.inp (he ▸ ((hinner _).mp (mem_ports.mp hq).1).1)
  have hnd : (c.ports (Weights.ofFun (R := R) arity sem)).Nodup := portsOf_nodup _ (hc.nodup.filter _)
  rw [amplitude, sumOver_point (fun q => val q.1 q.2) hnd]
  · have hread : ∀ n ∈ c.members, ∀ s ∈ c.ins n,
        (if s ∈ c.ports (Weights.ofFun (R := R) arity sem) then val s.1 s.2 else x s.2) = val s.1 s.2 := by
      intro n hn s hs
      rcases hsrc n hn s hs with h | h
      · rw [if_neg fun hm => hports s hm h, h, hin]
      · rw [if_pos h]
    have h1 : (c.ins c.out).map (fun q => if q ∈ c.ports (Weights.ofFun (R := R) arity sem) then val q.1 q.2 else x q.2) =
        (c.ins c.out).map fun s => val s.1 s.2 :=
      List.map_congr_left fun s hs => hread _ hc.wf.out.1 s hs
    rw [h1]
    have h2 : (c.inner.map (entryAt (Weights.ofFun (R := R) arity sem) c.toCirc
        fun q => if q ∈ c.ports (Weights.ofFun (R := R) arity sem) then val q.1 q.2 else x q.2)).prod = 1 := by
      refine List.prod_eq_one ?_
      intro e he
      obtain ⟨n, hn, rfl⟩ := List.mem_map.mp he
      obtain ⟨hm, hno⟩ := (hinner n).mp hn
      rw [entryAt_ofFun, if_pos]
      intro p hp
      rw [if_pos (mem_ports.mpr ⟨hn, hp⟩), hruns n hm (fun he => hc.inp (he ▸ hm)) hno p]
      congr 1
      exact (List.map_congr_left fun s hs => hread n hm s hs).symm
    rw [h2, one_mul]
  · rintro v' h1 ⟨q, hq, h2⟩
    by_contra hne
    apply h2
    have hent : ∀ n ∈ c.inner, ∀ p < arity (c.op n),
        v' (n, p) = sem (c.op n) (c.content n) ((c.ins n).map v') p := by
      intro n hn
      by_contra hf
      apply hne
      have : (0 : R) ∈ c.inner.map (entryAt (Weights.ofFun (R := R) arity sem) c.toCirc v') :=
        List.mem_map.mpr ⟨n, hn, by rw [entryAt_ofFun, if_neg hf]⟩
      rw [List.prod_eq_zero this, zero_mul]
    let T := {y : Nat // y ∈ c.members}
    have hfin : Finite T := (List.finite_toSet c.members).to_subtype
    let Q : T → T → Prop := fun a b => Relation.TransGen (Feeds c.toCirc) a.1 b.1
    have : IsTrans T Q := ⟨fun _ _ _ h1 h2 => Relation.TransGen.trans h1 h2⟩
    have : Std.Irrefl Q := ⟨fun a h => hc.acyclic a.1 h⟩
    have hwf : WellFounded Q := Finite.wellFounded_of_trans_of_irrefl Q
    have key : ∀ n : T, ∀ p, (n.1, p) ∈ c.ports (Weights.ofFun (R := R) arity sem) → v' (n.1, p) = val n.1 p := by
      intro n
      induction n using hwf.induction with
      | _ n ih =>
        intro p hp
        obtain ⟨hi, hlt⟩ := mem_ports.mp hp
        obtain ⟨hm, hno⟩ := (hinner _).mp hi
        rw [hent n.1 hi p hlt, hruns n.1 hm (fun he => hc.inp (he ▸ hm)) hno p]
        congr 1
        apply List.map_congr_left
        intro s hs
        rcases hsrc n.1 hm s hs with h | h
        · rw [h1 s fun hms => hports s hms h, h, hin]
        · have hms := ((hinner _).mp (mem_ports.mp h).1).1
          exact ih ⟨s.1, hms⟩ (.single ⟨hm, s, hs, rfl⟩) s.2 h
    exact key ⟨q.1, ((hinner _).mp (mem_ports.mp hq).1).1⟩ q.2 hq

end Verif.Matching
