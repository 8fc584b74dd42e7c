import Verif.Model.EccRunSpec
import Verif.Lemmas.Amplitude
import Verif.Lemmas.Together
import Verif.Props.Rules
import Mathlib.Tactic.Push

/-
Lemmas about removing empty wires and about circuits of gates.
-/
namespace Verif.Matching

open Relation

variable {lin : Nat → Prop} {arity : Op → Nat} {c : TCirc}

theorem collect_some {α β : Type} {f : α → Option β} : ∀ {l : List α} {r : List β}, collect f l = some r →
    (∀ b, b ∈ r ↔ ∃ a ∈ l, f a = some b)
  | [], r, h => by
    simp only [collect, Option.some.injEq] at h
    subst h; simp
  | a :: l, r, h => by
    simp only [collect, Option.bind_eq_some_iff, Option.map_eq_some_iff] at h
    obtain ⟨b0, h1, r', h2, rfl⟩ := h
    intro b
    rw [List.mem_cons, collect_some h2 b]
    constructor
    · rintro (rfl | ⟨a', h3, h4⟩)
      · exact ⟨a, by simp, h1⟩
      · exact ⟨a', by simp [h3], h4⟩
    · rintro ⟨a', h3, h4⟩
      rcases List.mem_cons.mp h3 with rfl | h3
      · rw [h1] at h4
        exact .inl (by simpa using h4.symm)
      · exact .inr ⟨a', h3, h4⟩

theorem collect_each {α β : Type} {f : α → Option β} : ∀ {l : List α} {r : List β}, collect f l = some r →
    ∀ {a}, a ∈ l → ∃ b, f a = some b
  | [], _, _, _, ha => by simp at ha
  | b :: l, r, h, a, ha => by
    simp only [collect, Option.bind_eq_some_iff, Option.map_eq_some_iff] at h
    obtain ⟨b0, e1, r', e2, _⟩ := h
    rcases List.mem_cons.mp ha with rfl | ha
    · exact ⟨b0, e1⟩
    · exact collect_each e2 ha

theorem collect_total {α β : Type} {f : α → Option β} : ∀ {l : List α}, (∀ a ∈ l, f a ≠ none) →
    ∃ r, collect f l = some r
  | [], _ => ⟨[], rfl⟩
  | a :: l, h => by
    obtain ⟨b, hb⟩ := Option.ne_none_iff_exists'.mp (h a (by simp))
    obtain ⟨r, hr⟩ := collect_total (f := f) (l := l) fun a ha => h a (by simp [ha])
    exact ⟨b :: r, by simp [collect, hb, hr]⟩

theorem Gates.mixed (h : Gates lin arity c) : Mixed lin arity c := by
  refine ⟨h.proper, h.plain, h.range, ?_, h.used, h.inputs, h.gates⟩
  intro s hs
  obtain ⟨q, hq⟩ := List.getElem?_of_mem hs
  have hlt : q < (c.op c.out).kinds.length := by
    rw [← h.proper.wf.length _ h.proper.wf.out.1]
    exact (List.getElem?_eq_some_iff.mp hq).1
  refine (h.proper.typed _ h.proper.wf.out.1 q s hq).mp ?_
  rw [List.getElem?_eq_getElem hlt, h.linear _ h.proper.wf.out.1 _ (List.getElem_mem hlt)]

/-- Every linear port feeds at most one input. -/
theorem Mixed.one (h : Mixed lin arity c) {m q m' q' : Nat} {s : Nat × Nat} (hl : lin (c.ty s.1 s.2)) (hm : m ∈ c.members)
    (hq : (c.ins m)[q]? = some s) (hm' : m' ∈ c.members) (hq' : (c.ins m')[q']? = some s) : m = m' ∧ q = q' := by
  have hk := (h.proper.typed m hm q s hq).mpr hl
  have hs := h.proper.wf.linear m hm q s hk hq
  have : (m', q') ∈ consumers c.toCirc s.1 s.2 := mem_consumers.mpr ⟨hm', hq'⟩
  rw [hs] at this
  simp only [List.mem_singleton, Prod.mk.injEq] at this
  exact ⟨this.1.symm, this.2.symm⟩

theorem Mixed.consumers (h : Mixed lin arity c) {m q : Nat} {s : Nat × Nat} (hl : lin (c.ty s.1 s.2)) (hm : m ∈ c.members)
    (hq : (c.ins m)[q]? = some s) : consumers c.toCirc s.1 s.2 = [(m, q)] :=
  h.proper.wf.linear m hm q s ((h.proper.typed m hm q s hq).mpr hl) hq

/-- What the output reads is read by nothing else. -/
theorem Mixed.last (h : Mixed lin arity c) {j : Nat} {s : Nat × Nat} (hj : (c.ins c.out)[j]? = some s) {m q : Nat}
    (hm : m ∈ c.members) (hq : (c.ins m)[q]? = some s) : m = c.out ∧ q = j :=
  h.one (h.outputs s (List.mem_of_getElem? hj)) hm hq h.proper.wf.out.1 hj

/-- Empty wires go to outputs. -/
theorem Mixed.mem_empty (h : Mixed lin arity c) {k : Nat} :
    k ∈ emptyOf c ↔ k < c.numInputs ∧ ∃ j : Nat, (c.ins c.out)[j]? = some (c.inp, k) := by
  rw [emptyOf, List.mem_filter, List.mem_range]
  refine and_congr_right fun hk => ?_
  constructor
  · intro hm
    obtain ⟨m, hm', hs⟩ := h.inputs k hk
    obtain ⟨q, hq⟩ := List.getElem?_of_mem hs
    have hc : (m, q) ∈ Matching.consumers c.toCirc c.inp k := mem_consumers.mpr ⟨hm', hq⟩
    split at hm
    · rename_i he
      rw [he] at hc; simp at hc
    · rename_i n j he
      rw [he] at hc
      simp only [List.mem_singleton, Prod.mk.injEq] at hc
      simp only [decide_eq_true_eq] at hm
      obtain ⟨rfl, rfl⟩ := hc
      rw [hm] at hq
      exact ⟨_, hq⟩
    · simp at hm
  · rintro ⟨j, hj⟩
    have := h.consumers (h.outputs _ (List.mem_of_getElem? hj)) h.proper.wf.out.1 hj
    simp only at this
    rw [this]
    simp

theorem Mixed.removeWire (h : Mixed lin arity c) {k j : Nat} (hj : (c.ins c.out)[j]? = some (c.inp, k)) :
    removeWire c k = some (cut c k (some j)) := by
  have hk : k < c.numInputs := by
    rcases h.plain.sources _ h.proper.wf.out.1 _ (List.mem_of_getElem? hj) with h1 | h1
    · exact absurd rfl (h.plain.cmd_mem h1).2.1
    · exact h1.2
  have := h.consumers (h.outputs _ (List.mem_of_getElem? hj)) h.proper.wf.out.1 hj
  simp only at this
  rw [Matching.removeWire, if_neg (by omega), this]
  simp

/-- Wires that were removed went to outputs. -/
theorem Mixed.removed (h : Mixed lin arity c) {k : Nat} {d : TCirc} (hd : Matching.removeWire c k = some d) :
    ∃ j : Nat, (c.ins c.out)[j]? = some (c.inp, k) ∧ d = Matching.cut c k (some j) := by
  rw [Matching.removeWire] at hd
  split_ifs at hd with hk
  obtain ⟨m, hm, hs⟩ := h.inputs k (by omega)
  obtain ⟨q, hq⟩ := List.getElem?_of_mem hs
  have hc : (m, q) ∈ Matching.consumers c.toCirc c.inp k := mem_consumers.mpr ⟨hm, hq⟩
  split at hd
  · rename_i he
    rw [he] at hc; simp at hc
  · rename_i n j he
    rw [he] at hc
    simp only [List.mem_singleton, Prod.mk.injEq] at hc
    obtain ⟨rfl, rfl⟩ := hc
    split_ifs at hd with ho
    subst ho
    exact ⟨q, hq, by simpa using hd.symm⟩
  · simp at hd

theorem lowerPort_inj {inp k : Nat} {s t : Nat × Nat} (hs : s ≠ (inp, k)) (ht : t ≠ (inp, k))
    (h : lowerPort inp k s = lowerPort inp k t) : s = t := by
  obtain ⟨a, b⟩ := s
  obtain ⟨a', b'⟩ := t
  simp only [lowerPort] at h
  simp only [ne_eq, Prod.mk.injEq, not_and] at hs ht
  split_ifs at h with h1 h2 h2
  all_goals simp only [Prod.mk.injEq] at h ⊢
  · omega
  · obtain ⟨rfl, h⟩ := h
    have := ht h1.1
    simp only [not_and] at h2
    have := h2 h1.1
    omega
  · obtain ⟨rfl, h⟩ := h
    have := hs h2.1
    simp only [not_and] at h1
    have := h1 h2.1
    omega
  · exact h

theorem lowerPort_fst (inp k : Nat) (s : Nat × Nat) : (lowerPort inp k s).1 = s.1 := by
  rw [lowerPort]; split <;> rfl

theorem lowerPort_ne {inp k : Nat} {s : Nat × Nat} (h : s.1 ≠ inp) : lowerPort inp k s = s := by
  rw [lowerPort, if_neg (fun g => h g.1)]

/-- The index of an input of the output node before. -/
def oldIdx (c : TCirc) (j n q : Nat) : Nat := if n = c.out ∧ j ≤ q then q + 1 else q

theorem oldIdx_inj {j n q q' : Nat} (h : oldIdx c j n q = oldIdx c j n q') : q = q' := by
  simp only [oldIdx] at h
  split_ifs at h <;> omega

theorem cut_kinds {k j n q : Nat} : ((cut c k (some j)).op n).kinds[q]? = (c.op n).kinds[oldIdx c j n q]? := by
  simp only [cut, oldIdx]
  by_cases hn : n = c.out
  · simp only [hn, if_true, true_and, List.getElem?_eraseIdx]
    split_ifs with h1 h2 h2 <;> first | rfl | omega
  · simp [hn]

theorem cut_get (h : Mixed lin arity c) {k j : Nat} (hj : (c.ins c.out)[j]? = some (c.inp, k)) {n q : Nat}
    (hn : n ∈ c.members) {s : Nat × Nat} : ((cut c k (some j)).ins n)[q]? = some s ↔
    ∃ s0, (c.ins n)[oldIdx c j n q]? = some s0 ∧ s = lowerPort c.inp k s0 ∧ s0 ≠ (c.inp, k) := by
  have hget : ((cut c k (some j)).ins n)[q]? = ((c.ins n)[oldIdx c j n q]?).map (lowerPort c.inp k) := by
    simp only [cut, oldIdx]
    by_cases hn : n = c.out
    · simp only [hn, if_true, true_and, List.getElem?_map, List.getElem?_eraseIdx]
      split_ifs with h1 h2 h2 <;> first | rfl | omega
    · simp [hn]
  rw [hget, Option.map_eq_some_iff]
  constructor
  · rintro ⟨s0, h1, rfl⟩
    refine ⟨s0, h1, rfl, ?_⟩
    rintro rfl
    obtain ⟨rfl, h2⟩ := h.last hj hn h1
    simp only [oldIdx, true_and] at h2
    split_ifs at h2 <;> omega
  · rintro ⟨s0, h1, rfl, _⟩
    exact ⟨s0, h1, rfl⟩

theorem cut_mem (h : Mixed lin arity c) {k j : Nat} (hj : (c.ins c.out)[j]? = some (c.inp, k)) {n : Nat}
    (hn : n ∈ c.members) {s : Nat × Nat} : s ∈ (cut c k (some j)).ins n ↔
    ∃ s0 ∈ c.ins n, s = lowerPort c.inp k s0 ∧ s0 ≠ (c.inp, k) := by
  constructor
  · intro hs
    obtain ⟨q, hq⟩ := List.getElem?_of_mem hs
    obtain ⟨s0, h1, h2⟩ := (cut_get h hj hn).mp hq
    exact ⟨s0, List.mem_of_getElem? h1, h2⟩
  · rintro ⟨s0, h1, h2⟩
    obtain ⟨q, hq⟩ := List.getElem?_of_mem h1
    have hne : ¬ (n = c.out ∧ q = j) := by
      rintro ⟨rfl, rfl⟩
      rw [hj] at hq
      simp only [Option.some.injEq] at hq
      exact h2.2 hq.symm
    have : ∃ q', oldIdx c j n q' = q := by
      by_cases hc : n = c.out ∧ j ≤ q
      · refine ⟨q - 1, ?_⟩
        have : q ≠ j := fun he => hne ⟨hc.1, he⟩
        rw [oldIdx, if_pos ⟨hc.1, by omega⟩]
        omega
      · exact ⟨q, by rw [oldIdx, if_neg hc]⟩
    obtain ⟨q', rfl⟩ := this
    exact List.mem_of_getElem? ((cut_get h hj hn).mpr ⟨s0, hq, h2⟩)

theorem cut_ty (k : Nat) (j : Option Nat) {s : Nat × Nat} (hs : s ≠ (c.inp, k)) :
    (cut c k j).ty (lowerPort c.inp k s).1 (lowerPort c.inp k s).2 = c.ty s.1 s.2 := by
  obtain ⟨a, b⟩ := s
  simp only [ne_eq, Prod.mk.injEq, not_and] at hs
  have hl : ∀ s : Nat × Nat, (cut c k j).ty s.1 s.2 =
      if s.1 = c.inp ∧ k ≤ s.2 then c.ty s.1 (s.2 + 1) else c.ty s.1 s.2 := fun s => rfl
  rw [hl, lowerPort]
  by_cases ha : a = c.inp
  · have := hs ha
    by_cases hb : k < b
    · simp only [ha, hb, and_self, if_true]
      rw [if_pos ⟨trivial, by omega⟩, Nat.sub_add_cancel (by omega)]
    · simp only [ha, hb, and_false, if_false]
      rw [if_neg (fun g => by omega)]
  · simp [ha]

/-- Circuits of gates without an empty wire are circuits of gates. -/
theorem Mixed.cut (h : Mixed lin arity c) {k j : Nat} (hj : (c.ins c.out)[j]? = some (c.inp, k)) :
    Mixed lin arity (cut c k (some j)) := by
  have hout := h.proper.wf.out
  have hlt := (List.getElem?_eq_some_iff.mp hj).1
  have hk : k < c.numInputs := by
    rcases h.plain.sources _ hout.1 _ (List.mem_of_getElem? hj) with h1 | h1
    · exact absurd rfl (h.plain.cmd_mem h1).2.1
    · exact h1.2
  have hop : ∀ n, n ≠ c.out → (Matching.cut c k (some j)).op n = c.op n := by
    intro n hn
    simp only [Matching.cut, if_neg hn]
  have hcl : ∀ n ∈ c.cmds, n ≠ c.out := fun n hn => (h.plain.cmd_mem hn).2.2
  have hfeeds : ∀ a b, Feeds (Matching.cut c k (some j)).toCirc a b → Feeds c.toCirc a b := by
    rintro a b ⟨hb, s, hs, rfl⟩
    obtain ⟨s0, h1, rfl, _⟩ := (cut_mem h hj hb).mp hs
    exact ⟨hb, s0, h1, (lowerPort_fst _ _ _).symm⟩
  refine ⟨⟨⟨?_, h.proper.wf.cmds, hout, ?_, ?_, ?_⟩, h.proper.nodup, h.proper.inp, ?_, ?_, h.proper.flat⟩,
    ⟨h.plain.members, ?_, h.plain.inp, h.plain.out⟩, ?_, ?_, ?_, ?_, ?_⟩
  · intro n hn
    have := h.proper.wf.length n hn
    simp only [Matching.cut, List.length_map]
    by_cases hno : n = c.out
    · subst hno
      simp only [if_true, List.length_eraseIdx, this]
    · simp only [if_neg hno, this]
  · show List.map _ (if c.inp = c.out then _ else c.ins c.inp) = []
    rw [if_neg (Ne.symm hout.2), h.proper.wf.inp]
    rfl
  · intro n hn s hs
    obtain ⟨s0, h1, rfl, _⟩ := (cut_mem h hj hn).mp hs
    rw [lowerPort_fst]
    exact h.proper.wf.sources n hn s0 h1
  · intro n hn q s hkd hs
    refine consumers_single (c := (Matching.cut c k (some j)).toCirc) h.proper.nodup
      (mem_consumers.mpr ⟨hn, hs⟩) ?_
    rintro ⟨n', q'⟩ hx
    obtain ⟨g1, g2⟩ := mem_consumers.mp hx
    obtain ⟨s0, k1, k2, k3⟩ := (cut_get h hj hn).mp hs
    obtain ⟨s1, l1, l2, l3⟩ := (cut_get h hj g1).mp g2
    have := lowerPort_inj k3 l3 (k2.symm.trans l2)
    subst this
    rw [cut_kinds] at hkd
    obtain ⟨rfl, he⟩ := h.one ((h.proper.typed n hn _ s0 k1).mp hkd) hn k1 g1 l1
    rw [oldIdx_inj he]
  · intro n hn q s hs
    obtain ⟨s0, k1, rfl, k3⟩ := (cut_get h hj hn).mp hs
    rw [cut_kinds, cut_ty k _ k3]
    exact h.proper.typed n hn _ s0 k1
  · intro n hn
    exact h.proper.acyclic n (TransGen.mono hfeeds n n hn)
  · intro n hn s hs
    obtain ⟨s0, k1, rfl, k3⟩ := (cut_mem h hj hn).mp hs
    rcases h.plain.sources n hn s0 k1 with h1 | ⟨h1, h2⟩
    · left
      rw [lowerPort_fst]
      exact h1
    · right
      refine ⟨by rw [lowerPort_fst]; exact h1, ?_⟩
      have : s0.2 ≠ k := fun he => k3 (Prod.ext h1 he)
      show _ < c.numInputs - 1
      rw [lowerPort]
      split_ifs with hlow
      · simp only; omega
      · have : ¬ k < s0.2 := fun hh => hlow ⟨h1, hh⟩
        omega
  · intro n hn s hs
    obtain ⟨s0, k1, rfl, k3⟩ := (cut_mem h hj hn).mp hs
    rcases h.plain.sources n hn s0 k1 with h1 | ⟨h1, h2⟩
    · right
      rw [lowerPort_ne (h.plain.cmd_mem h1).2.1, hop _ (hcl _ h1)]
      exact (h.range n hn s0 k1).resolve_left (h.plain.cmd_mem h1).2.1
    · left
      rw [lowerPort_fst]
      exact h1
  · intro s hs
    obtain ⟨s0, k1, rfl, k3⟩ := (cut_mem h hj hout.1).mp hs
    rw [cut_ty k _ k3]
    exact h.outputs s0 k1
  · intro n hn p hp
    rw [hop n (hcl n hn)] at hp
    obtain ⟨m, hm, hs⟩ := h.used n hn p hp
    have hne := (h.plain.cmd_mem hn).2.1
    exact ⟨m, hm, (cut_mem h hj hm).mpr ⟨_, hs, (lowerPort_ne hne).symm, fun he => hne (by rw [Prod.mk.injEq] at he; exact he.1)⟩⟩
  · intro i hi
    have hi' : i < c.numInputs - 1 := hi
    obtain ⟨m, hm, hs⟩ := h.inputs (if i < k then i else i + 1) (by split_ifs <;> omega)
    refine ⟨m, hm, (cut_mem h hj hm).mpr ⟨_, hs, ?_, ?_⟩⟩
    · show (c.inp, i) = _
      rw [lowerPort]
      split_ifs with h1 h2 h2
      · simp only at h2; omega
      · rfl
      · rfl
      · exact absurd ⟨rfl, by simp only; omega⟩ h2
    · rw [ne_eq, Prod.mk.injEq, not_and]
      intro _
      split_ifs <;> omega
  · intro n hn
    rw [hop n (hcl n hn)]
    exact h.gates n hn

/-- Circuits of gates without an empty wire are circuits of gates. -/
theorem Gates.cut (h : Gates lin arity c) {k j : Nat} (hj : (c.ins c.out)[j]? = some (c.inp, k)) :
    Gates lin arity (cut c k (some j)) := by
  have := h.mixed.cut hj
  refine ⟨this.proper, this.plain, this.range, ?_, this.used, this.inputs, this.gates⟩
  intro n hn kd hkd
  obtain ⟨q, hq⟩ := List.getElem?_of_mem hkd
  rw [cut_kinds] at hq
  exact h.linear n hn kd (List.mem_of_getElem? hq)

section amplitudes

variable {D R : Type} [Fintype D]

theorem sumOver_two [AddCommMonoid R] : ∀ (ps : List (Nat × Nat)) {F G : (Nat × Nat → D) → R} {v u : Nat × Nat → D},
    (∀ v' u', (∀ q ∈ ps, v' q = u' q) → (∀ q, q ∉ ps → v' q = v q ∧ u' q = u q) → F v' = G u') →
    sumOver ps F v = sumOver ps G u
  | [], _, _, v, u, h => h v u (by simp) fun _ _ => ⟨rfl, rfl⟩
  | s :: ss, F, G, v, u, h => by
    refine Finset.sum_congr rfl fun d _ => sumOver_two ss ?_
    intro v' u' h1 h2
    refine h v' u' ?_ ?_
    · intro q hq
      by_cases hs : q ∈ ss
      · exact h1 q hs
      · have : q = s := (List.mem_cons.mp hq).resolve_right hs
        rw [(h2 q hs).1, (h2 q hs).2, this, Function.update_self, Function.update_self]
    · intro q hq
      rw [List.mem_cons, not_or] at hq
      rw [(h2 q hq.2).1, (h2 q hq.2).2, Function.update_of_ne hq.1, Function.update_of_ne hq.1]
      exact ⟨rfl, rfl⟩

theorem sumOver_zero [AddCommMonoid R] : ∀ (ps : List (Nat × Nat)) (v : Nat × Nat → D),
    sumOver ps (fun _ => (0 : R)) v = 0
  | [], _ => rfl
  | s :: ss, v => by
    rw [sumOver]
    exact Finset.sum_eq_zero fun d _ => sumOver_zero ss _

variable [DecidableEq D] [CommSemiring R]

/-- Amplitudes are zero for outputs that are not possible. -/
theorem amplitude_zero {A : Weights D R} {c : Circ} {x : Nat → D} {y : List D}
    (h : ∀ v : Nat × Nat → D, (∀ q, q ∉ c.ports A → v q = x q.2) → (c.ins c.out).map v ≠ y) :
    amplitude A c x y = 0 := by
  refine (sumOver_congr (G := fun _ => 0) _ fun v hv => ?_).trans (sumOver_zero _ _)
  rw [if_neg (h v hv), mul_zero]

theorem amplitude_length {A : Weights D R} {c : Circ} {x : Nat → D} {y : List D}
    (h : y.length ≠ (c.ins c.out).length) : amplitude A c x y = 0 := by
  refine amplitude_zero fun v _ he => h ?_
  rw [← he, List.length_map]

omit [DecidableEq D] [CommSemiring R] in
theorem inp_not_port {A : Weights D R} {c : Circ} (k : Nat) : (c.inp, k) ∉ c.ports A := by
  rw [mem_ports, Circ.inner, List.mem_filter]
  simp

/-- A wire from an input to an output keeps its value. -/
theorem amplitude_wire {A : Weights D R} {c : Circ} {x : Nat → D} {y : List D} {k j : Nat}
    (hj : (c.ins c.out)[j]? = some (c.inp, k)) (hy : y[j]? ≠ some (x k)) : amplitude A c x y = 0 := by
  refine amplitude_zero fun v hv he => hy ?_
  rw [← he, List.getElem?_map, hj, Option.map_some, hv _ (inp_not_port k)]

/-- Values of inputs with one more. -/
def insertAt (x : Nat → D) (k : Nat) (a : D) (i : Nat) : D :=
  if i < k then x i else if i = k then a else x (i - 1)

theorem erase_insert {α : Type} {l y : List α} {j : Nat} {a : α} (h : l[j]? = some a) :
    l = y.insertIdx j a ↔ l.eraseIdx j = y := by
  have hlt := (List.getElem?_eq_some_iff.mp h).1
  constructor
  · rintro rfl
    exact List.eraseIdx_insertIdx_self _
  · rintro rfl
    apply List.ext_getElem?
    intro i
    rw [List.getElem?_insertIdx]
    split_ifs with h1 h2
    · rw [List.getElem?_eraseIdx, if_pos h1]
    · rw [h2, h]
    · rw [List.length_eraseIdx, if_pos hlt] at *
      exfalso
      omega
    · rw [List.getElem?_eraseIdx, if_neg (by omega), Nat.sub_add_cancel (by omega)]

/-- Amplitudes without an empty wire are those with any value on it. -/
theorem Mixed.amplitude_cut {A : Weights D R} (h : Mixed lin A.arity c) {k j : Nat}
    (hj : (c.ins c.out)[j]? = some (c.inp, k)) (x : Nat → D) (y : List D) (a : D) :
    amplitude A (Matching.cut c k (some j)).toCirc x y = amplitude A c.toCirc (insertAt x k a) (y.insertIdx j a) := by
  have hinner : (Matching.cut c k (some j)).toCirc.inner = c.toCirc.inner := rfl
  have hop : ∀ n ∈ c.toCirc.inner, (Matching.cut c k (some j)).op n = c.op n := by
    intro n hn
    have := (h.plain.cmd_mem (h.plain.inner.mp hn)).2.2
    simp only [Matching.cut, if_neg this]
  have hports : (Matching.cut c k (some j)).toCirc.ports A = c.toCirc.ports A := by
    rw [Circ.ports, Circ.ports, hinner]
    refine List.flatMap_congr fun n hn => ?_
    rw [hop n hn]
  rw [amplitude, amplitude, hports, hinner]
  refine sumOver_two _ ?_
  intro u v h1 h2
  have hread : ∀ n ∈ c.members, ∀ s ∈ c.ins n, s ≠ (c.inp, k) → u (lowerPort c.inp k s) = v s := by
    intro n hn s hs hne
    by_cases hp : s.1 = c.inp
    · have hs2 : s = (c.inp, s.2) := Prod.ext hp rfl
      have e1 : v s = insertAt x k a s.2 := by
        rw [hs2]
        exact (h2 _ (inp_not_port _)).2
      have e2 : u (lowerPort c.inp k s) = x (lowerPort c.inp k s).2 := by
        have : lowerPort c.inp k s = (c.inp, (lowerPort c.inp k s).2) :=
          Prod.ext ((lowerPort_fst _ _ _).trans hp) rfl
        rw [this]
        exact (h2 _ (inp_not_port _)).1
      have hk : s.2 ≠ k := fun he => hne (Prod.ext hp he)
      rw [e1, e2, lowerPort, insertAt]
      by_cases hlt : k < s.2
      · rw [if_pos ⟨hp, hlt⟩, if_neg (by omega), if_neg hk]
      · rw [if_neg (fun g => hlt g.2), if_pos (by omega)]
    · rw [lowerPort_ne hp]
      refine h1 s (mem_ports.mpr ⟨?_, (h.range n hn s hs).resolve_left hp⟩)
      exact h.plain.inner.mpr ((h.plain.sources n hn s hs).resolve_right fun g => hp g.1)
  congr 1
  · congr 1
    refine List.map_congr_left fun n hn => ?_
    have hcmd := h.plain.inner.mp hn
    have hmem := h.plain.cmd_mem hcmd
    rw [entryAt, entryAt, hop n hn]
    have hins : ((Matching.cut c k (some j)).ins n).map u = (c.ins n).map v := by
      show ((if n = c.out then _ else c.ins n).map (lowerPort c.inp k)).map u = _
      rw [if_neg hmem.2.2, List.map_map]
      refine List.map_congr_left fun s hs => hread n hmem.1 s hs ?_
      rintro rfl
      obtain ⟨q, hq⟩ := List.getElem?_of_mem hs
      exact hmem.2.2 (h.last hj hmem.1 hq).1
    have houts : (List.range (A.arity (c.op n))).map (fun p => u (n, p)) =
        (List.range (A.arity (c.op n))).map fun p => v (n, p) := by
      refine List.map_congr_left fun p hp => h1 _ (mem_ports.mpr ⟨hn, List.mem_range.mp hp⟩)
    rw [hins, houts]
    rfl
  · have e1 : (Matching.cut c k (some j)).ins (Matching.cut c k (some j)).out =
        ((c.ins c.out).eraseIdx j).map (lowerPort c.inp k) := by
      simp only [Matching.cut, if_true]
    have e2 : (((c.ins c.out).eraseIdx j).map (lowerPort c.inp k)).map u = ((c.ins c.out).map v).eraseIdx j := by
      rw [List.eraseIdx_map, List.map_map]
      refine List.map_congr_left fun s hs => ?_
      obtain ⟨q, hq⟩ := List.getElem?_of_mem hs
      rw [List.getElem?_eraseIdx] at hq
      have hs' : s ∈ c.ins c.out := by
        split_ifs at hq
        · exact List.mem_of_getElem? hq
        · exact List.mem_of_getElem? hq
      refine hread c.out h.proper.wf.out.1 s hs' ?_
      rintro rfl
      split_ifs at hq with hlt
      · have := (h.last hj h.proper.wf.out.1 hq).2
        omega
      · have := (h.last hj h.proper.wf.out.1 hq).2
        omega
    have e3 : ((c.ins c.out).map v)[j]? = some a := by
      rw [List.getElem?_map, hj, Option.map_some, (h2 _ (inp_not_port k)).2]
      simp [insertAt]
    rw [e1, e2]
    simp only [erase_insert e3]

/-- An empty wire can be removed from both circuits, even if it goes to different outputs. -/
theorem Mixed.agree_cut {A : Weights D R} {d : TCirc} (hc : Mixed lin A.arity c) (hd : Mixed lin A.arity d)
    (hl : (c.ins c.out).length = (d.ins d.out).length) {κ : R}
    (h : ∀ x y, amplitude A c.toCirc x y = κ * amplitude A d.toCirc x y) {k j j' : Nat}
    (hj : (c.ins c.out)[j]? = some (c.inp, k)) (hj' : (d.ins d.out)[j']? = some (d.inp, k)) (x : Nat → D)
    (y : List D) : amplitude A (Matching.cut c k (some j)).toCirc x y =
      κ * amplitude A (Matching.cut d k (some j')).toCirc x y := by
  by_cases he : j = j'
  · subst he
    rw [hc.amplitude_cut hj x y (x 0), hd.amplitude_cut hj' x y (x 0), h]
  · have hlt := (List.getElem?_eq_some_iff.mp hj).1
    have hlt' := (List.getElem?_eq_some_iff.mp hj').1
    by_cases hs : Subsingleton D
    · by_cases hy : y.length + 1 = (c.ins c.out).length
      · have : y.insertIdx j (x 0) = y.insertIdx j' (x 0) := by
          apply List.ext_getElem
          · rw [List.length_insertIdx_of_le_length (by omega), List.length_insertIdx_of_le_length (by omega)]
          · intro i _ _
            exact Subsingleton.elim _ _
        rw [hc.amplitude_cut hj x y (x 0), hd.amplitude_cut hj' x y (x 0), h, this]
      · have e : ∀ {b : TCirc} {i : Nat}, i < (b.ins b.out).length →
            (((Matching.cut b k (some i)).ins (Matching.cut b k (some i)).out).length) =
              (b.ins b.out).length - 1 := by
          intro b i hi
          simp only [Matching.cut, if_true, List.length_map, List.length_eraseIdx, if_pos hi]
        rw [amplitude_length (by rw [e hlt]; omega), amplitude_length (by rw [e hlt']; omega), mul_zero]
    · have other : ∀ {i i' : Nat}, i ≠ i' → ∃ a : D, (y.insertIdx i a)[i']? ≠ some a := by
        intro i i' hi
        obtain ⟨p, q, hpq⟩ : ∃ p q : D, p ≠ q := by
          by_contra hall
          push Not at hall
          exact hs ⟨hall⟩
        obtain ⟨a, ha⟩ : ∃ a : D, (if i' < i then y[i']? else y[i' - 1]?) ≠ some a := by
          by_contra hall
          push Not at hall
          have := (hall p).symm.trans (hall q)
          exact hpq (by simpa using this)
        refine ⟨a, ?_⟩
        rw [List.getElem?_insertIdx]
        split_ifs with h1 h2
        · simpa [h1] using ha
        · exact absurd h2.symm hi
        · exact absurd h2.symm hi
        · simpa [h1] using ha
      obtain ⟨a, ha⟩ := other he
      obtain ⟨b, hb⟩ := other (Ne.symm he)
      have hk : ∀ a, insertAt x k a k = a := by intro a; simp [insertAt]
      rw [hc.amplitude_cut hj x y a, hd.amplitude_cut hj' x y b, h,
        amplitude_wire hj' (by rw [hk]; exact ha), ← h, amplitude_wire hj (by rw [hk]; exact hb), mul_zero]

/-- What stays the same when empty wires are removed. -/
theorem Mixed.agree_wires {A : Weights D R} {κ : R} : ∀ {ks : List Nat} {c d c' d' : TCirc},
    Mixed lin A.arity c → Mixed lin A.arity d → (c.ins c.out).length = (d.ins d.out).length →
    (∀ x y, amplitude A c.toCirc x y = κ * amplitude A d.toCirc x y) →
    removeWires c ks = some c' → removeWires d ks = some d' →
    ∀ x y, amplitude A c'.toCirc x y = κ * amplitude A d'.toCirc x y
  | [], c, d, c', d', _, _, _, h, h1, h2 => by
    simp only [removeWires, Option.some.injEq] at h1 h2
    subst h1 h2
    exact h
  | k :: ks, c, d, c', d', hc, hd, hl, h, h1, h2 => by
    simp only [removeWires, Option.bind_eq_some_iff] at h1 h2
    obtain ⟨c1, h1, g1⟩ := h1
    obtain ⟨d1, h2, g2⟩ := h2
    obtain ⟨j, hj, rfl⟩ := hc.removed h1
    obtain ⟨j', hj', rfl⟩ := hd.removed h2
    refine Mixed.agree_wires (hc.cut hj) (hd.cut hj') ?_ (hc.agree_cut hd hl h hj hj') g1 g2
    have hlt := (List.getElem?_eq_some_iff.mp hj).1
    have hlt' := (List.getElem?_eq_some_iff.mp hj').1
    simp only [Matching.cut, if_true, List.length_map, List.length_eraseIdx, ← hl, if_pos hlt, if_pos (hl ▸ hlt')]

end amplitudes

/-- Circuits of gates stay circuits of gates, with the same gates, when wires are removed. -/
theorem Mixed.wires : ∀ {ks : List Nat} {c d : TCirc}, Mixed lin arity c → removeWires c ks = some d →
    Mixed lin arity d ∧ d.cmds = c.cmds ∧ ∀ n ∈ c.cmds, d.op n = c.op n
  | [], c, d, h, h1 => by
    simp only [removeWires, Option.some.injEq] at h1
    subst h1
    exact ⟨h, rfl, fun _ _ => rfl⟩
  | k :: ks, c, d, h, h1 => by
    simp only [removeWires, Option.bind_eq_some_iff] at h1
    obtain ⟨c1, h1, g1⟩ := h1
    obtain ⟨j, hj, rfl⟩ := h.removed h1
    obtain ⟨e1, e2, e3⟩ := Mixed.wires (h.cut hj) g1
    refine ⟨e1, e2, fun n hn => (e3 n hn).trans ?_⟩
    have := (h.plain.cmd_mem hn).2.2
    simp only [Matching.cut, if_neg this]

theorem Gates.wires : ∀ {ks : List Nat} {c d : TCirc}, Gates lin arity c → removeWires c ks = some d →
    Gates lin arity d ∧ d.cmds = c.cmds ∧ ∀ n ∈ c.cmds, d.op n = c.op n
  | [], c, d, h, h1 => by
    simp only [removeWires, Option.some.injEq] at h1
    subst h1
    exact ⟨h, rfl, fun _ _ => rfl⟩
  | k :: ks, c, d, h, h1 => by
    refine ⟨?_, (Mixed.wires h.mixed h1).2⟩
    simp only [removeWires, Option.bind_eq_some_iff] at h1
    obtain ⟨c1, h1, g1⟩ := h1
    obtain ⟨j, hj, rfl⟩ := h.mixed.removed h1
    exact (Gates.wires (h.cut hj) g1).1

/-- All gates are connected with the outputs. -/
theorem Mixed.held (h : Mixed lin arity c) : Held c.toCirc := by
  let T := {y : Nat // y ∈ c.cmds}
  have hfin : Finite T := (List.finite_toSet c.cmds).to_subtype
  let Q : T → T → Prop := fun a b => TransGen (Feeds c.toCirc) b.1 a.1
  have : IsTrans T Q := ⟨fun _ _ _ h1 h2 => TransGen.trans h2 h1⟩
  have : Std.Irrefl Q := ⟨fun a g => h.proper.acyclic a.1 g⟩
  have hwf : WellFounded Q := Finite.wellFounded_of_trans_of_irrefl Q
  have key : ∀ y : T, ∃ b ∈ c.cmds, AtBoundary (ownIns c.toCirc) (c.ins c.out) b ∧
      ReflTransGen (Joined c.toCirc (ownIns c.toCirc) (c.ins c.out)) b y.1 := by
    intro y
    induction y using hwf.induction with
    | _ y ih =>
      obtain ⟨y, hy⟩ := y
      obtain ⟨m, hm, hs⟩ := h.used y hy 0 (h.gates y hy)
      rcases (h.plain.members m).mp hm with hcmd | rfl
      · obtain ⟨b, h1, h2, h3⟩ := ih ⟨m, hcmd⟩ (.single ⟨hm, _, hs, rfl⟩)
        refine ⟨b, h1, h2, h3.tail (.inr ⟨hm, ?_⟩)⟩
        obtain ⟨q, hq⟩ := List.getElem?_of_mem hs
        refine ⟨q, _, hq, rfl, ?_, ?_⟩
        · intro g hg hin
          obtain ⟨i, _, rfl⟩ := List.mem_map.mp hg
          have := (mem_consumers.mp hin).2
          rw [hq] at this
          simp only [Option.some.injEq, Prod.mk.injEq] at this
          exact (h.plain.cmd_mem hy).2.1 this.1
        · intro hout
          obtain ⟨q', hq'⟩ := List.getElem?_of_mem hout
          exact (h.plain.cmd_mem hcmd).2.2 (h.last hq' hm hq).1
      · exact ⟨y, hy, .inr ⟨0, hs⟩, .refl⟩
  exact fun n hn => key ⟨n, hn⟩

/-- A rule of two circuits of gates. -/
theorem Mixed.fit {d : TCirc} (hc : Mixed lin arity c) (hd : Mixed lin arity d) : Rule.Fit lin ⟨c, d⟩ :=
  ⟨⟨hc.proper.wf, hc.plain⟩, ⟨hd.plain, hd.proper⟩, fun n hn => hc.proper.flat n (hc.plain.cmd_mem hn).1, hc.held⟩

/-- Values inside of a copy of gates are not used outside. -/
theorem Gates.private {C : Circ} (h : Gates lin arity c) (hC : C.WF)
    (hr : ∀ n ∈ C.members, ∀ s ∈ C.ins n, s.1 = C.inp ∨ s.2 < arity (C.op s.1)) {f : Nat → Nat}
    {w : Nat → Nat × Nat} (he : Emb c.toCirc C f w) : Private c.toCirc C f := by
  intro m hm p hp n hn hin
  have hlt : p < arity (c.op m) := by
    have := (hr n hn _ hin).resolve_left (he.members m hm).2.1
    rwa [he.op m hm] at this
  obtain ⟨m', hm', hs⟩ := h.used m hm p hlt
  rcases (h.plain.members m').mp hm' with hcmd | rfl
  · refine ⟨m', hcmd, ?_⟩
    obtain ⟨q, hq⟩ := List.getElem?_of_mem hs
    have hq' := he.edge m' hcmd q _ hq (h.plain.cmd_mem hm).2.1
    have hk : (C.op (f m')).kinds[q]? = some .linear := by
      rw [he.op m' hcmd]
      have hlq : q < (c.op m').kinds.length := by
        rw [← h.proper.wf.length m' hm']
        exact (List.getElem?_eq_some_iff.mp hq).1
      rw [List.getElem?_eq_getElem hlq, h.linear m' hm' _ (List.getElem_mem hlq)]
    have hcons := hC.linear (f m') (he.members m' hcmd).1 q _ hk hq'
    obtain ⟨q2, hq2⟩ := List.getElem?_of_mem hin
    have : (n, q2) ∈ Matching.consumers C (f m) p := mem_consumers.mpr ⟨hn, hq2⟩
    rw [hcons] at this
    simp only [List.mem_singleton, Prod.mk.injEq] at this
    exact this.1
  · exact absurd hs hp

/-- Wires come from outputs that exist, also after a rewrite. -/
theorem Spot.inRange {D R : Type} {A : Weights D R} {u : Rule} {r : Rewrite} {f : Nat → Nat} {w : Nat → Nat × Nat}
    (h : Spot lin u c r f w) (hc : Sane lin c) {base : Nat} (hb : Fresh c.toCirc base)
    (hr : InRange A c.toCirc) (hu : InRange A u.right.toCirc) : InRange A (after u c r f w base).toCirc := by
  have hsite := h.site hc hb
  have old : ∀ n ∈ c.members, ∀ s ∈ c.ins n, s.1 = c.inp ∨ s.2 < A.arity ((after u c r f w base).op s.1) := by
    intro n hn s hs
    refine (hr n hn s hs).imp_right fun hlt => ?_
    have := hb.sources n hn s hs
    simp only [after, replaced, if_neg (show ¬ base ≤ s.1 by omega)]
    exact hlt
  have new : ∀ m ∈ u.right.members, ∀ s ∈ u.right.ins m,
      (newSource base ((List.range u.left.numInputs).map w) u.right.toCirc s).1 = c.inp ∨
      (newSource base ((List.range u.left.numInputs).map w) u.right.toCirc s).2 < A.arity ((after u c r f w base).op
        (newSource base ((List.range u.left.numInputs).map w) u.right.toCirc s).1) := by
    intro m hm s hs
    rw [newSource]
    split_ifs with hi
    · have hlt : s.2 < u.left.numInputs := by
        rcases h.fit.right.1.sources m hm s hs with g | g
        · exact absurd hi (h.fit.right.1.cmd_mem g).2.1
        · exact h.inputs ▸ g.2
      rw [List.getD_eq_getElem?_getD, List.getElem?_map, List.getElem?_range hlt]
      simp only [Option.map_some, Option.getD_some]
      obtain ⟨n, _, _, h1, _, h2⟩ := h.fed hlt
      exact old _ h1 _ h2
    · right
      simp only [after, replaced, Nat.le_add_right, if_true, Nat.add_sub_cancel_left]
      exact (hu m hm s hs).resolve_left hi
  intro n hn s' hs
  obtain ⟨k, hk⟩ := List.getElem?_of_mem hs
  cases hsite.origin hn hk with
  | kept h1 h2 h3 h4 => exact old n h1 s' (List.mem_of_getElem? h3)
  | new m s hm hn hs' he =>
    subst he
    exact new m (h.fit.right.1.cmd_mem hm).1 s (List.mem_of_getElem? hs')
  | out i t s h1 h2 h3 h4 h5 he =>
    subst he
    exact new _ ((h.fit.right.1.members _).mpr (.inr rfl)) s (List.mem_of_getElem? h5)

/-- Matches are copies of the circuit of the pattern. -/
theorem tryMatch_found {choose : Pattern → Option Walk} (hch : ∀ p w, choose p = some w → w.Valid p) {P : Circ}
    (hP : P.WF) (hpl : P.Plain) {C : Circ} (hC : C.WF) (hio : NoIO P C) {x : Ext} (hx : SubsOK x C) {m : Matcher}
    {n id : Nat} (hn : n ∈ C.members) {p : CPattern} (hp : m.patterns[id]? = some p)
    (hok : tryFromCircuit choose P = .ok p) {a : Match} (ha : tryMatch x m C n id = .ok (some a)) :
    a.id = id ∧ ∃ f w, Copy P C f w ∧ a.ins = imgIns P f ∧ a.outs = imgOuts P f ∧ SubOK C a.ins a.outs a.nodes := by
  rw [tryMatch, hp] at ha
  simp only at ha
  cases hg : getMatchMap C p n with
  | none => rw [hg] at ha; simp at ha
  | panic => rw [hg] at ha; simp at ha
  | found l =>
    rw [hg] at ha
    simp only at ha
    obtain ⟨f, w, h1, _, h2, _⟩ := match_copy hch hP hpl hC hio hok hn hg
    rw [h2] at ha
    simp only at ha
    cases hs : x.sub (imgIns P f) (imgOuts P f) with
    | notConvex => rw [hs] at ha; simp at ha
    | other => rw [hs] at ha; simp at ha
    | ok nodes =>
      rw [hs] at ha
      simp only [Res.ok.injEq, Option.some.injEq] at ha
      subst ha
      exact ⟨rfl, f, w, h1, rfl, rfl, hx _ _ _ hs⟩

/-- Empty wires can be removed, from the last to the first. -/
theorem Mixed.wires_total : ∀ {ks : List Nat} {c : TCirc}, Mixed lin arity c → ks.Pairwise (· > ·) →
    (∀ k ∈ ks, k ∈ emptyOf c) → ∃ d, removeWires c ks = some d ∧ d.numInputs + ks.length = c.numInputs ∧
      (d.ins d.out).length + ks.length = (c.ins c.out).length
  | [], c, _, _, _ => ⟨c, rfl, rfl, rfl⟩
  | k :: ks, c, h, hs, hm => by
    obtain ⟨hk, j, hj⟩ := h.mem_empty.mp (hm k (by simp))
    rw [List.pairwise_cons] at hs
    have hlt := (List.getElem?_eq_some_iff.mp hj).1
    obtain ⟨d, h1, h2, h3⟩ := Mixed.wires_total (h.cut hj) hs.2 (by
      intro l hl
      have hlk := hs.1 l hl
      obtain ⟨_, j', hj'⟩ := h.mem_empty.mp (hm l (by simp [hl]))
      refine (h.cut hj).mem_empty.mpr ⟨show l < c.numInputs - 1 by omega, List.getElem?_of_mem ?_⟩
      refine (cut_mem h hj h.proper.wf.out.1).mpr ⟨(c.inp, l), List.mem_of_getElem? hj', ?_, ?_⟩
      · show (c.inp, l) = _
        rw [lowerPort, if_neg]
        rintro ⟨_, g⟩
        simp only at g
        omega
      · rw [ne_eq, Prod.mk.injEq, not_and]
        intro _
        omega)
    refine ⟨d, by rw [removeWires, h.removeWire hj]; exact h1, ?_, ?_⟩
    · have e : (Matching.cut c k (some j)).numInputs = c.numInputs - 1 := rfl
      rw [List.length_cons]
      omega
    · have e : ((Matching.cut c k (some j)).ins (Matching.cut c k (some j)).out).length = (c.ins c.out).length - 1 := by
        simp only [Matching.cut, if_true, List.length_map, List.length_eraseIdx, if_pos hlt]
      rw [List.length_cons]
      omega

theorem emptyOf_sorted (c : TCirc) : (emptyOf c).reverse.Pairwise (· > ·) := by
  rw [List.pairwise_reverse]
  exact List.pairwise_lt_range.filter _

theorem removeWire_ty {q : Nat} {d : TCirc} (h : ∀ n p, c.ty n p = q) {k : Nat}
    (hd : removeWire c k = some d) : ∀ n p, d.ty n p = q := by
  have key : ∀ j n p, (cut c k j).ty n p = q := by
    intro j n p
    simp only [cut]
    split_ifs
    · exact h _ _
    · exact h _ _
  rw [removeWire] at hd
  split_ifs at hd
  split at hd
  · simp only [Option.some.injEq] at hd
    subst hd; exact key _
  · split_ifs at hd
    simp only [Option.some.injEq] at hd
    subst hd; exact key _
  · simp at hd

theorem removeWires_ty {q : Nat} : ∀ {ks : List Nat} {c d : TCirc}, (∀ n p, c.ty n p = q) →
    removeWires c ks = some d → ∀ n p, d.ty n p = q
  | [], c, d, h, hd => by
    simp only [removeWires, Option.some.injEq] at hd
    subst hd; exact h
  | k :: ks, c, d, h, hd => by
    simp only [removeWires, Option.bind_eq_some_iff] at hd
    obtain ⟨c1, h1, g1⟩ := hd
    exact removeWires_ty (removeWire_ty h h1) g1

/-- The operations of the gates have types, also without empty wires. -/
theorem Mixed.opTypes {inTy outTy : Op → Nat → Nat} : ∀ {ks : List Nat} {c d : TCirc}, Mixed lin arity c →
    OpTypes inTy outTy c → removeWires c ks = some d → OpTypes inTy outTy d
  | [], c, d, _, ht, hd => by
    simp only [removeWires, Option.some.injEq] at hd
    subst hd; exact ht
  | k :: ks, c, d, h, ht, hd => by
    simp only [removeWires, Option.bind_eq_some_iff] at hd
    obtain ⟨c1, h1, g1⟩ := hd
    obtain ⟨j, hj, rfl⟩ := h.removed h1
    refine Mixed.opTypes (h.cut hj) ⟨?_, ?_⟩ g1
    · intro n hn hi ho p
      have hi' : n ≠ c.inp := hi
      have ho' : n ≠ c.out := ho
      have := ht.out n hn hi' ho' p
      simp only [Matching.cut, if_neg ho', if_neg (fun g : n = c.inp ∧ k ≤ p => hi' g.1)]
      exact this
    · intro n hn hi ho q s hs
      have ho' : n ≠ c.out := ho
      obtain ⟨s0, k1, rfl, k3⟩ := (cut_get h hj hn).mp hs
      rw [cut_ty k _ k3]
      rw [oldIdx, if_neg (fun g => ho' g.1)] at k1
      have := ht.inp n hn hi ho' q s0 k1
      simp only [Matching.cut, if_neg ho']
      exact this

/-- `find_rooted_matches` succeeds if all matches do. -/
theorem tryAll_total {x : Ext} {m : Matcher} {C : Circ} {n : Nat} : ∀ {ids : List Nat},
    (∀ id ∈ ids, ∃ o, tryMatch x m C n id = .ok o) → ∃ as, tryAll x m C n ids = .ok as
  | [], _ => ⟨[], rfl⟩
  | id :: ids, h => by
    obtain ⟨o, ho⟩ := h id (by simp)
    obtain ⟨as, has⟩ := tryAll_total (ids := ids) fun i hi => h i (by simp [hi])
    exact ⟨_, by rw [tryAll, ho, has]; rfl⟩

/-- The matches of all patterns. -/
theorem allMatches_mem {x : Ext} {ps : List CPattern} {c : TCirc} {as : List Match} (h : allMatches x ps c = some as)
    (a : Match) : a ∈ as ↔ ∃ n ∈ c.cmds, ∃ id ∈ x.auto n, tryMatch x ⟨ps, []⟩ c.toCirc n id = .ok (some a) := by
  rw [allMatches, Option.map_eq_some_iff] at h
  obtain ⟨l, h1, rfl⟩ := h
  have hc := collect_some h1
  rw [List.mem_flatten]
  constructor
  · rintro ⟨bs, hbs, ha⟩
    obtain ⟨n, hn, h2⟩ := (hc bs).mp hbs
    split at h2
    · rename_i as' has
      simp only [Option.some.injEq] at h2
      subst h2
      exact ⟨n, hn, (tryAll_mem has a).mp ha⟩
    · simp at h2
  · rintro ⟨n, hn, id, hid, ht⟩
    obtain ⟨b, hb⟩ := collect_each h1 hn
    refine ⟨b, (hc b).mpr ⟨n, hn, hb⟩, ?_⟩
    split at hb
    · rename_i as' has
      simp only [Option.some.injEq] at hb
      subst hb
      exact (tryAll_mem has a).mpr ⟨id, hid, ht⟩
    · simp at hb

theorem allMatches_total {x : Ext} {ps : List CPattern} {c : TCirc}
    (h : ∀ n ∈ c.cmds, ∀ id ∈ x.auto n, ∃ o, tryMatch x ⟨ps, []⟩ c.toCirc n id = .ok o) :
    ∃ as, allMatches x ps c = some as := by
  suffices hs : ∃ l, collect _ c.cmds = some l by
    obtain ⟨l, hl⟩ := hs
    exact ⟨l.flatten, by rw [allMatches, hl]; rfl⟩
  refine collect_total ?_
  intro n hn
  obtain ⟨as, has⟩ := tryAll_total (ids := x.auto n) fun id hid => h n hn id hid
  rw [findRooted, has]
  simp

end Verif.Matching
