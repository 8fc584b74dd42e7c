import Verif.Lemmas.BorrowSquash
import Mathlib.Data.List.Induction

/-!
# Meaning of dataflow regions with borrow arrays, and the effect of one elision
-/

namespace Tket.BorrowSquash

/-! ## Chains -/

theorem chain_rank {g : G} {rank : Nat → Nat} (hr : ∀ s d, (s, d) ∈ g.links → rank s.1 < rank d.1)
    {w : Port} {l : List Step} (h : IsChain g w l) :
    (∀ s ∈ l, rank w.1 < rank s.node) ∧ l.Pairwise (fun a b => rank a.node < rank b.node) := by
  induction l generalizing w with
  | nil => exact ⟨fun _ h => absurd h (by simp), List.Pairwise.nil⟩
  | cons s l ih =>
    obtain ⟨h1, h2, h3⟩ := h
    obtain ⟨i1, i2⟩ := ih h3
    have hw := hr _ _ h1
    simp only at hw
    refine ⟨?_, List.pairwise_cons.2 ⟨fun b hb => i1 b hb, i2⟩⟩
    intro x hx
    rcases List.mem_cons.1 hx with rfl | hx
    · exact hw
    · have := i1 x hx
      simp only at this
      omega

theorem chain_mem_ok {g : G} {w : Port} {l : List Step} (h : IsChain g w l) :
    ∀ s ∈ l, StepOk g s ∧ ∃ u, (u, (s.node, 0)) ∈ g.links ∧ (u = w ∨ ∃ m ∈ l, u = (m.node, 0)) := by
  induction l generalizing w with
  | nil => intro s h; cases h
  | cons a l ih =>
    obtain ⟨h1, h2, h3⟩ := h
    intro x hx
    rcases List.mem_cons.1 hx with rfl | hx
    · exact ⟨h2, w, h1, Or.inl rfl⟩
    · obtain ⟨k1, u, k2, k3⟩ := ih h3 x hx
      refine ⟨k1, u, k2, Or.inr ?_⟩
      rcases k3 with rfl | ⟨m, hm, rfl⟩
      · exact ⟨a, by simp, rfl⟩
      · exact ⟨m, by simp [hm], rfl⟩

theorem chain_next {g : G} {w : Port} {l : List Step} (h : IsChain g w l) :
    ∀ s ∈ l, (∃ m ∈ l, ((s.node, 0), (m.node, 0)) ∈ g.links) ∨ endPort w l = (s.node, 0) := by
  induction l generalizing w with
  | nil => intro s h; cases h
  | cons a l ih =>
    obtain ⟨h1, h2, h3⟩ := h
    intro x hx
    rcases List.mem_cons.1 hx with rfl | hx
    · cases l with
      | nil => exact Or.inr rfl
      | cons b l => exact Or.inl ⟨b, by simp, h3.1⟩
    · rcases ih h3 x hx with ⟨m, hm, hl⟩ | h
      · exact Or.inl ⟨m, by simp [hm], hl⟩
      · exact Or.inr h

theorem endPort_cases (w : Port) (l : List Step) :
    (l = [] ∧ endPort w l = w) ∨ ∃ m ∈ l, endPort w l = (m.node, 0) := by
  induction l generalizing w with
  | nil => exact Or.inl ⟨rfl, rfl⟩
  | cons a l ih =>
    right
    rcases ih (a.node, 0) with ⟨rfl, h⟩ | ⟨m, hm, h⟩
    · exact ⟨a, by simp, h⟩
    · exact ⟨m, by simp [hm], h⟩

/-- The array keeps its type along the chain. -/
theorem chain_type {g : G} (hg : WF g) {w : Port} {l : List Step} (h : IsChain g w l) :
    g.tyOut (endPort w l) = g.tyOut w := by
  induction l generalizing w with
  | nil => rfl
  | cons a l ih =>
    obtain ⟨h1, h2, h3⟩ := h
    have e : g.tyOut (a.node, 0) = g.tyOut w := by
      have ht := hg.typed _ _ h1
      have ho := h2.1
      cases hb : a.isBorrow with
      | true =>
        rw [hb] at ho
        obtain ⟨k, t, e1, _, e2, _⟩ := hg.borrow_ty _ ho
        rw [ht, e1, e2]
      | false =>
        rw [hb] at ho
        obtain ⟨k, t, e1, _, _, e2⟩ := hg.ret_ty _ ho
        rw [ht, e1, e2]
    change g.tyOut (endPort (a.node, 0) l) = _
    rw [ih h3, e]

/-! ## Meaning -/

/-- Values: array indices, arrays whose elements may be missing (borrowed), anything else. -/
inductive Val (α : Type) where
  | atom (a : α)
  | idx (n : Nat)
  | arr (l : List (Option (Val α)))

variable {α : Type}

/-- Meaning of a node on the values of its input and output ports. A borrow of a missing element, a
return of a present one and an index out of bounds panic: no values satisfy them. Other operations mean
anything (`sem`). -/
def OpSem (sem : Nat → (Nat → Val α) → (Nat → Val α) → Prop) (o : Op) (n : Nat)
    (vi vo : Nat → Val α) : Prop :=
  match o with
  | .borrow => ∃ l i x, vi 0 = .arr l ∧ vi 1 = .idx i ∧ l[i]? = some (some x) ∧
      vo 0 = .arr (l.set i none) ∧ vo 1 = x
  | .ret => ∃ l i, vi 0 = .arr l ∧ vi 1 = .idx i ∧ l[i]? = some none ∧
      vo 0 = .arr (l.set i (some (vi 2)))
  | .load c => ∀ p, vo p = .idx c
  | .other => sem n vi vo

/-- An execution of the region that does not panic: values at all ports, respecting links and
operations. -/
structure Run (sem : Nat → (Nat → Val α) → (Nat → Val α) → Prop) (g : G) (vi vo : Port → Val α) :
    Prop where
  link : ∀ s d, (s, d) ∈ g.links → vi d = vo s
  node : ∀ n ∈ g.nodes, OpSem sem (g.op n) n (fun p => vi (n, p)) (fun p => vo (n, p))

/-- Two executions agree on the inputs and outputs of all operations other than borrows and returns. -/
def SameObs (g : G) (vi vo vi' vo' : Port → Val α) : Prop :=
  ∀ n p, g.op n ≠ .borrow → g.op n ≠ .ret → vi' (n, p) = vi (n, p) ∧ vo' (n, p) = vo (n, p)

/-- Every execution of `g` has a counterpart in `g'` with the same observations. -/
def Sim (g g' : G) : Prop :=
  ∀ (α : Type) (sem : Nat → (Nat → Val α) → (Nat → Val α) → Prop) (vi vo : Port → Val α),
    Run sem g vi vo → ∃ vi' vo', Run sem g' vi' vo' ∧ SameObs g vi vo vi' vo'

/-- Same behaviour: same executions up to observation; in particular one panics iff the other does. -/
def Equiv (g g' : G) : Prop := Sim g g' ∧ Sim g' g

theorem Sim.refl (g : G) : Sim g g := fun _ _ vi vo h => ⟨vi, vo, h, fun _ _ _ _ => ⟨rfl, rfl⟩⟩

theorem Sim.trans {a b c : G} (hop : b.op = a.op) (h : Sim a b) (k : Sim b c) : Sim a c := by
  intro α sem vi vo hr
  obtain ⟨vi1, vo1, hr1, ho1⟩ := h α sem vi vo hr
  obtain ⟨vi2, vo2, hr2, ho2⟩ := k α sem vi1 vo1 hr1
  refine ⟨vi2, vo2, hr2, ?_⟩
  intro n p h1 h2
  obtain ⟨a1, a2⟩ := ho1 n p h1 h2
  obtain ⟨b1, b2⟩ := ho2 n p (by rw [hop]; exact h1) (by rw [hop]; exact h2)
  exact ⟨b1.trans a1, b2.trans a2⟩

theorem Equiv.refl (g : G) : Equiv g g := ⟨Sim.refl g, Sim.refl g⟩
theorem Equiv.trans {a b c : G} (h1 : b.op = a.op) (h2 : c.op = b.op) (h : Equiv a b) (k : Equiv b c) :
    Equiv a c :=
  ⟨Sim.trans h1 h.1 k.1, Sim.trans h2.symm k.2 h.2⟩

/-- The index value reaching an operation with constant index. -/
theorem run_idx {sem : Nat → (Nat → Val α) → (Nat → Val α) → Prop} {g : G} (hg : WF g)
    {vi vo : Port → Val α} (hr : Run sem g vi vo) {n i : Nat} (h : HasIdx g n i) :
    vi (n, 1) = .idx i := by
  obtain ⟨s, hl, ho⟩ := h
  rw [hr.link _ _ hl]
  have := hr.node s.1 (hg.ends _ _ hl).1
  rw [ho] at this
  exact this s.2

/-- Effect of one operation on the array. -/
theorem run_step {sem : Nat → (Nat → Val α) → (Nat → Val α) → Prop} {g : G} (hg : WF g)
    {vi vo : Port → Val α} (hr : Run sem g vi vo) {s : Step} (hn : s.node ∈ g.nodes) (h : StepOk g s) :
    ∃ l, vi (s.node, 0) = .arr l ∧
      if s.isBorrow then ∃ x, l[s.idx]? = some (some x) ∧ vo (s.node, 0) = .arr (l.set s.idx none) ∧
        vo (s.node, 1) = x
      else l[s.idx]? = some none ∧ vo (s.node, 0) = .arr (l.set s.idx (some (vi (s.node, 2)))) := by
  have hi := run_idx hg hr h.2
  have ho := hr.node _ hn
  rw [h.1] at ho
  cases hb : s.isBorrow with
  | true =>
    rw [hb] at ho
    obtain ⟨l, i, x, h1, h2, h3, h4, h5⟩ := ho
    simp only at h1 h2 h4 h5
    rw [hi] at h2
    injection h2 with h2
    subst h2
    exact ⟨l, h1, x, h3, h4, h5⟩
  | false =>
    rw [hb] at ho
    obtain ⟨l, i, h1, h2, h3, h4⟩ := ho
    simp only at h1 h2 h4
    rw [hi] at h2
    injection h2 with h2
    subst h2
    exact ⟨l, h1, h3, h4⟩

/-- The operations on index `i`. -/
def opsAt (i : Nat) (l : List Step) : List Step := l.filter (fun s => s.idx = i)

/-- The last operation on index `i` is a borrow. -/
def Out (i : Nat) (l : List Step) : Prop := ∃ f b, opsAt i l = f ++ [b] ∧ b.isBorrow = true

/-- After operations whose last one on `i` is a borrow, element `i` is missing. -/
theorem chain_slot {sem : Nat → (Nat → Val α) → (Nat → Val α) → Prop} {g : G} (hg : WF g)
    {vi vo : Port → Val α} (hr : Run sem g vi vo) {w : Port} {i : Nat} :
    ∀ (l : List Step), IsChain g w l → Out i l →
      ∃ a, vo (endPort w l) = .arr a ∧ a[i]? = some none := by
  intro l
  induction l using List.reverseRecOn with
  | nil => rintro _ ⟨f, b, h, _⟩; simp [opsAt] at h
  | append_singleton l s ih =>
    intro hc ho
    obtain ⟨hc1, hc2⟩ := isChain_append.1 hc
    obtain ⟨hl, hok, _⟩ := hc2
    have hlink := hr.link _ _ hl
    obtain ⟨a, ha, hs⟩ := run_step hg hr (hg.ends _ _ hl).2 hok
    rw [endPort_append]
    change ∃ a, vo (s.node, 0) = .arr a ∧ a[i]? = some none
    obtain ⟨f, b, hf, hb⟩ := ho
    by_cases hi : s.idx = i
    · have : opsAt i (l ++ [s]) = opsAt i l ++ [s] := by
        unfold opsAt; rw [List.filter_append]; simp [hi]
      rw [this] at hf
      have hbs : s = b := by
        have := congrArg List.getLast? hf
        simpa using this
      rw [hbs, hb] at hs
      simp only [if_true] at hs
      obtain ⟨x, h1, h2, _⟩ := hs
      rw [hbs, h2]
      refine ⟨_, rfl, ?_⟩
      rw [← hi, hbs, List.getElem?_set_self]
      exact (List.getElem?_eq_some_iff.1 h1).1
    · have : opsAt i (l ++ [s]) = opsAt i l := by
        unfold opsAt; rw [List.filter_append]; simp [hi]
      rw [this] at hf
      obtain ⟨a', ha', hn⟩ := ih hc1 ⟨f, b, hf, hb⟩
      rw [← hlink, ha] at ha'
      injection ha' with ha'
      subst ha'
      cases hb' : s.isBorrow with
      | true =>
        rw [hb'] at hs
        obtain ⟨x, h1, h2, _⟩ := hs
        exact ⟨_, h2, by rw [List.getElem?_set_ne hi]; exact hn⟩
      | false =>
        rw [hb'] at hs
        obtain ⟨h1, h2⟩ := hs
        exact ⟨_, h2, by rw [List.getElem?_set_ne hi]; exact hn⟩

theorem out_append {i : Nat} {l m : List Step} (h : Out i l) (hm : opsAt i m = []) : Out i (l ++ m) := by
  obtain ⟨f, b, h1, h2⟩ := h
  refine ⟨f, b, ?_, h2⟩
  unfold opsAt at *
  rw [List.filter_append, h1, hm, List.append_nil]

theorem opsAt_prefix {i : Nat} {l m : List Step} (h : opsAt i (l ++ m) = []) :
    opsAt i l = [] ∧ opsAt i m = [] := by
  unfold opsAt at *
  rw [List.filter_append] at h
  exact List.append_eq_nil_iff.1 h

/-! ## One elision -/

/-- Replace element `i` of an array value. -/
def setAt (i : Nat) (x : Option (Val α)) : Val α → Val α
  | .arr l => .arr (l.set i x)
  | v => v

theorem set_eq_self {β : Type} {l : List β} {i : Nat} {x : β} (h : l[i]? = some x) : l.set i x = l := by
  obtain ⟨h1, h2⟩ := List.getElem?_eq_some_iff.1 h
  rw [← h2, List.set_getElem_self]

section One

variable {g : G} {w : Port} {pre mid post : List Step} {r b : Step}

/-- A return and the next borrow at the same index, the previous operation there being a borrow. -/
structure Elidable (pre mid : List Step) (r b : Step) : Prop where
  ret : r.isBorrow = false
  bor : b.isBorrow = true
  idx : b.idx = r.idx
  out : Out r.idx pre
  mid : opsAt r.idx mid = []

theorem elide_one (hg : WF g) (hc : IsChain g w (pre ++ r :: (mid ++ b :: post)))
    (he : Elidable pre mid r b) :
    ∃ g', g.elide (r.node, b.node) = some g' ∧ Same g g' ∧ WF g' ∧
      (∀ m, m ∈ g'.nodes ↔ m ∈ g.nodes ∧ m ≠ r.node ∧ m ≠ b.node) ∧
      IsChain g' w (pre ++ (mid ++ post)) ∧ Equiv g g' := by
  obtain ⟨rank, hrk⟩ := hg.acyclic
  obtain ⟨hrw, hpw⟩ := chain_rank hrk hc
  obtain ⟨hc1, hlr, hokr, hc2⟩ := isChain_append.1 hc
  obtain ⟨hcm, hlb, hokb, hcp⟩ := isChain_append.1 hc2
  set A := endPort w pre with hA
  set E := endPort (r.node, 0) mid with hE
  have hopr : g.op r.node = .ret := by have := hokr.1; rw [he.ret] at this; exact this
  have hopb : g.op b.node = .borrow := by have := hokb.1; rw [he.bor] at this; exact this
  have hrn := (hg.ends _ _ hlr).2
  have hbn := (hg.ends _ _ hlb).2
  simp only at hrn hbn
  obtain ⟨V, hV⟩ := hg.ret_in _ hrn hopr 2 (by omega)
  obtain ⟨kr, tr, r0, r1, r2, ro⟩ := hg.ret_ty _ hopr
  obtain ⟨kb, tb, b0, b1, bo, bo1⟩ := hg.borrow_ty _ hopb
  obtain ⟨R, hR⟩ := hg.array_used (r.node, 0) kr tr hrn ro
  obtain ⟨O, hO⟩ := hg.array_used (b.node, 0) kb tb hbn bo
  -- order of the nodes
  have hpw' := List.pairwise_append.1 hpw
  have hpr : ∀ x ∈ pre, rank x.node < rank r.node := fun x hx => hpw'.2.2 x hx r (by simp)
  have hpw2 := List.pairwise_cons.1 hpw'.2.1
  have hrm : ∀ x ∈ mid, rank r.node < rank x.node := fun x hx => hpw2.1 x (by simp [hx])
  have hrb : rank r.node < rank b.node := hpw2.1 b (by simp)
  have hpw3 := List.pairwise_append.1 hpw2.2
  have hmb : ∀ x ∈ mid, rank x.node < rank b.node := fun x hx => hpw3.2.2 x hx b (by simp)
  have hbp : ∀ x ∈ post, rank b.node < rank x.node := (List.pairwise_cons.1 hpw3.2.1).1
  have hwr : rank w.1 < rank r.node := hrw r (by simp)
  have ha : Around g r.node b.node A V R E O := by
    refine ⟨hlr, hV, hR, hlb, hO, hopr, hopb, ?_⟩
    intro rank' hrk'
    have := (chain_rank hrk' hc).2
    exact (List.pairwise_cons.1 (List.pairwise_append.1 this).2.1).1 b (by simp)
  obtain ⟨g', hel, hs, hn, hm, hf⟩ := elide_moved hg ha
  have htyE : g.tyOut (r.node, 0) = g.tyIn (b.node, 0) := by
    rw [← hg.typed _ _ hlb, hE, chain_type hg hcm]
  have hwf := elide_wf hg ha htyE hs hn hm hf
  have hne : r.node ≠ b.node := by intro h; rw [h] at hrb; omega
  have hmr : moved r.node b.node A V E (r.node, 0) = A := by
    unfold moved; rw [if_neg (by simp), if_pos rfl]
  have hmB : moved r.node b.node A V E (b.node, 0) = if E = (r.node, 0) then A else E := by
    unfold moved; rw [if_neg (by simp), if_neg (by simpa using Ne.symm hne), if_pos rfl]
  have hmv : moved r.node b.node A V E (b.node, 1) = V := by unfold moved; rw [if_pos rfl]
  have keep : ∀ s d, (s, d) ∈ g.links → s.1 ≠ r.node → s.1 ≠ b.node → d.1 ≠ r.node → d.1 ≠ b.node →
      (s, d) ∈ g'.links := by
    intro s d h h1 h2 h3 h4
    exact (hm s d).2 ⟨h3, h4, s, h, (moved_of_ne h1 h2).symm⟩
  have keepOk : ∀ s, StepOk g s → s.node ≠ r.node → s.node ≠ b.node → StepOk g' s := by
    rintro s ⟨h1, u, h2, h3⟩ n1 n2
    refine ⟨by rw [hs.op]; exact h1, u, keep _ _ h2 ?_ ?_ n1 n2, by rw [hs.op]; exact h3⟩
    · intro h; rw [h, hopr] at h3; cases h3
    · intro h; rw [h, hopb] at h3; cases h3
  have keepChain : ∀ (l : List Step) (u : Port), IsChain g u l → u.1 ≠ r.node → u.1 ≠ b.node →
      (∀ x ∈ l, x.node ≠ r.node ∧ x.node ≠ b.node) → IsChain g' u l := by
    intro l
    induction l with
    | nil => intro _ _ _ _ _; trivial
    | cons x l ih =>
      rintro u ⟨h1, h2, h3⟩ n1 n2 hx
      obtain ⟨x1, x2⟩ := hx x (by simp)
      exact ⟨keep _ _ h1 n1 n2 x1 x2, keepOk x h2 x1 x2,
        ih _ h3 x1 x2 (fun y hy => hx y (by simp [hy]))⟩
  have hprene : ∀ x ∈ pre, x.node ≠ r.node ∧ x.node ≠ b.node := by
    intro x hx
    have := hpr x hx
    exact ⟨fun h => by rw [h] at this; omega, fun h => by rw [h] at this; omega⟩
  have hmidne : ∀ x ∈ mid, x.node ≠ r.node ∧ x.node ≠ b.node := by
    intro x hx
    have h1 := hrm x hx
    have h2 := hmb x hx
    exact ⟨fun h => by rw [h] at h1; omega, fun h => by rw [h] at h2; omega⟩
  have hpostne : ∀ x ∈ post, x.node ≠ r.node ∧ x.node ≠ b.node := by
    intro x hx
    have := hbp x hx
    exact ⟨fun h => by rw [h] at this; omega, fun h => by rw [h] at this; omega⟩
  have hwne : w.1 ≠ r.node ∧ w.1 ≠ b.node :=
    ⟨fun h => by rw [h] at hwr; omega, fun h => by rw [h] at hwr; omega⟩
  have hAr : rank A.1 < rank r.node := hrk _ _ hlr
  have hVr : rank V.1 < rank r.node := hrk _ _ hV
  have hOr : rank b.node < rank O.1 := hrk _ _ hO
  have hAne : A.1 ≠ r.node ∧ A.1 ≠ b.node :=
    ⟨fun h => by rw [h] at hAr; omega, fun h => by rw [h] at hAr; omega⟩
  -- end of the middle part
  have hE' : endPort A mid = if E = (r.node, 0) then A else E := by
    cases mid with
    | nil => rw [if_pos (by rw [hE]; rfl)]; rfl
    | cons x l =>
      have e : E = endPort A (x :: l) := rfl
      rw [if_neg, e]
      intro h
      rcases endPort_cases (r.node, 0) (x :: l) with ⟨h1, _⟩ | ⟨m, h1, h2⟩
      · cases h1
      · rw [← hE, h] at h2
        injection h2 with h2 _
        exact (hmidne m h1).1 h2.symm
  have hchain : IsChain g' w (pre ++ (mid ++ post)) := by
    rw [isChain_append, isChain_append]
    refine ⟨keepChain pre w hc1 hwne.1 hwne.2 hprene, ?_, ?_⟩
    · rw [← hA]
      cases mid with
      | nil => trivial
      | cons x l =>
        obtain ⟨h1, h2, h3⟩ := hcm
        obtain ⟨x1, x2⟩ := hmidne x (by simp)
        refine ⟨(hm _ _).2 ⟨x1, x2, _, h1, hmr.symm⟩, keepOk x h2 x1 x2,
          keepChain l _ h3 x1 x2 (fun y hy => hmidne y (by simp [hy]))⟩
    · rw [← hA]
      cases post with
      | nil => trivial
      | cons x l =>
        obtain ⟨h1, h2, h3⟩ := hcp
        obtain ⟨x1, x2⟩ := hpostne x (by simp)
        refine ⟨(hm _ _).2 ⟨x1, x2, _, h1, ?_⟩, keepOk x h2 x1 x2,
          keepChain l _ h3 x1 x2 (fun y hy => hpostne y (by simp [hy]))⟩
        rw [hmB, hE']
  refine ⟨g', hel, hs, hwf, hn, hchain, ?_⟩
  -- facts about links touching the middle part
  have midSrc : ∀ m ∈ mid, ∀ s, (s, (m.node, 0)) ∈ g.links →
      s = (r.node, 0) ∨ ∃ m' ∈ mid, s = (m'.node, 0) := by
    intro m hmm s hsl
    obtain ⟨_, u, h1, h2⟩ := chain_mem_ok hcm m hmm
    rw [hg.func _ _ _ hsl h1]
    exact h2
  have linOut : ∀ m : Step, StepOk g m → (g.tyOut (m.node, 0)).linear = true := by
    rintro m ⟨h1, _⟩
    cases hb : m.isBorrow with
    | true =>
      rw [hb] at h1
      obtain ⟨_, _, _, _, e, _⟩ := hg.borrow_ty _ h1
      rw [e]; rfl
    | false =>
      rw [hb] at h1
      obtain ⟨_, _, _, _, _, e⟩ := hg.ret_ty _ h1
      rw [e]; rfl
  have midTgt : ∀ m ∈ mid, ∀ d, ((m.node, 0), d) ∈ g.links →
      d = (b.node, 0) ∨ ∃ m' ∈ mid, d = (m'.node, 0) := by
    intro m hmm d hdl
    have hl := linOut m (chain_mem_ok hcm m hmm).1
    rcases chain_next hcm m hmm with ⟨m', h1, h2⟩ | h
    · exact Or.inr ⟨m', h1, hg.linear _ _ _ hl hdl h2⟩
    · left
      have hlb' := hlb
      rw [hE, h] at hlb'
      exact hg.linear _ _ _ hl hdl hlb'
  have retTgt : ∀ d, ((r.node, 0), d) ∈ g.links → d = (b.node, 0) ∨ ∃ m' ∈ mid, d = (m'.node, 0) := by
    intro d hdl
    have hl := linOut r hokr
    rcases endPort_cases (r.node, 0) mid with ⟨_, h⟩ | _
    · left
      have hlb' := hlb
      rw [hE, h] at hlb'
      exact hg.linear _ _ _ hl hdl hlb'
    · cases mid with
      | nil =>
        left
        exact hg.linear _ _ _ hl hdl hlb
      | cons x l => exact Or.inr ⟨x, by simp, hg.linear _ _ _ hl hdl hcm.1⟩
  have midIdx : ∀ m ∈ mid, m.idx ≠ r.idx := by
    intro m hmm h
    have := he.mid
    unfold opsAt at this
    rw [List.filter_eq_nil_iff] at this
    exact this m hmm (by simpa using h)
  -- decide whether a port is the array port of the middle part
  let M : Port → Prop := fun p => p.2 = 0 ∧ ∃ m ∈ mid, p.1 = m.node
  have hMeq : ∀ {p : Port}, M p → ∃ m ∈ mid, p = (m.node, 0) := by
    rintro ⟨p1, p2⟩ ⟨h1, m, h2, h3⟩
    simp only at h1 h3
    exact ⟨m, h2, by rw [h1, h3]⟩
  have hMmk : ∀ m ∈ mid, M (m.node, 0) := fun m h => ⟨rfl, m, h, rfl⟩
  have hMA : ¬ M A := by
    intro h
    obtain ⟨m, h1, h2⟩ := hMeq h
    have := hrm m h1
    rw [h2] at hAr
    simp only at hAr
    omega
  have hMO : ¬ M O := by
    intro h
    obtain ⟨m, h1, h2⟩ := hMeq h
    have := hmb m h1
    rw [h2] at hOr
    simp only at hOr
    omega
  have hMV : ¬ M V := by
    intro h
    obtain ⟨m, h1, h2⟩ := hMeq h
    have := hrm m h1
    rw [h2] at hVr
    simp only at hVr
    omega
  -- nodes in the middle: not other operations
  have hMop : ∀ {n p : Nat}, M (n, p) → g.op n = .borrow ∨ g.op n = .ret := by
    intro n p h
    obtain ⟨m, h1, h2⟩ := hMeq h
    injection h2 with h2 _
    have := (chain_mem_ok hcm m h1).1.1
    rw [← h2] at this
    cases hb : m.isBorrow <;> rw [hb] at this
    · exact Or.inr this
    · exact Or.inl this
  classical
  constructor
  · -- forward
    intro α sem vi vo hr
    obtain ⟨lr, hlr1, hlr2⟩ := run_step hg hr hrn hokr
    rw [he.ret] at hlr2
    obtain ⟨hlr2, hlr3⟩ := hlr2
    obtain ⟨lb, hlb1, hlb2⟩ := run_step hg hr hbn hokb
    rw [he.bor] at hlb2
    obtain ⟨x, hlb2, hlb3, hlb4⟩ := hlb2
    rw [he.idx] at hlb2 hlb3
    -- the value at index i along the middle part
    have hval : ∀ (l : List Step) (u : Port) (a : List (Option (Val α))), IsChain g u l →
        vo u = .arr a → a[r.idx]? = some (some (vi (r.node, 2))) → opsAt r.idx l = [] →
        ∃ a', vo (endPort u l) = .arr a' ∧ a'[r.idx]? = some (some (vi (r.node, 2))) := by
      intro l
      induction l with
      | nil => intro u a _ h1 h2 _; exact ⟨a, h1, h2⟩
      | cons y l ih =>
        rintro u a ⟨h1, h2, h3⟩ ha1 ha2 hops
        have hy : y.idx ≠ r.idx := by
          intro h
          unfold opsAt at hops
          rw [List.filter_eq_nil_iff] at hops
          exact hops y (by simp) (by simpa using h)
        have hops' : opsAt r.idx l = [] := by
          unfold opsAt at *
          rw [List.filter_cons_of_neg (by simpa using hy)] at hops
          exact hops
        obtain ⟨ly, hly, hstep⟩ := run_step hg hr (hg.ends _ _ h1).2 h2
        rw [hr.link _ _ h1, ha1] at hly
        injection hly with hly
        subst hly
        cases hb : y.isBorrow with
        | true =>
          rw [hb] at hstep
          obtain ⟨x', _, h5, _⟩ := hstep
          exact ih _ _ h3 h5 (by rw [List.getElem?_set_ne hy]; exact ha2) hops'
        | false =>
          rw [hb] at hstep
          obtain ⟨_, h5⟩ := hstep
          exact ih _ _ h3 h5 (by rw [List.getElem?_set_ne hy]; exact ha2) hops'
    obtain ⟨aE, haE1, haE2⟩ := hval mid (r.node, 0) _ hcm hlr3
      (by rw [List.getElem?_set_self (List.getElem?_eq_some_iff.1 hlr2).1]) he.mid
    rw [← hE, ← hr.link _ _ hlb, hlb1] at haE1
    injection haE1 with haE1
    subst haE1
    have hx : x = vi (r.node, 2) := by rw [hlb2] at haE2; simpa using haE2
    let vi' : Port → Val α := fun p => if M p then setAt r.idx none (vi p) else vi p
    let vo' : Port → Val α := fun p => if M p then setAt r.idx none (vo p) else vo p
    have hvi0 : ∀ p, ¬ M p → vi' p = vi p := fun p h => if_neg h
    have hvo0 : ∀ p, ¬ M p → vo' p = vo p := fun p h => if_neg h
    have hvi1 : ∀ p, M p → vi' p = setAt r.idx none (vi p) := fun p h => if_pos h
    have hvo1 : ∀ p, M p → vo' p = setAt r.idx none (vo p) := fun p h => if_pos h
    refine ⟨vi', vo', ⟨?_, ?_⟩, ?_⟩
    · intro s d hsd
      obtain ⟨h1, h2, s0, h3, rfl⟩ := (hm s d).1 hsd
      have hlink := hr.link _ _ h3
      by_cases e1 : s0 = (b.node, 1)
      · subst e1
        rw [hmv]
        have hMd : ¬ M d := by
          intro h
          obtain ⟨m, k1, rfl⟩ := hMeq h
          rcases midSrc m k1 _ h3 with h | ⟨m', k2, h⟩
          · simp at h
          · simp at h
        rw [hvi0 d hMd, hvo0 V hMV, hlink, hlb4, hx, hr.link _ _ hV]
      · by_cases e2 : s0 = (r.node, 0)
        · subst e2
          rw [hmr]
          rcases retTgt d h3 with rfl | ⟨m, k1, rfl⟩
          · exact absurd rfl h2
          · rw [hvi1 _ (hMmk m k1), hvo0 A hMA, hlink, hlr3, ← hr.link _ _ hlr, hlr1]
            simp only [setAt, List.set_set]
            rw [set_eq_self hlr2]
        · by_cases e3 : s0 = (b.node, 0)
          · subst e3
            rw [hmB]
            have hMd : ¬ M d := by
              intro h
              obtain ⟨m, k1, rfl⟩ := hMeq h
              rcases midSrc m k1 _ h3 with h | ⟨m', k2, h⟩
              · simp only [Prod.mk.injEq, and_true] at h; exact hne h.symm
              · simp only [Prod.mk.injEq, and_true] at h; exact (hmidne m' k2).2 h.symm
            rw [hvi0 d hMd, hlink, hlb3]
            split
            · rename_i hEr
              rw [hvo0 A hMA, ← hr.link _ _ hlr, hlr1]
              have : vi (b.node, 0) = vo (r.node, 0) := by
                rw [hr.link _ _ hlb, hEr]
              rw [hlb1, hlr3] at this
              injection this with this
              rw [this, List.set_set, set_eq_self hlr2]
            · rename_i hEr
              have hME : M E := by
                rcases endPort_cases (r.node, 0) mid with ⟨_, h⟩ | ⟨m, k1, k2⟩
                · exact absurd (by rw [hE, h]) hEr
                · rw [← hE] at k2; rw [k2]; exact hMmk m k1
              rw [hvo1 E hME, ← hr.link _ _ hlb, hlb1]
              rfl
          · have hms : moved r.node b.node A V E s0 = s0 := by
              unfold moved; rw [if_neg e1, if_neg e2, if_neg e3]
            rw [hms]
            by_cases hMs : M s0
            · obtain ⟨m, k1, rfl⟩ := hMeq hMs
              rcases midTgt m k1 d h3 with rfl | ⟨m', k2, rfl⟩
              · exact absurd rfl h2
              · rw [hvi1 _ (hMmk m' k2), hvo1 _ hMs, hlink]
            · have hMd : ¬ M d := by
                intro h
                obtain ⟨m, k1, rfl⟩ := hMeq h
                rcases midSrc m k1 _ h3 with h | ⟨m', k2, h⟩
                · exact e2 h
                · exact hMs (h ▸ hMmk m' k2)
              rw [hvi0 d hMd, hvo0 s0 hMs, hlink]
    · intro n hnn
      obtain ⟨hnn, n1, n2⟩ := (hn n).1 hnn
      have hnode := hr.node n hnn
      rw [hs.op]
      by_cases hnm : ∃ m ∈ mid, m.node = n
      · obtain ⟨m, k1, rfl⟩ := hnm
        have hok := (chain_mem_ok hcm m k1).1
        obtain ⟨l, q1, q2⟩ := run_step hg hr hnn hok
        have hidx := run_idx hg hr hok.2
        have hmi := midIdx m k1
        have hM1 : ∀ p, p ≠ 0 → ¬ M (m.node, p) := fun p hp h => hp h.1
        cases hb : m.isBorrow with
        | true =>
          rw [hb] at q2
          obtain ⟨y, q3, q4, q5⟩ := q2
          have hop := hok.1
          rw [hb] at hop
          rw [hop]
          refine ⟨l.set r.idx none, m.idx, y, ?_, ?_, ?_, ?_, ?_⟩
          · simp only [hvi1 _ (hMmk m k1), q1]; rfl
          · simp only [hvi0 _ (hM1 1 (by decide)), hidx]
          · rw [List.getElem?_set_ne (Ne.symm hmi)]; exact q3
          · simp only [hvo1 _ (hMmk m k1), q4]
            simp only [setAt]
            rw [List.set_comm _ _ hmi]
          · simp only [hvo0 _ (hM1 1 (by decide)), q5]
        | false =>
          rw [hb] at q2
          obtain ⟨q3, q4⟩ := q2
          have hop := hok.1
          rw [hb] at hop
          rw [hop]
          refine ⟨l.set r.idx none, m.idx, ?_, ?_, ?_, ?_⟩
          · simp only [hvi1 _ (hMmk m k1), q1]; rfl
          · simp only [hvi0 _ (hM1 1 (by decide)), hidx]
          · rw [List.getElem?_set_ne (Ne.symm hmi)]; exact q3
          · simp only [hvo1 _ (hMmk m k1), q4, hvi0 _ (hM1 2 (by decide))]
            simp only [setAt]
            rw [List.set_comm _ _ hmi]
      · have hM1 : ∀ p, ¬ M (n, p) := by
          rintro p ⟨_, m, k1, k2⟩
          exact hnm ⟨m, k1, k2.symm⟩
        have e1 : (fun p => vi' (n, p)) = (fun p => vi (n, p)) := funext fun p => hvi0 _ (hM1 p)
        have e2 : (fun p => vo' (n, p)) = (fun p => vo (n, p)) := funext fun p => hvo0 _ (hM1 p)
        rw [e1, e2]
        exact hnode
    · intro n p h1 h2
      have hMn : ¬ M (n, p) := fun h => (hMop h).elim h1 h2
      exact ⟨hvi0 _ hMn, hvo0 _ hMn⟩
  · -- backward
    intro α sem vi vo hr
    have hidxr : HasIdx g r.node r.idx := hokr.2
    have hidxb : HasIdx g b.node r.idx := by rw [← he.idx]; exact hokb.2
    -- element i is missing from the return's position on
    obtain ⟨hcpre, hcrest⟩ := isChain_append.1 hchain
    obtain ⟨hcmid, _⟩ := isChain_append.1 hcrest
    obtain ⟨aA, haA, hnA⟩ := chain_slot hwf hr pre hcpre he.out
    rw [← hA] at haA
    have hslot : ∀ m ∈ mid, ∃ a, vo (m.node, 0) = .arr a ∧ a[r.idx]? = some none := by
      intro m k1
      obtain ⟨l1, l2, hl⟩ := List.append_of_mem k1
      have hsplit : mid = (l1 ++ [m]) ++ l2 := by rw [hl]; simp
      have hops := he.mid
      rw [hsplit] at hops
      have hch : IsChain g' w (pre ++ (l1 ++ [m])) := by
        rw [isChain_append]
        refine ⟨hcpre, ?_⟩
        rw [hsplit] at hcmid
        exact (isChain_append.1 hcmid).1
      have := chain_slot hwf hr _ hch (out_append he.out (opsAt_prefix hops).1)
      rw [endPort_append, endPort_append] at this
      exact this
    let v : Val α := vo V
    let E' : Port := if E = (r.node, 0) then A else E
    have hEslot : ∃ a, vo E' = .arr a ∧ a[r.idx]? = some none := by
      have hch : IsChain g' w (pre ++ mid) := isChain_append.2 ⟨hcpre, hcmid⟩
      have := chain_slot hwf hr _ hch (out_append he.out he.mid)
      rw [endPort_append, ← hA, hE'] at this
      exact this
    obtain ⟨aE, haE, hnE⟩ := hEslot
    let put : Val α → Val α := setAt r.idx (some v)
    let vi' : Port → Val α := fun p =>
      if M p then put (vi p)
      else if p = (r.node, 0) then vo A
      else if p = (r.node, 1) then .idx r.idx
      else if p = (r.node, 2) then v
      else if p = (b.node, 0) then put (vo E')
      else if p = (b.node, 1) then .idx r.idx
      else vi p
    let vo' : Port → Val α := fun p =>
      if M p then put (vo p)
      else if p = (r.node, 0) then put (vo A)
      else if p = (b.node, 0) then vo E'
      else if p = (b.node, 1) then v
      else vo p
    have hMr : ∀ p, ¬ M (r.node, p) := by
      rintro p ⟨_, m, k1, k2⟩; exact (hmidne m k1).1 k2.symm
    have hMb : ∀ p, ¬ M (b.node, p) := by
      rintro p ⟨_, m, k1, k2⟩; exact (hmidne m k1).2 k2.symm
    have i_mid : ∀ p, M p → vi' p = put (vi p) := fun p h => if_pos h
    have o_mid : ∀ p, M p → vo' p = put (vo p) := fun p h => if_pos h
    have i_r0 : vi' (r.node, 0) = vo A := by simp only [vi', if_neg (hMr 0), if_true]
    have i_r1 : vi' (r.node, 1) = .idx r.idx := by
      simp only [vi', if_neg (hMr 1)]; rw [if_neg (by simp), if_pos trivial]
    have i_r2 : vi' (r.node, 2) = v := by
      simp only [vi', if_neg (hMr 2)]; rw [if_neg (by simp), if_neg (by simp), if_pos trivial]
    have hne' : ∀ p q : Nat, (b.node, p) ≠ (r.node, q) := by
      intro p q h; injection h with h _; exact hne h.symm
    have i_b0 : vi' (b.node, 0) = put (vo E') := by
      simp only [vi', if_neg (hMb 0)]
      rw [if_neg (hne' _ _), if_neg (hne' _ _), if_neg (hne' _ _), if_pos trivial]
    have i_b1 : vi' (b.node, 1) = .idx r.idx := by
      simp only [vi', if_neg (hMb 1)]
      rw [if_neg (hne' _ _), if_neg (hne' _ _), if_neg (hne' _ _), if_neg (by simp), if_pos trivial]
    have o_r0 : vo' (r.node, 0) = put (vo A) := by simp only [vo', if_neg (hMr 0), if_true]
    have o_b0 : vo' (b.node, 0) = vo E' := by
      simp only [vo', if_neg (hMb 0)]; rw [if_neg (hne' _ _), if_pos trivial]
    have o_b1 : vo' (b.node, 1) = v := by
      simp only [vo', if_neg (hMb 1)]; rw [if_neg (hne' _ _), if_neg (by simp), if_pos trivial]
    have i_else : ∀ p : Port, ¬ M p → p.1 ≠ r.node → p.1 ≠ b.node → vi' p = vi p := by
      intro p h1 h2 h3
      simp only [vi', if_neg h1]
      rw [if_neg, if_neg, if_neg, if_neg, if_neg]
      · rintro rfl; exact h3 rfl
      · rintro rfl; exact h3 rfl
      · rintro rfl; exact h2 rfl
      · rintro rfl; exact h2 rfl
      · rintro rfl; exact h2 rfl
    have o_else : ∀ p : Port, ¬ M p → p.1 ≠ r.node → p.1 ≠ b.node → vo' p = vo p := by
      intro p h1 h2 h3
      simp only [vo', if_neg h1]
      rw [if_neg, if_neg, if_neg]
      · rintro rfl; exact h3 rfl
      · rintro rfl; exact h3 rfl
      · rintro rfl; exact h2 rfl
    have o_A : vo' A = vo A := o_else A hMA hAne.1 hAne.2
    have hVne : V.1 ≠ r.node ∧ V.1 ≠ b.node :=
      ⟨fun h => by rw [h] at hVr; omega, fun h => by rw [h] at hVr; omega⟩
    have o_V : vo' V = v := o_else V hMV hVne.1 hVne.2
    have hOne : O.1 ≠ r.node ∧ O.1 ≠ b.node :=
      ⟨fun h => by rw [h] at hOr; omega, fun h => by rw [h] at hOr; omega⟩
    have hload : ∀ n, HasIdx g n r.idx → ∀ s, (s, (n, 1)) ∈ g.links → vo' s = .idx r.idx := by
      rintro n ⟨u, k1, k2⟩ s hsl
      rw [hg.func _ _ _ hsl k1]
      have u1 : u.1 ≠ r.node := by intro h; rw [h, hopr] at k2; cases k2
      have u2 : u.1 ≠ b.node := by intro h; rw [h, hopb] at k2; cases k2
      have u3 : ¬ M u := by
        intro h
        rcases hMop (n := u.1) (p := u.2) h with h | h <;> rw [h] at k2 <;> cases k2
      rw [o_else u u3 u1 u2]
      have hun : u.1 ∈ g'.nodes := (hn _).2 ⟨(hg.ends _ _ k1).1, u1, u2⟩
      have := hr.node u.1 hun
      rw [hs.op, k2] at this
      exact this u.2
    refine ⟨vi', vo', ⟨?_, ?_⟩, ?_⟩
    · intro s d hsd
      by_cases hdr : d.1 = r.node
      · have e : d = (r.node, d.2) := by rw [← hdr]
        have hlt := (hg.ret_ports _ hopr).1 s d.2 (by rw [← e]; exact hsd)
        rcases hp : d.2 with _ | _ | _ | p
        · rw [hp] at e; subst e
          rw [hg.func _ _ _ hsd hlr, i_r0, o_A]
        · rw [hp] at e; subst e
          exact i_r1.trans (hload _ hidxr s hsd).symm
        · rw [hp] at e; subst e
          rw [hg.func _ _ _ hsd hV]
          exact i_r2.trans o_V.symm
        · omega
      by_cases hdb : d.1 = b.node
      · have e : d = (b.node, d.2) := by rw [← hdb]
        have hlt := (hg.borrow_ports _ hopb).1 s d.2 (by rw [← e]; exact hsd)
        rcases hp : d.2 with _ | _ | p
        · rw [hp] at e; subst e
          rw [hg.func _ _ _ hsd hlb, i_b0]
          rcases endPort_cases (r.node, 0) mid with ⟨_, h⟩ | ⟨m, k1, k2⟩
          · have hEr : E = (r.node, 0) := by rw [hE, h]
            rw [hEr, o_r0]
            simp only [E', if_pos hEr]
          · have hEm : E = (m.node, 0) := by rw [hE, k2]
            have hEr : E ≠ (r.node, 0) := by
              rw [hEm]; intro h; injection h with h _; exact (hmidne m k1).1 h
            simp only [E', if_neg hEr]
            rw [o_mid E (by rw [hEm]; exact hMmk m k1)]
        · rw [hp] at e; subst e
          exact i_b1.trans (hload _ hidxb s hsd).symm
        · omega
      by_cases hsr : s.1 = r.node
      · have e : s = (r.node, s.2) := by rw [← hsr]
        have hlt := (hg.ret_ports _ hopr).2 s.2 d (by rw [← e]; exact hsd)
        have e' : s = (r.node, 0) := by rw [e]; congr 1; omega
        subst e'
        rcases retTgt d hsd with rfl | ⟨m, k1, rfl⟩
        · exact absurd rfl hdb
        · have hl : (A, (m.node, 0)) ∈ g'.links := (hm _ _).2 ⟨hdr, hdb, _, hsd, hmr.symm⟩
          rw [i_mid _ (hMmk m k1), o_r0, hr.link _ _ hl]
      by_cases hsb : s.1 = b.node
      · have e : s = (b.node, s.2) := by rw [← hsb]
        have hlt := (hg.borrow_ports _ hopb).2 s.2 d (by rw [← e]; exact hsd)
        rcases hp : s.2 with _ | _ | p
        · rw [hp] at e; subst e
          have hdO : d = O := hg.linear _ _ _ (by rw [bo]; rfl) hsd hO
          have hl : (E', d) ∈ g'.links := (hm _ _).2 ⟨hdr, hdb, _, hsd, hmB.symm⟩
          have hMd : ¬ M d := by rw [hdO]; exact hMO
          rw [o_b0, i_else d hMd hdr hdb, hr.link _ _ hl]
        · rw [hp] at e
          simp only [Nat.zero_add] at e
          subst e
          have hl : (V, d) ∈ g'.links := (hm _ _).2 ⟨hdr, hdb, _, hsd, hmv.symm⟩
          have hMd : ¬ M d := by
            intro h
            obtain ⟨m, k1, rfl⟩ := hMeq h
            rcases midSrc m k1 _ hsd with h | ⟨m', _, h⟩ <;> simp at h
          rw [o_b1, i_else d hMd hdr hdb, hr.link _ _ hl]
        · omega
      have hl := hr.link _ _ (keep s d hsd hsr hsb hdr hdb)
      by_cases hMs : M s
      · obtain ⟨m, k1, rfl⟩ := hMeq hMs
        rcases midTgt m k1 d hsd with rfl | ⟨m', k2, rfl⟩
        · exact absurd rfl hdb
        · rw [i_mid _ (hMmk m' k2), o_mid _ hMs, hl]
      · have hMd : ¬ M d := by
          intro h
          obtain ⟨m, k1, rfl⟩ := hMeq h
          rcases midSrc m k1 _ hsd with h | ⟨m', k2, h⟩
          · exact hsr (by rw [h])
          · exact hMs (h ▸ hMmk m' k2)
        rw [i_else d hMd hdr hdb, o_else s hMs hsr hsb, hl]
    · intro n hnn
      by_cases hnr : n = r.node
      · subst hnr
        rw [hopr]
        refine ⟨aA, r.idx, by simp only [i_r0, haA], i_r1, hnA, ?_⟩
        simp only [o_r0, haA, i_r2]
        rfl
      by_cases hnb : n = b.node
      · subst hnb
        rw [hopb]
        have hlen := (List.getElem?_eq_some_iff.1 hnE).1
        refine ⟨aE.set r.idx (some v), r.idx, v, ?_, i_b1, ?_, ?_, o_b1⟩
        · simp only [i_b0, haE]; rfl
        · rw [List.getElem?_set_self hlen]
        · simp only [o_b0, haE, List.set_set]
          rw [set_eq_self hnE]
      have hn' : n ∈ g'.nodes := (hn n).2 ⟨hnn, hnr, hnb⟩
      have hnode := hr.node n hn'
      rw [hs.op] at hnode
      by_cases hnm : ∃ m ∈ mid, m.node = n
      · obtain ⟨m, k1, rfl⟩ := hnm
        have hok' := keepOk m (chain_mem_ok hcm m k1).1 hnr hnb
        have hok := (chain_mem_ok hcm m k1).1
        obtain ⟨l, q1, q2⟩ := run_step hwf hr hn' hok'
        have hidx := run_idx hwf hr hok'.2
        have hmi := midIdx m k1
        have hM1 : ∀ p, p ≠ 0 → ¬ M (m.node, p) := fun p hp h => hp h.1
        cases hb : m.isBorrow with
        | true =>
          rw [hb] at q2
          obtain ⟨y, q3, q4, q5⟩ := q2
          have hop := hok.1
          rw [hb] at hop
          rw [hop]
          refine ⟨l.set r.idx (some v), m.idx, y, ?_, ?_, ?_, ?_, ?_⟩
          · simp only [i_mid _ (hMmk m k1), q1]; rfl
          · simp only [i_else (m.node, 1) (hM1 1 (by decide)) hnr hnb, hidx]
          · rw [List.getElem?_set_ne (Ne.symm hmi)]; exact q3
          · simp only [o_mid _ (hMmk m k1), q4]
            simp only [put, setAt]
            rw [List.set_comm _ _ hmi]
          · simp only [o_else (m.node, 1) (hM1 1 (by decide)) hnr hnb, q5]
        | false =>
          rw [hb] at q2
          obtain ⟨q3, q4⟩ := q2
          have hop := hok.1
          rw [hb] at hop
          rw [hop]
          refine ⟨l.set r.idx (some v), m.idx, ?_, ?_, ?_, ?_⟩
          · simp only [i_mid _ (hMmk m k1), q1]; rfl
          · simp only [i_else (m.node, 1) (hM1 1 (by decide)) hnr hnb, hidx]
          · rw [List.getElem?_set_ne (Ne.symm hmi)]; exact q3
          · simp only [o_mid _ (hMmk m k1), q4, i_else (m.node, 2) (hM1 2 (by decide)) hnr hnb]
            simp only [put, setAt]
            rw [List.set_comm _ _ hmi]
      · have hM1 : ∀ p, ¬ M (n, p) := by
          rintro p ⟨_, m, k1, k2⟩
          exact hnm ⟨m, k1, k2.symm⟩
        have e1 : (fun p => vi' (n, p)) = (fun p => vi (n, p)) :=
          funext fun p => i_else (n, p) (hM1 p) hnr hnb
        have e2 : (fun p => vo' (n, p)) = (fun p => vo (n, p)) :=
          funext fun p => o_else (n, p) (hM1 p) hnr hnb
        rw [e1, e2]
        exact hnode
    · intro n p h1 h2
      rw [hs.op] at h1 h2
      have hMn : ¬ M (n, p) := fun h => (hMop h).elim h1 h2
      have n1 : n ≠ r.node := fun h => h2 (by rw [h]; exact hopr)
      have n2 : n ≠ b.node := fun h => h1 (by rw [h]; exact hopb)
      exact ⟨i_else (n, p) hMn n1 n2, o_else (n, p) hMn n1 n2⟩

end One

end Tket.BorrowSquash
