import Verif.Model.BorrowSquash
import Mathlib.Tactic.Common

/-!
# Graph lemmas for the borrow-squash pass
-/

namespace Tket.BorrowSquash

theorem single_eq {l : List Port} {x : Port} (hx : x ∈ l) (hu : ∀ y ∈ l, y = x) :
    single l = some x := by
  have hn := List.nodup_dedup l
  have h1 : ∀ y ∈ l.dedup, y = x := fun y hy => hu y (List.mem_dedup.1 hy)
  have h2 : x ∈ l.dedup := List.mem_dedup.2 hx
  unfold single
  match hl : l.dedup with
  | [] => rw [hl] at h2; cases h2
  | [y] =>
    rw [hl] at h1
    have := h1 y (by simp)
    subst this
    rfl
  | y :: z :: t =>
    rw [hl] at h1 hn
    have e1 := h1 y (by simp)
    have e2 := h1 z (by simp)
    subst e1
    subst e2
    simp at hn

theorem single_mem {l : List Port} {x : Port} (h : single l = some x) :
    x ∈ l ∧ ∀ y ∈ l, y = x := by
  unfold single at h
  split at h
  · rename_i y hl
    simp only [Option.some.injEq] at h
    subst h
    constructor
    · rw [← List.mem_dedup, hl]; simp
    · intro z hz
      rw [← List.mem_dedup, hl] at hz
      simpa using hz
  · simp at h

theorem srcOf_eq {g : G} {s d : Port} (h : (s, d) ∈ g.links) (hu : ∀ s', (s', d) ∈ g.links → s' = s) :
    g.srcOf d = some s := by
  apply single_eq
  · exact List.mem_map.2 ⟨(s, d), List.mem_filter.2 ⟨h, by simp⟩, rfl⟩
  · intro y hy
    obtain ⟨⟨a, b⟩, hm, rfl⟩ := List.mem_map.1 hy
    obtain ⟨hm', hb⟩ := List.mem_filter.1 hm
    simp only [decide_eq_true_eq] at hb
    subst hb
    exact hu a hm'

theorem srcOf_mem {g : G} {s d : Port} (h : g.srcOf d = some s) :
    (s, d) ∈ g.links ∧ ∀ s', (s', d) ∈ g.links → s' = s := by
  obtain ⟨h1, h2⟩ := single_mem h
  obtain ⟨⟨a, b⟩, hm, rfl⟩ := List.mem_map.1 h1
  obtain ⟨hm', hb⟩ := List.mem_filter.1 hm
  simp only [decide_eq_true_eq] at hb
  subst hb
  refine ⟨hm', fun s' hs' => h2 s' ?_⟩
  exact List.mem_map.2 ⟨(s', b), List.mem_filter.2 ⟨hs', by simp⟩, rfl⟩

theorem tgtOf_eq {g : G} {s d : Port} (h : (s, d) ∈ g.links) (hu : ∀ d', (s, d') ∈ g.links → d' = d) :
    g.tgtOf s = some d := by
  apply single_eq
  · exact List.mem_map.2 ⟨(s, d), List.mem_filter.2 ⟨h, by simp⟩, rfl⟩
  · intro y hy
    obtain ⟨⟨a, b⟩, hm, rfl⟩ := List.mem_map.1 hy
    obtain ⟨hm', hb⟩ := List.mem_filter.1 hm
    simp only [decide_eq_true_eq] at hb
    subst hb
    exact hu b hm'

theorem tgtOf_mem {g : G} {s d : Port} (h : g.tgtOf s = some d) :
    (s, d) ∈ g.links ∧ ∀ d', (s, d') ∈ g.links → d' = d := by
  obtain ⟨h1, h2⟩ := single_mem h
  obtain ⟨⟨a, b⟩, hm, rfl⟩ := List.mem_map.1 h1
  obtain ⟨hm', hb⟩ := List.mem_filter.1 hm
  simp only [decide_eq_true_eq] at hb
  subst hb
  refine ⟨hm', fun s' hs' => h2 s' ?_⟩
  exact List.mem_map.2 ⟨(a, s'), List.mem_filter.2 ⟨hs', by simp⟩, rfl⟩

theorem mem_targets {g : G} {s d : Port} : d ∈ g.targets s ↔ (s, d) ∈ g.links := by
  unfold G.targets
  simp only [List.mem_map, List.mem_filter, decide_eq_true_eq, Prod.exists, exists_eq_right]

/-- A valid dataflow region: links join existing nodes with ports of equal type, every input port has one
source, every linear port one target, borrows and returns have the right ports and types, no cycles. -/
structure WF (g : G) : Prop where
  ends : ∀ s d, (s, d) ∈ g.links → s.1 ∈ g.nodes ∧ d.1 ∈ g.nodes
  typed : ∀ s d, (s, d) ∈ g.links → g.tyOut s = g.tyIn d
  func : ∀ s s' d, (s, d) ∈ g.links → (s', d) ∈ g.links → s = s'
  linear : ∀ s d d', (g.tyOut s).linear = true → (s, d) ∈ g.links → (s, d') ∈ g.links → d = d'
  array_used : ∀ s n t, s.1 ∈ g.nodes → g.tyOut s = .array n t → ∃ d, (s, d) ∈ g.links
  borrow_ty : ∀ n, g.op n = .borrow → ∃ k t, g.tyIn (n, 0) = .array k t ∧ g.tyIn (n, 1) = .index ∧
    g.tyOut (n, 0) = .array k t ∧ g.tyOut (n, 1) = t
  ret_ty : ∀ n, g.op n = .ret → ∃ k t, g.tyIn (n, 0) = .array k t ∧ g.tyIn (n, 1) = .index ∧
    g.tyIn (n, 2) = t ∧ g.tyOut (n, 0) = .array k t
  borrow_ports : ∀ n, g.op n = .borrow →
    (∀ s p, (s, (n, p)) ∈ g.links → p < 2) ∧ (∀ p d, ((n, p), d) ∈ g.links → p < 2)
  ret_ports : ∀ n, g.op n = .ret →
    (∀ s p, (s, (n, p)) ∈ g.links → p < 3) ∧ (∀ p d, ((n, p), d) ∈ g.links → p < 1)
  borrow_in : ∀ n ∈ g.nodes, g.op n = .borrow → ∀ p < 2, ∃ s, (s, (n, p)) ∈ g.links
  ret_in : ∀ n ∈ g.nodes, g.op n = .ret → ∀ p < 3, ∃ s, (s, (n, p)) ∈ g.links
  acyclic : ∃ rank : Nat → Nat, ∀ s d, (s, d) ∈ g.links → rank s.1 < rank d.1

/-- The index input of `n` is the constant `i`. -/
def HasIdx (g : G) (n i : Nat) : Prop := ∃ s, (s, (n, 1)) ∈ g.links ∧ g.op s.1 = .load i

def StepOk (g : G) (s : Step) : Prop :=
  g.op s.node = (if s.isBorrow then .borrow else .ret) ∧ HasIdx g s.node s.idx

/-- Consecutive operations on one array. -/
def IsChain (g : G) : Port → List Step → Prop
  | _, [] => True
  | w, s :: l => (w, (s.node, 0)) ∈ g.links ∧ StepOk g s ∧ IsChain g (s.node, 0) l

/-- Where the array is after the operations. -/
def endPort (w : Port) : List Step → Port
  | [] => w
  | s :: l => endPort (s.node, 0) l

theorem endPort_append (w : Port) (l m : List Step) : endPort w (l ++ m) = endPort (endPort w l) m := by
  induction l generalizing w with
  | nil => rfl
  | cons s l ih => exact ih _

theorem isChain_append {g : G} {w : Port} {l m : List Step} :
    IsChain g w (l ++ m) ↔ IsChain g w l ∧ IsChain g (endPort w l) m := by
  induction l generalizing w with
  | nil => simp [IsChain, endPort]
  | cons s l ih =>
    simp only [List.cons_append, IsChain, endPort, ih]
    tauto

/-! ## Links after an elision -/

theorem mem_connects {g : G} {src s d : Port} (ts : List Port) :
    (s, d) ∈ (ts.foldl (fun g t => g.connect src t) g).links ↔ (s, d) ∈ g.links ∨ (s = src ∧ d ∈ ts) := by
  induction ts generalizing g with
  | nil => simp
  | cons t ts ih =>
    rw [List.foldl_cons, ih]
    simp only [G.connect, List.mem_cons, Prod.mk.injEq]
    tauto

theorem connects_rest {g : G} {src : Port} (ts : List Port) :
    (ts.foldl (fun g t => g.connect src t) g).nodes = g.nodes ∧
    (ts.foldl (fun g t => g.connect src t) g).op = g.op ∧
    (ts.foldl (fun g t => g.connect src t) g).tyOut = g.tyOut ∧
    (ts.foldl (fun g t => g.connect src t) g).tyIn = g.tyIn := by
  induction ts generalizing g with
  | nil => simp
  | cons t ts ih =>
    rw [List.foldl_cons]
    obtain ⟨a, b, c, d⟩ := @ih (g.connect src t)
    exact ⟨a, b, c, d⟩

/-- Fields the pass does not touch. -/
structure Same (g g' : G) : Prop where
  op : g'.op = g.op
  tyOut : g'.tyOut = g.tyOut
  tyIn : g'.tyIn = g.tyIn

theorem Same.refl (g : G) : Same g g := ⟨rfl, rfl, rfl⟩
theorem Same.trans {a b c : G} (h : Same a b) (k : Same b c) : Same a c :=
  ⟨k.op.trans h.op, k.tyOut.trans h.tyOut, k.tyIn.trans h.tyIn⟩

theorem elideNode_spec {g : G} {n : Nat} {i o : Port} (hi : (i, (n, 0)) ∈ g.links)
    (hiu : ∀ s', (s', (n, 0)) ∈ g.links → s' = i) (ho : ((n, 0), o) ∈ g.links)
    (hou : ∀ d', ((n, 0), d') ∈ g.links → d' = o) :
    ∃ g', g.elideNode n = some g' ∧ Same g g' ∧ (∀ m, m ∈ g'.nodes ↔ m ∈ g.nodes ∧ m ≠ n) ∧
      ∀ s d, (s, d) ∈ g'.links ↔ s.1 ≠ n ∧ d.1 ≠ n ∧ ((s, d) ∈ g.links ∨ (s = i ∧ d = o)) := by
  refine ⟨(g.connect i o).removeNode n, ?_, ⟨rfl, rfl, rfl⟩, ?_, ?_⟩
  · unfold G.elideNode
    rw [srcOf_eq hi hiu, tgtOf_eq ho hou]
  · intro m
    simp [G.removeNode, G.connect]
  · intro s d
    simp only [G.removeNode, G.connect, List.mem_filter, List.mem_cons, Prod.mk.injEq,
      decide_eq_true_eq]
    tauto

/-- The pair to elide, with its surroundings: `A` feeds the return, `V` is the returned value, `R` the
user of the array after the return, `E` the array entering the borrow, `O` its user afterwards. -/
structure Around (g : G) (r b : Nat) (A V R E O : Port) : Prop where
  inR : (A, (r, 0)) ∈ g.links
  val : (V, (r, 2)) ∈ g.links
  outR : ((r, 0), R) ∈ g.links
  inB : (E, (b, 0)) ∈ g.links
  outB : ((b, 0), O) ∈ g.links
  opR : g.op r = .ret
  opB : g.op b = .borrow
  before : ∀ rank : Nat → Nat, (∀ s d, (s, d) ∈ g.links → rank s.1 < rank d.1) → rank r < rank b

theorem elide_links {g : G} (hg : WF g) {r b : Nat} {A V R E O : Port} (ha : Around g r b A V R E O) :
    ∃ g', g.elide (r, b) = some g' ∧ Same g g' ∧ (∀ m, m ∈ g'.nodes ↔ m ∈ g.nodes ∧ m ≠ r ∧ m ≠ b) ∧
      ∀ s d, (s, d) ∈ g'.links ↔ (s.1 ≠ r ∧ s.1 ≠ b ∧ d.1 ≠ r ∧ d.1 ≠ b) ∧
        ((s, d) ∈ g.links ∨ (s = V ∧ ((b, 1), d) ∈ g.links) ∨ (s = A ∧ d = R) ∨
          (d = O ∧ (s = E ∨ E = (r, 0) ∧ s = A))) := by
  obtain ⟨rank, hr⟩ := hg.acyclic
  have hrb := ha.before rank hr
  have hA := hr _ _ ha.inR
  have hV := hr _ _ ha.val
  have hR := hr _ _ ha.outR
  have hE := hr _ _ ha.inB
  have hO := hr _ _ ha.outB
  simp only at hA hV hR hE hO
  obtain ⟨kr, tr, r0, r1, r2, ro⟩ := hg.ret_ty r ha.opR
  obtain ⟨kb, tb, b0, b1, bo, bo1⟩ := hg.borrow_ty b ha.opB
  have hsrc : g.srcOf (r, 2) = some V := srcOf_eq ha.val (fun s' h => hg.func _ _ _ h ha.val)
  set g1 := (g.targets (b, 1)).foldl (fun g t => g.connect V t) g with hg1
  have hm1 : ∀ s d, (s, d) ∈ g1.links ↔ (s, d) ∈ g.links ∨ (s = V ∧ ((b, 1), d) ∈ g.links) := by
    intro s d
    rw [hg1, mem_connects]
    simp only [mem_targets]
  obtain ⟨n1, o1, to1, ti1⟩ := @connects_rest g V (g.targets (b, 1))
  rw [← hg1] at n1 o1 to1 ti1
  have hbor : ∀ d, ((b, 1), d) ∈ g.links → rank b < rank d.1 := fun d h => hr _ _ h
  have hbV : V.1 ≠ b := by intro h; rw [h] at hV; omega
  -- eliding the borrow
  obtain ⟨g2, e2, s2, nd2, m2⟩ := elideNode_spec (g := g1) (n := b) (i := E) (o := O)
    ((hm1 _ _).2 (Or.inl ha.inB))
    (by
      intro s' h
      rcases (hm1 _ _).1 h with h | ⟨_, h⟩
      · exact hg.func _ _ _ h ha.inB
      · have := hbor _ h; simp at this)
    ((hm1 _ _).2 (Or.inl ha.outB))
    (by
      intro d' h
      rcases (hm1 _ _).1 h with h | ⟨h, _⟩
      · exact hg.linear _ _ _ (by rw [bo]; rfl) h ha.outB
      · exact absurd (by rw [← h]) hbV)
  have hAb : A.1 ≠ b := by intro h; rw [h] at hA; omega
  have hOr : O.1 ≠ r := by intro h; rw [h] at hO; omega
  have hrb' : r ≠ b := by intro h; rw [h] at hrb; omega
  -- the target of the return's array once the borrow is gone
  by_cases hER : E = (r, 0)
  · have hRb : R = (b, 0) := by
      rw [hER] at ha
      exact hg.linear _ _ _ (by rw [ro]; rfl) ha.outR ha.inB
    obtain ⟨g3, e3, s3, nd3, m3⟩ := elideNode_spec (g := g2) (n := r) (i := A) (o := O)
      ((m2 _ _).2 ⟨hAb, hrb', Or.inl ((hm1 _ _).2 (Or.inl ha.inR))⟩)
      (by
        intro s' h
        obtain ⟨_, _, h | ⟨_, h⟩⟩ := (m2 _ _).1 h
        · rcases (hm1 _ _).1 h with h | ⟨_, h⟩
          · exact hg.func _ _ _ h ha.inR
          · have := hbor _ h; simp only at this; omega
        · exact absurd (by rw [← h]) hOr)
      ((m2 _ _).2 ⟨hrb', by intro h; rw [h] at hO; omega, Or.inr ⟨hER.symm, rfl⟩⟩)
      (by
        intro d' h
        obtain ⟨_, hd, h | ⟨_, h⟩⟩ := (m2 _ _).1 h
        · rcases (hm1 _ _).1 h with h | ⟨h, _⟩
          · have := hg.linear _ _ _ (by rw [ro]; rfl) h ha.outR
            rw [this, hRb] at hd
            simp at hd
          · rw [← h] at hV; simp at hV
        · exact h)
    refine ⟨g3, ?_, ?_, ?_, ?_⟩
    · unfold G.elide
      rw [hsrc]
      simp only [← hg1]
      rw [e2]
      exact e3
    · exact (Same.trans ⟨o1, to1, ti1⟩ s2).trans s3
    · intro m
      rw [nd3, nd2, n1]
      tauto
    · intro s d
      rw [m3, m2, hm1]
      constructor
      · rintro ⟨h1, h2, ⟨h3, h4, (h5 | h5) | ⟨h5, h6⟩⟩ | ⟨h5, h6⟩⟩
        · exact ⟨⟨h1, h3, h2, h4⟩, Or.inl h5⟩
        · exact ⟨⟨h1, h3, h2, h4⟩, Or.inr (Or.inl h5)⟩
        · exact ⟨⟨h1, h3, h2, h4⟩, Or.inr (Or.inr (Or.inr ⟨h6, Or.inl h5⟩))⟩
        · refine ⟨⟨h1, by rw [h5]; exact hAb, h2, ?_⟩, Or.inr (Or.inr (Or.inr ⟨h6, Or.inr ⟨hER, h5⟩⟩))⟩
          rw [h6]; intro h; rw [h] at hO; omega
      · rintro ⟨⟨h1, h3, h2, h4⟩, h5 | h5 | ⟨h5, h6⟩ | ⟨h5, h6 | ⟨_, h6⟩⟩⟩
        · exact ⟨h1, h2, Or.inl ⟨h3, h4, Or.inl (Or.inl h5)⟩⟩
        · exact ⟨h1, h2, Or.inl ⟨h3, h4, Or.inl (Or.inr h5)⟩⟩
        · rw [h6, hRb] at h4; simp at h4
        · exact ⟨h1, h2, Or.inl ⟨h3, h4, Or.inr ⟨h6, h5⟩⟩⟩
        · exact ⟨h1, h2, Or.inr ⟨h6, h5⟩⟩
  · have hRb : R.1 ≠ b := by
      intro h
      have hRp : R.2 < 2 := (hg.borrow_ports b ha.opB).1 (r, 0) R.2 (by rw [← h]; exact ha.outR)
      have hty := hg.typed _ _ ha.outR
      have hR' : R = (b, R.2) := by rw [← h]
      rcases hp : R.2 with _ | _ | p
      · rw [hp] at hR'
        rw [hR'] at ha
        exact hER (hg.func _ _ _ ha.inB ha.outR)
      · rw [hp] at hR'
        rw [hR', ro] at hty
        simp only [Nat.zero_add] at hty
        rw [b1] at hty
        cases hty
      · omega
    obtain ⟨g3, e3, s3, nd3, m3⟩ := elideNode_spec (g := g2) (n := r) (i := A) (o := R)
      ((m2 _ _).2 ⟨hAb, hrb', Or.inl ((hm1 _ _).2 (Or.inl ha.inR))⟩)
      (by
        intro s' h
        obtain ⟨_, _, h | ⟨_, h⟩⟩ := (m2 _ _).1 h
        · rcases (hm1 _ _).1 h with h | ⟨_, h⟩
          · exact hg.func _ _ _ h ha.inR
          · have := hbor _ h; simp only at this; omega
        · exact absurd (by rw [← h]) hOr)
      ((m2 _ _).2 ⟨hrb', hRb, Or.inl ((hm1 _ _).2 (Or.inl ha.outR))⟩)
      (by
        intro d' h
        obtain ⟨_, hd, h | ⟨h, _⟩⟩ := (m2 _ _).1 h
        · rcases (hm1 _ _).1 h with h | ⟨h, _⟩
          · exact hg.linear _ _ _ (by rw [ro]; rfl) h ha.outR
          · rw [← h] at hV; simp at hV
        · exact absurd h.symm hER)
    refine ⟨g3, ?_, ?_, ?_, ?_⟩
    · unfold G.elide
      rw [hsrc]
      simp only [← hg1]
      rw [e2]
      exact e3
    · exact (Same.trans ⟨o1, to1, ti1⟩ s2).trans s3
    · intro m
      rw [nd3, nd2, n1]
      tauto
    · intro s d
      rw [m3, m2, hm1]
      constructor
      · rintro ⟨h1, h2, ⟨h3, h4, (h5 | h5) | ⟨h5, h6⟩⟩ | ⟨h5, h6⟩⟩
        · exact ⟨⟨h1, h3, h2, h4⟩, Or.inl h5⟩
        · exact ⟨⟨h1, h3, h2, h4⟩, Or.inr (Or.inl h5)⟩
        · exact ⟨⟨h1, h3, h2, h4⟩, Or.inr (Or.inr (Or.inr ⟨h6, Or.inl h5⟩))⟩
        · exact ⟨⟨h1, by rw [h5]; exact hAb, h2, by rw [h6]; exact hRb⟩, Or.inr (Or.inr (Or.inl ⟨h5, h6⟩))⟩
      · rintro ⟨⟨h1, h3, h2, h4⟩, h5 | h5 | ⟨h5, h6⟩ | ⟨h5, h6 | ⟨h6, _⟩⟩⟩
        · exact ⟨h1, h2, Or.inl ⟨h3, h4, Or.inl (Or.inl h5)⟩⟩
        · exact ⟨h1, h2, Or.inl ⟨h3, h4, Or.inl (Or.inr h5)⟩⟩
        · exact ⟨h1, h2, Or.inr ⟨h5, h6⟩⟩
        · exact ⟨h1, h2, Or.inl ⟨h3, h4, Or.inr ⟨h6, h5⟩⟩⟩
        · exact absurd h6 hER

/-- Where a link of the original graph starts after the elision. -/
def moved (r b : Nat) (A V E s : Port) : Port :=
  if s = (b, 1) then V
  else if s = (r, 0) then A
  else if s = (b, 0) then (if E = (r, 0) then A else E)
  else s

theorem elide_moved {g : G} (hg : WF g) {r b : Nat} {A V R E O : Port} (ha : Around g r b A V R E O) :
    ∃ g', g.elide (r, b) = some g' ∧ Same g g' ∧ (∀ m, m ∈ g'.nodes ↔ m ∈ g.nodes ∧ m ≠ r ∧ m ≠ b) ∧
      (∀ s d, (s, d) ∈ g'.links ↔ d.1 ≠ r ∧ d.1 ≠ b ∧ ∃ s0, (s0, d) ∈ g.links ∧ s = moved r b A V E s0) ∧
      (∀ s0 d, (s0, d) ∈ g.links → (moved r b A V E s0).1 ≠ r ∧ (moved r b A V E s0).1 ≠ b) := by
  obtain ⟨g', he, hs, hn, hm⟩ := elide_links hg ha
  obtain ⟨rank, hr⟩ := hg.acyclic
  have hrb := ha.before rank hr
  have hA := hr _ _ ha.inR
  have hV := hr _ _ ha.val
  have hE := hr _ _ ha.inB
  simp only at hA hV hE
  have hne : r ≠ b := by intro h; rw [h] at hrb; omega
  have ne : ∀ {p : Port} {n : Nat}, rank p.1 < rank n → p.1 ≠ n := by
    intro p n h h'; rw [h'] at h; omega
  have hfresh : ∀ s0 d, (s0, d) ∈ g.links →
      (moved r b A V E s0).1 ≠ r ∧ (moved r b A V E s0).1 ≠ b := by
    intro s0 d h
    unfold moved
    split
    · exact ⟨ne hV, ne (by omega)⟩
    · rename_i h1
      split
      · exact ⟨ne hA, ne (by omega)⟩
      · rename_i h2
        split
        · split
          · exact ⟨ne hA, ne (by omega)⟩
          · rename_i h4
            refine ⟨fun h5 => h4 ?_, ne hE⟩
            have hE' : E = (r, E.2) := by rw [← h5]
            have hlt := (hg.ret_ports r ha.opR).2 E.2 (b, 0) (by rw [← hE']; exact ha.inB)
            rw [hE']
            congr 1
            omega
        · rename_i h3
          constructor
          · intro h5
            have h5' : s0 = (r, s0.2) := by rw [← h5]
            have hlt := (hg.ret_ports r ha.opR).2 s0.2 d (by rw [← h5']; exact h)
            apply h2
            rw [h5']
            congr 1
            omega
          · intro h5
            have h5' : s0 = (b, s0.2) := by rw [← h5]
            have hlt := (hg.borrow_ports b ha.opB).2 s0.2 d (by rw [← h5']; exact h)
            rcases hp : s0.2 with _ | _ | p
            · exact h3 (by rw [h5', hp])
            · exact h1 (by rw [h5', hp])
            · omega
  refine ⟨g', he, hs, hn, ?_, hfresh⟩
  have linR : ∀ {d : Port}, ((r, 0), d) ∈ g.links → d = R := by
    intro d h
    obtain ⟨_, _, _, _, _, ro⟩ := hg.ret_ty r ha.opR
    exact hg.linear _ _ _ (by rw [ro]; rfl) h ha.outR
  have linB : ∀ {d : Port}, ((b, 0), d) ∈ g.links → d = O := by
    intro d h
    obtain ⟨_, _, _, _, bo, _⟩ := hg.borrow_ty b ha.opB
    exact hg.linear _ _ _ (by rw [bo]; rfl) h ha.outB
  intro s d
  rw [hm]
  constructor
  · rintro ⟨⟨h1, h2, h3, h4⟩, h⟩
    refine ⟨h3, h4, ?_⟩
    rcases h with h | ⟨h, h'⟩ | ⟨h, h'⟩ | ⟨h, h' | ⟨h', h''⟩⟩
    · refine ⟨s, h, ?_⟩
      unfold moved
      rw [if_neg, if_neg, if_neg]
      · rintro rfl; exact h2 rfl
      · rintro rfl; exact h1 rfl
      · rintro rfl; exact h2 rfl
    · exact ⟨(b, 1), h', by rw [h]; simp [moved]⟩
    · refine ⟨(r, 0), by rw [h']; exact ha.outR, ?_⟩
      rw [h]; unfold moved; rw [if_neg (by simp), if_pos rfl]
    · refine ⟨(b, 0), by rw [h]; exact ha.outB, ?_⟩
      rw [h']; unfold moved
      rw [if_neg (by simp), if_neg (by simpa using Ne.symm hne), if_pos rfl, if_neg]
      rintro rfl
      exact h1 (by rw [h'])
    · refine ⟨(b, 0), by rw [h]; exact ha.outB, ?_⟩
      rw [h'']; unfold moved
      rw [if_neg (by simp), if_neg (by simpa using Ne.symm hne), if_pos rfl, if_pos h']
  · rintro ⟨h3, h4, s0, h, rfl⟩
    obtain ⟨f1, f2⟩ := hfresh s0 d h
    refine ⟨⟨f1, f2, h3, h4⟩, ?_⟩
    unfold moved
    split
    · rename_i e; subst e; exact Or.inr (Or.inl ⟨rfl, h⟩)
    · split
      · rename_i e; subst e; exact Or.inr (Or.inr (Or.inl ⟨rfl, linR h⟩))
      · split
        · rename_i e; subst e
          split
          · rename_i e'; exact Or.inr (Or.inr (Or.inr ⟨linB h, Or.inr ⟨e', rfl⟩⟩))
          · exact Or.inr (Or.inr (Or.inr ⟨linB h, Or.inl rfl⟩))
        · exact Or.inl h

theorem moved_of_ne {r b : Nat} {A V E s : Port} (h1 : s.1 ≠ r) (h2 : s.1 ≠ b) :
    moved r b A V E s = s := by
  unfold moved
  rw [if_neg, if_neg, if_neg]
  · rintro rfl; exact h2 rfl
  · rintro rfl; exact h1 rfl
  · rintro rfl; exact h2 rfl

/-- The graph after eliding a pair is valid again. -/
theorem elide_wf {g : G} (hg : WF g) {r b : Nat} {A V R E O : Port} (ha : Around g r b A V R E O)
    (hty : g.tyOut (r, 0) = g.tyIn (b, 0)) {g' : G} (hs : Same g g')
    (hn : ∀ m, m ∈ g'.nodes ↔ m ∈ g.nodes ∧ m ≠ r ∧ m ≠ b)
    (hm : ∀ s d, (s, d) ∈ g'.links ↔ d.1 ≠ r ∧ d.1 ≠ b ∧
      ∃ s0, (s0, d) ∈ g.links ∧ s = moved r b A V E s0)
    (hf : ∀ s0 d, (s0, d) ∈ g.links → (moved r b A V E s0).1 ≠ r ∧ (moved r b A V E s0).1 ≠ b) :
    WF g' := by
  obtain ⟨rank, hr⟩ := hg.acyclic
  have hrb := ha.before rank hr
  have hA := hr _ _ ha.inR
  have hV := hr _ _ ha.val
  have hE := hr _ _ ha.inB
  have hO := hr _ _ ha.outB
  have hRk := hr _ _ ha.outR
  simp only at hA hV hE hO hRk
  have hne : r ≠ b := by intro h; rw [h] at hrb; omega
  obtain ⟨kr, tr, r0, r1, r2, ro⟩ := hg.ret_ty r ha.opR
  obtain ⟨kb, tb, b0, b1, bo, bo1⟩ := hg.borrow_ty b ha.opB
  have htt : kr = kb ∧ tr = tb := by rw [ro, b0] at hty; injection hty with h1 h2; exact ⟨h1, h2⟩
  have hmr : moved r b A V E (r, 0) = A := by
    unfold moved; rw [if_neg (by simp), if_pos rfl]
  have hmb : moved r b A V E (b, 0) = if E = (r, 0) then A else E := by
    unfold moved; rw [if_neg (by simp), if_neg (by simpa using Ne.symm hne), if_pos rfl]
  have hmv : moved r b A V E (b, 1) = V := by unfold moved; rw [if_pos rfl]
  have hmty : ∀ s, g.tyOut (moved r b A V E s) = g.tyOut s := by
    intro s
    unfold moved
    split
    · rename_i e; rw [e, bo1, hg.typed _ _ ha.val, r2, htt.2]
    · split
      · rename_i e; rw [e, ro, hg.typed _ _ ha.inR, r0]
      · split
        · rename_i e
          split
          · rw [e, bo, hg.typed _ _ ha.inR, r0, htt.1, htt.2]
          · rw [e, bo, hg.typed _ _ ha.inB, b0]
        · rfl
  have hmrank : ∀ s, rank (moved r b A V E s).1 ≤ rank s.1 := by
    intro s
    unfold moved
    split
    · rename_i e; rw [e]; simp only; omega
    · split
      · rename_i e; rw [e]; simp only; omega
      · split
        · rename_i e; rw [e]; simp only
          split <;> omega
        · exact Nat.le_refl _
  -- targets on the removed nodes
  have hAu : ∀ d, (A, d) ∈ g.links → d = (r, 0) := fun d h =>
    hg.linear _ _ _ (by rw [hg.typed _ _ ha.inR, r0]; rfl) h ha.inR
  have hEu : ∀ d, (E, d) ∈ g.links → d = (b, 0) := fun d h =>
    hg.linear _ _ _ (by rw [hg.typed _ _ ha.inB, b0]; rfl) h ha.inB
  have hRu : ∀ d, ((r, 0), d) ∈ g.links → d = R := fun d h =>
    hg.linear _ _ _ (by rw [ro]; rfl) h ha.outR
  have hBu : ∀ d, ((b, 0), d) ∈ g.links → d = O := fun d h =>
    hg.linear _ _ _ (by rw [bo]; rfl) h ha.outB
  constructor
  · intro s d h
    obtain ⟨h1, h2, s0, h3, rfl⟩ := (hm s d).1 h
    rw [hn, hn]
    refine ⟨⟨?_, hf _ _ h3⟩, ⟨(hg.ends _ _ h3).2, h1, h2⟩⟩
    unfold moved
    split
    · exact (hg.ends _ _ ha.val).1
    · split
      · exact (hg.ends _ _ ha.inR).1
      · split
        · split
          · exact (hg.ends _ _ ha.inR).1
          · exact (hg.ends _ _ ha.inB).1
        · exact (hg.ends _ _ h3).1
  · intro s d h
    obtain ⟨h1, h2, s0, h3, rfl⟩ := (hm s d).1 h
    rw [hs.tyOut, hs.tyIn, hmty]
    exact hg.typed _ _ h3
  · intro s s' d h h'
    obtain ⟨h1, h2, s0, h3, rfl⟩ := (hm s d).1 h
    obtain ⟨_, _, s1, h4, rfl⟩ := (hm s' d).1 h'
    rw [hg.func _ _ _ h3 h4]
  · intro s d d' hl h h'
    obtain ⟨h1, h2, s0, h3, e0⟩ := (hm s d).1 h
    obtain ⟨h1', h2', s1, h4, e1⟩ := (hm s d').1 h'
    have hl0 : (g.tyOut s0).linear = true := by rw [← hmty s0, ← e0, ← hs.tyOut]; exact hl
    have hl1 : (g.tyOut s1).linear = true := by rw [← hmty s1, ← e1, ← hs.tyOut]; exact hl
    by_cases hss : s0 = s1
    · rw [← hss] at h4; exact hg.linear _ _ _ hl0 h3 h4
    · exfalso
      -- the distinct ports that are moved to the same place
      have key : ∀ (x y dx dy : Port), (x, dx) ∈ g.links → (y, dy) ∈ g.links →
          dx.1 ≠ r → dx.1 ≠ b → dy.1 ≠ r → dy.1 ≠ b →
          (g.tyOut x).linear = true → (g.tyOut y).linear = true → x ≠ y →
          moved r b A V E x = moved r b A V E y → (x.1 = r ∨ x.1 = b) → False := by
        intro x y dx dy hx hy hdx1 hdx2 hdy1 hdy2 hlx hly hxy he hxrb
        by_cases hyrb : y.1 = r ∨ y.1 = b
        · -- both on removed nodes
          have cls : ∀ z dz, (z, dz) ∈ g.links → (z.1 = r ∨ z.1 = b) →
              z = (r, 0) ∨ z = (b, 0) ∨ z = (b, 1) := by
            intro z dz hz hz'
            rcases hz' with hz' | hz'
            · have e : z = (r, z.2) := by rw [← hz']
              have := (hg.ret_ports r ha.opR).2 z.2 dz (by rw [← e]; exact hz)
              left; rw [e]; congr 1; omega
            · have e : z = (b, z.2) := by rw [← hz']
              have := (hg.borrow_ports b ha.opB).2 z.2 dz (by rw [← e]; exact hz)
              rcases hp : z.2 with _ | _ | p
              · right; left; rw [e, hp]
              · right; right; rw [e, hp]
              · omega
          have hVA : V ≠ A := by
            intro h
            have := hAu _ (h ▸ ha.val)
            simp at this
          have hVE : V ≠ E := by
            intro h
            have := hEu _ (h ▸ ha.val)
            simp at this
          have hAE : A = E → False := by
            intro h
            have := hEu _ (h ▸ ha.inR)
            simp only [Prod.mk.injEq, and_true] at this
            exact hne this
          have hrd : ∀ dz, ((r, 0), dz) ∈ g.links → dz.1 ≠ b → E ≠ (r, 0) := by
            intro dz hz hzb h
            have := hEu dz (by rw [h]; exact hz)
            rw [this] at hzb
            exact hzb rfl
          rcases cls x dx hx hxrb with rfl | rfl | rfl <;> rcases cls y dy hy hyrb with rfl | rfl | rfl
          · exact hxy rfl
          · rw [hmr, hmb, if_neg (hrd _ hx hdx2)] at he; exact hAE he
          · rw [hmr, hmv] at he; exact hVA he.symm
          · rw [hmr, hmb, if_neg (hrd _ hy hdy2)] at he; exact hAE he.symm
          · exact hxy rfl
          · rw [hmb, hmv] at he
            split at he
            · exact hVA he.symm
            · exact hVE he.symm
          · rw [hmr, hmv] at he; exact hVA he
          · rw [hmb, hmv] at he
            split at he
            · exact hVA he
            · exact hVE he
          · exact hxy rfl
        · have hy1 : y.1 ≠ r := fun h => hyrb (Or.inl h)
          have hy2 : y.1 ≠ b := fun h => hyrb (Or.inr h)
          rw [moved_of_ne hy1 hy2] at he
          have hcases : y = V ∨ y = A ∨ y = E := by
            rw [← he]
            unfold moved
            split
            · exact Or.inl rfl
            · split
              · exact Or.inr (Or.inl rfl)
              · split
                · split
                  · exact Or.inr (Or.inl rfl)
                  · exact Or.inr (Or.inr rfl)
                · rename_i n1 n2 n3
                  exfalso
                  rcases hxrb with hx' | hx'
                  · have e : x = (r, x.2) := by rw [← hx']
                    have := (hg.ret_ports r ha.opR).2 x.2 dx (by rw [← e]; exact hx)
                    apply n2; rw [e]; congr 1; omega
                  · have e : x = (b, x.2) := by rw [← hx']
                    have := (hg.borrow_ports b ha.opB).2 x.2 dx (by rw [← e]; exact hx)
                    rcases hp : x.2 with _ | _ | p
                    · exact n3 (by rw [e, hp])
                    · exact n1 (by rw [e, hp])
                    · omega
          rcases hcases with rfl | rfl | rfl
          · have := hg.linear _ _ _ hly hy ha.val
            rw [this] at hdy1; exact hdy1 rfl
          · have := hAu _ hy
            rw [this] at hdy1; exact hdy1 rfl
          · have := hEu _ hy
            rw [this] at hdy2; exact hdy2 rfl
      by_cases h0 : s0.1 = r ∨ s0.1 = b
      · exact key s0 s1 d d' h3 h4 h1 h2 h1' h2' hl0 hl1 hss (by rw [← e0, e1]) h0
      · by_cases h5 : s1.1 = r ∨ s1.1 = b
        · exact key s1 s0 d' d h4 h3 h1' h2' h1 h2 hl1 hl0 (Ne.symm hss) (by rw [← e0, e1]) h5
        · have n0 := moved_of_ne (A := A) (V := V) (E := E) (fun h => h0 (Or.inl h)) (fun h => h0 (Or.inr h))
          have n1 := moved_of_ne (A := A) (V := V) (E := E) (fun h => h5 (Or.inl h)) (fun h => h5 (Or.inr h))
          rw [n0] at e0
          rw [n1] at e1
          exact hss (e0.symm.trans e1)
  · intro s k t hsn hst
    rw [hs.tyOut] at hst
    obtain ⟨hsn, hsr, hsb⟩ := (hn _).1 hsn
    obtain ⟨d, hd⟩ := hg.array_used s k t hsn hst
    have hgo : ∀ s0 d, (s0, d) ∈ g.links → d.1 ≠ r → d.1 ≠ b →
        (moved r b A V E s0, d) ∈ g'.links := fun s0 d h h1 h2 => (hm _ _).2 ⟨h1, h2, s0, h, rfl⟩
    have hOr : O.1 ≠ r := by intro h; rw [h] at hO; omega
    have hOb : O.1 ≠ b := by intro h; rw [h] at hO; omega
    have hdty := hg.typed _ _ hd
    rw [hst] at hdty
    by_cases hdr : d.1 = r
    · have e : d = (r, d.2) := by rw [← hdr]
      have hlt := (hg.ret_ports r ha.opR).1 s d.2 (by rw [← e]; exact hd)
      rcases hp : d.2 with _ | _ | _ | p
      · rw [hp] at e
        have hsA : s = A := hg.func _ _ _ (e ▸ hd) ha.inR
        by_cases hRb : R.1 = b
        · have e' : R = (b, R.2) := by rw [← hRb]
          have hlt := (hg.borrow_ports b ha.opB).1 (r, 0) R.2 (by rw [← e']; exact ha.outR)
          have hRty := hg.typed _ _ ha.outR
          rw [ro] at hRty
          rcases hp : R.2 with _ | _ | p
          · rw [hp] at e'
            have hE' : E = (r, 0) := hg.func _ _ _ ha.inB (e' ▸ ha.outR)
            refine ⟨O, ?_⟩
            have := hgo (b, 0) O ha.outB hOr hOb
            rw [hmb, if_pos hE', ← hsA] at this
            exact this
          · rw [e', hp] at hRty
            simp only [Nat.zero_add] at hRty
            rw [b1] at hRty; cases hRty
          · omega
        · refine ⟨R, ?_⟩
          have := hgo (r, 0) R ha.outR (by intro h; rw [h] at hRk; omega) hRb
          rw [hmr, ← hsA] at this
          exact this
      · rw [e, hp] at hdty
        simp only [Nat.zero_add] at hdty
        rw [r1] at hdty; cases hdty
      · rw [hp] at e
        have hsV : s = V := hg.func _ _ _ (e ▸ hd) ha.val
        rw [e] at hdty
        simp only [Nat.zero_add, Nat.reduceAdd] at hdty
        rw [r2] at hdty
        obtain ⟨d1, hd1⟩ := hg.array_used (b, 1) k t (hg.ends _ _ ha.inB).2 (by rw [bo1, ← htt.2, ← hdty])
        have hd1r := hr _ _ hd1
        simp only at hd1r
        refine ⟨d1, ?_⟩
        have := hgo (b, 1) d1 hd1 (by intro h; rw [h] at hd1r; omega) (by intro h; rw [h] at hd1r; omega)
        rw [hmv, ← hsV] at this
        exact this
      · omega
    · by_cases hdb : d.1 = b
      · have e : d = (b, d.2) := by rw [← hdb]
        have hlt := (hg.borrow_ports b ha.opB).1 s d.2 (by rw [← e]; exact hd)
        rcases hp : d.2 with _ | _ | p
        · rw [hp] at e
          have hsE : s = E := hg.func _ _ _ (e ▸ hd) ha.inB
          refine ⟨O, ?_⟩
          have := hgo (b, 0) O ha.outB hOr hOb
          rw [hmb, if_neg (by intro h; rw [hsE, h] at hsr; exact hsr rfl), ← hsE] at this
          exact this
        · rw [e, hp] at hdty
          simp only [Nat.zero_add] at hdty
          rw [b1] at hdty; cases hdty
        · omega
      · refine ⟨d, ?_⟩
        have := hgo s d hd hdr hdb
        rw [moved_of_ne hsr hsb] at this
        exact this
  · intro n h
    rw [hs.op] at h
    rw [hs.tyIn, hs.tyOut]
    exact hg.borrow_ty n h
  · intro n h
    rw [hs.op] at h
    rw [hs.tyIn, hs.tyOut]
    exact hg.ret_ty n h
  · intro n h
    rw [hs.op] at h
    refine ⟨?_, ?_⟩
    · intro s p hl
      obtain ⟨_, _, s0, h3, _⟩ := (hm _ _).1 hl
      exact (hg.borrow_ports n h).1 _ _ h3
    · intro p d hl
      obtain ⟨_, _, s0, h3, e⟩ := (hm _ _).1 hl
      have := (hg.borrow_ports n h).2 p
      unfold moved at e
      split at e
      · exact this (r, 2) (e ▸ ha.val)
      · split at e
        · exact this (r, 0) (e ▸ ha.inR)
        · split at e
          · split at e
            · exact this (r, 0) (e ▸ ha.inR)
            · exact this (b, 0) (e ▸ ha.inB)
          · exact this d (e ▸ h3)
  · intro n h
    rw [hs.op] at h
    refine ⟨?_, ?_⟩
    · intro s p hl
      obtain ⟨_, _, s0, h3, _⟩ := (hm _ _).1 hl
      exact (hg.ret_ports n h).1 _ _ h3
    · intro p d hl
      obtain ⟨_, _, s0, h3, e⟩ := (hm _ _).1 hl
      have := (hg.ret_ports n h).2 p
      unfold moved at e
      split at e
      · exact this (r, 2) (e ▸ ha.val)
      · split at e
        · exact this (r, 0) (e ▸ ha.inR)
        · split at e
          · split at e
            · exact this (r, 0) (e ▸ ha.inR)
            · exact this (b, 0) (e ▸ ha.inB)
          · exact this d (e ▸ h3)
  · intro n hnn h p hp
    rw [hs.op] at h
    obtain ⟨hn1, hn2, hn3⟩ := (hn n).1 hnn
    obtain ⟨s, hl⟩ := hg.borrow_in n hn1 h p hp
    exact ⟨_, (hm _ _).2 ⟨hn2, hn3, s, hl, rfl⟩⟩
  · intro n hnn h p hp
    rw [hs.op] at h
    obtain ⟨hn1, hn2, hn3⟩ := (hn n).1 hnn
    obtain ⟨s, hl⟩ := hg.ret_in n hn1 h p hp
    exact ⟨_, (hm _ _).2 ⟨hn2, hn3, s, hl, rfl⟩⟩
  · refine ⟨rank, ?_⟩
    intro s d h
    obtain ⟨_, _, s0, h3, rfl⟩ := (hm _ _).1 h
    exact Nat.lt_of_le_of_lt (hmrank s0) (hr _ _ h3)

end Tket.BorrowSquash
