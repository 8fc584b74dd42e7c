import Verif.Model.CopyExpr
import Verif.Model.CopyExprSpec
import Verif.Props.Resource
import Mathlib.Data.List.Nodup
import Mathlib.Data.List.Perm.Subperm
import Mathlib.Tactic.Common

/-! # Lemmas about the traversal of expressions -/

namespace Verif.CopyExpr

open Verif.Resource

variable {T : Type} {r : Region T} {st : St} {allowed : List (Nat × Nat)} {excl : List Nat}

theorem admissible_iff {n : Nat} : admissible r excl n = true ↔ Adm r excl n := by
  unfold admissible pureCopyable
  constructor
  · intro h
    simp only [Bool.and_eq_true, Bool.not_eq_true', decide_eq_false_iff_not, decide_eq_true_eq] at h
    obtain ⟨⟨h1, h2⟩, h3⟩ := h
    refine ⟨h3, h1, ?_⟩
    intro d i t ht
    unfold Region.type? at ht
    cases hs : r.sig n with
    | none => simp [hs] at ht
    | some io =>
      obtain ⟨ins, outs⟩ := io
      rw [hs] at h2 ht
      simp only [Bool.and_eq_true, List.all_eq_true] at h2
      cases d
      · exact h2.1 t (List.mem_of_getElem? ht)
      · exact h2.2 t (List.mem_of_getElem? ht)
  · rintro ⟨h1, h2, h3⟩
    simp only [Bool.and_eq_true, Bool.not_eq_true', decide_eq_false_iff_not, decide_eq_true_eq]
    refine ⟨⟨h2, ?_⟩, h1⟩
    cases hs : r.sig n with
    | none => rfl
    | some io =>
      obtain ⟨ins, outs⟩ := io
      simp only [Bool.and_eq_true, List.all_eq_true]
      constructor
      · intro t ht
        obtain ⟨i, hi⟩ := List.getElem?_of_mem ht
        exact h3 .inc i t (by simp [Region.type?, hs, hi])
      · intro t ht
        obtain ⟨i, hi⟩ := List.getElem?_of_mem ht
        exact h3 .out i t (by simp [Region.type?, hs, hi])

theorem admissible_false {n : Nat} : admissible r excl n = false ↔ ¬ Adm r excl n := by
  rw [← admissible_iff]
  simp

theorem valid_inc {n q : Nat} (hn : n ∈ r.nodes) : r.Valid ⟨n, .inc, q⟩ ↔ q < numIn r n := by
  unfold Region.Valid Region.type? numIn
  cases hs : r.sig n with
  | none => simp
  | some io => simp [hn, List.getElem?_eq_some_iff]

theorem valid_out {n q : Nat} (hn : n ∈ r.nodes) : r.Valid ⟨n, .out, q⟩ ↔ q < numOut r n := by
  unfold Region.Valid Region.type? numOut
  cases hs : r.sig n with
  | none => simp
  | some io => simp [hn, List.getElem?_eq_some_iff]

theorem mem_insertNew {α : Type} [DecidableEq α] {l : List α} {x y : α} :
    y ∈ insertNew l x ↔ y ∈ l ∨ y = x := by
  unfold insertNew
  split
  · constructor
    · exact Or.inl
    · rintro (h | rfl) <;> assumption
  · simp

theorem nodup_insertNew {α : Type} [DecidableEq α] {l : List α} {x : α} (h : l.Nodup) :
    (insertNew l x).Nodup := by
  unfold insertNew
  split
  · exact h
  · rename_i hx
    rw [List.nodup_append]
    refine ⟨h, by simp, ?_⟩
    intro a ha b hb
    simp only [List.mem_singleton] at hb
    rintro rfl
    exact hx (hb ▸ ha)

theorem foldl_insertNew {α : Type} [DecidableEq α] : ∀ (xs l : List α), (l ++ xs).Nodup →
    xs.foldl insertNew l = l ++ xs
  | [], l, _ => by simp
  | x :: xs, l, h => by
    have hx : x ∉ l := by
      intro hx
      rw [List.nodup_append] at h
      exact h.2.2 x hx x (by simp) rfl
    rw [List.foldl_cons]
    have : insertNew l x = l ++ [x] := by simp [insertNew, hx]
    rw [this, foldl_insertNew xs (l ++ [x]) (by simpa using h)]
    simp

/-- What the traversal needs to know about the scope. -/
structure Pos (r : Region T) (order : List Nat) (st : St) : Prop where
  wf : WF r order
  scope : ∀ n, st.getPos n ≠ none ↔ r.InScope n
  inc : ∀ n p m q, r.Wire n p m q → st.posOf n < st.posOf m

variable {order : List Nat}

theorem pos_of [DecidableEq T] (wf : WF r order) (hst : scopeNew r order = some st) : Pos r order st := by
  obtain ⟨st', hst', hi⟩ := compute_spec wf (default_follows r)
  obtain rfl : st' = st := by
    unfold scopeNew at hst
    rw [hst] at hst'
    exact (Option.some.inj hst').symm
  refine ⟨wf, inScope_iff hi, ?_⟩
  intro n p m q h
  obtain ⟨a, b, ha, hb, hab⟩ := C50_positions_increase r order wf st' hst n m (.single ⟨p, q, h⟩)
  simp [St.posOf, ha, hb, hab]

theorem Pos.wire (hp : Pos r order st) {m q n p : Nat} (hv : r.Valid ⟨m, .inc, q⟩)
    (hs : r.source m q = some (n, p)) (hn : n ∈ r.nodes) : r.Wire n p m q := by
  have h := hp.wf.sourceOut n p m q hn hv hs
  exact ⟨hn, hv.1, h, (hp.wf.sourceOf n p m q hv.1 h).2 hs⟩

theorem wire_inScope {n p m q : Nat} (hp : Pos r order st) (h : r.Wire n p m q) :
    r.InScope n ∧ r.InScope m := by
  obtain ⟨h1, h2, ⟨t, ht⟩, h4⟩ := h
  refine ⟨⟨h1, ?_⟩, ⟨h2, ?_⟩⟩
  · intro hs
    simp [Region.type?, hs] at ht
  · intro hs
    have := hp.wf.types n p m q ⟨h1, h2, ⟨t, ht⟩, h4⟩
    rw [ht] at this
    simp [Region.type?, hs] at this

/-- What the loop over the inputs does. -/
structure Visited (r : Region T) (allowed : List (Nat × Nat)) (excl : List Nat) (n : Nat)
    (qs : List Nat) (s s' : Trav) : Prop where
  nodes : s'.nodes = s.nodes
  outputs : s'.outputs = s.outputs
  calls : s'.calls = s.calls
  inputs : ∀ x, x ∈ s'.inputs ↔ x ∈ s.inputs ∨ ∃ q ∈ qs, x = (n, q) ∧ ¬ Inner r allowed excl n q
  ports : ∀ x, x ∈ s'.ports ↔ x ∈ s.ports ∨ ∃ q ∈ qs, x = (n, q) ∧ Inner r allowed excl n q
  queue : ∀ k, k ∈ s'.queue ↔ k ∈ s.queue ∨ ∃ q ∈ qs, ∃ p, (n, q) ∉ allowed ∧
    r.source n q = some (k, p) ∧ Adm r excl k
  inodup : s.inputs.Nodup → s'.inputs.Nodup
  qnodup : s.queue.Nodup → s'.queue.Nodup
  ilist : (∀ x ∈ s.inputs, x.1 = n → ∀ q ∈ qs, x.2 < q) → qs.Pairwise (· < ·) →
    ∃ l : List Nat, s'.inputs = s.inputs ++ l.map (fun q => (n, q)) ∧ l.Sublist qs

theorem visitInputs_spec (hp : Pos r order st) {n : Nat} : ∀ (qs : List Nat) (s : Trav),
    (∀ q ∈ qs, r.Valid ⟨n, .inc, q⟩) →
    ∃ s', visitInputs r st allowed excl n qs s = some s' ∧ Visited r allowed excl n qs s s'
  | [], s, _ => ⟨s, rfl, ⟨rfl, rfl, rfl, by simp, by simp, by simp, id, id,
    fun _ _ => ⟨[], by simp, List.Sublist.refl _⟩⟩⟩
  | q :: qs, s, hq => by
    have hv := hq q (by simp)
    obtain ⟨m, p, hs⟩ := hp.wf.connected n q hv
    have inner_iff : Inner r allowed excl n q ↔ ¬ ((n, q) ∈ allowed ∨ admissible r excl m = false) := by
      unfold Inner
      rw [admissible_false, hs]
      constructor
      · rintro ⟨h1, n', p', h, h2⟩
        simp only [Option.some.injEq, Prod.mk.injEq] at h
        obtain ⟨rfl, rfl⟩ := h
        rintro (h | h)
        · exact h1 h
        · exact h h2
      · intro h
        rw [not_or, not_not] at h
        exact ⟨h.1, m, p, rfl, h.2⟩
    rw [visitInputs, hs]
    dsimp only
    by_cases hc : (n, q) ∈ allowed ∨ admissible r excl m = false
    · rw [if_pos hc]
      obtain ⟨s', h1, h2⟩ := visitInputs_spec hp qs { s with inputs := insertNew s.inputs (n, q) }
        (fun q' h => hq q' (by simp [h]))
      refine ⟨s', h1, h2.nodes, h2.outputs, h2.calls, ?_, ?_, ?_, ?_, h2.qnodup, ?_⟩
      · intro x
        rw [h2.inputs]
        simp only [mem_insertNew, List.mem_cons, exists_eq_or_imp]
        have : ¬ Inner r allowed excl n q := by rw [inner_iff]; exact not_not_intro hc
        simp [this, or_assoc]
      · intro x
        rw [h2.ports]
        have : ¬ Inner r allowed excl n q := by rw [inner_iff]; exact not_not_intro hc
        simp [this]
      · intro k
        rw [h2.queue]
        simp only [List.mem_cons, exists_eq_or_imp]
        have : ¬ ∃ p, (n, q) ∉ allowed ∧ r.source n q = some (k, p) ∧ Adm r excl k := by
          rintro ⟨p', h3, h4, h5⟩
          have : Inner r allowed excl n q := ⟨h3, k, p', h4, h5⟩
          exact (inner_iff.1 this) hc
        simp only [this, false_or]
      · intro h
        exact h2.inodup (nodup_insertNew h)
      · intro h3 h4
        rw [List.pairwise_cons] at h4
        have hnm : (n, q) ∉ s.inputs := fun hm => Nat.lt_irrefl _ (h3 _ hm rfl q (by simp))
        obtain ⟨l, h5, h6⟩ := h2.ilist
          (fun x hx hxn q' hq' => by
            rcases mem_insertNew.1 hx with hx | rfl
            · exact h3 x hx hxn q' (by simp [hq'])
            · exact h4.1 q' hq')
          h4.2
        refine ⟨q :: l, ?_, h6.cons_cons q⟩
        rw [h5]
        simp [insertNew, hnm]
    · rw [if_neg hc]
      have hin := inner_iff.2 hc
      have hadm : Adm r excl m := by
        rw [not_or, admissible_false, not_not] at hc
        exact hc.2
      have hw := hp.wire hv hs hadm.mem
      have hpos := (hp.scope m).2 (wire_inScope hp hw).1
      obtain ⟨a, ha⟩ := Option.ne_none_iff_exists'.1 hpos
      rw [ha]
      dsimp only
      obtain ⟨s', h1, h2⟩ := visitInputs_spec hp qs
        { s with ports := insertNew s.ports (n, q), queue := insertNew s.queue m }
        (fun q' h => hq q' (by simp [h]))
      refine ⟨s', h1, h2.nodes, h2.outputs, h2.calls, ?_, ?_, ?_, h2.inodup, ?_, ?_⟩
      · intro x
        rw [h2.inputs]
        simp [hin]
      · intro x
        rw [h2.ports]
        simp only [mem_insertNew, List.mem_cons, exists_eq_or_imp]
        simp [hin, or_assoc]
      · intro k
        rw [h2.queue]
        simp only [mem_insertNew, List.mem_cons, exists_eq_or_imp]
        have : (∃ p, (n, q) ∉ allowed ∧ r.source n q = some (k, p) ∧ Adm r excl k) ↔ k = m := by
          constructor
          · rintro ⟨p', -, h4, -⟩
            rw [hs] at h4
            simp only [Option.some.injEq, Prod.mk.injEq] at h4
            exact h4.1.symm
          · rintro rfl
            exact ⟨p, hin.1, hs, hadm⟩
        rw [this, or_assoc]
      · intro h
        exact h2.qnodup (nodup_insertNew h)
      · intro h3 h4
        rw [List.pairwise_cons] at h4
        obtain ⟨l, h5, h6⟩ := h2.ilist (fun x hx hxn q' hq' => h3 x hx hxn q' (by simp [hq'])) h4.2
        exact ⟨l, h5, h6.cons q⟩

open Classical in
/-- The outputs of a node that belong to the expression, in order. -/
noncomputable def usedOuts (r : Region T) (allowed : List (Nat × Nat)) (excl : List Nat) (o n : Nat) :
    List (Nat × Nat) :=
  ((List.range (numOut r n)).filter fun p => decide (∃ y ∈ r.linked n p,
    ¬ (Cone r allowed excl o y.1 ∧ r.Valid ⟨y.1, .inc, y.2⟩ ∧ Inner r allowed excl y.1 y.2))).map
    fun p => (n, p)

/-- The invariant of the traversal. -/
structure J (r : Region T) (st : St) (isCall : Nat → Bool) (allowed : List (Nat × Nat))
    (excl : List Nat) (o : Nat) (s : Trav) : Prop where
  nodup : s.nodes.Nodup
  qnodup : s.queue.Nodup
  disj : ∀ n ∈ s.queue, n ∉ s.nodes
  cone : ∀ n, n ∈ s.nodes ∨ n ∈ s.queue → Cone r allowed excl o n ∧ Adm r excl n ∧ r.InScope n
  head : (s.nodes = [] ∧ s.queue = [o]) ∨ s.nodes.head? = some o
  closed : ∀ m ∈ s.nodes, ∀ q n p, r.Valid ⟨m, .inc, q⟩ → (m, q) ∉ allowed →
    r.source m q = some (n, p) → Adm r excl n → n ∈ s.nodes ∨ n ∈ s.queue
  ports : ∀ x, x ∈ s.ports ↔ x.1 ∈ s.nodes ∧ r.Valid ⟨x.1, .inc, x.2⟩ ∧ Inner r allowed excl x.1 x.2
  inputs : ∀ x, x ∈ s.inputs ↔
    x.1 ∈ s.nodes ∧ r.Valid ⟨x.1, .inc, x.2⟩ ∧ ¬ Inner r allowed excl x.1 x.2
  inodup : s.inputs.Nodup
  outputs : s.outputs = s.nodes.flatMap (usedOuts r allowed excl o)
  le : ∀ a ∈ s.nodes, ∀ b ∈ s.queue, st.posOf b ≤ st.posOf a
  sorted : s.nodes.Pairwise fun a b => st.posOf b ≤ st.posOf a
  calls : s.calls = s.nodes.filter isCall
  iorder : s.inputs.Pairwise fun a b => st.posOf b.1 ≤ st.posOf a.1 ∧ (a.1 = b.1 → a.2 < b.2)

theorem J.init {isCall : Nat → Bool} {o : Nat} (ha : Adm r excl o) (hs : r.InScope o) :
    J r st isCall allowed excl o { queue := [o] } where
  nodup := by simp
  qnodup := by simp
  disj := by simp
  cone := by
    rintro n (h | h)
    · simp at h
    · obtain rfl : n = o := by simpa using h
      exact ⟨.root, ha, hs⟩
  head := .inl ⟨rfl, rfl⟩
  closed := by simp
  ports := by simp
  inputs := by simp
  inodup := by simp
  outputs := by simp
  le := by simp
  sorted := by simp
  calls := by simp
  iorder := by simp

theorem J.reach {isCall : Nat → Bool} {o : Nat} {s : Trav} (hp : Pos r order st)
    (hj : J r st isCall allowed excl o s) {m : Nat} (h : Cone r allowed excl o m) :
    m ∈ s.nodes ∨ ∃ k ∈ s.queue, st.posOf m ≤ st.posOf k := by
  induction h with
  | root =>
    rcases hj.head with ⟨_, h⟩ | h
    · exact .inr ⟨o, by simp [h], Nat.le_refl _⟩
    · exact .inl (List.mem_of_mem_head? h)
  | step hc hv hna hs ha ih =>
    rcases ih with h | ⟨k, hk, hle⟩
    · rcases hj.closed _ h _ _ _ hv hna hs ha with h' | h'
      · exact .inl h'
      · exact .inr ⟨_, h', Nat.le_refl _⟩
    · have := hp.inc _ _ _ _ (hp.wire hv hs ha.mem)
      exact .inr ⟨k, hk, by omega⟩

theorem J.visit {isCall : Nat → Bool} {o : Nat} {s : Trav} (hp : Pos r order st)
    (hj : J r st isCall allowed excl o s) {n : Nat} (hn : n ∈ s.queue)
    (hmax : ∀ m ∈ s.queue, st.posOf m ≤ st.posOf n) :
    ∃ s', CopyExpr.visit r st isCall allowed excl n { s with queue := s.queue.erase n } = some s' ∧
      J r st isCall allowed excl o s' ∧ s'.nodes = s.nodes ++ [n] := by
  obtain ⟨hcn, han, hsn⟩ := hj.cone n (.inr hn)
  have hnn := hj.disj n hn
  have hnew : newOutputs r n s.ports = usedOuts r allowed excl o n := by
    unfold newOutputs usedOuts
    congr 1
    apply List.filter_congr
    intro p hpm
    rw [Bool.eq_iff_iff]
    simp only [List.any_eq_true, Bool.not_eq_true', decide_eq_false_iff_not, decide_eq_true_eq]
    have hv : r.Valid ⟨n, .out, p⟩ := (valid_out han.mem).2 (List.mem_range.1 hpm)
    constructor
    · rintro ⟨y, hy, hyp⟩
      refine ⟨y, hy, ?_⟩
      rintro ⟨h1, h2, h3⟩
      apply hyp
      rw [hj.ports]
      refine ⟨?_, h2, h3⟩
      have hw : r.Wire n p y.1 y.2 := ⟨han.mem, h2.1, hv.2, hy⟩
      have hlt := hp.inc _ _ _ _ hw
      rcases hj.reach hp h1 with h | ⟨k, hk, hle⟩
      · exact h
      · have := hmax k hk
        omega
    · rintro ⟨y, hy, h⟩
      refine ⟨y, hy, ?_⟩
      intro hyp
      rw [hj.ports] at hyp
      exact h ⟨(hj.cone _ (.inl hyp.1)).1, hyp.2⟩
  have houts : (newOutputs r n s.ports).foldl insertNew s.outputs =
      (s.nodes ++ [n]).flatMap (usedOuts r allowed excl o) := by
    rw [hnew, foldl_insertNew]
    · rw [hj.outputs]; simp
    · rw [hj.outputs]
      have : s.nodes.flatMap (usedOuts r allowed excl o) ++ usedOuts r allowed excl o n =
          (s.nodes ++ [n]).flatMap (usedOuts r allowed excl o) := by simp
      rw [this, List.nodup_flatMap]
      constructor
      · intro x _
        unfold usedOuts
        refine List.Nodup.map ?_ (List.Nodup.filter _ List.nodup_range)
        intro a b h
        simpa using h
      · have hnd : (s.nodes ++ [n]).Nodup := by
          rw [List.nodup_append]
          refine ⟨hj.nodup, by simp, ?_⟩
          intro a ha b hb
          simp only [List.mem_singleton] at hb
          rintro rfl
          exact hnn (hb ▸ ha)
        refine hnd.imp ?_
        intro a b hab x hxa hxb
        unfold usedOuts at hxa hxb
        simp only [List.mem_map] at hxa hxb
        obtain ⟨_, _, rfl⟩ := hxa
        obtain ⟨_, _, h⟩ := hxb
        simp only [Prod.mk.injEq] at h
        exact hab h.1.symm
  obtain ⟨s', h1, h2⟩ := visitInputs_spec (allowed := allowed) (excl := excl) hp
    (List.range (numIn r n))
    { s with
      queue := s.queue.erase n
      nodes := s.nodes ++ [n]
      outputs := (newOutputs r n s.ports).foldl insertNew s.outputs
      calls := if isCall n then s.calls ++ [n] else s.calls }
    (fun q hq => (valid_inc han.mem).2 (List.mem_range.1 hq))
  refine ⟨s', h1, ?_, h2.nodes⟩
  have hnodes : s'.nodes = s.nodes ++ [n] := h2.nodes
  have hq : ∀ k, k ∈ s'.queue ↔ (k ≠ n ∧ k ∈ s.queue) ∨ ∃ q p, r.Valid ⟨n, .inc, q⟩ ∧
      (n, q) ∉ allowed ∧ r.source n q = some (k, p) ∧ Adm r excl k := by
    intro k
    rw [h2.queue]
    dsimp only
    rw [hj.qnodup.mem_erase_iff]
    constructor
    · rintro (h | ⟨q, hq, p, h⟩)
      · exact .inl h
      · exact .inr ⟨q, p, (valid_inc han.mem).2 (List.mem_range.1 hq), h⟩
    · rintro (h | ⟨q, p, hq, h⟩)
      · exact .inl h
      · exact .inr ⟨q, List.mem_range.2 ((valid_inc han.mem).1 hq), p, h⟩
  have hlt : ∀ k q p, r.Valid ⟨n, .inc, q⟩ → r.source n q = some (k, p) → Adm r excl k →
      st.posOf k < st.posOf n := fun k q p hv hs ha => hp.inc _ _ _ _ (hp.wire hv hs ha.mem)
  constructor
  · rw [hnodes, List.nodup_append]
    refine ⟨hj.nodup, by simp, ?_⟩
    intro a ha b hb
    simp only [List.mem_singleton] at hb
    rintro rfl
    exact hnn (hb ▸ ha)
  · exact h2.qnodup (hj.qnodup.erase n)
  · intro k hk
    rw [hnodes, List.mem_append, List.mem_singleton, not_or]
    rcases (hq k).1 hk with ⟨h3, h4⟩ | ⟨q, p, hv, hna, hs, ha⟩
    · exact ⟨hj.disj k h4, h3⟩
    · have := hlt k q p hv hs ha
      constructor
      · intro hk'
        have := hj.le k hk' n hn
        omega
      · rintro rfl
        omega
  · intro k hk
    rw [hnodes, List.mem_append, List.mem_singleton] at hk
    rcases hk with (h | rfl) | h
    · exact hj.cone k (.inl h)
    · exact ⟨hcn, han, hsn⟩
    · rcases (hq k).1 h with ⟨_, h4⟩ | ⟨q, p, hv, hna, hs, ha⟩
      · exact hj.cone k (.inr h4)
      · exact ⟨.step hcn hv hna hs ha, ha, (wire_inScope hp (hp.wire hv hs ha.mem)).1⟩
  · right
    rw [hnodes]
    rcases hj.head with ⟨h3, h4⟩ | h
    · rw [h4] at hn
      obtain rfl : n = o := by simpa using hn
      simp [h3]
    · cases hns : s.nodes with
      | nil => simp [hns] at h
      | cons a as => simpa [hns] using h
  · intro m hm q k p hv hna hs ha
    rw [hnodes, List.mem_append, List.mem_singleton] at hm
    rw [hnodes, List.mem_append, List.mem_singleton, hq]
    rcases hm with hm | rfl
    · rcases hj.closed m hm q k p hv hna hs ha with h | h
      · exact .inl (.inl h)
      · by_cases hkn : k = n
        · exact .inl (.inr hkn)
        · exact .inr (.inl ⟨hkn, h⟩)
    · exact .inr (.inr ⟨q, p, hv, hna, hs, ha⟩)
  · intro x
    rw [h2.ports, hnodes]
    dsimp only
    rw [hj.ports]
    simp only [List.mem_append, List.mem_singleton]
    constructor
    · rintro (⟨h3, h4, h5⟩ | ⟨q, hq, rfl, hin⟩)
      · exact ⟨.inl h3, h4, h5⟩
      · exact ⟨.inr rfl, (valid_inc han.mem).2 (List.mem_range.1 hq), hin⟩
    · rintro ⟨h3 | h3, h4, h5⟩
      · exact .inl ⟨h3, h4, h5⟩
      · obtain ⟨x1, x2⟩ := x
        dsimp only at h3 h4 h5
        subst h3
        exact .inr ⟨x2, List.mem_range.2 ((valid_inc han.mem).1 h4), rfl, h5⟩
  · intro x
    rw [h2.inputs, hnodes]
    dsimp only
    rw [hj.inputs]
    simp only [List.mem_append, List.mem_singleton]
    constructor
    · rintro (⟨h3, h4, h5⟩ | ⟨q, hq, rfl, hin⟩)
      · exact ⟨.inl h3, h4, h5⟩
      · exact ⟨.inr rfl, (valid_inc han.mem).2 (List.mem_range.1 hq), hin⟩
    · rintro ⟨h3 | h3, h4, h5⟩
      · exact .inl ⟨h3, h4, h5⟩
      · obtain ⟨x1, x2⟩ := x
        dsimp only at h3 h4 h5
        subst h3
        exact .inr ⟨x2, List.mem_range.2 ((valid_inc han.mem).1 h4), rfl, h5⟩
  · exact h2.inodup hj.inodup
  · rw [h2.outputs, hnodes]
    exact houts
  · intro a ha b hb
    rw [hnodes, List.mem_append, List.mem_singleton] at ha
    rcases (hq b).1 hb with ⟨_, h4⟩ | ⟨q, p, hv, hna, hs, ha'⟩
    · rcases ha with ha | rfl
      · exact hj.le a ha b h4
      · exact hmax b h4
    · have h5 := hlt b q p hv hs ha'
      rcases ha with ha | rfl
      · have := hj.le a ha n hn
        omega
      · omega
  · rw [hnodes, List.pairwise_append]
    refine ⟨hj.sorted, by simp, ?_⟩
    intro a ha b hb
    simp only [List.mem_singleton] at hb
    subst hb
    exact hj.le a ha _ hn
  · rw [h2.calls, hnodes]
    dsimp only
    rw [hj.calls, List.filter_append]
    cases h : isCall n <;> simp [h]
  · obtain ⟨l, h3, h4⟩ := h2.ilist
      (fun x hx hxn => absurd (hxn ▸ ((hj.inputs x).1 hx).1) hnn) List.pairwise_lt_range
    rw [h3]
    dsimp only
    rw [List.pairwise_append]
    refine ⟨hj.iorder, ?_, ?_⟩
    · rw [List.pairwise_map]
      exact (List.pairwise_lt_range.sublist h4).imp fun hab => ⟨Nat.le_refl _, fun _ => hab⟩
    · intro a ha b hb
      rw [List.mem_map] at hb
      obtain ⟨q, _, rfl⟩ := hb
      have ha' := ((hj.inputs a).1 ha).1
      exact ⟨hj.le a.1 ha' n hn, fun h => absurd ((show a.1 = n from h) ▸ ha') hnn⟩

theorem loop_spec {isCall : Nat → Bool} {o : Nat} {tb : Nat → List Nat → Nat} (hp : Pos r order st)
    (htb : Picks st tb) : ∀ (fuel : Nat) (s : Trav), J r st isCall allowed excl o s →
    r.nodes.length < fuel + s.nodes.length →
    ∃ s', loop r st isCall tb allowed excl fuel s = .ok s' ∧ J r st isCall allowed excl o s' ∧
      s'.queue = []
  | 0, s, hj, hf => by
    exfalso
    have : s.nodes.length ≤ r.nodes.length :=
      (List.subperm_of_subset hj.nodup fun n hn => (hj.cone n (.inl hn)).2.1.mem).length_le
    omega
  | fuel + 1, s, hj, hf => by
    rw [loop]
    by_cases hq : s.queue = []
    · exact ⟨s, by rw [if_pos hq], hj, hq⟩
    · rw [if_neg hq]
      obtain ⟨h1, h2⟩ := htb fuel s.queue hq
      dsimp only
      rw [if_neg (hj.disj _ h1)]
      obtain ⟨s', h3, h4, h5⟩ := hj.visit hp h1 h2
      rw [h3]
      dsimp only
      exact loop_spec hp htb fuel s' h4 (by rw [h5, List.length_append, List.length_singleton]; omega)

end Verif.CopyExpr
