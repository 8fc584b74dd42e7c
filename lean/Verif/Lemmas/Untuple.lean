import Verif.Model.Untuple
import Mathlib.Data.List.Nodup
import Mathlib.Data.List.Flatten

/-! # Lemmas on removing tuples -/

namespace Tket.Untuple

open Tket.Chunks (Src Dst Graph)

variable {O : Type}

/-! ## Specification -/

/-- Values. -/
inductive Val where
  | base (n : Nat)
  | tup (l : List Val)

/-- What an operation does with the values of its ports. -/
def OpRuns (sem : O → (Nat → Val) → (Nat → Val) → Prop) : Op O → (Nat → Val) → (Nat → Val) → Prop
  | .pack ts, i, o => o 0 = .tup ((List.range ts.length).map i)
  | .unpack ts, i, o => i 0 = .tup ((List.range ts.length).map o)
  | .other x, i, o => sem x i o

/-- The value at the source of a link. -/
def srcVal (xs : List Val) (vout : Nat → Nat → Val) : Src → Option Val
  | .input i => xs[i]?
  | .node n p => some (vout n p)

/-- The value at the target of a link. -/
def dstVal (ys : List Val) (vin : Nat → Nat → Val) : Dst → Option Val
  | .output j => ys[j]?
  | .node n p => some (vin n p)

/-- The circuit can turn the inputs `xs` into the outputs `ys`. -/
def Circ.Runs (sem : O → (Nat → Val) → (Nat → Val) → Prop) (c : Circ O) (xs ys : List Val) : Prop :=
  ∃ vin vout : Nat → Nat → Val, (∀ n ∈ c.nodes, OpRuns sem (c.op n) (vin n) (vout n)) ∧
    ∀ s d, (s, d) ∈ c.graph → srcVal xs vout s = dstVal ys vin d

/-- Type of a source. -/
def Circ.srcTy (sig : O → List Ty × List Ty) (c : Circ O) : Src → Option Ty
  | .input i => c.ins[i]?
  | .node n p => ((c.op n).outs sig)[p]?

/-- Type of a target. -/
def Circ.dstTy (sig : O → List Ty × List Ty) (c : Circ O) : Dst → Option Ty
  | .output j => c.outs[j]?
  | .node n p => ((c.op n).ins sig)[p]?

/-- A valid circuit: links join existing ports of the same type without cycles, and every input of
a node and every output of the circuit has exactly one link. -/
structure WF (sig : O → List Ty × List Ty) (c : Circ O) : Prop where
  nodup : c.nodes.Nodup
  one : (c.graph.map (·.2)).Nodup
  typed : ∀ s d, (s, d) ∈ c.graph → ∃ t, c.srcTy sig s = some t ∧ c.dstTy sig d = some t
  src_mem : ∀ n p d, (.node n p, d) ∈ c.graph → n ∈ c.nodes
  dst_mem : ∀ s n p, (s, .node n p) ∈ c.graph → n ∈ c.nodes
  linked : ∀ n ∈ c.nodes, ∀ p, p < ((c.op n).ins sig).length → ∃ s, (s, .node n p) ∈ c.graph
  output : ∀ j, j < c.outs.length → ∃ s, (s, .output j) ∈ c.graph
  acyclic : ∃ pos : Nat → Nat, ∀ n p m q, (.node n p, .node m q) ∈ c.graph → pos n < pos m

/-! ## Links -/

variable {sig : O → List Ty × List Ty} {c : Circ O}

theorem WF.uniq (h : WF sig c) {s s' : Src} {d : Dst} (h1 : (s, d) ∈ c.graph)
    (h2 : (s', d) ∈ c.graph) : s = s' := by
  have := List.inj_on_of_nodup_map h.one h1 h2 rfl
  exact (Prod.mk.injEq _ _ _ _ ▸ this).1

theorem mem_targets {n : Nat} {d : Dst} : d ∈ targets c n ↔ (.node n 0, d) ∈ c.graph := by
  unfold targets
  simp only [List.mem_map, List.mem_filter, decide_eq_true_eq]
  constructor
  · rintro ⟨⟨s, d'⟩, ⟨h1, h2⟩, rfl⟩
    simp only at h2
    subst h2
    exact h1
  · intro h
    exact ⟨_, ⟨h, rfl⟩, rfl⟩

theorem targets_nodup (h : WF sig c) (n : Nat) : (targets c n).Nodup :=
  List.Nodup.sublist (List.Sublist.map _ List.filter_sublist) h.one

theorem mem_unpacks {n m : Nat} : m ∈ unpacks c n ↔
    ∃ q, (.node n 0, .node m q) ∈ c.graph ∧ ∃ ts, c.op m = .unpack ts := by
  unfold unpacks
  rw [List.mem_filterMap]
  constructor
  · rintro ⟨d, hd, h⟩
    cases d with
    | output j => simp [asUnpack] at h
    | node k q =>
      change (if (c.op k).isUnpack then some k else none) = some m at h
      by_cases hu : (c.op k).isUnpack
      · rw [if_pos hu] at h
        have := Option.some.inj h
        subst this
        refine ⟨q, mem_targets.1 hd, ?_⟩
        cases ho : c.op k <;> rw [ho] at hu <;> simp [Op.isUnpack] at hu
        exact ⟨_, rfl⟩
      · rw [if_neg hu] at h; simp at h
  · rintro ⟨q, h, ts, ho⟩
    exact ⟨.node m q, mem_targets.2 h, by simp [asUnpack, ho, Op.isUnpack]⟩

/-- The unpacked tuples are those that are packed. -/
theorem unpack_link (h : WF sig c) {n m : Nat} {ts : List Ty} (hn : c.op n = .pack ts)
    (hm : m ∈ unpacks c n) : (.node n 0, .node m 0) ∈ c.graph ∧ c.op m = .unpack ts := by
  obtain ⟨q, hl, ts', ho⟩ := mem_unpacks.1 hm
  obtain ⟨t, h1, h2⟩ := h.typed _ _ hl
  simp only [Circ.srcTy, Circ.dstTy, hn, ho, Op.outs, Op.ins] at h1 h2
  cases q with
  | succ q => simp at h2
  | zero =>
    simp at h1 h2
    rw [← h2] at h1
    injection h1 with h1
    exact ⟨hl, by rw [ho, h1]⟩

theorem asUnpack_some {d : Dst} {m : Nat} (h : asUnpack c d = some m) :
    ∃ q, d = .node m q ∧ ∃ ts, c.op m = .unpack ts := by
  cases d with
  | output j => simp [asUnpack] at h
  | node k q =>
    change (if (c.op k).isUnpack then some k else none) = some m at h
    by_cases hu : (c.op k).isUnpack
    · rw [if_pos hu] at h
      have := Option.some.inj h
      subst this
      refine ⟨q, rfl, ?_⟩
      cases ho : c.op k <;> rw [ho] at hu <;> simp [Op.isUnpack] at hu
      exact ⟨_, rfl⟩
    · rw [if_neg hu] at h; simp at h

theorem unpacks_nodup (h : WF sig c) {n : Nat} {ts : List Ty} (hn : c.op n = .pack ts) :
    (unpacks c n).Nodup := by
  unfold unpacks
  unfold List.Nodup
  rw [List.pairwise_filterMap]
  refine List.Pairwise.imp_of_mem ?_ (targets_nodup h n)
  intro a b ha hb hne x hx y hy hxy
  subst hxy
  obtain ⟨q, rfl, _⟩ := asUnpack_some hx
  obtain ⟨q', rfl, _⟩ := asUnpack_some hy
  have hm : x ∈ unpacks c n := List.mem_filterMap.2 ⟨_, ha, hx⟩
  have h1 := (unpack_link h hn hm).1
  have aux : ∀ q, .node x q ∈ targets c n → q = 0 := by
    intro q hq
    obtain ⟨t, _, h2⟩ := h.typed _ _ (mem_targets.1 hq)
    simp only [Circ.dstTy, (unpack_link h hn hm).2, Op.ins] at h2
    cases q with
    | zero => rfl
    | succ q => simp at h2
  rw [aux q ha, aux q' hb] at hne
  exact hne rfl

/-- The other uses of the tuple. -/
theorem others_eq (n : Nat) : (targets c n).length - (unpacks c n).length =
    ((targets c n).filter (fun d => (asUnpack c d).isNone)).length := by
  unfold unpacks
  have : ∀ l : List Dst, (l.filterMap (asUnpack c)).length +
      (l.filter (fun d => (asUnpack c d).isNone)).length = l.length := by
    intro l
    induction l with
    | nil => rfl
    | cons d l ih =>
      cases hd : asUnpack c d with
      | none => simp [hd]; omega
      | some m => simp [hd]; omega
  have := this (targets c n)
  omega

variable {n : Nat} {ts : List Ty}

/-- The nodes removed. -/
abbrev removed (c : Circ O) (n : Nat) : List Nat := unpacks c n ++ [n]

theorem pack_not_unpack (hn : c.op n = .pack ts) : n ∉ unpacks c n := by
  intro h
  obtain ⟨_, _, _, ho⟩ := mem_unpacks.1 h
  rw [hn] at ho
  cases ho

theorem removed_nodup (h : WF sig c) (hn : c.op n = .pack ts) : (removed c n).Nodup := by
  refine List.nodup_append.2 ⟨unpacks_nodup h hn, by simp, ?_⟩
  intro a ha b hb
  have : b = n := by simpa using hb
  subst this
  rintro rfl
  exact pack_not_unpack hn ha

theorem mem_removed {m : Nat} : m ∈ removed c n ↔ m ∈ unpacks c n ∨ m = n := by
  simp [removed]

theorem insideS_iff {R : List Nat} {s : Src} : s.inside R = true ↔ ∃ m ∈ R, ∃ p, s = .node m p := by
  cases s with
  | input i => simp [Src.inside]
  | node m p => simp [Src.inside]

theorem insideD_iff {R : List Nat} {d : Dst} : d.inside R = true ↔ ∃ m ∈ R, ∃ p, d = .node m p := by
  cases d with
  | output i => simp [Dst.inside]
  | node m p => simp [Dst.inside]

/-- What uses an unpacked value is not removed. -/
theorem unpack_user (h : WF sig c) (hn : c.op n = .pack ts) {m p : Nat} {d : Dst}
    (hm : m ∈ unpacks c n) (hl : (.node m p, d) ∈ c.graph) : d.inside (removed c n) = false := by
  rw [Bool.eq_false_iff]
  intro hd
  obtain ⟨k, hk, q, rfl⟩ := insideD_iff.1 hd
  obtain ⟨pos, hpos⟩ := h.acyclic
  have h1 := hpos _ _ _ _ (unpack_link h hn hm).1
  have h2 := hpos _ _ _ _ hl
  rcases mem_removed.1 hk with hk | rfl
  · obtain ⟨h3, ho⟩ := unpack_link h hn hk
    obtain ⟨t, _, ht⟩ := h.typed _ _ hl
    simp only [Circ.dstTy, ho, Op.ins] at ht
    cases q with
    | succ q => simp at ht
    | zero =>
      have := h.uniq hl h3
      injection this with this
      subst this
      exact pack_not_unpack hn hm
  · omega

/-- A user of the tuple is removed exactly if it unpacks the tuple. -/
theorem pack_user (h : WF sig c) (hn : c.op n = .pack ts) {d : Dst}
    (hl : (.node n 0, d) ∈ c.graph) : d.inside (removed c n) = (asUnpack c d).isSome := by
  rw [Bool.eq_iff_iff, Option.isSome_iff_exists, insideD_iff]
  constructor
  · rintro ⟨m, hm, p, rfl⟩
    rcases mem_removed.1 hm with hm | rfl
    · exact ⟨m, by simp [asUnpack, (unpack_link h hn hm).2, Op.isUnpack]⟩
    · obtain ⟨pos, hpos⟩ := h.acyclic
      have := hpos _ _ _ _ hl
      omega
  · rintro ⟨m, hm⟩
    obtain ⟨q, rfl, _⟩ := asUnpack_some hm
    exact ⟨m, mem_removed.2 (Or.inl (List.mem_filterMap.2 ⟨_, mem_targets.2 hl, hm⟩)), q, rfl⟩

/-- What is packed does not come from what is removed. -/
theorem pack_source (h : WF sig c) (hn : c.op n = .pack ts) {s : Src} {j : Nat}
    (hl : (s, .node n j) ∈ c.graph) : s.inside (removed c n) = false := by
  rw [Bool.eq_false_iff]
  intro hs
  obtain ⟨k, hk, q, rfl⟩ := insideS_iff.1 hs
  obtain ⟨pos, hpos⟩ := h.acyclic
  have h2 := hpos _ _ _ _ hl
  rcases mem_removed.1 hk with hk | rfl
  · have h1 := hpos _ _ _ _ (unpack_link h hn hk).1
    omega
  · omega

theorem any_iff {f : Src × Dst → Bool} : c.graph.any f = true ↔ ∃ s d, (s, d) ∈ c.graph ∧ f (s, d) = true := by
  rw [List.any_eq_true]
  constructor
  · rintro ⟨⟨s, d⟩, h1, h2⟩; exact ⟨s, d, h1, h2⟩
  · rintro ⟨s, d, h1, h2⟩; exact ⟨_, h1, h2⟩

/-- The inputs of the boundary are the inputs of the `MakeTuple`. -/
theorem subInputs_eq (h : WF sig c) (hn : c.op n = .pack ts) (hmem : n ∈ c.nodes) :
    subInputs sig c (removed c n) = (List.range ts.length).map (fun p => (n, p)) := by
  unfold subInputs removed
  rw [List.flatMap_append]
  have h1 : ∀ l : List Nat, (∀ m ∈ l, m ∈ unpacks c n) → l.flatMap (fun m =>
      ((List.range ((c.op m).ins sig).length).filter (fun p =>
        c.graph.any (fun l => l.2 = .node m p && !l.1.inside (unpacks c n ++ [n])))).map
          (fun p => (m, p))) = [] := by
    intro l hl
    rw [List.flatMap_eq_nil_iff]
    intro m hm
    rw [List.map_eq_nil_iff, List.filter_eq_nil_iff]
    intro p hp
    rw [any_iff]
    rintro ⟨s, d, hg, hf⟩
    simp only [Bool.and_eq_true, decide_eq_true_eq, Bool.not_eq_true'] at hf
    obtain ⟨rfl, hf⟩ := hf
    obtain ⟨hlk, ho⟩ := unpack_link h hn (hl m hm)
    rw [ho] at hp
    simp only [Op.ins, List.length_singleton, List.mem_range] at hp
    have : p = 0 := by omega
    subst this
    rw [h.uniq hg hlk] at hf
    simp [Src.inside] at hf
  rw [h1 _ (fun _ hm => hm), List.nil_append]
  simp only [List.flatMap_cons, List.flatMap_nil, List.append_nil]
  congr 1
  rw [hn]
  simp only [Op.ins]
  rw [List.filter_eq_self]
  intro p hp
  rw [any_iff]
  obtain ⟨s, hs⟩ := h.linked n hmem p (by rw [hn]; simpa [Op.ins] using hp)
  refine ⟨s, _, hs, ?_⟩
  have := pack_source h hn hs
  unfold removed at this
  rw [this]
  simp

/-- The outputs of the boundary: those of the `UnpackTuple`s that are used, and the tuple if it has
another use. -/
theorem subOutputs_eq (h : WF sig c) (hn : c.op n = .pack ts) :
    subOutputs sig c (removed c n) =
      (unpacks c n).flatMap (fun m => ((List.range ts.length).filter (fun p =>
        c.graph.any (fun l => decide (l.1 = .node m p)))).map (fun p => (m, p))) ++
      (if ((targets c n).filter (fun d => (asUnpack c d).isNone)) = [] then [] else [(n, 0)]) := by
  unfold subOutputs
  conv => lhs; unfold removed
  rw [List.flatMap_append]
  congr 1
  · refine List.flatMap_congr ?_
    intro m hm
    rw [(unpack_link h hn hm).2]
    simp only [Op.outs]
    congr 1
    refine List.filter_congr ?_
    intro p _
    rw [Bool.eq_iff_iff, any_iff, any_iff]
    refine exists_congr (fun s => exists_congr (fun d => and_congr_right (fun hg => ?_)))
    simp only [Bool.and_eq_true, decide_eq_true_eq]
    constructor
    · exact fun x => x.1
    · rintro rfl
      have := unpack_user h hn hm hg
      unfold removed at this
      rw [this]
      simp
  · simp only [List.flatMap_cons, List.flatMap_nil, List.append_nil, hn, Op.outs,
      List.length_singleton]
    rw [show List.range 1 = [0] from rfl]
    by_cases hc : ((targets c n).filter (fun d => (asUnpack c d).isNone)) = []
    · rw [if_pos hc, List.filter_cons_of_neg]
      · rfl
      · rw [any_iff]
        rintro ⟨s, d, hg, hf⟩
        simp only [Bool.and_eq_true, decide_eq_true_eq, Bool.not_eq_true'] at hf
        obtain ⟨rfl, hf⟩ := hf
        rw [List.filter_eq_nil_iff] at hc
        have := hc d (mem_targets.2 hg)
        rw [pack_user h hn hg] at hf
        simp [Option.isSome_eq_false_iff] at this hf
        rw [hf] at this
        simp at this
    · rw [if_neg hc, List.filter_cons_of_pos]
      · rfl
      · rw [any_iff]
        obtain ⟨d, hd⟩ := List.exists_mem_of_ne_nil _ hc
        rw [List.mem_filter] at hd
        refine ⟨_, d, mem_targets.1 hd.1, ?_⟩
        have := pack_user h hn (mem_targets.1 hd.1)
        unfold removed at this
        rw [this]
        simpa using hd.2

/-! ## Which rewrites are made -/

/-- The users of the tuple that do not unpack it. -/
abbrev rest (c : Circ O) (n : Nat) : List Dst :=
  (targets c n).filter (fun d => (asUnpack c d).isNone)

/-- Every value that is unpacked is used. -/
def AllUsed (c : Circ O) (n : Nat) (k : Nat) : Prop :=
  ∀ m ∈ unpacks c n, ∀ p, p < k → ∃ d, (Src.node m p, d) ∈ c.graph

theorem flatMap_length_le {α β : Type} {f : α → List β} {k : Nat} : ∀ (l : List α),
    (∀ a ∈ l, (f a).length ≤ k) → (l.flatMap f).length ≤ k * l.length ∧
      ((l.flatMap f).length = k * l.length ↔ ∀ a ∈ l, (f a).length = k) := by
  intro l
  induction l with
  | nil => intro _; simp
  | cons a l ih =>
    intro h
    obtain ⟨h1, h2⟩ := ih (fun b hb => h b (List.mem_cons_of_mem _ hb))
    have h3 := h a List.mem_cons_self
    simp only [List.flatMap_cons, List.length_append, List.length_cons, Nat.mul_add, Nat.mul_one]
    refine ⟨by omega, ?_⟩
    simp only [List.mem_cons, forall_eq_or_imp]
    rw [← h2]
    omega

theorem filter_range_length {f : Nat → Bool} {k : Nat} :
    ((List.range k).filter f).length = k ↔ ∀ p, p < k → f p = true := by
  constructor
  · intro h
    have e : (List.range k).filter f = List.range k :=
      List.filter_sublist.eq_of_length (by simpa using h)
    intro p hp
    exact (List.mem_filter.1 (e ▸ List.mem_range.2 hp)).2
  · intro h
    rw [List.filter_eq_self.2 (fun a ha => h a (List.mem_range.1 ha))]
    simp

theorem repOutputs_length (k u o : Nat) : (repOutputs k k u o).length = k * u + o := by
  unfold repOutputs
  by_cases hk : k = 0
  · simp [hk]
  · simp [hk]

/-- The outputs when all of them are used. -/
theorem subOutputs_allUsed (h : WF sig c) (hn : c.op n = .pack ts)
    (hu : AllUsed c n ts.length) : subOutputs sig c (removed c n) =
      (unpacks c n).flatMap (fun m => (List.range ts.length).map (fun p => (m, p))) ++
      (if rest c n = [] then [] else [(n, 0)]) := by
  rw [subOutputs_eq h hn]
  congr 1
  refine List.flatMap_congr ?_
  intro m hm
  congr 1
  rw [List.filter_eq_self]
  intro p hp
  rw [any_iff]
  obtain ⟨d, hd⟩ := hu m hm p (List.mem_range.1 hp)
  exact ⟨_, d, hd, by simp⟩

theorem lengths (h : WF sig c) (hn : c.op n = .pack ts) :
    ts.length * (unpacks c n).length + (rest c n).length = (subOutputs sig c (removed c n)).length ↔
      AllUsed c n ts.length ∧ (rest c n).length ≤ 1 := by
  rw [subOutputs_eq h hn, List.length_append]
  obtain ⟨h1, h2⟩ := flatMap_length_le (k := ts.length) (f := fun m =>
    ((List.range ts.length).filter (fun p =>
        c.graph.any (fun l => decide (l.1 = .node m p)))).map (fun p => (m, p))) (unpacks c n)
    (by
      intro m _
      rw [List.length_map]
      exact le_of_le_of_eq (List.length_filter_le _ _) (by simp))
  have h3 : (∀ m ∈ unpacks c n, (((List.range ts.length).filter (fun p =>
      c.graph.any (fun l => decide (l.1 = .node m p)))).map (fun p => (m, p))).length =
        ts.length) ↔ AllUsed c n ts.length := by
    refine forall_congr' (fun m => forall_congr' (fun _ => ?_))
    rw [List.length_map, filter_range_length]
    refine forall_congr' (fun p => forall_congr' (fun _ => ?_))
    rw [any_iff]
    constructor
    · rintro ⟨s, d, hg, he⟩
      simp only [decide_eq_true_eq] at he
      subst he
      exact ⟨d, hg⟩
    · rintro ⟨d, hd⟩
      exact ⟨_, d, hd, by simp⟩
  rw [← h3, ← h2]
  have h4 : (if rest c n = [] then [] else [(n, 0)] : List (Nat × Nat)).length =
      if (rest c n).length = 0 then 0 else 1 := by
    by_cases hr : rest c n = []
    · simp [hr]
    · have : (rest c n).length ≠ 0 := by simpa using hr
      rw [if_neg hr, if_neg this]; rfl
  unfold rest at h4 ⊢
  rw [h4]
  split <;> omega

theorem makeRewrite_pack (h : WF sig c) (hn : c.op n = .pack ts) (hmem : n ∈ c.nodes)
    (hne : unpacks c n ≠ []) :
    makeRewrite sig c n =
      if ts.length * (unpacks c n).length + (rest c n).length =
          (subOutputs sig c (removed c n)).length then
        .some ⟨removed c n, ts, (List.range ts.length).map (fun p => (n, p)),
          subOutputs sig c (removed c n),
          repOutputs ts.length ts.length (unpacks c n).length (rest c n).length,
          decide (0 < (rest c n).length)⟩
      else .panic := by
  unfold makeRewrite
  rw [hn]
  simp only [if_neg hne]
  unfold removePackUnpack
  have e := subInputs_eq h hn hmem
  unfold removed at e
  simp only [e, others_eq, List.length_map, List.length_range, repOutputs_length]
  rw [if_neg (by simp)]
  by_cases hl : ts.length * (unpacks c n).length + (rest c n).length =
          (subOutputs sig c (removed c n)).length
  · rw [if_pos hl, if_neg (by simpa using hl)]
  · rw [if_neg hl, if_pos (by simpa using hl)]

/-- The rewrite, if there is one. -/
theorem makeRewrite_some (h : WF sig c) (hmem : n ∈ c.nodes) {r : Rewrite}
    (hr : makeRewrite sig c n = .some r) : ∃ ts, c.op n = .pack ts ∧ unpacks c n ≠ [] ∧
      AllUsed c n ts.length ∧ (rest c n).length ≤ 1 ∧
      r = ⟨removed c n, ts, (List.range ts.length).map (fun p => (n, p)),
          (unpacks c n).flatMap (fun m => (List.range ts.length).map (fun p => (m, p))) ++
            (if rest c n = [] then [] else [(n, 0)]),
          repOutputs ts.length ts.length (unpacks c n).length (rest c n).length,
          decide (0 < (rest c n).length)⟩ := by
  cases hn : c.op n with
  | unpack _ => unfold makeRewrite at hr; rw [hn] at hr; cases hr
  | other _ => unfold makeRewrite at hr; rw [hn] at hr; cases hr
  | pack ts =>
    have hne : unpacks c n ≠ [] := by
      intro hne
      unfold makeRewrite at hr
      rw [hn] at hr
      simp only [if_pos hne] at hr
      cases hr
    rw [makeRewrite_pack h hn hmem hne] at hr
    by_cases hl : ts.length * (unpacks c n).length + (rest c n).length =
          (subOutputs sig c (removed c n)).length
    · rw [if_pos hl] at hr
      obtain ⟨h1, h2⟩ := (lengths h hn).1 hl
      refine ⟨ts, rfl, hne, h1, h2, ?_⟩
      rw [subOutputs_allUsed h hn h1] at hr
      injection hr with hr
      exact hr.symm
    · rw [if_neg hl] at hr; cases hr

/-! ## The links afterwards -/

theorem srcOf_eq (h : WF sig c) {s : Src} {m p : Nat} (hl : (s, .node m p) ∈ c.graph) :
    srcOf c (m, p) = some s := by
  unfold srcOf
  cases hf : c.graph.find? (fun l => l.2 = .node m p) with
  | none =>
    rw [List.find?_eq_none] at hf
    exact absurd (by simp) (hf _ hl)
  | some l =>
    obtain ⟨s', d'⟩ := l
    have h1 := List.find?_some hf
    have h2 := List.mem_of_find?_eq_some hf
    simp only [decide_eq_true_eq] at h1
    subst h1
    simp [h.uniq h2 hl]

theorem mem_users {R : List Nat} {b : Nat × Nat} {d : Dst} :
    d ∈ users c R b ↔ (.node b.1 b.2, d) ∈ c.graph ∧ d.inside R = false := by
  unfold users
  simp only [List.mem_map, List.mem_filter, Bool.and_eq_true, decide_eq_true_eq,
    Bool.not_eq_true']
  constructor
  · rintro ⟨⟨s, d'⟩, ⟨h1, h2, h3⟩, rfl⟩
    simp only at h2 h3
    subst h2
    exact ⟨h1, h3⟩
  · rintro ⟨h1, h2⟩
    exact ⟨_, ⟨h1, rfl, h2⟩, rfl⟩

theorem range_mul_succ (k u : Nat) : List.range (k * (u + 1)) =
    List.range k ++ (List.range (k * u)).map (fun i => k + i) := by
  rw [Nat.mul_succ, Nat.add_comm, List.range_add]

/-- The outputs of the replacement for the unpacked values are the packed values. -/
theorem zip_unpacks (k : Nat) (us : List Nat) (l1 : List (Nat × Nat))
    (l2 : List RSrc) :
    (us.flatMap (fun m => (List.range k).map (fun p => (m, p))) ++ l1).zip
      ((List.range (k * us.length)).map (fun i => RSrc.inp (i % k)) ++ l2) =
    us.flatMap (fun m => (List.range k).map (fun p => ((m, p), RSrc.inp p))) ++ l1.zip l2 := by
  induction us with
  | nil => simp
  | cons m us ih =>
    rw [List.length_cons, range_mul_succ]
    simp only [List.flatMap_cons, List.map_append, List.map_map, List.append_assoc]
    rw [List.zip_append (by simp)]
    have e : (List.range (k * us.length)).map ((fun i => RSrc.inp (i % k)) ∘ fun i => k + i) =
        (List.range (k * us.length)).map (fun i => RSrc.inp (i % k)) := by
      refine List.map_congr_left ?_
      intro i _
      simp
    rw [e, ih]
    congr 1
    rw [List.zip_map']
    refine List.map_congr_left ?_
    intro p hp
    rw [Nat.mod_eq_of_lt (List.mem_range.1 hp)]

theorem repOutputs_eq (k u o : Nat) : repOutputs k k u o =
    (List.range (k * u)).map (fun i => RSrc.inp (i % k)) ++ List.replicate o .tup := by
  unfold repOutputs
  by_cases hk : k = 0
  · simp [hk]
  · simp [hk]

/-- The rewrite of the `MakeTuple` at `n`. -/
abbrev theRewrite (c : Circ O) (n : Nat) (ts : List Ty) : Rewrite :=
  ⟨removed c n, ts, (List.range ts.length).map (fun p => (n, p)),
    (unpacks c n).flatMap (fun m => (List.range ts.length).map (fun p => (m, p))) ++
      (if rest c n = [] then [] else [(n, 0)]),
    repOutputs ts.length ts.length (unpacks c n).length (rest c n).length,
    decide (0 < (rest c n).length)⟩

theorem theRewrite_zip (h1 : (rest c n).length ≤ 1) :
    (theRewrite c n ts).outputs.zip (theRewrite c n ts).rep =
      (unpacks c n).flatMap (fun m => (List.range ts.length).map (fun p => ((m, p), RSrc.inp p))) ++
      (if rest c n = [] then [] else [((n, 0), .tup)]) := by
  simp only [repOutputs_eq]
  rw [zip_unpacks]
  congr 1
  cases hr : rest c n with
  | nil => simp
  | cons a l =>
    rw [hr] at h1
    have : l = [] := by simpa using h1
    subst this
    simp

theorem resolve_inp (h : WF sig c) {p : Nat} {s : Src} (hp : p < ts.length)
    (hl : (s, .node n p) ∈ c.graph) : resolve c (theRewrite c n ts) (.inp p) = some s := by
  unfold resolve
  have : (theRewrite c n ts).inputs[p]? = some (n, p) := by
    simp [hp]
  simp only [this]
  exact srcOf_eq h hl

theorem rest_ne_nil (h : WF sig c) (hn : c.op n = .pack ts) : rest c n ≠ [] ↔
    ∃ d, (.node n 0, d) ∈ c.graph ∧ d.inside (removed c n) = false := by
  constructor
  · intro hr
    obtain ⟨d, hd⟩ := List.exists_mem_of_ne_nil _ hr
    rw [List.mem_filter] at hd
    refine ⟨d, mem_targets.1 hd.1, ?_⟩
    rw [pack_user h hn (mem_targets.1 hd.1)]
    simpa using hd.2
  · rintro ⟨d, hd, hi⟩ he
    rw [List.filter_eq_nil_iff] at he
    have := he d (mem_targets.2 hd)
    rw [pack_user h hn hd] at hi
    simp at hi this
    rw [hi] at this
    simp at this

theorem mem_outLinks (h : WF sig c) (hn : c.op n = .pack ts) (hmem : n ∈ c.nodes)
    (h1 : (rest c n).length ≤ 1) {s : Src} {d : Dst} :
    (s, d) ∈ outLinks c (theRewrite c n ts) ↔
      (∃ m ∈ unpacks c n, ∃ p, p < ts.length ∧ (.node m p, d) ∈ c.graph ∧
        (s, .node n p) ∈ c.graph) ∨
      ((.node n 0, d) ∈ c.graph ∧ d.inside (removed c n) = false ∧ s = .node (fresh c) 0) := by
  unfold outLinks
  rw [theRewrite_zip h1, List.flatMap_append, List.mem_append]
  refine or_congr ?_ ?_
  · simp only [List.mem_flatMap, List.mem_map, List.mem_range]
    constructor
    · rintro ⟨_, ⟨m, hm, p, hp, rfl⟩, hx⟩
      obtain ⟨s', hs'⟩ := h.linked n hmem p (by rw [hn]; exact hp)
      rw [resolve_inp h hp hs'] at hx
      simp only [List.mem_map, Prod.mk.injEq] at hx
      obtain ⟨d', hd', rfl, rfl⟩ := hx
      exact ⟨m, hm, p, hp, (mem_users.1 hd').1, hs'⟩
    · rintro ⟨m, hm, p, hp, hl, hs⟩
      refine ⟨_, ⟨m, hm, p, hp, rfl⟩, ?_⟩
      rw [resolve_inp h hp hs]
      simp only [List.mem_map, Prod.mk.injEq]
      exact ⟨d, mem_users.2 ⟨hl, unpack_user h hn hm hl⟩, trivial, rfl⟩
  · by_cases hr : rest c n = []
    · rw [if_pos hr]
      constructor
      · intro hx; simp at hx
      · rintro ⟨a, b, _⟩
        exact absurd hr ((rest_ne_nil h hn).2 ⟨d, a, b⟩)
    · rw [if_neg hr]
      simp only [List.flatMap_cons, List.flatMap_nil, List.append_nil, resolve, List.mem_map,
        Prod.mk.injEq]
      constructor
      · rintro ⟨d', hd', rfl, rfl⟩
        exact ⟨(mem_users.1 hd').1, (mem_users.1 hd').2, rfl⟩
      · rintro ⟨a, b, rfl⟩
        exact ⟨d, mem_users.2 ⟨a, b⟩, rfl, rfl⟩

theorem mem_packLinks (h : WF sig c) (hn : c.op n = .pack ts) (hmem : n ∈ c.nodes) {s : Src}
    {d : Dst} : (s, d) ∈ packLinks c 0 ((List.range ts.length).map (fun p => (n, p))) ↔
      ∃ p, p < ts.length ∧ (s, .node n p) ∈ c.graph ∧ d = .node (fresh c) p := by
  have aux : ∀ (k i : Nat), i + k = ts.length →
      ((s, d) ∈ packLinks c i ((List.range' i k).map (fun p => (n, p))) ↔
        ∃ p, i ≤ p ∧ p < ts.length ∧ (s, .node n p) ∈ c.graph ∧ d = .node (fresh c) p) := by
    intro k
    induction k with
    | zero =>
      intro i hi
      simp only [List.range'_zero, List.map_nil, packLinks, List.not_mem_nil, false_iff]
      rintro ⟨p, h1, h2, _⟩
      omega
    | succ k ih =>
      intro i hi
      obtain ⟨s', hs'⟩ := h.linked n hmem i (by rw [hn]; change i < ts.length; omega)
      simp only [List.range'_succ, List.map_cons, packLinks, srcOf_eq h hs', List.mem_cons]
      rw [ih (i + 1) (by omega)]
      constructor
      · rintro (e | ⟨p, h1, h2, h3, h4⟩)
        · obtain ⟨rfl, rfl⟩ := (Prod.mk.injEq _ _ _ _).mp e
          exact ⟨i, Nat.le_refl _, by omega, hs', rfl⟩
        · exact ⟨p, by omega, h2, h3, h4⟩
      · rintro ⟨p, h1, h2, h3, rfl⟩
        by_cases hp : p = i
        · subst hp
          rw [h.uniq h3 hs']
          exact Or.inl rfl
        · exact Or.inr ⟨p, by omega, h2, h3, rfl⟩
  have := aux ts.length 0 (by omega)
  rw [← List.range_eq_range'] at this
  rw [this]
  simp

/-- The links after the rewrite. -/
theorem mem_apply (h : WF sig c) (hn : c.op n = .pack ts) (hmem : n ∈ c.nodes)
    (h1 : (rest c n).length ≤ 1) {s : Src} {d : Dst} :
    (s, d) ∈ (apply c (theRewrite c n ts)).graph ↔
      ((s, d) ∈ c.graph ∧ s.inside (removed c n) = false ∧ d.inside (removed c n) = false) ∨
      (∃ m ∈ unpacks c n, ∃ p, p < ts.length ∧ (.node m p, d) ∈ c.graph ∧
        (s, .node n p) ∈ c.graph) ∨
      ((.node n 0, d) ∈ c.graph ∧ d.inside (removed c n) = false ∧ s = .node (fresh c) 0) ∨
      (rest c n ≠ [] ∧ ∃ p, p < ts.length ∧ (s, .node n p) ∈ c.graph ∧
        d = .node (fresh c) p) := by
  unfold apply
  simp only [List.mem_append, List.mem_filter, Bool.and_eq_true, Bool.not_eq_true']
  rw [mem_outLinks h hn hmem h1, or_assoc]
  refine or_congr Iff.rfl (or_congr Iff.rfl (or_congr Iff.rfl ?_))
  by_cases hr : rest c n = []
  · simp [hr]
  · have : 0 < (rest c n).length := by
      cases hx : rest c n with
      | nil => exact absurd hx hr
      | cons _ _ => simp
    simp only [this, decide_true, if_true]
    rw [mem_packLinks h hn hmem]
    exact ⟨fun x => ⟨hr, x⟩, fun x => x.2⟩

theorem lt_fresh {m : Nat} (h : m ∈ c.nodes) : m < fresh c := by
  unfold fresh
  have : ∀ l : List Nat, m ∈ l → m ≤ l.foldr max 0 := by
    intro l
    induction l with
    | nil => intro h; simp at h
    | cons a l ih =>
      intro h
      simp only [List.foldr_cons]
      rcases List.mem_cons.1 h with rfl | h
      · exact Nat.le_max_left _ _
      · exact Nat.le_trans (ih h) (Nat.le_max_right _ _)
  have := this _ h
  omega

end Tket.Untuple
