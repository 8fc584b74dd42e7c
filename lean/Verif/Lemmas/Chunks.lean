import Verif.Model.Chunks
import Mathlib.Tactic.Common
import Mathlib.Data.List.Nodup

/-! # Lemmas on chunking -/

namespace Tket.Chunks

open Tket.Cost

/-! ## Splitting -/

section Split

variable {α K : Type}

/-- The splitting computed directly: commands that continue the current chunk, and later chunks. -/
def aux (o : CostOps K) (cost : α → K) : K → List α → List α × List (List α)
  | _, [] => ([], [])
  | r, a :: t =>
    if o.over (o.add r (cost a)) then
      ([], (a :: (aux o cost o.zero t).1) :: (aux o cost o.zero t).2)
    else
      (a :: (aux o cost (o.add r (cost a)) t).1, (aux o cost (o.add r (cost a)) t).2)

def assemble (p : List α × List (List α)) : List (List α) :=
  if p.1 = [] then p.2 else p.1 :: p.2

theorem groups_head (o : CostOps K) (cost : α → K) (r : K) (g : Nat) (a : α) (t : List α) :
    ∃ rest, groups o cost r g (a :: t) =
      (a, if o.over (o.add r (cost a)) then g + 1 else g) :: rest := by
  simp only [groups]
  split <;> exact ⟨_, rfl⟩

theorem runs_groups (o : CostOps K) (cost : α → K) (l : List α) : ∀ (r : K) (g : Nat),
    runs (groups o cost r g l) = assemble (aux o cost r l) ∧
    ∀ a, runs ((a, g) :: groups o cost r g l) = (a :: (aux o cost r l).1) :: (aux o cost r l).2 := by
  induction l with
  | nil => intro r g; exact ⟨rfl, fun a => rfl⟩
  | cons b t ih =>
    intro r g
    by_cases h : o.over (o.add r (cost b))
    · have e : groups o cost r g (b :: t) = (b, g + 1) :: groups o cost o.zero (g + 1) t := by
        simp [groups, h]
      have ha : aux o cost r (b :: t) =
          ([], (b :: (aux o cost o.zero t).1) :: (aux o cost o.zero t).2) := by simp [aux, h]
      rw [e, ha]
      refine ⟨?_, ?_⟩
      · rw [(ih o.zero (g + 1)).2 b]; simp [assemble]
      · intro a
        rw [runs.eq_3]
        rw [if_neg (by omega), (ih o.zero (g + 1)).2 b]
    · have e : groups o cost r g (b :: t) = (b, g) :: groups o cost (o.add r (cost b)) g t := by
        simp [groups, h]
      have ha : aux o cost r (b :: t) =
          (b :: (aux o cost (o.add r (cost b)) t).1, (aux o cost (o.add r (cost b)) t).2) := by
        simp [aux, h]
      rw [e, ha]
      refine ⟨?_, ?_⟩
      · rw [(ih _ g).2 b]; simp [assemble]
      · intro a
        rw [runs.eq_3, if_pos rfl, (ih _ g).2 b]

theorem split_eq_aux (o : CostOps K) (cost : α → K) (l : List α) :
    splitWithCost o cost l = assemble (aux o cost o.zero l) := (runs_groups o cost l o.zero 0).1

theorem aux_flatten (o : CostOps K) (cost : α → K) (l : List α) : ∀ r,
    (aux o cost r l).1 ++ (aux o cost r l).2.flatten = l := by
  induction l with
  | nil => intro r; rfl
  | cons a t ih =>
    intro r
    by_cases h : o.over (o.add r (cost a))
    · simp only [aux, h, if_true, List.flatten_cons, List.nil_append, List.cons_append]
      rw [ih]
    · simp only [aux, h, Bool.false_eq_true, if_false, List.cons_append]
      rw [ih]

theorem aux_ne_nil (o : CostOps K) (cost : α → K) (l : List α) : ∀ r, ∀ c ∈ (aux o cost r l).2,
    c ≠ [] := by
  induction l with
  | nil => intro r c hc; simp [aux] at hc
  | cons a t ih =>
    intro r c hc
    by_cases h : o.over (o.add r (cost a))
    · simp only [aux, h, if_true, List.mem_cons] at hc
      rcases hc with rfl | hc
      · simp
      · exact ih _ c hc
    · simp only [aux, h, Bool.false_eq_true, if_false] at hc
      exact ih _ c hc

/-- Total of a measure of the costs. -/
def total (f : α → Nat) (l : List α) : Nat := (l.map f).sum

theorem aux_bound (o : CostOps K) (cost : α → K) (maj : K → Nat) (M : Nat) (I : K → Prop)
    (hzero : I o.zero) (hM : ∀ r, I r → maj r ≤ M)
    (l : List α)
    (hadd : ∀ r, ∀ a ∈ l, I r → maj (o.add r (cost a)) = maj r + maj (cost a))
    (hnot : ∀ r, ∀ a ∈ l, I r → o.over (o.add r (cost a)) = false → I (o.add r (cost a))) :
    ∀ r, I r →
      maj r + total (fun a => maj (cost a)) (aux o cost r l).1 ≤ M ∧
      (maj o.zero = 0 → ∀ c ∈ (aux o cost r l).2, ∃ a t, c = a :: t ∧
        total (fun a => maj (cost a)) t ≤ M) := by
  induction l with
  | nil => intro r hr; simp [aux, total, hM r hr]
  | cons a t ih =>
    have ih' := ih (fun r x hx => hadd r x (List.mem_cons_of_mem _ hx))
      (fun r x hx => hnot r x (List.mem_cons_of_mem _ hx))
    intro r hr
    by_cases h : o.over (o.add r (cost a))
    · simp only [aux, h, if_true]
      refine ⟨by simpa [total] using hM r hr, ?_⟩
      intro hz c hc
      rw [List.mem_cons] at hc
      rcases hc with rfl | hc
      · have := (ih' o.zero hzero).1
        exact ⟨a, _, rfl, by omega⟩
      · exact (ih' o.zero hzero).2 hz c hc
    · have hI := hnot r a List.mem_cons_self hr (by simpa using h)
      have hA := hadd r a List.mem_cons_self hr
      simp only [aux, h, Bool.false_eq_true, if_false]
      refine ⟨?_, (ih' _ hI).2⟩
      have := (ih' _ hI).1
      rw [hA] at this
      simp only [total, List.map_cons, List.sum_cons] at this ⊢
      omega

theorem mem_assemble {p : List α × List (List α)} {c : List α} (h : c ∈ assemble p) :
    (c = p.1 ∧ p.1 ≠ []) ∨ c ∈ p.2 := by
  unfold assemble at h
  split at h
  · exact Or.inr h
  · rename_i hne
    rw [List.mem_cons] at h
    rcases h with h | h
    · exact Or.inl ⟨h, hne⟩
    · exact Or.inr h

end Split

/-! ## Association lists -/

section Maps

variable {A B : Type} [DecidableEq A]

theorem mem_insertKey {k : A} {v : B} {m : List (A × B)} {k' : A} {v' : B} :
    (k', v') ∈ insertKey k v m ↔ (k' = k ∧ v' = v) ∨ (k' ≠ k ∧ (k', v') ∈ m) := by
  simp only [insertKey, List.mem_cons, Prod.mk.injEq, List.mem_filter, decide_eq_true_eq]
  tauto

theorem getKey_insertKey (k k' : A) (v : B) (m : List (A × B)) :
    getKey (insertKey k v m) k' = if k' = k then some v else getKey m k' := by
  unfold getKey insertKey
  by_cases h : k = k'
  · subst h; simp
  · have h' : ¬ k' = k := fun e => h e.symm
    rw [List.find?_cons_of_neg (by simpa using h), if_neg h']
    congr 1
    induction m with
    | nil => rfl
    | cons e t ih =>
      by_cases he : e.1 = k
      · have : ¬ e.1 = k' := by rw [he]; exact h
        rw [List.filter_cons_of_neg (by simpa using he), List.find?_cons_of_neg (by simpa using this)]
        exact ih
      · rw [List.filter_cons_of_pos (by simpa using he)]
        by_cases he' : e.1 = k'
        · rw [List.find?_cons_of_pos (by simpa using he'), List.find?_cons_of_pos (by simpa using he')]
        · rw [List.find?_cons_of_neg (by simpa using he'), List.find?_cons_of_neg (by simpa using he')]
          exact ih

theorem keys_nodup_insertKey {k : A} {v : B} {m : List (A × B)} (h : (m.map (·.1)).Nodup) :
    ((insertKey k v m).map (·.1)).Nodup := by
  unfold insertKey
  rw [List.map_cons, List.nodup_cons]
  refine ⟨?_, h.sublist (List.filter_sublist.map _)⟩
  intro hm
  rw [List.mem_map] at hm
  obtain ⟨e, he, hk⟩ := hm
  simp at he
  exact he.2 hk

end Maps

/-! ## Specification of the connections -/

/-- Connections that exist before a chunk is inserted. -/
def avail (ins : List Src) (chunks : List Chunk) : List Src := ins ++ chunks.flatMap (·.outputs)

/-- A chunk fits behind the connections `av`: inputs exist, outputs are new, no connection is listed
twice, links use existing ports, and every output port has exactly one incoming link. -/
structure ChunkWF (av : List Src) (ch : Chunk) : Prop where
  in_avail : ∀ w ∈ ch.inputs, w ∈ av
  in_nodup : ch.inputs.Nodup
  out_fresh : ∀ w ∈ ch.outputs, w ∉ av
  out_nodup : ch.outputs.Nodup
  src_range : ∀ i d, (.input i, d) ∈ ch.circ → i < ch.inputs.length
  dst_range : ∀ s j, (s, .output j) ∈ ch.circ → j < ch.outputs.length
  out_one : ∀ j, j < ch.outputs.length → ∃ s, (ch.circ.filter (fun l => l.2 = .output j)).map (·.1) = [s]

def ChunksWF (ins : List Src) (chunks : List Chunk) : Prop :=
  ∀ c ch, chunks[c]? = some ch → ChunkWF (avail ins (chunks.take c)) ch

/-- `Resolves ins chunks w s`: following connection `w` backwards (through chunks that pass it on
unchanged) ends at port `s`. -/
inductive Resolves (ins : List Src) (chunks : List Chunk) : Src → FSrc → Prop where
  | input {i : Nat} {w : Src} : ins[i]? = some w → Resolves ins chunks w (.input i)
  | node {c j n p : Nat} {ch : Chunk} {w : Src} : chunks[c]? = some ch → ch.outputs[j]? = some w →
      (.node n p, .output j) ∈ ch.circ → Resolves ins chunks w (.node c n p)
  | pass {c i j : Nat} {ch : Chunk} {w w' : Src} {s : FSrc} : chunks[c]? = some ch →
      ch.outputs[j]? = some w → (.input i, .output j) ∈ ch.circ → ch.inputs[i]? = some w' →
      Resolves ins chunks w' s → Resolves ins chunks w s

/-- `FeedsChunk chunks w d`: connection `w` is an input of a chunk, which links it to its port `d`. -/
def FeedsChunk (chunks : List Chunk) (w : Src) (d : FDst) : Prop :=
  ∃ c ch i n p, chunks[c]? = some ch ∧ ch.inputs[i]? = some w ∧ (.input i, .node n p) ∈ ch.circ ∧
    d = .node c n p

/-- Connection `w` leads to port `d`: a port in a chunk, or a circuit output. -/
def Feeds (outs : List Src) (chunks : List Chunk) (w : Src) (d : FDst) : Prop :=
  FeedsChunk chunks w d ∨ ∃ j, outs[j]? = some w ∧ d = .output j

/-- A link inside a chunk. -/
def Inner (chunks : List Chunk) (s : FSrc) (d : FDst) : Prop :=
  ∃ c ch n p m q, chunks[c]? = some ch ∧ (.node n p, .node m q) ∈ ch.circ ∧
    s = .node c n p ∧ d = .node c m q

/-! ## The loops -/

theorem mapM_some {A B : Type} {f : A → Option B} {l : List A} (h : ∀ a ∈ l, ∃ b, f a = some b) :
    ∃ r, l.mapM f = some r ∧ ∀ b, b ∈ r ↔ ∃ a ∈ l, f a = some b := by
  induction l with
  | nil => exact ⟨[], rfl, by simp⟩
  | cons a t ih =>
    obtain ⟨b, hb⟩ := h a List.mem_cons_self
    obtain ⟨r, hr, hm⟩ := ih (fun x hx => h x (List.mem_cons_of_mem _ hx))
    refine ⟨b :: r, by simp [List.mapM_cons, hb, hr], ?_⟩
    intro x
    simp only [List.mem_cons, hm]
    constructor
    · rintro (rfl | ⟨y, hy, h⟩)
      · exact ⟨a, Or.inl rfl, hb⟩
      · exact ⟨y, Or.inr hy, h⟩
    · rintro ⟨y, rfl | hy, hx⟩
      · left; rw [hb] at hx; exact (Option.some.inj hx).symm
      · exact Or.inr ⟨y, hy, hx⟩

theorem mem_circ_of_filter {g : Graph} {j : Nat} {s : Src}
    (h : (g.filter (fun l => l.2 = .output j)).map (·.1) = [s]) (s' : Src) :
    (s', .output j) ∈ g ↔ s' = s := by
  have : s' ∈ (g.filter (fun l => l.2 = .output j)).map (·.1) ↔ (s', .output j) ∈ g := by
    simp only [List.mem_map, List.mem_filter, decide_eq_true_eq]
    constructor
    · rintro ⟨⟨a, b⟩, ⟨h1, h2⟩, rfl⟩
      simp only at h2; subst h2; exact h1
    · intro h; exact ⟨_, ⟨h, rfl⟩, rfl⟩
  rw [← this, h]; simp

theorem outgoing_spec (c : Nat) (ch : Chunk) (av : List Src) (hwf : ChunkWF av ch) :
    ∀ (ws : List Src) (j : Nat) (m : List (Src × Target)),
    ch.outputs.drop j = ws → (m.map (·.1)).Nodup → (∀ e ∈ m, e.1 ∉ ws) →
    ∃ o, outgoing c ch j ws m = some o ∧ (o.map (·.1)).Nodup ∧
      ∀ w t, (w, t) ∈ o ↔ (w, t) ∈ m ∨ ∃ k s, j ≤ k ∧ ch.outputs[k]? = some w ∧
        (s, .output k) ∈ ch.circ ∧ targetOfSrc c ch.inputs s = some t := by
  intro ws
  induction ws with
  | nil =>
    intro j m hd hn _
    refine ⟨m, rfl, hn, ?_⟩
    intro w t
    constructor
    · exact Or.inl
    · rintro (h | ⟨k, s, hk, ho, _⟩)
      · exact h
      · rw [List.drop_eq_nil_iff] at hd
        have := (List.getElem?_eq_some_iff.1 ho).1
        omega
  | cons w0 ws ih =>
    intro j m hd hn hdis
    have hj : j < ch.outputs.length := by
      by_contra hh
      rw [List.drop_eq_nil_of_le (by omega)] at hd
      simp at hd
    have hw0 : ch.outputs[j]? = some w0 := by
      have := congrArg List.head? hd
      simpa [List.head?_drop] using this
    have hdrop : ch.outputs.drop (j + 1) = ws := by
      have := congrArg List.tail hd
      simpa [List.tail_drop] using this
    obtain ⟨s, hs⟩ := hwf.out_one j hj
    have hsm := (mem_circ_of_filter hs s).2 rfl
    have htgt : ∃ t, targetOfSrc c ch.inputs s = some t := by
      cases s with
      | node n p => exact ⟨_, rfl⟩
      | input i =>
        have := hwf.src_range i _ hsm
        exact ⟨.transitive ch.inputs[i], by simp [targetOfSrc, this]⟩
    obtain ⟨t, ht⟩ := htgt
    have hw0n : w0 ∉ ws := by
      have := hwf.out_nodup.sublist (List.drop_sublist j ch.outputs)
      rw [hd, List.nodup_cons] at this
      exact this.1
    obtain ⟨o, ho1, ho2, ho3⟩ := ih (j + 1) (insertKey w0 t m) hdrop (keys_nodup_insertKey hn) (by
      rintro ⟨k, v⟩ he
      rw [mem_insertKey] at he
      rcases he with ⟨rfl, _⟩ | ⟨_, he⟩
      · exact hw0n
      · intro hk; exact hdis _ he (List.mem_cons_of_mem _ hk))
    refine ⟨o, ?_, ho2, ?_⟩
    · simp only [outgoing]
      rw [hs]
      simp only [ht]
      exact ho1
    · intro w t'
      rw [ho3, mem_insertKey]
      constructor
      · rintro ((⟨rfl, rfl⟩ | ⟨_, h⟩) | ⟨k, s', hk, h⟩)
        · exact Or.inr ⟨j, s, Nat.le_refl _, hw0, hsm, ht⟩
        · exact Or.inl h
        · exact Or.inr ⟨k, s', by omega, h⟩
      · rintro (h | ⟨k, s', hk, h1, h2, h3⟩)
        · left; right
          refine ⟨?_, h⟩
          rintro rfl
          exact hdis _ h List.mem_cons_self
        · by_cases hkj : k = j
          · subst hkj
            left; left
            rw [hw0] at h1
            rw [(mem_circ_of_filter hs s').1 h2, ht] at h3
            exact ⟨(Option.some.inj h1).symm, (Option.some.inj h3).symm⟩
          · exact Or.inr ⟨k, s', by omega, h1, h2, h3⟩

theorem incoming_spec (c : Nat) (ch : Chunk) (av : List Src) (hwf : ChunkWF av ch) :
    ∀ (ws : List Src) (i : Nat) (m : List (Src × List Target)),
    ch.inputs.drop i = ws → (∀ e ∈ m, e.1 ∉ ws) →
    (∀ e ∈ m, ∀ t ∈ e.2, ∀ s, t ≠ .insertedOutput s) →
    ∃ o, incoming c ch i ws m = some o ∧ (∀ e ∈ o, ∀ t ∈ e.2, ∀ s, t ≠ .insertedOutput s) ∧
      ∀ w d, (∃ ts, (w, ts) ∈ o ∧ .insertedInput d ∈ ts) ↔
        (∃ ts, (w, ts) ∈ m ∧ .insertedInput d ∈ ts) ∨
        ∃ k n p, i ≤ k ∧ ch.inputs[k]? = some w ∧ (.input k, .node n p) ∈ ch.circ ∧
          d = .node c n p := by
  intro ws
  induction ws with
  | nil =>
    intro i m hd _ hno
    refine ⟨m, rfl, hno, ?_⟩
    intro w d
    constructor
    · exact Or.inl
    · rintro (h | ⟨k, n, p, hk, ho, _⟩)
      · exact h
      · rw [List.drop_eq_nil_iff] at hd
        have := (List.getElem?_eq_some_iff.1 ho).1
        omega
  | cons w0 ws ih =>
    intro i m hd hdis hno
    have hi : i < ch.inputs.length := by
      by_contra hh
      rw [List.drop_eq_nil_of_le (by omega)] at hd
      simp at hd
    have hw0 : ch.inputs[i]? = some w0 := by
      have := congrArg List.head? hd
      simpa [List.head?_drop] using this
    have hdrop : ch.inputs.drop (i + 1) = ws := by
      have := congrArg List.tail hd
      simpa [List.tail_drop] using this
    have hw0n : w0 ∉ ws := by
      have := hwf.in_nodup.sublist (List.drop_sublist i ch.inputs)
      rw [hd, List.nodup_cons] at this
      exact this.1
    have hmemD : ∀ d, d ∈ (ch.circ.filter (fun l => l.1 = .input i)).map (·.2) ↔
        (.input i, d) ∈ ch.circ := by
      intro d
      simp only [List.mem_map, List.mem_filter, decide_eq_true_eq]
      constructor
      · rintro ⟨⟨a, b⟩, ⟨h1, h2⟩, rfl⟩
        simp only at h2; subst h2; exact h1
      · intro h; exact ⟨_, ⟨h, rfl⟩, rfl⟩
    obtain ⟨ts, hts, htm⟩ := mapM_some (f := targetOfDst c ch.outputs)
      (l := (ch.circ.filter (fun l => l.1 = .input i)).map (·.2)) (by
        intro d hd'
        have hm := (hmemD d).1 hd'
        cases d with
        | node n p => exact ⟨_, rfl⟩
        | output j =>
          have := hwf.dst_range _ j hm
          exact ⟨.transitive ch.outputs[j], by simp [targetOfDst, this]⟩)
    have htsno : ∀ t ∈ ts, ∀ s, t ≠ .insertedOutput s := by
      rintro t ht s rfl
      obtain ⟨d, _, h⟩ := (htm _).1 ht
      cases d <;> simp [targetOfDst] at h
    obtain ⟨o, ho1, ho2, ho3⟩ := ih (i + 1) (insertKey w0 ts m) hdrop (by
      rintro ⟨k, v⟩ he
      rw [mem_insertKey] at he
      rcases he with ⟨rfl, _⟩ | ⟨_, he⟩
      · exact hw0n
      · intro hk; exact hdis _ he (List.mem_cons_of_mem _ hk)) (by
      rintro ⟨k, v⟩ he t ht
      rw [mem_insertKey] at he
      rcases he with ⟨rfl, rfl⟩ | ⟨_, he⟩
      · exact htsno t ht
      · exact hno _ he t ht)
    refine ⟨o, ?_, ho2, ?_⟩
    · simp only [incoming, hts]; exact ho1
    · intro w d
      rw [ho3]
      constructor
      · rintro (⟨ts', hm, hd'⟩ | ⟨k, n, p, hk, h⟩)
        · rw [mem_insertKey] at hm
          rcases hm with ⟨rfl, rfl⟩ | ⟨_, hm⟩
          · obtain ⟨d0, hd0, h⟩ := (htm _).1 hd'
            have := (hmemD d0).1 hd0
            cases d0 with
            | output j => simp [targetOfDst] at h
            | node n p =>
              simp only [targetOfDst, Option.some.injEq, Target.insertedInput.injEq] at h
              exact Or.inr ⟨i, n, p, Nat.le_refl _, hw0, this, h.symm⟩
          · exact Or.inl ⟨ts', hm, hd'⟩
        · exact Or.inr ⟨k, n, p, by omega, h⟩
      · rintro (⟨ts', hm, hd'⟩ | ⟨k, n, p, hk, h1, h2, rfl⟩)
        · left
          refine ⟨ts', ?_, hd'⟩
          rw [mem_insertKey]
          right
          refine ⟨?_, hm⟩
          rintro rfl
          exact hdis _ hm List.mem_cons_self
        · by_cases hki : k = i
          · subst hki
            left
            refine ⟨ts, ?_, ?_⟩
            · rw [mem_insertKey]
              rw [hw0] at h1
              exact Or.inl ⟨(Option.some.inj h1).symm, rfl⟩
            · rw [htm]
              exact ⟨.node n p, (hmemD _).2 h2, rfl⟩
          · exact Or.inr ⟨k, n, p, by omega, h1, h2, rfl⟩

theorem applyOut_spec (av : List Src) : ∀ (L : List (Src × Target)) (st : St),
    (L.map (·.1)).Nodup → (∀ w t, (w, t) ∈ L → w ∉ av ∧ (∀ d, t ≠ .insertedInput d) ∧
      ∀ m, t = .transitive m → ∀ t', (m, t') ∉ L) →
    (∀ w t s, (w, t) ∈ L → (w, s) ∉ st.sources) →
    (∀ w t, (w, t) ∈ L → getKey st.trans w = none) →
    ∃ st', applyOut L st = some st' ∧ st'.targets = st.targets ∧
      (∀ k s, (k, s) ∈ st'.sources ↔ (k, s) ∈ st.sources ∨ (k, .insertedOutput s) ∈ L) ∧
      (∀ w, (∀ t, (w, t) ∉ L) → getKey st'.trans w = getKey st.trans w) ∧
      (∀ w s, (w, .insertedOutput s) ∈ L → getKey st'.trans w = none) ∧
      (∀ w m, (w, .transitive m) ∈ L → getKey st'.trans w = some (merged st.trans m)) := by
  intro L
  induction L with
  | nil => intro st _ _ _ _; exact ⟨st, rfl, rfl, by simp, by simp, by simp, by simp⟩
  | cons e L ih =>
    rintro st hn hL hS hT
    obtain ⟨w, t⟩ := e
    simp only [List.map_cons, List.nodup_cons, List.mem_map, Prod.exists, exists_and_right,
      exists_eq_right, not_exists] at hn
    obtain ⟨hwn, hn⟩ := hn
    have hL' : ∀ w t, (w, t) ∈ L → w ∉ av ∧ (∀ d, t ≠ .insertedInput d) ∧
        ∀ m, t = .transitive m → ∀ t', (m, t') ∉ L := fun w' t' h => by
      obtain ⟨a, b, c⟩ := hL w' t' (List.mem_cons_of_mem _ h)
      exact ⟨a, b, fun m hm t'' ht'' => c m hm t'' (List.mem_cons_of_mem _ ht'')⟩
    have hself := hL w t List.mem_cons_self
    cases t with
    | insertedInput d => exact absurd rfl (hself.2.1 d)
    | insertedOutput s0 =>
      obtain ⟨st', h1, h2, h3, h4, h5, h6⟩ := ih { st with sources := insertKey w s0 st.sources } hn hL'
        (by
          intro w' t' s h hm
          rw [mem_insertKey] at hm
          rcases hm with ⟨rfl, _⟩ | ⟨_, hm⟩
          · exact hwn _ h
          · exact hS _ _ _ (List.mem_cons_of_mem _ h) hm)
        (fun w' t' h => hT w' t' (List.mem_cons_of_mem _ h))
      refine ⟨st', h1, h2, ?_, ?_, ?_, ?_⟩
      · intro k s
        rw [h3, mem_insertKey]
        simp only [List.mem_cons, Prod.mk.injEq, Target.insertedOutput.injEq]
        constructor
        · rintro ((⟨rfl, rfl⟩ | ⟨_, h⟩) | h)
          · exact Or.inr (Or.inl ⟨rfl, rfl⟩)
          · exact Or.inl h
          · exact Or.inr (Or.inr h)
        · rintro (h | ⟨rfl, rfl⟩ | h)
          · left; right
            refine ⟨?_, h⟩
            rintro rfl
            exact hS _ _ _ List.mem_cons_self h
          · exact Or.inl (Or.inl ⟨rfl, rfl⟩)
          · exact Or.inr h
      · intro w' hw'
        exact h4 w' (fun t' ht' => hw' t' (List.mem_cons_of_mem _ ht'))
      · intro w' s hm
        rw [List.mem_cons] at hm
        rcases hm with hm | hm
        · simp only [Prod.mk.injEq, Target.insertedOutput.injEq] at hm
          obtain ⟨rfl, rfl⟩ := hm
          rw [h4 w' hwn]
          exact hT w' _ List.mem_cons_self
        · exact h5 w' s hm
      · intro w' m hm
        rw [List.mem_cons] at hm
        rcases hm with hm | hm
        · simp at hm
        · exact h6 w' m hm
    | transitive m0 =>
      obtain ⟨st', h1, h2, h3, h4, h5, h6⟩ := ih
        { st with trans := insertKey w (merged st.trans m0) st.trans } hn hL'
        (fun w' t' s h => hS w' t' s (List.mem_cons_of_mem _ h))
        (by
          intro w' t' h
          simp only [getKey_insertKey]
          have : ¬ w' = w := by rintro rfl; exact hwn _ h
          rw [if_neg this]
          exact hT w' t' (List.mem_cons_of_mem _ h))
      refine ⟨st', h1, h2, ?_, ?_, ?_, ?_⟩
      · intro k s
        rw [h3]
        simp
      · intro w' hw'
        rw [h4 w' (fun t' ht' => hw' t' (List.mem_cons_of_mem _ ht'))]
        simp only [getKey_insertKey]
        have : ¬ w' = w := by rintro rfl; exact hw' _ List.mem_cons_self
        rw [if_neg this]
      · intro w' s hm
        rw [List.mem_cons] at hm
        rcases hm with hm | hm
        · simp at hm
        · exact h5 w' s hm
      · intro w' m hm
        rw [List.mem_cons] at hm
        rcases hm with hm | hm
        · simp only [Prod.mk.injEq, Target.transitive.injEq] at hm
          obtain ⟨rfl, rfl⟩ := hm
          rw [h4 w' hwn]
          simp [getKey_insertKey]
        · rw [h6 w' m hm]
          congr 1
          unfold merged
          simp only [getKey_insertKey]
          have : ¬ m = w := by
            rintro rfl
            have := (hL w' _ (List.mem_cons_of_mem _ hm)).2.2 m rfl _ List.mem_cons_self
            exact this
          rw [if_neg this]

theorem applyTargets_spec (w : Src) : ∀ (ts : List Target) (st : St),
    (∀ t ∈ ts, ∀ s, t ≠ .insertedOutput s) →
    ∃ st', applyTargets w ts st = some st' ∧ st'.sources = st.sources ∧ st'.trans = st.trans ∧
      ∀ k d, (k, d) ∈ st'.targets ↔ (k, d) ∈ st.targets ∨ (k = w ∧ .insertedInput d ∈ ts) := by
  intro ts
  induction ts with
  | nil => intro st _; exact ⟨st, rfl, rfl, rfl, by simp⟩
  | cons t ts ih =>
    intro st h
    have h' : ∀ t ∈ ts, ∀ s, t ≠ .insertedOutput s := fun t ht => h t (List.mem_cons_of_mem _ ht)
    cases t with
    | insertedOutput s => exact absurd rfl (h _ List.mem_cons_self s)
    | transitive m =>
      obtain ⟨st', h1, h2, h3, h4⟩ := ih st h'
      refine ⟨st', h1, h2, h3, ?_⟩
      intro k d; rw [h4]; simp
    | insertedInput d0 =>
      obtain ⟨st', h1, h2, h3, h4⟩ := ih { st with targets := st.targets ++ [(w, d0)] } h'
      refine ⟨st', h1, h2, h3, ?_⟩
      intro k d
      rw [h4]
      simp only [List.mem_append, Prod.mk.injEq, List.mem_cons, List.not_mem_nil, or_false,
        Target.insertedInput.injEq]
      tauto

theorem applyInc_spec : ∀ (L : List (Src × List Target)) (st : St),
    (∀ e ∈ L, ∀ t ∈ e.2, ∀ s, t ≠ .insertedOutput s) →
    ∃ st', applyInc L st = some st' ∧ st'.sources = st.sources ∧ st'.trans = st.trans ∧
      ∀ k d, (k, d) ∈ st'.targets ↔ (k, d) ∈ st.targets ∨
        ∃ w ts, (w, ts) ∈ L ∧ k = merged st.trans w ∧ .insertedInput d ∈ ts := by
  intro L
  induction L with
  | nil => intro st _; exact ⟨st, rfl, rfl, rfl, by simp⟩
  | cons e L ih =>
    intro st h
    obtain ⟨w, ts⟩ := e
    obtain ⟨st1, h1, h2, h3, h4⟩ := applyTargets_spec (merged st.trans w) ts st
      (h (w, ts) List.mem_cons_self)
    obtain ⟨st2, g1, g2, g3, g4⟩ := ih st1 (fun e he => h e (List.mem_cons_of_mem _ he))
    refine ⟨st2, ?_, by rw [g2, h2], by rw [g3, h3], ?_⟩
    · simp only [applyInc, h1]; exact g1
    · intro k d
      rw [g4, h4, h3]
      constructor
      · rintro ((h | ⟨rfl, h⟩) | ⟨w', ts', hm, h⟩)
        · exact Or.inl h
        · exact Or.inr ⟨w, ts, List.mem_cons_self, rfl, h⟩
        · exact Or.inr ⟨w', ts', List.mem_cons_of_mem _ hm, h⟩
      · rintro (h | ⟨w', ts', hm, h1', h2'⟩)
        · exact Or.inl (Or.inl h)
        · rw [List.mem_cons] at hm
          rcases hm with hm | hm
          · simp only [Prod.mk.injEq] at hm
            obtain ⟨rfl, rfl⟩ := hm
            exact Or.inl (Or.inr ⟨h1', h2'⟩)
          · exact Or.inr ⟨w', ts', hm, h1', h2'⟩

/-! ## The invariant -/

/-- What the maps of `reassemble` mean after the chunks `pre` have been inserted. -/
structure Inv (ins : List Src) (pre : List Chunk) (st : St) : Prop where
  tot : ∀ w ∈ avail ins pre, ∃ s, (merged st.trans w, s) ∈ st.sources
  res : ∀ w ∈ avail ins pre, ∀ s, (merged st.trans w, s) ∈ st.sources ↔ Resolves ins pre w s
  keysS : ∀ k s, (k, s) ∈ st.sources → k ∈ avail ins pre ∧ getKey st.trans k = none
  keysT : ∀ k m, getKey st.trans k = some m → k ∈ avail ins pre
  tgt : ∀ k d, (k, d) ∈ st.targets ↔ ∃ w ∈ avail ins pre, k = merged st.trans w ∧ FeedsChunk pre w d

theorem avail_snoc (ins : List Src) (pre : List Chunk) (ch : Chunk) :
    avail ins (pre ++ [ch]) = avail ins pre ++ ch.outputs := by
  simp [avail, List.flatMap_append]

theorem resolves_mem {ins : List Src} {pre : List Chunk} {w : Src} {s : FSrc}
    (h : Resolves ins pre w s) : w ∈ avail ins pre := by
  cases h with
  | input h => exact List.mem_append_left _ (List.mem_of_getElem? h)
  | node h1 h2 _ =>
    exact List.mem_append_right _ (List.mem_flatMap.2 ⟨_, List.mem_of_getElem? h1, List.mem_of_getElem? h2⟩)
  | pass h1 h2 _ _ _ =>
    exact List.mem_append_right _ (List.mem_flatMap.2 ⟨_, List.mem_of_getElem? h1, List.mem_of_getElem? h2⟩)

theorem getElem?_snoc {A : Type} {l : List A} {a x : A} {c : Nat} :
    (l ++ [a])[c]? = some x ↔ l[c]? = some x ∨ (c = l.length ∧ x = a) := by
  by_cases h : c < l.length
  · rw [List.getElem?_append_left h]
    constructor
    · exact Or.inl
    · rintro (h' | ⟨h', _⟩)
      · exact h'
      · omega
  · rw [List.getElem?_append_right (by omega)]
    have hn : l[c]? = none := List.getElem?_eq_none (by omega)
    rw [hn]
    by_cases hc : c = l.length
    · subst hc; simp [eq_comm]
    · have : c - l.length ≠ 0 := by omega
      obtain ⟨k, hk⟩ := Nat.exists_eq_succ_of_ne_zero this
      rw [hk]; simp [hc]

theorem resolves_mono {ins : List Src} {pre : List Chunk} {ch : Chunk} {w : Src} {s : FSrc}
    (h : Resolves ins pre w s) : Resolves ins (pre ++ [ch]) w s := by
  induction h with
  | input h => exact .input h
  | node h1 h2 h3 => exact .node (getElem?_snoc.2 (Or.inl h1)) h2 h3
  | pass h1 h2 h3 h4 _ ih => exact .pass (getElem?_snoc.2 (Or.inl h1)) h2 h3 h4 ih

theorem avail_take_subset {ins : List Src} {pre : List Chunk} {c : Nat} {w : Src}
    (h : w ∈ avail ins (pre.take c)) : w ∈ avail ins pre := by
  unfold avail at *
  rw [List.mem_append] at *
  rcases h with h | h
  · exact Or.inl h
  · rw [List.mem_flatMap] at *
    obtain ⟨ch, h1, h2⟩ := h
    exact Or.inr ⟨ch, List.mem_of_mem_take h1, h2⟩

theorem chunksWF_prefix {ins : List Src} {pre : List Chunk} {ch : Chunk}
    (h : ChunksWF ins (pre ++ [ch])) : ChunksWF ins pre ∧ ChunkWF (avail ins pre) ch := by
  constructor
  · intro c x hx
    have := h c x (getElem?_snoc.2 (Or.inl hx))
    rwa [List.take_append_of_le_length (Nat.le_of_lt (List.getElem?_eq_some_iff.1 hx).1)] at this
  · have := h pre.length ch (getElem?_snoc.2 (Or.inr ⟨rfl, rfl⟩))
    rwa [List.take_left'] at this
    rfl

theorem resolves_old {ins : List Src} {pre : List Chunk} {ch : Chunk}
    (hwf : ChunksWF ins (pre ++ [ch])) {w : Src} {s : FSrc}
    (h : Resolves ins (pre ++ [ch]) w s) (hw : w ∈ avail ins pre) : Resolves ins pre w s := by
  obtain ⟨hpre, hch⟩ := chunksWF_prefix hwf
  induction h with
  | input h => exact .input h
  | node h1 h2 h3 =>
    rcases getElem?_snoc.1 h1 with h1 | ⟨rfl, rfl⟩
    · exact .node h1 h2 h3
    · exact absurd hw (hch.out_fresh _ (List.mem_of_getElem? h2))
  | pass h1 h2 h3 h4 _ ih =>
    rcases getElem?_snoc.1 h1 with h1 | ⟨rfl, rfl⟩
    · exact .pass h1 h2 h3 h4 (ih (avail_take_subset ((hpre _ _ h1).in_avail _ (List.mem_of_getElem? h4))))
    · exact absurd hw (hch.out_fresh _ (List.mem_of_getElem? h2))

theorem feedsChunk_snoc {pre : List Chunk} {ch : Chunk} {w : Src} {d : FDst} :
    FeedsChunk (pre ++ [ch]) w d ↔ FeedsChunk pre w d ∨
      ∃ i n p, ch.inputs[i]? = some w ∧ (.input i, .node n p) ∈ ch.circ ∧ d = .node pre.length n p := by
  constructor
  · rintro ⟨c, ch', i, n, p, h1, h2, h3, h4⟩
    rcases getElem?_snoc.1 h1 with h1 | ⟨rfl, rfl⟩
    · exact Or.inl ⟨c, ch', i, n, p, h1, h2, h3, h4⟩
    · exact Or.inr ⟨i, n, p, h2, h3, h4⟩
  · rintro (⟨c, ch', i, n, p, h1, h⟩ | ⟨i, n, p, h⟩)
    · exact ⟨c, ch', i, n, p, getElem?_snoc.2 (Or.inl h1), h⟩
    · exact ⟨pre.length, ch, i, n, p, getElem?_snoc.2 (Or.inr ⟨rfl, rfl⟩), h⟩

theorem feedsChunk_avail {ins : List Src} {pre : List Chunk} (hwf : ChunksWF ins pre) {w : Src}
    {d : FDst} (h : FeedsChunk pre w d) : w ∈ avail ins pre := by
  obtain ⟨c, ch, i, n, p, h1, h2, _⟩ := h
  exact avail_take_subset ((hwf c ch h1).in_avail w (List.mem_of_getElem? h2))

theorem stepChunk_inv (ord : Order) (ins : List Src) (pre : List Chunk) (ch : Chunk) (st : St)
    (hwf : ChunksWF ins (pre ++ [ch])) (hi : Inv ins pre st) :
    ∃ st', stepChunk ord pre.length ch st = some st' ∧ Inv ins (pre ++ [ch]) st' := by
  obtain ⟨hpre, hch⟩ := chunksWF_prefix hwf
  obtain ⟨o, ho, hon, hom⟩ := outgoing_spec pre.length ch _ hch ch.outputs 0 [] (by simp) (by simp)
    (by simp)
  obtain ⟨ic, hic, hicn, hicm⟩ := incoming_spec pre.length ch _ hch ch.inputs 0 [] (by simp) (by simp)
    (by simp)
  have hom' : ∀ w t, (w, t) ∈ ord.out pre.length o ↔ ∃ k s, ch.outputs[k]? = some w ∧
      (s, .output k) ∈ ch.circ ∧ targetOfSrc pre.length ch.inputs s = some t := by
    intro w t
    rw [(ord.out_perm pre.length o).mem_iff, hom]
    simp
  have houtmem : ∀ w t, (w, t) ∈ ord.out pre.length o → w ∈ ch.outputs := by
    intro w t h
    obtain ⟨k, s, hk, _⟩ := (hom' w t).1 h
    exact List.mem_of_getElem? hk
  have hfresh : ∀ w t, (w, t) ∈ ord.out pre.length o → w ∉ avail ins pre :=
    fun w t h => hch.out_fresh w (houtmem w t h)
  have htrans : ∀ w m, (w, .transitive m) ∈ ord.out pre.length o → m ∈ avail ins pre := by
    intro w m h
    obtain ⟨k, s, _, _, hs⟩ := (hom' w _).1 h
    cases s with
    | node n p => simp [targetOfSrc] at hs
    | input i =>
      simp only [targetOfSrc, Option.map_eq_some_iff, Target.transitive.injEq, exists_eq_right] at hs
      exact hch.in_avail m (List.mem_of_getElem? hs)
  obtain ⟨st1, h1, h2, h3, h4, h5, h6⟩ := applyOut_spec (avail ins pre) (ord.out pre.length o) st
    (by
      refine (List.Perm.nodup_iff ?_).2 hon
      exact (ord.out_perm pre.length o).map _)
    (by
      intro w t h
      refine ⟨hfresh w t h, ?_, ?_⟩
      · rintro d rfl
        obtain ⟨k, s, _, _, hs⟩ := (hom' w _).1 h
        cases s <;> simp [targetOfSrc] at hs
      · rintro m rfl t' ht'
        exact hfresh m t' ht' (htrans w m h))
    (fun w t s h hm => hfresh w t h (hi.keysS w s hm).1)
    (fun w t h => by
      cases hk : getKey st.trans w with
      | none => rfl
      | some m => exact absurd (hi.keysT w m hk) (hfresh w t h))
  obtain ⟨st2, g1, g2, g3, g4⟩ := applyInc_spec (ord.inc pre.length ic) st1 (by
    intro e he
    exact hicn e ((ord.inc_perm pre.length ic).mem_iff.1 he))
  -- facts about the merged connections
  have hold : ∀ w ∈ avail ins pre, getKey st1.trans w = getKey st.trans w := by
    intro w hw
    apply h4
    intro t ht
    exact hfresh w t ht hw
  have holdm : ∀ w ∈ avail ins pre, merged st1.trans w = merged st.trans w := by
    intro w hw; unfold merged; rw [hold w hw]
  have hroot : ∀ w ∈ avail ins pre, merged st.trans w ∈ avail ins pre := by
    intro w hw
    obtain ⟨s, hs⟩ := hi.tot w hw
    exact (hi.keysS _ _ hs).1
  have hsrcold : ∀ k ∈ avail ins pre, ∀ s, (k, s) ∈ st1.sources ↔ (k, s) ∈ st.sources := by
    intro k hk s
    rw [h3]
    constructor
    · rintro (h | h)
      · exact h
      · exact absurd hk (hfresh _ _ h)
    · exact Or.inl
  -- characterisation of the outputs of the chunk
  have hout : ∀ w ∈ ch.outputs, ∀ s, (merged st1.trans w, s) ∈ st1.sources ↔
      Resolves ins (pre ++ [ch]) w s := by
    intro w hw s
    obtain ⟨j, hj⟩ := List.getElem?_of_mem hw
    have hjlt := (List.getElem?_eq_some_iff.1 hj).1
    obtain ⟨s0, hs0⟩ := hch.out_one j hjlt
    have hs0m := (mem_circ_of_filter hs0 s0).2 rfl
    have hnotav := hch.out_fresh w hw
    -- any resolution of `w` uses output `j` of the new chunk
    have huse : ∀ c ch' j', (pre ++ [ch])[c]? = some ch' → ch'.outputs[j']? = some w →
        c = pre.length ∧ ch' = ch ∧ j' = j := by
      intro c ch' j' hc ho'
      rcases getElem?_snoc.1 hc with hc | ⟨rfl, rfl⟩
      · exfalso; apply hnotav
        exact List.mem_append_right _ (List.mem_flatMap.2 ⟨_, List.mem_of_getElem? hc, List.mem_of_getElem? ho'⟩)
      · refine ⟨rfl, rfl, ?_⟩
        have h1' := List.getElem?_eq_some_iff.1 ho'
        have h2' := List.getElem?_eq_some_iff.1 hj
        exact (List.Nodup.getElem_inj_iff hch.out_nodup).1 (h1'.2.trans h2'.2.symm)
    cases s0 with
    | node n p =>
      have hin : (w, .insertedOutput (.node pre.length n p)) ∈ ord.out pre.length o :=
        (hom' _ _).2 ⟨j, _, hj, hs0m, rfl⟩
      have hmw : merged st1.trans w = w := by unfold merged; rw [h5 w _ hin]; rfl
      rw [hmw, h3]
      constructor
      · rintro (h | h)
        · exact absurd (hi.keysS _ _ h).1 hnotav
        · obtain ⟨k, s', hk, hs', ht⟩ := (hom' _ _).1 h
          obtain ⟨_, _, rfl⟩ := huse _ _ k (getElem?_snoc.2 (Or.inr ⟨rfl, rfl⟩)) hk
          rw [(mem_circ_of_filter hs0 s').1 hs'] at ht
          simp only [targetOfSrc, Option.some.injEq, Target.insertedOutput.injEq] at ht
          subst ht
          exact .node (getElem?_snoc.2 (Or.inr ⟨rfl, rfl⟩)) hj hs0m
      · intro h
        cases h with
        | input h => exact absurd (List.mem_append_left _ (List.mem_of_getElem? h)) hnotav
        | node a1 a2 a3 =>
          obtain ⟨rfl, rfl, rfl⟩ := huse _ _ _ a1 a2
          have := (mem_circ_of_filter hs0 _).1 a3
          simp only [Src.node.injEq] at this
          obtain ⟨rfl, rfl⟩ := this
          exact Or.inr hin
        | pass a1 a2 a3 a4 a5 =>
          obtain ⟨rfl, rfl, rfl⟩ := huse _ _ _ a1 a2
          have := (mem_circ_of_filter hs0 _).1 a3
          simp at this
    | input i =>
      have hilt := hch.src_range i _ hs0m
      have hii : ch.inputs[i]? = some ch.inputs[i] := List.getElem?_eq_getElem hilt
      have hin : (w, .transitive ch.inputs[i]) ∈ ord.out pre.length o :=
        (hom' _ _).2 ⟨j, _, hj, hs0m, by simp [targetOfSrc, hii]⟩
      have hav := htrans _ _ hin
      have hmw : merged st1.trans w = merged st.trans ch.inputs[i] := by
        conv_lhs => unfold merged
        rw [h6 w _ hin]; rfl
      rw [hmw, hsrcold _ (hroot _ hav), hi.res _ hav]
      constructor
      · intro h
        exact .pass (getElem?_snoc.2 (Or.inr ⟨rfl, rfl⟩)) hj hs0m hii (resolves_mono h)
      · intro h
        cases h with
        | input h => exact absurd (List.mem_append_left _ (List.mem_of_getElem? h)) hnotav
        | node a1 a2 a3 =>
          obtain ⟨rfl, rfl, rfl⟩ := huse _ _ _ a1 a2
          have := (mem_circ_of_filter hs0 _).1 a3
          simp at this
        | pass a1 a2 a3 a4 a5 =>
          obtain ⟨rfl, rfl, rfl⟩ := huse _ _ _ a1 a2
          have := (mem_circ_of_filter hs0 _).1 a3
          simp only [Src.input.injEq] at this
          subst this
          rw [hii, Option.some.injEq] at a4
          subst a4
          exact resolves_old hwf a5 hav
  have houttot : ∀ w ∈ ch.outputs, ∃ s, (merged st1.trans w, s) ∈ st1.sources := by
    intro w hw
    obtain ⟨j, hj⟩ := List.getElem?_of_mem hw
    have hjlt := (List.getElem?_eq_some_iff.1 hj).1
    obtain ⟨s0, hs0⟩ := hch.out_one j hjlt
    have hs0m := (mem_circ_of_filter hs0 s0).2 rfl
    cases s0 with
    | node n p =>
      exact ⟨_, (hout w hw _).2 (.node (getElem?_snoc.2 (Or.inr ⟨rfl, rfl⟩)) hj hs0m)⟩
    | input i =>
      have hilt := hch.src_range i _ hs0m
      have hii : ch.inputs[i]? = some ch.inputs[i] := List.getElem?_eq_getElem hilt
      have hav : ch.inputs[i] ∈ avail ins pre := hch.in_avail _ (List.mem_of_getElem? hii)
      obtain ⟨s, hs⟩ := hi.tot _ hav
      exact ⟨s, (hout w hw s).2 (.pass (getElem?_snoc.2 (Or.inr ⟨rfl, rfl⟩)) hj hs0m hii
        (resolves_mono ((hi.res _ hav s).1 hs)))⟩
  refine ⟨st2, ?_, ?_⟩
  · simp only [stepChunk, ho, hic, h1]; exact g1
  constructor
  · intro w hw
    rw [avail_snoc, List.mem_append] at hw
    rw [g2, g3]
    rcases hw with hw | hw
    · obtain ⟨s, hs⟩ := hi.tot w hw
      refine ⟨s, ?_⟩
      rw [holdm w hw, hsrcold _ (hroot w hw)]
      exact hs
    · exact houttot w hw
  · intro w hw s
    rw [avail_snoc, List.mem_append] at hw
    rw [g2, g3]
    rcases hw with hw | hw
    · rw [holdm w hw, hsrcold _ (hroot w hw), hi.res w hw]
      exact ⟨resolves_mono, fun h => resolves_old hwf h hw⟩
    · exact hout w hw s
  · intro k s hk
    rw [g2, h3] at hk
    rw [g3, avail_snoc, List.mem_append]
    rcases hk with hk | hk
    · obtain ⟨a, b⟩ := hi.keysS k s hk
      exact ⟨Or.inl a, by rw [hold k a]; exact b⟩
    · exact ⟨Or.inr (houtmem _ _ hk), h5 k s hk⟩
  · intro k m hk
    rw [g3] at hk
    rw [avail_snoc, List.mem_append]
    by_cases hmem : ∃ t, (k, t) ∈ ord.out pre.length o
    · obtain ⟨t, ht⟩ := hmem
      exact Or.inr (houtmem _ _ ht)
    · rw [h4 k (by simpa using hmem)] at hk
      exact Or.inl (hi.keysT k m hk)
  · intro k d
    rw [g4, g3, h2, hi.tgt]
    have hinc : ∀ w, (∃ ts, (w, ts) ∈ ord.inc pre.length ic ∧ .insertedInput d ∈ ts) ↔
        ∃ i n p, ch.inputs[i]? = some w ∧ (.input i, .node n p) ∈ ch.circ ∧ d = .node pre.length n p := by
      intro w
      have : (∃ ts, (w, ts) ∈ ord.inc pre.length ic ∧ .insertedInput d ∈ ts) ↔
          (∃ ts, (w, ts) ∈ ic ∧ .insertedInput d ∈ ts) := by
        simp only [(ord.inc_perm pre.length ic).mem_iff]
      rw [this, hicm]
      simp
    constructor
    · rintro (⟨w, hw, rfl, hf⟩ | ⟨w, ts, hm, rfl, hd⟩)
      · refine ⟨w, ?_, (holdm w hw).symm, feedsChunk_snoc.2 (Or.inl hf)⟩
        rw [avail_snoc, List.mem_append]; exact Or.inl hw
      · obtain ⟨i, n, p, hx1, hx2, hx3⟩ := (hinc w).1 ⟨ts, hm, hd⟩
        have hav : w ∈ avail ins pre := hch.in_avail _ (List.mem_of_getElem? hx1)
        refine ⟨w, ?_, rfl, feedsChunk_snoc.2 (Or.inr ⟨i, n, p, hx1, hx2, hx3⟩)⟩
        rw [avail_snoc, List.mem_append]; exact Or.inl hav
    · rintro ⟨w, hw, rfl, hf⟩
      rcases feedsChunk_snoc.1 hf with hf | ⟨i, n, p, hx1, hx2, hx3⟩
      · have hav := feedsChunk_avail hpre hf
        exact Or.inl ⟨w, hav, holdm w hav, hf⟩
      · obtain ⟨ts, hm, hd⟩ := (hinc w).2 ⟨i, n, p, hx1, hx2, hx3⟩
        exact Or.inr ⟨w, ts, hm, rfl, hd⟩

theorem stepAll_inv (ord : Order) (ins : List Src) : ∀ (rest pre : List Chunk) (st : St),
    ChunksWF ins (pre ++ rest) → Inv ins pre st →
    ∃ st', stepAll ord pre.length rest st = some st' ∧ Inv ins (pre ++ rest) st' := by
  intro rest
  induction rest with
  | nil => intro pre st _ hi; exact ⟨st, rfl, by simpa using hi⟩
  | cons ch rest ih =>
    intro pre st hwf hi
    have e : pre ++ ch :: rest = (pre ++ [ch]) ++ rest := by simp
    have hwf1 : ChunksWF ins (pre ++ [ch]) := by
      intro c x hx
      rw [e] at hwf
      have hlt := (List.getElem?_eq_some_iff.1 hx).1
      have := hwf c x (by rw [List.getElem?_append_left hlt]; exact hx)
      rwa [List.take_append_of_le_length (Nat.le_of_lt hlt)] at this
    obtain ⟨st1, h1, h2⟩ := stepChunk_inv ord ins pre ch st hwf1 hi
    obtain ⟨st2, h3, h4⟩ := ih (pre ++ [ch]) st1 (by rw [← e]; exact hwf) h2
    refine ⟨st2, ?_, by rw [e]; exact h4⟩
    simp only [stepAll, h1]
    simpa using h3

theorem foldl_insert_input (ins : List Src) (hn : ins.Nodup) : ∀ (k : Nat) (m : List (Src × FSrc)),
    (∀ w s, (w, s) ∈ m → w ∉ ins) → ∀ w s,
    (w, s) ∈ (ins.zipIdx k).foldl (fun m e => insertKey e.1 (FSrc.input e.2) m) m ↔
      (w, s) ∈ m ∨ ∃ i, ins[i]? = some w ∧ s = .input (k + i) := by
  induction ins with
  | nil => intro k m _ w s; simp
  | cons a t ih =>
    intro k m hm w s
    rw [List.nodup_cons] at hn
    rw [List.zipIdx_cons, List.foldl_cons, ih hn.2 (k + 1) _ (by
      intro w' s' h
      rw [mem_insertKey] at h
      rcases h with ⟨rfl, _⟩ | ⟨_, h⟩
      · exact hn.1
      · intro h'; exact hm _ _ h (List.mem_cons_of_mem _ h'))]
    rw [mem_insertKey]
    constructor
    · rintro ((⟨rfl, rfl⟩ | ⟨_, h⟩) | ⟨i, hi, rfl⟩)
      · exact Or.inr ⟨0, rfl, rfl⟩
      · exact Or.inl h
      · exact Or.inr ⟨i + 1, by simpa using hi, by congr 1; omega⟩
    · rintro (h | ⟨i, hi, rfl⟩)
      · left; right
        refine ⟨?_, h⟩
        rintro rfl
        exact hm _ _ h List.mem_cons_self
      · cases i with
        | zero => left; left; simp at hi; exact ⟨hi.symm, rfl⟩
        | succ i => right; exact ⟨i, by simpa using hi, by congr 1; omega⟩

theorem mem_innerAll (chunks : List Chunk) : ∀ (c : Nat) (s : FSrc) (d : FDst),
    (s, d) ∈ innerAll c chunks ↔ ∃ k ch n p m q, chunks[k]? = some ch ∧
      (.node n p, .node m q) ∈ ch.circ ∧ s = .node (c + k) n p ∧ d = .node (c + k) m q := by
  induction chunks with
  | nil => intro c s d; simp [innerAll]
  | cons ch t ih =>
    intro c s d
    rw [innerAll, List.mem_append, ih]
    have hin : (s, d) ∈ innerLinks c ch.circ ↔ ∃ n p m q, (.node n p, .node m q) ∈ ch.circ ∧
        s = .node c n p ∧ d = .node c m q := by
      unfold innerLinks
      rw [List.mem_filterMap]
      constructor
      · rintro ⟨⟨a, b⟩, hm, h⟩
        cases a with
        | input i => cases b <;> simp at h
        | node n p =>
          cases b with
          | output j => simp at h
          | node m q =>
            simp only [Option.some.injEq, Prod.mk.injEq] at h
            exact ⟨n, p, m, q, hm, h.1.symm, h.2.symm⟩
      · rintro ⟨n, p, m, q, hm, rfl, rfl⟩
        exact ⟨_, hm, rfl⟩
    rw [hin]
    constructor
    · rintro (⟨n, p, m, q, hm, rfl, rfl⟩ | ⟨k, ch', n, p, m, q, hk, hm, rfl, rfl⟩)
      · exact ⟨0, ch, n, p, m, q, rfl, hm, rfl, rfl⟩
      · exact ⟨k + 1, ch', n, p, m, q, by simpa using hk, hm, by congr 1; omega, by congr 1; omega⟩
    · rintro ⟨k, ch', n, p, m, q, hk, hm, rfl, rfl⟩
      cases k with
      | zero =>
        simp at hk; subst hk
        exact Or.inl ⟨n, p, m, q, hm, rfl, rfl⟩
      | succ k =>
        exact Or.inr ⟨k, ch', n, p, m, q, by simpa using hk, hm, by congr 1; omega, by congr 1; omega⟩

theorem getKey_nil {A B : Type} [DecidableEq A] (k : A) : getKey ([] : List (A × B)) k = none := rfl

/-- The links of the reassembled circuit. -/
theorem reassemble_links (ord : Order) (ins outs : List Src) (chunks : List Chunk)
    (hn : ins.Nodup) (hwf : ChunksWF ins chunks) (hout : ∀ w ∈ outs, w ∈ avail ins chunks) :
    ∃ F, reassemble ord ins outs chunks = some F ∧
      ∀ s d, (s, d) ∈ F ↔ Inner chunks s d ∨ ∃ w, Resolves ins chunks w s ∧ Feeds outs chunks w d := by
  have hsrc := foldl_insert_input ins hn 0 [] (by simp)
  have hinit : Inv ins []
      ⟨ins.zipIdx.foldl (fun m e => insertKey e.1 (FSrc.input e.2) m) [], [], []⟩ := by
    constructor
    · intro w hw
      simp only [avail, List.flatMap_nil, List.append_nil] at hw
      obtain ⟨i, hi⟩ := List.getElem?_of_mem hw
      refine ⟨.input i, ?_⟩
      simp only [merged, getKey_nil, Option.getD_none]
      exact (hsrc w (.input i)).2 (Or.inr ⟨i, hi, by simp⟩)
    · intro w _ s
      simp only [merged, getKey_nil, Option.getD_none]
      rw [hsrc]
      constructor
      · rintro (h | ⟨i, hi, rfl⟩)
        · simp at h
        · rw [Nat.zero_add]; exact .input hi
      · intro h
        cases h with
        | input h => exact Or.inr ⟨_, h, by simp⟩
        | node h _ _ => simp at h
        | pass h _ _ _ _ => simp at h
    · intro k s hk
      rw [hsrc] at hk
      rcases hk with hk | ⟨i, hi, _⟩
      · simp at hk
      · exact ⟨List.mem_append_left _ (List.mem_of_getElem? hi), rfl⟩
    · intro k m hk; simp [getKey_nil] at hk
    · intro k d
      constructor
      · intro h; simp at h
      · rintro ⟨w, _, _, c, ch, i, n, p, h, _⟩; simp at h
  obtain ⟨st, hst, hi⟩ := stepAll_inv ord ins chunks [] _ (by simpa using hwf) hinit
  simp only [List.length_nil, List.nil_append] at hst hi
  refine ⟨innerAll 0 chunks ++ st.sources.flatMap (fun e =>
    ((st.targets ++ outs.zipIdx.map (fun e => (merged st.trans e.1, FDst.output e.2))).filter
      (fun t => t.1 = e.1)).map (fun t => (e.2, t.2))), ?_, ?_⟩
  · unfold reassemble; simp only [hst]
  · intro s d
    rw [List.mem_append, mem_innerAll]
    have hin : (∃ k ch n p m q, chunks[k]? = some ch ∧
        (.node n p, .node m q) ∈ ch.circ ∧ s = .node (0 + k) n p ∧ d = .node (0 + k) m q) ↔
        Inner chunks s d := by simp only [Nat.zero_add, Inner]
    rw [hin]
    refine or_congr_right ?_
    simp only [List.mem_flatMap, List.mem_map, List.mem_filter, decide_eq_true_eq, List.mem_append,
      Prod.exists, Prod.mk.injEq]
    constructor
    · rintro ⟨k, s', hk, k', d', ⟨hm, rfl⟩, rfl, rfl⟩
      rcases hm with hm | ⟨w, j, hm, rfl, rfl⟩
      · obtain ⟨w, hw, rfl, hf⟩ := (hi.tgt _ _).1 hm
        exact ⟨w, (hi.res w hw _).1 hk, Or.inl hf⟩
      · have hj : outs[j]? = some w := by
          have := List.mem_zipIdx_iff_getElem?.1 hm
          simpa using this
        have hw := hout w (List.mem_of_getElem? hj)
        exact ⟨w, (hi.res w hw _).1 hk, Or.inr ⟨j, hj, rfl⟩⟩
    · rintro ⟨w, hr, hf⟩
      have hw := resolves_mem hr
      refine ⟨merged st.trans w, s, (hi.res w hw s).2 hr, merged st.trans w, d, ⟨?_, rfl⟩, rfl, rfl⟩
      rcases hf with hf | ⟨j, hj, rfl⟩
      · exact Or.inl ((hi.tgt _ _).2 ⟨w, hw, rfl, hf⟩)
      · refine Or.inr ⟨w, j, ?_, rfl, rfl⟩
        rw [List.mem_zipIdx_iff_getElem?]
        simpa using hj

end Tket.Chunks
