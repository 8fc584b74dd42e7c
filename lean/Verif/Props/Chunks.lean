import Verif.Lemmas.Chunks
import Mathlib.Data.List.Induction
import Mathlib.Algebra.Order.BigOperators.Group.List
import Mathlib.Algebra.Order.Ring.Nat
import Mathlib.Data.List.Dedup

/-!
# Properties C19, C20, C21: splitting a circuit into chunks and reassembling it
-/

namespace Tket.Chunks

open Tket.Cost

/-! ## C19: an order-preserving partition with bounded chunks -/

/-- **C19 (partition).** The chunks, one after the other, are exactly the commands in order, and none is
empty; for every cost type and cost function. -/
theorem C19_split_is_partition {α K : Type} (o : CostOps K) (cost : α → K) (cmds : List α) :
    (splitWithCost o cost cmds).flatten = cmds ∧ ∀ c ∈ splitWithCost o cost cmds, c ≠ [] := by
  rw [split_eq_aux]
  constructor
  · have := aux_flatten o cost cmds o.zero
    unfold assemble
    split
    · rename_i h; rw [h] at this; simpa using this
    · simpa using this
  · intro c hc
    rcases mem_assemble hc with ⟨rfl, h⟩ | h
    · exact h
    · exact aux_ne_nil o cost cmds o.zero c h

theorem over_nat {max c : Nat} (hm : max < half) (hc : c < half) :
    (natOps max).over c = decide (max < c) := by
  simp only [natOps, asIsize, hm, hc, if_true]
  rw [decide_eq_decide]; omega

/-- **C19 (size).** `split(max_size)` never produces a chunk with more than `max(max_size, 1)`
commands. -/
theorem C19_split_size_bound {α : Type} (maxSize : Nat) (cmds : List α) (hlen : cmds.length < half) :
    ∀ c ∈ split maxSize cmds, c.length ≤ max maxSize 1 := by
  intro c hc
  have hsub : c.length ≤ cmds.length := by
    have h1 := (C19_split_is_partition (natOps (maxSize - 1)) (fun _ => 1) cmds).1
    have : c.length ≤ (split maxSize cmds).flatten.length := by
      rw [List.length_flatten]
      exact List.single_le_sum (fun _ _ => Nat.zero_le _) _ (List.mem_map_of_mem hc)
    unfold split at this
    rw [h1] at this
    exact this
  by_cases hbig : cmds.length ≤ maxSize
  · omega
  unfold split at hc
  rw [split_eq_aux] at hc
  obtain ⟨b1, b2⟩ := aux_bound (natOps (maxSize - 1)) (fun _ : α => 1) id (maxSize - 1)
    (fun r => r ≤ maxSize - 1) (Nat.zero_le _) (fun r h => h) cmds (fun r a _ _ => rfl)
    (by
      intro r a _ hr ho
      change r ≤ maxSize - 1 at hr
      change r + 1 ≤ maxSize - 1
      have : (natOps (maxSize - 1)).over (r + 1) = decide (maxSize - 1 < r + 1) :=
        over_nat (by omega) (by omega)
      change (natOps (maxSize - 1)).over (r + 1) = false at ho
      rw [this] at ho
      simpa using ho) 0 (Nat.zero_le _)
  have htot : ∀ l : List α, total (fun _ => id 1) l = l.length := by
    intro l; induction l with
    | nil => rfl
    | cons a t ih => simp [total]; omega
  rcases mem_assemble hc with ⟨rfl, _⟩ | h
  · have : (natOps (maxSize - 1)).zero = 0 := rfl
    rw [this]
    rw [htot] at b1
    simp only [id] at b1
    omega
  · obtain ⟨a, t, rfl, ht⟩ := b2 rfl c h
    rw [htot] at ht
    simp only [List.length_cons]
    omega

example : split 3 [10, 11, 12, 13, 14, 15, 16] = [[10, 11], [12, 13, 14], [15, 16]] := by decide

/-! ## C20: bounded cost -/

/-- **C20 is false.** Three commands of cost 3 and a maximum of 3: the second chunk has cost 6. (The
command that starts a new chunk is not counted.) -/
theorem C20_chunk_exceeds_cost : ∃ (max : Nat) (cmds : List Nat),
    ∃ c ∈ splitWithCost (natOps max) id cmds, 2 ≤ c.length ∧ max < c.sum :=
  ⟨3, [3, 3, 3], [3, 3], by decide, by decide, by decide⟩

/-- **C20 (partial).** For `usize` costs: not counting its first command, a chunk stays within the
maximum. What is missing: the first command is not counted by the code. -/
theorem C20_chunk_cost_partial {α : Type} (cost : α → Nat) (max : Nat) (cmds : List α)
    (hbig : ∀ a ∈ cmds, max + cost a < half) :
    ∀ c ∈ splitWithCost (natOps max) cost cmds, (c.tail.map cost).sum ≤ max := by
  intro c hc
  rw [split_eq_aux] at hc
  cases cmds with
  | nil => simp [aux, assemble] at hc
  | cons a0 cmds0 =>
  have hmax : max < half := by have := hbig a0 List.mem_cons_self; omega
  obtain ⟨b1, b2⟩ := aux_bound (natOps max) cost id max
    (fun r => r ≤ max) (Nat.zero_le _) (fun r h => h) (a0 :: cmds0) (fun r a _ _ => rfl)
    (by
      intro r a ha hr ho
      change r ≤ max at hr
      change r + cost a ≤ max
      have := hbig a ha
      have h' : (natOps max).over (r + cost a) = decide (max < r + cost a) :=
        over_nat hmax (by omega)
      change (natOps max).over (r + cost a) = false at ho
      rw [h'] at ho
      simpa using ho) 0 (Nat.zero_le _)
  rcases mem_assemble hc with ⟨rfl, _⟩ | h
  · have h0 : (natOps max).zero = 0 := rfl
    rw [h0]
    simp only [total, id] at b1
    change 0 + (((aux (natOps max) cost 0 (a0 :: cmds0)).1).map cost).sum ≤ max at b1
    have : ∀ l : List α, (l.tail.map cost).sum ≤ (l.map cost).sum := by
      intro l; cases l with
      | nil => simp
      | cons x y => simp
    have := this (aux (natOps max) cost 0 (a0 :: cmds0)).1
    omega
  · obtain ⟨a, t, rfl, ht⟩ := b2 rfl c h
    simpa [total] using ht

/-- **C20 (partial, lexicographic costs).** The same for the major component of a lexicographic cost with
`n + 1` components (only that component is compared). -/
theorem C20_chunk_cost_lex_partial {α : Type} (n : Nat) (cost : α → List Nat) (max : List Nat)
    (cmds : List α) (hmax : max.length = n + 1) (hcost : ∀ a ∈ cmds, (cost a).length = n + 1)
    (hbig : ∀ a ∈ cmds, major max + major (cost a) < half) :
    ∀ c ∈ splitWithCost (lexOps (n + 1) max) cost cmds,
      (c.tail.map (fun a => major (cost a))).sum ≤ major max := by
  intro c hc
  rw [split_eq_aux] at hc
  cases cmds with
  | nil => simp [aux, assemble] at hc
  | cons a0 cmds0 =>
  have hmaxlt : major max < half := by have := hbig a0 List.mem_cons_self; omega
  have hadd : ∀ r x : List Nat, r.length = n + 1 → x.length = n + 1 →
      major (Cost.add r x) = major r + major x ∧ (Cost.add r x).length = n + 1 := by
    intro r x hr hx
    cases r with
    | nil => simp at hr
    | cons r0 rs =>
      cases x with
      | nil => simp at hx
      | cons x0 xs =>
        refine ⟨rfl, ?_⟩
        simp only [Cost.add, List.length_zipWith]; omega
  have hover : ∀ r : List Nat, r.length = n + 1 → major r < half →
      (lexOps (n + 1) max).over r = decide (major max < major r) := by
    intro r hr hlt
    cases r with
    | nil => simp at hr
    | cons r0 rs =>
      cases max with
      | nil => simp at hmax
      | cons m0 ms =>
        simp only [major] at hlt hmaxlt
        have e : (lexOps (n + 1) (m0 :: ms)).over (r0 :: rs) =
            decide (asIsize r0 - asIsize m0 > 0) := rfl
        have e2 : major (m0 :: ms) < major (r0 :: rs) ↔ m0 < r0 := Iff.rfl
        rw [e, decide_eq_decide, e2]
        simp only [asIsize, hlt, hmaxlt, if_true]; omega
  obtain ⟨b1, b2⟩ := aux_bound (lexOps (n + 1) max) cost major (major max)
    (fun r => major r ≤ major max ∧ r.length = n + 1)
    ⟨by simp [lexOps, List.replicate_succ, major], by simp [lexOps]⟩ (fun r h => h.1) (a0 :: cmds0)
    (fun r a ha hr => (hadd r (cost a) hr.2 (hcost a ha)).1)
    (by
      intro r a ha hr ho
      obtain ⟨e1, e2⟩ := hadd r (cost a) hr.2 (hcost a ha)
      have hb := hbig a ha
      change (lexOps (n + 1) max).over (Cost.add r (cost a)) = false at ho
      rw [hover _ e2 (by rw [e1]; have := hr.1; omega)] at ho
      exact ⟨Nat.not_lt.1 (of_decide_eq_false ho), e2⟩)
    (lexOps (n + 1) max).zero ⟨by simp [lexOps, List.replicate_succ, major], by simp [lexOps]⟩
  have hz : major (lexOps (n + 1) max).zero = 0 := by simp [lexOps, List.replicate_succ, major]
  rcases mem_assemble hc with ⟨rfl, _⟩ | h
  · simp only [total] at b1
    have : ∀ l : List α, (l.tail.map (fun a => major (cost a))).sum ≤
        (l.map (fun a => major (cost a))).sum := by
      intro l; cases l with
      | nil => simp
      | cons x y => simp
    have := this (aux (lexOps (n + 1) max) cost (lexOps (n + 1) max).zero (a0 :: cmds0)).1
    omega
  · obtain ⟨a, t, rfl, ht⟩ := b2 hz c h
    simpa [total] using ht

example : splitWithCost (natOps 4) id [1, 2, 1, 3, 5] = [[1, 2, 1], [3], [5]] ∧
    splitWithCost (lexOps 2 [4, 0]) id [[1, 9], [2, 9], [1, 9], [3, 0]] = [[[1, 9], [2, 9], [1, 9]], [[3, 0]]] := by
  decide

/-! ## C21: meaning of the reassembled circuit

Relational semantics: nodes relate the values at their input ports to those at their output ports, links
copy values. -/

section Semantics

variable {V : Type}

abbrev Beh (V : Type) := Nat → (Nat → V) → (Nat → V) → Prop

/-- The circuit `g` can turn inputs `xs` into outputs `ys`. -/
def Run (beh : Beh V) (g : Graph) (xs ys : List V) : Prop :=
  ∃ vin vout : Nat → Nat → V, (∀ n, beh n (vin n) (vout n)) ∧ ∀ l ∈ g,
    (match l.1 with | .input i => xs[i]? | .node n p => some (vout n p)) =
    (match l.2 with | .output j => ys[j]? | .node n p => some (vin n p))

/-- The circuit reassembled from `k` chunks can turn `xs` into `ys`; `beh c` is the behaviour of the
nodes of chunk `c`. -/
def FRun (k : Nat) (beh : Nat → Beh V) (F : List (FSrc × FDst)) (xs ys : List V) : Prop :=
  ∃ vin vout : Nat → Nat → Nat → V, (∀ c, c < k → ∀ n, beh c n (vin c n) (vout c n)) ∧ ∀ l ∈ F,
    (match l.1 with | .input i => xs[i]? | .node c n p => some (vout c n p)) =
    (match l.2 with | .output j => ys[j]? | .node c n p => some (vin c n p))

/-- Running the chunks one after the other, passing values along the connections. -/
def Composed (beh : Nat → Beh V) (ins outs : List Src) (chunks : List Chunk) (xs ys : List V) : Prop :=
  ∃ val : Src → V, xs = ins.map val ∧ ys = outs.map val ∧
    ∀ c ch, chunks[c]? = some ch → Run (beh c) ch.circ (ch.inputs.map val) (ch.outputs.map val)

theorem resolves_total {ins : List Src} {chunks : List Chunk} (hwf : ChunksWF ins chunks) {w : Src}
    (hw : w ∈ avail ins chunks) : ∃ s, Resolves ins chunks w s := by
  induction chunks using List.reverseRecOn generalizing w with
  | nil =>
    simp only [avail, List.flatMap_nil, List.append_nil] at hw
    obtain ⟨i, hi⟩ := List.getElem?_of_mem hw
    exact ⟨_, .input hi⟩
  | append_singleton pre ch ih =>
    obtain ⟨hpre, hch⟩ := chunksWF_prefix hwf
    rw [avail_snoc, List.mem_append] at hw
    rcases hw with hw | hw
    · obtain ⟨s, hs⟩ := ih hpre hw
      exact ⟨s, resolves_mono hs⟩
    · obtain ⟨j, hj⟩ := List.getElem?_of_mem hw
      obtain ⟨s0, hs0⟩ := hch.out_one j (List.getElem?_eq_some_iff.1 hj).1
      have hm := (mem_circ_of_filter hs0 s0).2 rfl
      cases s0 with
      | node n p => exact ⟨_, .node (getElem?_snoc.2 (Or.inr ⟨rfl, rfl⟩)) hj hm⟩
      | input i =>
        have hilt := hch.src_range i _ hm
        have hii : ch.inputs[i]? = some ch.inputs[i] := List.getElem?_eq_getElem hilt
        obtain ⟨s, hs⟩ := ih hpre (hch.in_avail _ (List.mem_of_getElem? hii))
        exact ⟨s, .pass (getElem?_snoc.2 (Or.inr ⟨rfl, rfl⟩)) hj hm hii (resolves_mono hs)⟩

/-- A connection is produced at one place only. -/
theorem output_place {ins : List Src} {chunks : List Chunk} (hwf : ChunksWF ins chunks)
    {c c' j j' : Nat} {ch ch' : Chunk} {w : Src} (h1 : chunks[c]? = some ch)
    (h2 : ch.outputs[j]? = some w) (h1' : chunks[c']? = some ch') (h2' : ch'.outputs[j']? = some w) :
    c = c' ∧ ch = ch' ∧ j = j' := by
  have lem : ∀ {c c' j j' : Nat} {ch ch' : Chunk}, chunks[c]? = some ch → ch.outputs[j]? = some w →
      chunks[c']? = some ch' → ch'.outputs[j']? = some w → ¬ c < c' := by
    intro c c' j j' ch ch' h1 h2 h1' h2' hlt
    apply (hwf c' ch' h1').out_fresh w (List.mem_of_getElem? h2')
    apply List.mem_append_right
    rw [List.mem_flatMap]
    refine ⟨ch, ?_, List.mem_of_getElem? h2⟩
    apply List.mem_of_getElem? (i := c)
    rw [List.getElem?_take_of_lt hlt]; exact h1
  have hcc : c = c' := by
    have := lem h1 h2 h1' h2'
    have := lem h1' h2' h1 h2
    omega
  subst hcc
  rw [h1] at h1'
  have := Option.some.inj h1'
  subst this
  refine ⟨rfl, rfl, ?_⟩
  have a := List.getElem?_eq_some_iff.1 h2
  have b := List.getElem?_eq_some_iff.1 h2'
  exact (List.Nodup.getElem_inj_iff (hwf c ch h1).out_nodup).1 (a.2.trans b.2.symm)

theorem input_not_output {ins : List Src} {chunks : List Chunk} (hwf : ChunksWF ins chunks)
    {c i j : Nat} {ch : Chunk} {w : Src} (h : ins[i]? = some w) (h1 : chunks[c]? = some ch)
    (h2 : ch.outputs[j]? = some w) : False :=
  (hwf c ch h1).out_fresh w (List.mem_of_getElem? h2)
    (List.mem_append_left _ (List.mem_of_getElem? h))

theorem resolves_unique {ins : List Src} {chunks : List Chunk} (hn : ins.Nodup)
    (hwf : ChunksWF ins chunks) {w : Src} {s s' : FSrc} (h : Resolves ins chunks w s)
    (h' : Resolves ins chunks w s') : s = s' := by
  have one : ∀ {c j : Nat} {ch : Chunk} {a b : Src}, chunks[c]? = some ch → j < ch.outputs.length →
      (a, .output j) ∈ ch.circ → (b, .output j) ∈ ch.circ → a = b := by
    intro c j ch a b hc hj ha hb
    obtain ⟨s0, hs0⟩ := (hwf c ch hc).out_one j hj
    rw [(mem_circ_of_filter hs0 a).1 ha, (mem_circ_of_filter hs0 b).1 hb]
  induction h with
  | input h =>
    cases h' with
    | input h' =>
      have a := List.getElem?_eq_some_iff.1 h
      have b := List.getElem?_eq_some_iff.1 h'
      rw [(List.Nodup.getElem_inj_iff hn).1 (a.2.trans b.2.symm)]
    | node a1 a2 a3 => exact (input_not_output hwf h a1 a2).elim
    | pass a1 a2 a3 a4 a5 => exact (input_not_output hwf h a1 a2).elim
  | node h1 h2 h3 =>
    cases h' with
    | input h' => exact (input_not_output hwf h' h1 h2).elim
    | node a1 a2 a3 =>
      obtain ⟨rfl, rfl, rfl⟩ := output_place hwf h1 h2 a1 a2
      have := one h1 (List.getElem?_eq_some_iff.1 h2).1 h3 a3
      simp only [Src.node.injEq] at this
      rw [this.1, this.2]
    | pass a1 a2 a3 a4 a5 =>
      obtain ⟨rfl, rfl, rfl⟩ := output_place hwf h1 h2 a1 a2
      have := one h1 (List.getElem?_eq_some_iff.1 h2).1 h3 a3
      simp at this
  | pass h1 h2 h3 h4 _ ih =>
    cases h' with
    | input h' => exact (input_not_output hwf h' h1 h2).elim
    | node a1 a2 a3 =>
      obtain ⟨rfl, rfl, rfl⟩ := output_place hwf h1 h2 a1 a2
      have := one h1 (List.getElem?_eq_some_iff.1 h2).1 h3 a3
      simp at this
    | pass a1 a2 a3 a4 a5 =>
      obtain ⟨rfl, rfl, rfl⟩ := output_place hwf h1 h2 a1 a2
      have := one h1 (List.getElem?_eq_some_iff.1 h2).1 h3 a3
      simp only [Src.input.injEq] at this
      subst this
      rw [h4] at a4
      have := Option.some.inj a4
      subst this
      exact ih a5

/-- **C21 (meaning).** Reassembling never panics, whatever the chunk circuits have been replaced with (as
long as their interfaces are intact), and the result does exactly what running the chunks one after the
other along their connections does — also when chunks pass inputs straight through to outputs, and in
whatever order the hash maps are iterated. -/
theorem C21_reassemble_composes [Inhabited V] (ord : Order) (ins outs : List Src) (chunks : List Chunk)
    (hn : ins.Nodup) (hwf : ChunksWF ins chunks) (hout : ∀ w ∈ outs, w ∈ avail ins chunks) :
    ∃ F, reassemble ord ins outs chunks = some F ∧
      ∀ (beh : Nat → Beh V) (xs ys : List V), xs.length = ins.length → ys.length = outs.length →
        (FRun chunks.length beh F xs ys ↔ Composed beh ins outs chunks xs ys) := by
  obtain ⟨F, hF, hmem⟩ := reassemble_links ord ins outs chunks hn hwf hout
  refine ⟨F, hF, ?_⟩
  intro beh xs ys hx hy
  constructor
  · rintro ⟨vin, vout, hbeh, hlinks⟩
    classical
    let sv : FSrc → Option V := fun s => match s with
      | .input i => xs[i]?
      | .node c n p => some (vout c n p)
    let val : Src → V := fun w =>
      if h : ∃ s, Resolves ins chunks w s then (sv h.choose).getD default else default
    have hval : ∀ w s, Resolves ins chunks w s → sv s = some (val w) := by
      intro w s h
      have hex : ∃ s, Resolves ins chunks w s := ⟨s, h⟩
      have e : hex.choose = s := resolves_unique hn hwf hex.choose_spec h
      simp only [val, dif_pos hex, e]
      have : ∃ v, sv s = some v := by
        clear e hex
        induction h with
        | input h =>
          have := (List.getElem?_eq_some_iff.1 h).1
          exact ⟨_, List.getElem?_eq_getElem (by omega)⟩
        | node _ _ _ => exact ⟨_, rfl⟩
        | pass _ _ _ _ _ ih => exact ih
      obtain ⟨v, hv⟩ := this
      rw [hv]; rfl
    refine ⟨val, ?_, ?_, ?_⟩
    · apply List.ext_getElem? 
      intro i
      rw [List.getElem?_map]
      cases hi : ins[i]? with
      | none =>
        rw [List.getElem?_eq_none_iff] at hi
        simpa using (by omega : xs.length ≤ i)
      | some w => exact hval w _ (.input hi)
    · apply List.ext_getElem?
      intro j
      rw [List.getElem?_map]
      cases hj : outs[j]? with
      | none =>
        rw [List.getElem?_eq_none_iff] at hj
        simpa using (by omega : ys.length ≤ j)
      | some w =>
        obtain ⟨s, hs⟩ := resolves_total hwf (hout w (List.mem_of_getElem? hj))
        have hl := hlinks (s, .output j) ((hmem _ _).2 (Or.inr ⟨w, hs, Or.inr ⟨j, hj, rfl⟩⟩))
        have hv := hval w s hs
        have : sv s = ys[j]? := by
          cases s <;> exact hl
        rw [← this, hv]; rfl
    · intro c ch hc
      have hcw := hwf c ch hc
      refine ⟨vin c, vout c, hbeh c (List.getElem?_eq_some_iff.1 hc).1, ?_⟩
      rintro ⟨a, b⟩ hl
      cases a with
      | input i =>
        have hi := hcw.src_range i b hl
        have hii : ch.inputs[i]? = some ch.inputs[i] := List.getElem?_eq_getElem hi
        obtain ⟨s, hs⟩ := resolves_total hwf
          (avail_take_subset (hcw.in_avail _ (List.mem_of_getElem? hii)))
        have hv := hval _ s hs
        cases b with
        | node m q =>
          have hl' := hlinks (s, .node c m q)
            ((hmem _ _).2 (Or.inr ⟨_, hs, Or.inl ⟨c, ch, i, m, q, hc, hii, hl, rfl⟩⟩))
          have : sv s = some (vin c m q) := by cases s <;> exact hl'
          simp only [List.getElem?_map, hii, Option.map_some]
          rw [← this, hv]
        | output j =>
          have hj := hcw.dst_range _ j hl
          have hjj : ch.outputs[j]? = some ch.outputs[j] := List.getElem?_eq_getElem hj
          have hv' := hval _ s (.pass hc hjj hl hii hs)
          simp only [List.getElem?_map, hii, hjj, Option.map_some]
          rw [← hv, hv']
      | node n p =>
        cases b with
        | node m q =>
          exact hlinks (.node c n p, .node c m q)
            ((hmem _ _).2 (Or.inl ⟨c, ch, n, p, m, q, hc, hl, rfl, rfl⟩))
        | output j =>
          have hj := hcw.dst_range _ j hl
          have hjj : ch.outputs[j]? = some ch.outputs[j] := List.getElem?_eq_getElem hj
          have hv' := hval _ _ (.node hc hjj hl)
          simp only [List.getElem?_map, hjj, Option.map_some]
          exact hv'
  · rintro ⟨val, rfl, rfl, hchunks⟩
    classical
    have hex : ∀ c, ∃ vin vout : Nat → Nat → V, (c < chunks.length → ∀ n, beh c n (vin n) (vout n)) ∧
        ∀ ch, chunks[c]? = some ch → ∀ l ∈ ch.circ,
          (match l.1 with
            | .input i => (ch.inputs.map val)[i]? | .node n p => some (vout n p)) =
          (match l.2 with
            | .output j => (ch.outputs.map val)[j]? | .node n p => some (vin n p)) := by
      intro c
      cases hc : chunks[c]? with
      | none =>
        rw [List.getElem?_eq_none_iff] at hc
        exact ⟨default, default, fun h => by omega, by simp⟩
      | some ch =>
        obtain ⟨vin, vout, h1, h2⟩ := hchunks c ch hc
        refine ⟨vin, vout, fun _ => h1, ?_⟩
        intro ch' hch'
        have := Option.some.inj hch'
        subst this
        exact h2
    choose vin vout h1 h2 using hex
    have hsv : ∀ w s, Resolves ins chunks w s →
        (match s with | .input i => (ins.map val)[i]? | .node c n p => some (vout c n p)) =
        some (val w) := by
      intro w s h
      induction h with
      | input h => simp [h]
      | node a1 a2 a3 =>
        have := h2 _ _ a1 _ a3
        simp only [List.getElem?_map, a2, Option.map_some] at this
        exact this
      | pass a1 a2 a3 a4 _ ih =>
        rw [ih]
        have := h2 _ _ a1 _ a3
        simp only [List.getElem?_map, a2, a4, Option.map_some] at this
        exact this
    refine ⟨vin, vout, h1, ?_⟩
    rintro ⟨s, d⟩ hl
    rcases (hmem s d).1 hl with ⟨c, ch, n, p, m, q, hc, hm, rfl, rfl⟩ | ⟨w, hr, hf⟩
    · exact h2 c ch hc _ hm
    · have hs := hsv w s hr
      refine Eq.trans hs ?_
      rcases hf with ⟨c, ch, i, n, p, hc, hi, hm, rfl⟩ | ⟨j, hj, rfl⟩
      · have := h2 c ch hc _ hm
        simp only [List.getElem?_map, hi, Option.map_some] at this
        exact this
      · simp [hj]

/-- **C21 (optimising chunks).** If every chunk is replaced by one with the same interface and the same
meaning, the reassembled circuits have the same meaning. -/
theorem C21_replacing_equivalent_chunks [Inhabited V] (ord ord' : Order) (ins outs : List Src)
    (chunks chunks' : List Chunk) (beh beh' : Nat → Beh V) (hn : ins.Nodup)
    (hwf : ChunksWF ins chunks) (hwf' : ChunksWF ins chunks')
    (hout : ∀ w ∈ outs, w ∈ avail ins chunks)
    (hlen : chunks.length = chunks'.length)
    (heq : ∀ c ch ch', chunks[c]? = some ch → chunks'[c]? = some ch' →
      ch.inputs = ch'.inputs ∧ ch.outputs = ch'.outputs ∧
      ∀ xs ys, xs.length = ch.inputs.length → ys.length = ch.outputs.length →
        (Run (beh c) ch.circ xs ys ↔ Run (beh' c) ch'.circ xs ys)) :
    ∃ F F', reassemble ord ins outs chunks = some F ∧ reassemble ord' ins outs chunks' = some F' ∧
      ∀ xs ys : List V, xs.length = ins.length → ys.length = outs.length →
        (FRun chunks.length beh F xs ys ↔ FRun chunks'.length beh' F' xs ys) := by
  have hav : avail ins chunks = avail ins chunks' := by
    unfold avail
    congr 1
    have : chunks.map (·.outputs) = chunks'.map (·.outputs) := by
      apply List.ext_getElem (by simpa using hlen)
      intro i h1 h2
      simp only [List.length_map] at h1 h2
      simp only [List.getElem_map]
      exact (heq i _ _ (List.getElem?_eq_getElem h1) (List.getElem?_eq_getElem h2)).2.1
    rw [List.flatMap_def, List.flatMap_def, this]
  obtain ⟨F, hF, h⟩ := C21_reassemble_composes (V := V) ord ins outs chunks hn hwf hout
  obtain ⟨F', hF', h'⟩ := C21_reassemble_composes (V := V) ord' ins outs chunks' hn hwf'
    (by rw [← hav]; exact hout)
  refine ⟨F, F', hF, hF', ?_⟩
  intro xs ys hx hy
  rw [h beh xs ys hx hy, h' beh' xs ys hx hy]
  unfold Composed
  refine exists_congr (fun val => and_congr_right (fun _ => and_congr_right (fun _ => ?_)))
  constructor
  · intro hh c ch' hc'
    have hlt : c < chunks.length := by rw [hlen]; exact (List.getElem?_eq_some_iff.1 hc').1
    obtain ⟨e1, e2, e3⟩ := heq c _ ch' (List.getElem?_eq_getElem hlt) hc'
    rw [← e1, ← e2, ← e3 _ _ (by simp) (by simp)]
    exact hh c _ (List.getElem?_eq_getElem hlt)
  · intro hh c ch hc
    have hlt : c < chunks'.length := by rw [← hlen]; exact (List.getElem?_eq_some_iff.1 hc).1
    obtain ⟨e1, e2, e3⟩ := heq c ch _ hc (List.getElem?_eq_getElem hlt)
    have := hh c _ (List.getElem?_eq_getElem hlt)
    rw [← e1, ← e2, ← e3 _ _ (by simp) (by simp)] at this
    exact this

end Semantics

/-! ## C21: unmodified chunks -/

/-- A well-formed circuit with `nIn` inputs, output wires `outs` and commands `cmds`: the commands are
all nodes, in an order compatible with the links, and every output port has exactly one link. -/
structure CircWF (g : Graph) (nIn : Nat) (outs : List Src) (cmds : List Nat) : Prop where
  topo : cmds.Pairwise (fun a b => a ≠ b ∧ ∀ p q, (.node b p, .node a q) ∉ g)
  src_mem : ∀ n p d, (.node n p, d) ∈ g → n ∈ cmds
  dst_mem : ∀ s n p, (s, .node n p) ∈ g → n ∈ cmds
  input : ∀ i d, (.input i, d) ∈ g → i < nIn
  output : ∀ s j, (s, .output j) ∈ g ↔ outs[j]? = some s

/-- The chunk a node belongs to. -/
def chunkOf (parts : List (List Nat)) (n : Nat) : Nat := parts.findIdx (fun p => p.contains n)

/-- A port of the original circuit in the reassembled circuit. -/
def tagS (parts : List (List Nat)) : Src → FSrc
  | .input i => .input i
  | .node n p => .node (chunkOf parts n) n p

def tagD (parts : List (List Nat)) : Dst → FDst
  | .output j => .output j
  | .node n p => .node (chunkOf parts n) n p

theorem chunkOf_of_mem {parts : List (List Nat)} (hd : parts.flatten.Nodup) {c n : Nat}
    {p : List Nat} (hc : parts[c]? = some p) (hn : n ∈ p) : chunkOf parts n = c := by
  obtain ⟨hlt, hp⟩ := List.getElem?_eq_some_iff.1 hc
  unfold chunkOf
  rw [List.findIdx_eq hlt]
  refine ⟨by rw [hp]; simpa using hn, ?_⟩
  intro j hj
  have hpw := (List.nodup_flatten.1 hd).2
  have := (List.pairwise_iff_getElem.1 hpw) j c (by omega) hlt hj
  simp only [List.contains_eq_mem, decide_eq_false_iff_not]
  intro hm
  exact this hm (by rw [hp]; exact hn)

theorem mem_extract {g : Graph} {ns : List Nat} {s : Src} {d : Dst} :
    (s, d) ∈ (extract g ns).circ ↔
      ((s, d) ∈ g ∧ s.inside ns = true ∧ d.inside ns = true) ∨
      (∃ w, (w, d) ∈ g ∧ w.inside ns = false ∧ d.inside ns = true ∧
        s = .input ((incomingWires g ns).idxOf w)) ∨
      (∃ j, (outgoingWires g ns)[j]? = some s ∧ d = .output j) := by
  unfold extract
  simp only [List.mem_append, List.mem_filterMap, List.mem_map, Prod.mk.injEq, Prod.exists]
  rw [← or_assoc]
  refine or_congr ?_ ?_
  · constructor
    · rintro ⟨a, b, hm, h⟩
      unfold extractLink at h
      split at h
      · rename_i hb
        split at h
        · rename_i ha
          simp only [Option.some.injEq, Prod.mk.injEq] at h
          obtain ⟨rfl, rfl⟩ := h
          exact Or.inl ⟨hm, ha, hb⟩
        · rename_i ha
          simp only [Option.some.injEq, Prod.mk.injEq] at h
          obtain ⟨rfl, rfl⟩ := h
          exact Or.inr ⟨a, hm, by simpa using ha, hb, rfl⟩
      · simp at h
    · rintro (⟨hm, ha, hb⟩ | ⟨w, hm, hw, hb, rfl⟩)
      · exact ⟨s, d, hm, by simp [extractLink, ha, hb]⟩
      · exact ⟨w, d, hm, by simp [extractLink, hw, hb]⟩
  · constructor
    · rintro ⟨a, j, hm, rfl, rfl⟩
      rw [List.mem_zipIdx_iff_getElem?] at hm
      exact ⟨j, hm, rfl⟩
    · rintro ⟨j, hj, rfl⟩
      exact ⟨s, j, by rw [List.mem_zipIdx_iff_getElem?]; exact hj, rfl, rfl⟩

theorem mem_incoming {g : Graph} {ns : List Nat} {s : Src} :
    s ∈ incomingWires g ns ↔ s.inside ns = false ∧ ∃ d, (s, d) ∈ g ∧ d.inside ns = true := by
  unfold incomingWires
  simp only [List.mem_dedup, List.mem_map, List.mem_filter, Bool.and_eq_true, Bool.not_eq_true',
    Prod.exists, exists_and_right, exists_eq_right]
  constructor
  · rintro ⟨d, hm, hd, hs⟩; exact ⟨hs, d, hm, hd⟩
  · rintro ⟨hs, d, hm, hd⟩; exact ⟨d, hm, hd, hs⟩

theorem mem_outgoing {g : Graph} {ns : List Nat} {s : Src} :
    s ∈ outgoingWires g ns ↔ s.inside ns = true ∧ ∃ d, (s, d) ∈ g ∧ d.inside ns = false := by
  unfold outgoingWires
  simp only [List.mem_dedup, List.mem_map, List.mem_filter, Bool.and_eq_true, Bool.not_eq_true',
    Prod.exists, exists_and_right, exists_eq_right]
  constructor
  · rintro ⟨d, hm, hd, hs⟩; exact ⟨hd, d, hm, hs⟩
  · rintro ⟨hs, d, hm, hd⟩; exact ⟨d, hm, hs, hd⟩

theorem inside_node {ns : List Nat} {n p : Nat} : (Src.node n p).inside ns = true ↔ n ∈ ns := by
  simp [Src.inside]

theorem inside_node' {ns : List Nat} {n p : Nat} : (Dst.node n p).inside ns = true ↔ n ∈ ns := by
  simp [Dst.inside]

theorem getElem?_ins (nIn i : Nat) (w : Src) :
    ((List.range nIn).map Src.input)[i]? = some w ↔ i < nIn ∧ w = .input i := by
  rw [List.getElem?_map]
  by_cases h : i < nIn
  · simp [h, eq_comm]
  · simp [h]

/-- The chunks cut out of a circuit have intact interfaces. -/
theorem extract_wf {g : Graph} {nIn : Nat} {outs : List Src} {cmds : List Nat}
    (hg : CircWF g nIn outs cmds) (parts : List (List Nat)) (hp : parts.flatten = cmds) :
    ChunksWF ((List.range nIn).map .input) (parts.map (extract g)) := by
  have htopo := hg.topo
  rw [← hp] at htopo
  have hnd : parts.flatten.Nodup := htopo.imp (fun h => h.1)
  intro c ch hc
  rw [List.getElem?_map] at hc
  obtain ⟨ns, hns, rfl⟩ := Option.map_eq_some_iff.1 hc
  have hlt := (List.getElem?_eq_some_iff.1 hns).1
  constructor
  · intro w hw
    obtain ⟨hout, d, hm, hd⟩ := mem_incoming.1 hw
    cases w with
    | input i =>
      apply List.mem_append_left
      exact List.mem_map.2 ⟨i, List.mem_range.2 (hg.input i d hm), rfl⟩
    | node a p =>
      apply List.mem_append_right
      cases d with
      | output j => simp [Dst.inside] at hd
      | node b q =>
        have hb := inside_node'.1 hd
        have ha : a ∉ ns := fun h => by rw [inside_node.2 h] at hout; cases hout
        have hacmd := hg.src_mem a p _ hm
        rw [← hp, List.mem_flatten] at hacmd
        obtain ⟨ms, hms, hams⟩ := hacmd
        obtain ⟨c', hc'⟩ := List.getElem?_of_mem hms
        have hlt' := (List.getElem?_eq_some_iff.1 hc').1
        have hcc : c' < c := by
          rcases Nat.lt_trichotomy c' c with h | h | h
          · exact h
          · subst h; rw [hns] at hc'; exact absurd (by rw [Option.some.inj hc']; exact hams) ha
          · exfalso
            have hpw := (List.pairwise_flatten.1 htopo).2
            have := (List.pairwise_iff_getElem.1 hpw) c c' hlt hlt' h b
              (by rw [(List.getElem?_eq_some_iff.1 hns).2]; exact hb) a
              (by rw [(List.getElem?_eq_some_iff.1 hc').2]; exact hams)
            exact this.2 p q hm
        rw [List.mem_flatMap]
        refine ⟨extract g ms, ?_, ?_⟩
        · apply List.mem_of_getElem? (i := c')
          rw [List.getElem?_take_of_lt hcc, List.getElem?_map, hc']; rfl
        · apply mem_outgoing.2
          refine ⟨inside_node.2 hams, _, hm, ?_⟩
          have hbn : b ∉ ms := by
            intro hbm
            have e1 := chunkOf_of_mem hnd hc' hbm
            have e2 := chunkOf_of_mem hnd hns hb
            omega
          cases hx : (Dst.node b q).inside ms with
          | false => rfl
          | true => exact absurd (inside_node'.1 hx) hbn
  · exact List.nodup_dedup _
  · intro w hw hav
    obtain ⟨hin, d, hm, hd⟩ := mem_outgoing.1 hw
    cases w with
    | input i => simp [Src.inside] at hin
    | node n p =>
      have hn := inside_node.1 hin
      rw [avail, List.mem_append] at hav
      rcases hav with hav | hav
      · simp at hav
      · rw [List.mem_flatMap] at hav
        obtain ⟨ch', hch', ho⟩ := hav
        obtain ⟨c', hc'⟩ := List.getElem?_of_mem hch'
        rw [List.getElem?_take] at hc'
        split at hc'
        · rename_i hcc
          rw [List.getElem?_map] at hc'
          obtain ⟨ms, hms, rfl⟩ := Option.map_eq_some_iff.1 hc'
          have hn' := inside_node.1 (mem_outgoing.1 ho).1
          have e1 := chunkOf_of_mem hnd hms hn'
          have e2 := chunkOf_of_mem hnd hns hn
          omega
        · simp at hc'
  · exact List.nodup_dedup _
  · intro i d hm
    rcases mem_extract.1 hm with ⟨_, h, _⟩ | ⟨w, hm, hw, hd, h⟩ | ⟨j, hj, _⟩
    · simp [Src.inside] at h
    · simp only [Src.input.injEq] at h
      rw [h]
      exact List.idxOf_lt_length_of_mem (mem_incoming.2 ⟨hw, d, hm, hd⟩)
    · have := (mem_outgoing.1 (List.mem_of_getElem? hj)).1
      simp [Src.inside] at this
  · intro s j hm
    rcases mem_extract.1 hm with ⟨_, _, h⟩ | ⟨w, _, _, h, _⟩ | ⟨j', hj, h⟩
    · simp [Dst.inside] at h
    · simp [Dst.inside] at h
    · simp only [Dst.output.injEq] at h
      rw [h]
      exact (List.getElem?_eq_some_iff.1 hj).1
  · intro j hj
    have hj' : j < (outgoingWires g ns).length := hj
    refine ⟨(outgoingWires g ns)[j], ?_⟩
    change (List.filter (fun l => decide (l.2 = Dst.output j))
      (g.filterMap (extractLink ns (incomingWires g ns)) ++
        (outgoingWires g ns).zipIdx.map (fun e => (e.1, Dst.output e.2)))).map (·.1) = _
    rw [List.filter_append]
    have h1 : List.filter (fun l => decide (l.2 = Dst.output j))
        (g.filterMap (extractLink ns (incomingWires g ns))) = [] := by
      rw [List.filter_eq_nil_iff]
      rintro ⟨a, b⟩ hm
      rw [List.mem_filterMap] at hm
      obtain ⟨⟨x, y⟩, _, h⟩ := hm
      unfold extractLink at h
      split at h
      · rename_i hy
        have : b = y := by split at h <;> simp at h <;> exact h.2.symm
        subst this
        simp only [decide_eq_true_eq]
        rintro rfl
        simp [Dst.inside] at hy
      · simp at h
    rw [h1, List.nil_append]
    have h2 : ∀ (l : List Src) (k : Nat) (hk : k ≤ j) (hl : j - k < l.length),
        ((l.zipIdx k).map (fun e => (e.1, Dst.output e.2))).filter
          (fun l => decide (l.2 = Dst.output j)) = [(l[j - k], Dst.output j)] := by
      intro l
      induction l with
      | nil => intro k _ hl; simp at hl
      | cons a t ih =>
        intro k hk hl
        rw [List.zipIdx_cons, List.map_cons]
        by_cases hkj : k = j
        · subst hkj
          rw [List.filter_cons_of_pos (by simp)]
          have : ((t.zipIdx (k + 1)).map (fun e => (e.1, Dst.output e.2))).filter
              (fun l => decide (l.2 = Dst.output k)) = [] := by
            rw [List.filter_eq_nil_iff]
            rintro ⟨x, y⟩ hm
            rw [List.mem_map] at hm
            obtain ⟨⟨u, v⟩, hu, he⟩ := hm
            have := List.le_snd_of_mem_zipIdx hu
            simp only [Prod.mk.injEq] at he
            simp only [← he.2, Dst.output.injEq, decide_eq_true_eq]
            omega
          rw [this]; simp
        · rw [List.filter_cons_of_neg (by simpa using hkj)]
          have hlt : j - (k + 1) < t.length := by simp at hl; omega
          rw [ih (k + 1) (by omega) hlt]
          have e : j - k = (j - (k + 1)) + 1 := by omega
          simp [e]
    have := h2 (outgoingWires g ns) 0 (by omega) (by simpa using hj')
    simp only [Nat.sub_zero] at this
    rw [this]
    rfl

/-- **C21.** Splitting a circuit — at whatever places — and reassembling the unmodified chunks gives back
exactly the links of the circuit: every link, and no other. (`tagS`/`tagD` rename node `n` to the copy of
`n` made when inserting its chunk.) -/
theorem C21_round_trip (g : Graph) (nIn : Nat) (outs : List Src) (cmds : List Nat)
    (hg : CircWF g nIn outs cmds) (parts : List (List Nat)) (hp : parts.flatten = cmds) (ord : Order) :
    ∃ F, reassemble ord ((List.range nIn).map .input) outs (parts.map (extract g)) = some F ∧
      ∀ s d, (s, d) ∈ F ↔ ∃ a b, (a, b) ∈ g ∧ s = tagS parts a ∧ d = tagD parts b := by
  have hwf := extract_wf hg parts hp
  have htopo := hg.topo
  rw [← hp] at htopo
  have hnd : parts.flatten.Nodup := htopo.imp (fun h => h.1)
  have hpart : ∀ n ∈ cmds, ∃ c ns, parts[c]? = some ns ∧ n ∈ ns ∧ chunkOf parts n = c := by
    intro n hn
    rw [← hp, List.mem_flatten] at hn
    obtain ⟨ns, h1, h2⟩ := hn
    obtain ⟨c, hc⟩ := List.getElem?_of_mem h1
    exact ⟨c, ns, hc, h2, chunkOf_of_mem hnd hc h2⟩
  have hchunk : ∀ (c : Nat) (ch : Chunk), (parts.map (extract g))[c]? = some ch ↔
      ∃ ns, parts[c]? = some ns ∧ ch = extract g ns := by
    intro c ch
    rw [List.getElem?_map, Option.map_eq_some_iff]
    simp only [eq_comm]
  -- a wire that crosses a boundary is produced by the chunk of its node
  have hcross : ∀ n p d, (.node n p, d) ∈ g →
      (∀ (c : Nat) ns, parts[c]? = some ns → n ∈ ns → d.inside ns = false) →
      Resolves ((List.range nIn).map .input) (parts.map (extract g)) (.node n p)
        (tagS parts (.node n p)) := by
    intro n p d hm hd
    obtain ⟨c, ns, hc, hn, hcn⟩ := hpart n (hg.src_mem n p d hm)
    have hmo : (Src.node n p) ∈ outgoingWires g ns := mem_outgoing.2 ⟨inside_node.2 hn, d, hm, hd c ns hc hn⟩
    obtain ⟨j, hj⟩ := List.getElem?_of_mem hmo
    simp only [tagS, hcn]
    exact .node ((hchunk c _).2 ⟨ns, hc, rfl⟩) hj (mem_extract.2 (Or.inr (Or.inr ⟨j, hj, rfl⟩)))
  have hresIn : ∀ i d, (.input i, d) ∈ g →
      Resolves ((List.range nIn).map .input) (parts.map (extract g)) (.input i)
        (tagS parts (.input i)) := by
    intro i d hm
    exact .input ((getElem?_ins nIn i _).2 ⟨hg.input i d hm, rfl⟩)
  have hres : ∀ w s, Resolves ((List.range nIn).map .input) (parts.map (extract g)) w s →
      s = tagS parts w := by
    intro w s h
    cases h with
    | input h =>
      obtain ⟨_, rfl⟩ := (getElem?_ins nIn _ w).1 h
      rfl
    | @node c j n p ch _ h1 h2 h3 =>
      obtain ⟨ns, hc, rfl⟩ := (hchunk c ch).1 h1
      rcases mem_extract.1 h3 with ⟨_, _, h⟩ | ⟨_, _, _, h, _⟩ | ⟨j', hj', hjj⟩
      · simp [Dst.inside] at h
      · simp [Dst.inside] at h
      · simp only [Dst.output.injEq] at hjj
        subst hjj
        have hj2 : (outgoingWires g ns)[j]? = some w := h2
        rw [hj'] at hj2
        have hw := Option.some.inj hj2
        subst hw
        have := inside_node.1 (mem_outgoing.1 (List.mem_of_getElem? hj')).1
        simp only [tagS, chunkOf_of_mem hnd hc this]
    | @pass c i j ch _ w' _ h1 h2 h3 h4 h5 =>
      obtain ⟨ns, hc, rfl⟩ := (hchunk c ch).1 h1
      rcases mem_extract.1 h3 with ⟨_, _, h⟩ | ⟨_, _, _, h, _⟩ | ⟨j', hj', hjj⟩
      · simp [Dst.inside] at h
      · simp [Dst.inside] at h
      · have := (mem_outgoing.1 (List.mem_of_getElem? hj')).1
        simp [Src.inside] at this
  obtain ⟨F, hF, hmem⟩ := reassemble_links ord ((List.range nIn).map .input) outs
    (parts.map (extract g)) (List.nodup_range.map (fun a b h => by simpa using h)) hwf (by
      intro w hw
      obtain ⟨j, hj⟩ := List.getElem?_of_mem hw
      have hm := (hg.output w j).2 hj
      cases w with
      | input i => exact resolves_mem (hresIn i _ hm)
      | node n p => exact resolves_mem (hcross n p _ hm (fun _ _ _ _ => rfl)))
  refine ⟨F, hF, ?_⟩
  intro s d
  rw [hmem]
  constructor
  · rintro (⟨c, ch, n, p, m, q, hc, hm, rfl, rfl⟩ | ⟨w, hr, hf⟩)
    · obtain ⟨ns, hns, rfl⟩ := (hchunk c ch).1 hc
      rcases mem_extract.1 hm with ⟨h1, h2, h3⟩ | ⟨_, _, _, _, h⟩ | ⟨_, _, h⟩
      · refine ⟨_, _, h1, ?_, ?_⟩
        · simp only [tagS, chunkOf_of_mem hnd hns (inside_node.1 h2)]
        · simp only [tagD, chunkOf_of_mem hnd hns (inside_node'.1 h3)]
      · simp at h
      · simp at h
    · rw [hres w s hr]
      rcases hf with ⟨c, ch, i, n, p, hc, hi, hm, rfl⟩ | ⟨j, hj, rfl⟩
      · obtain ⟨ns, hns, rfl⟩ := (hchunk c ch).1 hc
        rcases mem_extract.1 hm with ⟨_, h, _⟩ | ⟨w', h1, h2, h3, h4⟩ | ⟨j, _, h⟩
        · simp [Src.inside] at h
        · simp only [Src.input.injEq] at h4
          have hw' : w' ∈ incomingWires g ns := mem_incoming.2 ⟨h2, _, h1, h3⟩
          have hi' : (incomingWires g ns)[i]? = some w := hi
          rw [h4, List.getElem?_eq_getElem (List.idxOf_lt_length_of_mem hw'), List.getElem_idxOf,
            Option.some.injEq] at hi'
          subst hi'
          refine ⟨w', _, h1, rfl, ?_⟩
          simp only [tagD, chunkOf_of_mem hnd hns (inside_node'.1 h3)]
        · simp at h
      · exact ⟨w, .output j, (hg.output w j).2 hj, rfl, rfl⟩
  · rintro ⟨a, b, hm, rfl, rfl⟩
    cases b with
    | output j =>
      right
      refine ⟨a, ?_, Or.inr ⟨j, (hg.output a j).1 hm, rfl⟩⟩
      cases a with
      | input i => exact hresIn i _ hm
      | node n p => exact hcross n p _ hm (fun _ _ _ _ => rfl)
    | node m q =>
      obtain ⟨c, ns, hc, hmn, hcm⟩ := hpart m (hg.dst_mem a m q hm)
      by_cases hin : a.inside ns = true
      · cases a with
        | input i => simp [Src.inside] at hin
        | node n p =>
          left
          refine ⟨c, extract g ns, n, p, m, q, (hchunk c _).2 ⟨ns, hc, rfl⟩,
            mem_extract.2 (Or.inl ⟨hm, hin, inside_node'.2 hmn⟩), ?_, ?_⟩
          · simp only [tagS, chunkOf_of_mem hnd hc (inside_node.1 hin)]
          · simp only [tagD, hcm]
      · right
        have hin' : a.inside ns = false := by simpa using hin
        have hai : a ∈ incomingWires g ns := mem_incoming.2 ⟨hin', _, hm, inside_node'.2 hmn⟩
        refine ⟨a, ?_, Or.inl ⟨c, extract g ns, (incomingWires g ns).idxOf a, m, q,
          (hchunk c _).2 ⟨ns, hc, rfl⟩, ?_, ?_, ?_⟩⟩
        · cases a with
          | input i => exact hresIn i _ hm
          | node n p =>
            refine hcross n p _ hm ?_
            intro c' ms hc' hnm
            cases hx : (Dst.node m q).inside ms with
            | false => rfl
            | true =>
              have e1 := chunkOf_of_mem hnd hc' (inside_node'.1 hx)
              have : c' = c := by omega
              subst this
              rw [hc] at hc'
              have := Option.some.inj hc'
              subst this
              exact absurd (inside_node.2 hnm) hin
        · change (incomingWires g ns)[(incomingWires g ns).idxOf a]? = some a
          rw [List.getElem?_eq_getElem (List.idxOf_lt_length_of_mem hai), List.getElem_idxOf]
        · exact mem_extract.2 (Or.inr (Or.inl ⟨a, hm, hin', inside_node'.2 hmn, rfl⟩))
        · simp only [tagD, hcm]

/-- **C21 (end to end).** `split_with_cost` followed by `reassemble`. -/
theorem C21_split_reassemble {K : Type} (o : CostOps K) (cost : Nat → K) (g : Graph) (nIn : Nat)
    (outs : List Src) (cmds : List Nat) (hg : CircWF g nIn outs cmds) (ord : Order) :
    ∃ F, reassemble ord ((List.range nIn).map .input) outs
        ((splitWithCost o cost cmds).map (extract g)) = some F ∧
      ∀ s d, (s, d) ∈ F ↔ ∃ a b, (a, b) ∈ g ∧ s = tagS (splitWithCost o cost cmds) a ∧
        d = tagD (splitWithCost o cost cmds) b :=
  C21_round_trip g nIn outs cmds hg _ (C19_split_is_partition o cost cmds).1 ord

/-- A circuit on three qubits: gates 5 (qubits 0, 1), 6 (qubits 1, 2), 7 (qubits 0, 1), outputs
permuted. -/
def exampleCirc : Graph :=
  [(.input 0, .node 5 0), (.input 1, .node 5 1), (.node 5 1, .node 6 0), (.input 2, .node 6 1),
   (.node 5 0, .node 7 0), (.node 6 0, .node 7 1), (.node 7 0, .output 1), (.node 7 1, .output 0),
   (.node 6 1, .output 2)]

example : CircWF exampleCirc 3 [.node 7 1, .node 7 0, .node 6 1] [5, 6, 7] := by
  constructor
  · simp [exampleCirc]
  · intro n p d h; simp [exampleCirc] at h; aesop
  · intro s n p h; simp [exampleCirc] at h; aesop
  · intro i d h; simp [exampleCirc] at h; aesop
  · intro s j
    simp only [exampleCirc]
    rcases j with _ | _ | _ | j <;> simp [eq_comm]

example : split 2 [5, 6, 7] = [[5], [6, 7]] := by decide

/-- Passing a connection through an emptied chunk: chunk 0 is a gate, chunk 1 has been optimised to the
identity. -/
def exampleOrder : Order := ⟨fun _ l => l, fun _ l => l, fun _ l => .refl l, fun _ l => .refl l⟩

example : reassemble exampleOrder [.input 0] [.node 6 0]
    [⟨[(.input 0, .node 5 0), (.node 5 0, .output 0)], [.input 0], [.node 5 0]⟩,
     ⟨[(.input 0, .output 0)], [.node 5 0], [.node 6 0]⟩] =
    some [(.node 0 5 0, .output 0), (.input 0, .node 0 5 0)] := by decide

end Tket.Chunks
