import Verif.Lemmas.BadgerSplit
import Mathlib.Algebra.Order.Monoid.Prod
import Mathlib.Data.Prod.Lex

/-!
# Property C75: splitting the circuit among threads
-/

namespace Tket.BadgerSplit

open Tket.Chunks Tket.Backtracking

set_option linter.unusedSectionVars false

variable {O P V : Type} [LinearOrder P] [AddCommMonoid P]

/-- Behaviour of the nodes of the chunks `cs`. -/
def behs (sem : O → (Nat → V) → (Nat → V) → Prop) (cs : List (Circ O)) (i : Nat) : Beh V :=
  match cs[i]? with
  | some c => c.beh sem
  | none => fun _ _ _ => True

omit [LinearOrder P] [AddCommMonoid P] in
theorem result_runs_iff (sem : O → (Nat → V) → (Nat → V) → Prop) (r : Result O) (xs ys : List V) :
    r.Runs sem xs ys ↔ FRun r.chunks.length (behs sem r.chunks) r.links xs ys := by
  unfold Result.Runs FRun
  refine exists_congr (fun vin => exists_congr (fun vout => and_congr_left (fun _ => ?_)))
  constructor
  · intro h i hi n
    have e : r.chunks[i]? = some r.chunks[i] := List.getElem?_eq_getElem hi
    unfold behs
    rw [e]
    exact fun hn => h i _ e n hn
  · intro h i c hc n hn
    have hi := (List.getElem?_eq_some_iff.1 hc).1
    have := h i hi n
    unfold behs at this
    rw [hc] at this
    exact this hn

/-- Cutting a circuit into pieces and putting these back does not change what it does. -/
theorem unmodified_runs {c : Circ O} {nIn : Nat} {outs : List Src}
    (hg : CircWF c.graph nIn outs c.nodes) (parts : List (List Nat))
    (hp : parts.flatten = c.nodes) (ord : Order)
    (sem : O → (Nat → V) → (Nat → V) → Prop) :
    ∃ F, reassemble ord ((List.range nIn).map .input) outs (parts.map (extract c.graph)) = some F ∧
      ∀ xs ys, FRun parts.length (behs sem (parts.map (chunkCirc c))) F xs ys ↔
        c.Runs sem xs ys := by
  obtain ⟨F, hF, hmem⟩ := C21_round_trip c.graph nIn outs c.nodes hg parts hp ord
  have hnd : parts.flatten.Nodup := by
    rw [hp]; exact hg.topo.imp (fun h => h.1)
  refine ⟨F, hF, fun xs ys => ?_⟩
  have hb : ∀ (i : Nat) ns, parts[i]? = some ns → ∀ n x y,
      (behs sem (parts.map (chunkCirc c)) i n x y ↔ (n ∈ ns → sem (c.op n) x y)) := by
    intro i ns hi n x y
    unfold behs
    rw [List.getElem?_map, hi]
    rfl
  constructor
  · rintro ⟨vin, vout, h1, h2⟩
    refine ⟨fun n => vin (chunkOf parts n) n, fun n => vout (chunkOf parts n) n, ?_, ?_⟩
    · intro n hn
      rw [← hp, List.mem_flatten] at hn
      obtain ⟨ns, hm, hns⟩ := hn
      obtain ⟨i, hi⟩ := List.getElem?_of_mem hm
      have e := chunkOf_of_mem hnd hi hns
      subst e
      exact (hb _ ns hi n _ _).1 (h1 _ (List.getElem?_eq_some_iff.1 hi).1 n) hns
    · rintro ⟨s, d⟩ hl
      have := h2 (tagS parts s, tagD parts d) ((hmem _ _).2 ⟨s, d, hl, rfl, rfl⟩)
      cases s <;> cases d <;> simpa [tagS, tagD] using this
  · rintro ⟨vin, vout, h1, h2⟩
    refine ⟨fun _ n => vin n, fun _ n => vout n, ?_, ?_⟩
    · intro i hi n
      rw [hb i _ (List.getElem?_eq_getElem hi)]
      intro hn
      refine h1 n ?_
      rw [← hp, List.mem_flatten]
      exact ⟨_, List.getElem_mem hi, hn⟩
    · rintro ⟨s, d⟩ hl
      obtain ⟨a, b, hm, rfl, rfl⟩ := (hmem _ _).1 hl
      have := h2 (a, b) hm
      cases a <;> cases b <;> simpa [tagS, tagD] using this

/-- What the threads return fits the places of the chunks. -/
theorem collected {R : Rewriting O P} {sem : O → (Nat → V) → (Nat → V) → Prop} (hs : Sound R sem)
    {opts : Nat → Opts P} {fuel : Nat} {c : Circ O} {nIn : Nat} {outs : List Src}
    (hg : CircWF c.graph nIn outs c.nodes) (parts : List (List Nat))
    (hp : parts.flatten = c.nodes) {cs : List (Circ O)}
    (h : collect R opts fuel 0 (parts.map (chunkCirc c)) = .done cs) :
    cs.length = parts.length ∧ ∀ (i : Nat) ns c', parts[i]? = some ns → cs[i]? = some c' →
      Iface (extract c.graph ns).inputs.length (extract c.graph ns).outputs.length c'.graph ∧
      (∀ xs ys, xs.length = (extract c.graph ns).inputs.length →
        ys.length = (extract c.graph ns).outputs.length →
        (c'.Runs sem xs ys ↔ (chunkCirc c ns).Runs sem xs ys)) ∧
      c'.cost R.opCost ≤ (chunkCirc c ns).cost R.opCost := by
  obtain ⟨hl, hd⟩ := collect_done _ _ _ h
  refine ⟨by simpa using hl, fun i ns c' hi hc => ?_⟩
  have hx : (parts.map (chunkCirc c))[i]? = some (chunkCirc c ns) := by
    rw [List.getElem?_map, hi]; rfl
  have hw := extract_wf hg parts hp i (extract c.graph ns) (by rw [List.getElem?_map, hi]; rfl)
  exact optimiseChunk_done hs (iface_of_wf hw) (hd i _ c' hx hc)

theorem outs_avail {c : Circ O} {nIn : Nat} {outs : List Src}
    (hg : CircWF c.graph nIn outs c.nodes) (parts : List (List Nat))
    (hp : parts.flatten = c.nodes) :
    ∀ w ∈ outs, w ∈ avail ((List.range nIn).map .input) (parts.map (extract c.graph)) := by
  intro w hw
  obtain ⟨j, hj⟩ := List.getElem?_of_mem hw
  have hm := (hg.output w j).2 hj
  unfold avail
  cases w with
  | input i =>
    exact List.mem_append_left _ (List.mem_map.2 ⟨i, List.mem_range.2 (hg.input i _ hm), rfl⟩)
  | node n p =>
    refine List.mem_append_right _ ?_
    have hn := hg.src_mem n p _ hm
    rw [← hp, List.mem_flatten] at hn
    obtain ⟨ns, h1, h2⟩ := hn
    rw [List.mem_flatMap]
    exact ⟨extract c.graph ns, List.mem_map.2 ⟨ns, h1, rfl⟩,
      mem_outgoing.2 ⟨inside_node.2 h2, _, hm, rfl⟩⟩

/-- The replaced chunks can be put together. -/
theorem replaced_reassembles [Inhabited V] {R : Rewriting O P}
    {sem : O → (Nat → V) → (Nat → V) → Prop} (hs : Sound R sem)
    {opts : Nat → Opts P} {fuel : Nat} {c : Circ O} {nIn : Nat} {outs : List Src}
    (hg : CircWF c.graph nIn outs c.nodes) (parts : List (List Nat))
    (hp : parts.flatten = c.nodes) {cs : List (Circ O)}
    (h : collect R opts fuel 0 (parts.map (chunkCirc c)) = .done cs) (ord : Order) :
    ∃ F, reassemble ord ((List.range nIn).map .input) outs
        (replaceCircs (parts.map (extract c.graph)) cs) = some F ∧
      ∀ xs ys : List V, xs.length = nIn → ys.length = outs.length →
        (FRun cs.length (behs sem cs) F xs ys ↔ c.Runs sem xs ys) := by
  obtain ⟨hl, hd⟩ := collected hs hg parts hp h
  have hl2 : (parts.map (extract c.graph)).length = cs.length := by simp [hl]
  have hwf := extract_wf hg parts hp
  have hwf' : ChunksWF ((List.range nIn).map .input)
      (replaceCircs (parts.map (extract c.graph)) cs) := by
    refine replace_wf hl2 hwf ?_
    intro i ch c' h1 h2
    rw [List.getElem?_map, Option.map_eq_some_iff] at h1
    obtain ⟨ns, h1, rfl⟩ := h1
    exact (hd i ns c' h1 h2).1
  obtain ⟨F, F', hF, hF', hiff⟩ := C21_replacing_equivalent_chunks ord ord
    ((List.range nIn).map .input) outs (parts.map (extract c.graph))
    (replaceCircs (parts.map (extract c.graph)) cs) (behs sem (parts.map (chunkCirc c)))
    (behs sem cs) (List.nodup_range.map (fun a b h => by simpa using h)) hwf hwf'
    (outs_avail hg parts hp) (replaceCircs_length _ _ hl2).symm (by
      intro i ch ch' h1 h2
      obtain ⟨ch0, c', e1, e2, rfl⟩ := (replaceCircs_getElem? _ _ _ _).1 h2
      rw [h1] at e1
      have := Option.some.inj e1
      subst this
      refine ⟨rfl, rfl, ?_⟩
      rw [List.getElem?_map, Option.map_eq_some_iff] at h1
      obtain ⟨ns, h1, rfl⟩ := h1
      intro xs ys hx hy
      have := (hd i ns c' h1 e2).2.1 xs ys hx hy
      have b1 : behs sem (parts.map (chunkCirc c)) i = (chunkCirc c ns).beh sem := by
        unfold behs; rw [List.getElem?_map, h1]; rfl
      have b2 : behs sem cs i = c'.beh sem := by
        unfold behs; rw [e2]
      rw [b1, b2]
      exact this.symm)
  obtain ⟨F0, hF0, hrun⟩ := unmodified_runs hg parts hp ord sem
  have : F0 = F := Option.some.inj (hF0.symm.trans hF)
  subst this
  refine ⟨F', hF', fun xs ys hx hy => ?_⟩
  have hi := hiff xs ys (by simpa using hx) hy
  rw [List.length_map] at hi
  rw [replaceCircs_length _ _ hl2, List.length_map] at hi
  rw [hl, ← hi, hrun]

/-- **C75 (meaning).** If the rewriter is sound, the circuit put together from the results of the
threads does exactly what the original circuit does: for every circuit, every cost function and
maximal chunk cost, every clock and tie-breaking of each thread, every order of the hash maps, and
also if a thread was stopped by its timeout. -/
theorem C75_meaning [Inhabited V] {R : Rewriting O P} {sem : O → (Nat → V) → (Nat → V) → Prop}
    (hs : Sound R sem) (opts : Nat → Opts P) (fuel : Nat) (ord : Order) (costOps : CostOps P)
    {c : Circ O} {nIn : Nat} {outs : List Src} (hg : CircWF c.graph nIn outs c.nodes)
    {r : Result O} (h : badgerSplit R opts fuel ord costOps c nIn outs = .done r)
    (xs ys : List V) (hx : xs.length = nIn) (hy : ys.length = outs.length) :
    r.Runs sem xs ys ↔ c.Runs sem xs ys := by
  unfold badgerSplit at h
  simp only at h
  have hp := (C19_split_is_partition costOps (fun n => R.opCost (c.op n)) c.nodes).1
  cases hc : collect R opts fuel 0
      ((splitWithCost costOps (fun n => R.opCost (c.op n)) c.nodes).map (chunkCirc c)) with
  | running => rw [hc] at h; simp at h
  | panic => rw [hc] at h; simp at h
  | done cs =>
    rw [hc] at h
    obtain ⟨F, hF, hrun⟩ := replaced_reassembles (V := V) hs hg _ hp hc ord
    simp only [hF, Outcome.done.injEq] at h
    subst h
    rw [result_runs_iff]
    exact hrun xs ys hx hy

theorem sum_le_of_pointwise [IsOrderedAddMonoid P] {A : Type} {f g : A → P} :
    ∀ (l l' : List A), l.length = l'.length →
      (∀ (i : Nat) a b, l[i]? = some a → l'[i]? = some b → f a ≤ g b) →
      (l.map f).sum ≤ (l'.map g).sum := by
  intro l
  induction l with
  | nil => intro l' h _; cases l' with
    | nil => exact le_refl _
    | cons _ _ => simp at h
  | cons a t ih =>
    intro l' h hp
    cases l' with
    | nil => simp at h
    | cons b t' =>
      simp only [List.map_cons, List.sum_cons]
      refine add_le_add (hp 0 a b rfl rfl) (ih t' (by simpa using h) ?_)
      intro i x y hx hy
      exact hp (i + 1) x y (by simpa using hx) (by simpa using hy)

theorem cost_flatten (f : Nat → P) (parts : List (List Nat)) :
    (parts.map (fun ns => (ns.map f).sum)).sum = (parts.flatten.map f).sum := by
  induction parts with
  | nil => rfl
  | cons x t ih => simp [ih]

/-- **C75 (cost).** The returned circuit never costs more than the original one. -/
theorem C75_cost [Inhabited V] [IsOrderedAddMonoid P] {R : Rewriting O P}
    {sem : O → (Nat → V) → (Nat → V) → Prop}
    (hs : Sound R sem) (opts : Nat → Opts P) (fuel : Nat) (ord : Order) (costOps : CostOps P)
    {c : Circ O} {nIn : Nat} {outs : List Src} (hg : CircWF c.graph nIn outs c.nodes)
    {r : Result O} (h : badgerSplit R opts fuel ord costOps c nIn outs = .done r) :
    r.cost R.opCost ≤ c.cost R.opCost := by
  unfold badgerSplit at h
  simp only at h
  have hp := (C19_split_is_partition costOps (fun n => R.opCost (c.op n)) c.nodes).1
  generalize hparts : splitWithCost costOps (fun n => R.opCost (c.op n)) c.nodes = parts at h hp
  cases hc : collect R opts fuel 0 (parts.map (chunkCirc c)) with
  | running => rw [hc] at h; simp at h
  | panic => rw [hc] at h; simp at h
  | done cs =>
    rw [hc] at h
    obtain ⟨F, hF, _⟩ := replaced_reassembles (V := V) hs hg _ hp hc ord
    simp only [hF, Outcome.done.injEq] at h
    subst h
    obtain ⟨hl, hd⟩ := collected hs hg parts hp hc
    have h1 : (cs.map (Circ.cost R.opCost)).sum ≤
        ((parts.map (chunkCirc c)).map (Circ.cost R.opCost)).sum := by
      refine sum_le_of_pointwise _ _ (by simp [hl]) ?_
      intro i a b ha hb
      rw [List.getElem?_map, Option.map_eq_some_iff] at hb
      obtain ⟨ns, hns, rfl⟩ := hb
      exact (hd i ns a hns ha).2.2
    refine le_trans h1 (le_of_eq ?_)
    rw [List.map_map]
    have := cost_flatten (fun n => R.opCost (c.op n)) parts
    rw [hp] at this
    exact this

/-- **C75 (failures).** The function panics only if the queue has no place or some chunk cannot be
hashed; putting the chunks together never fails. -/
theorem C75_panic [Inhabited V] {R : Rewriting O P} {sem : O → (Nat → V) → (Nat → V) → Prop}
    (hs : Sound R sem) (opts : Nat → Opts P) (fuel : Nat) (ord : Order) (costOps : CostOps P)
    {c : Circ O} {nIn : Nat} {outs : List Src} (hg : CircWF c.graph nIn outs c.nodes)
    (h : badgerSplit R opts fuel ord costOps c nIn outs = .panic) :
    (∃ i, (opts i).queueSize = 0) ∨
      ∃ ns ∈ splitWithCost costOps (fun n => R.opCost (c.op n)) c.nodes,
        R.hash (chunkCirc c ns) = none := by
  unfold badgerSplit at h
  simp only at h
  have hp := (C19_split_is_partition costOps (fun n => R.opCost (c.op n)) c.nodes).1
  cases hc : collect R opts fuel 0
      ((splitWithCost costOps (fun n => R.opCost (c.op n)) c.nodes).map (chunkCirc c)) with
  | running => rw [hc] at h; simp at h
  | panic =>
    obtain ⟨j, x, hx, hpan⟩ := collect_panic _ _ hc
    rw [List.getElem?_map, Option.map_eq_some_iff] at hx
    obtain ⟨ns, hns, rfl⟩ := hx
    rcases optimiseChunk_panic hpan with h0 | h0
    · exact Or.inl ⟨_, h0⟩
    · exact Or.inr ⟨ns, List.mem_of_getElem? hns, h0⟩
  | done cs =>
    rw [hc] at h
    obtain ⟨F, hF, _⟩ := replaced_reassembles (V := V) hs hg _ hp hc ord
    simp [hF] at h

/-- **C75 (finding).** With `queue_size = 0` the function panics on every circuit that has a
command. -/
theorem C75_zero_queue (R : Rewriting O P) (opts : Nat → Opts P) (fuel : Nat) (ord : Order)
    (costOps : CostOps P) (c : Circ O) (nIn : Nat) (outs : List Src) (hne : c.nodes ≠ [])
    (hq : ∀ i, (opts i).queueSize = 0) :
    badgerSplit R opts fuel ord costOps c nIn outs = .panic := by
  unfold badgerSplit
  simp only
  have hp := (C19_split_is_partition costOps (fun n => R.opCost (c.op n)) c.nodes).1
  generalize splitWithCost costOps (fun n => R.opCost (c.op n)) c.nodes = parts at hp
  cases parts with
  | nil => simp at hp; exact absurd hp.symm (by simpa using hne)
  | cons ns rest => simp [collect, optimiseChunk_zero (hq 0)]

/-- **C75 (termination).** If the circuits reachable from each chunk have finitely many hashes, the
function returns after boundedly many rounds of each thread. -/
theorem C75_terminates (R : Rewriting O P) (opts : Nat → Opts P) (fuel : Nat) (ord : Order)
    (costOps : CostOps P) (c : Circ O) (nIn : Nat) (outs : List Src) (F : Finset Nat)
    (hF : ∀ ns ∈ splitWithCost costOps (fun n => R.opCost (c.op n)) c.nodes, ∀ s h,
      Reachable (space R) ⟨chunkCirc c ns, (chunkCirc c ns).cost R.opCost⟩ s →
      R.hash s.circ = some h → h ∈ F) (hfuel : F.card < fuel) :
    badgerSplit R opts fuel ord costOps c nIn outs ≠ .running := by
  intro h
  unfold badgerSplit at h
  simp only at h
  cases hc : collect R opts fuel 0
      ((splitWithCost costOps (fun n => R.opCost (c.op n)) c.nodes).map (chunkCirc c)) with
  | running =>
    obtain ⟨j, x, hx, hr⟩ := collect_running _ _ hc
    rw [List.getElem?_map, Option.map_eq_some_iff] at hx
    obtain ⟨ns, hns, rfl⟩ := hx
    unfold optimiseChunk at hr
    have := C07_terminates (space R) (opts (0 + j))
      ⟨chunkCirc c ns, (chunkCirc c ns).cost R.opCost⟩ () F
      (fun s _ k hs hk => hF ns (List.mem_of_getElem? hns) s k hs hk) fuel hfuel
    cases ho : optimise (space R) (opts (0 + j)) fuel
        ⟨chunkCirc c ns, (chunkCirc c ns).cost R.opCost⟩ () with
    | outOfFuel => exact this ho
    | panic => rw [ho] at hr; simp at hr
    | failed => rw [ho] at hr; simp at hr
    | done r => rw [ho] at hr; simp at hr
  | panic => rw [hc] at h; simp at h
  | done cs =>
    rw [hc] at h
    simp only at h
    split at h <;> simp at h

/-! ## Number of threads -/

theorem aux_count {α K : Type} (o : CostOps K) (cost : α → K) (maj : K → Nat) (M : Nat)
    (I : K → Prop) (hzero : I o.zero) (hz : maj o.zero = 0) (l : List α)
    (hadd : ∀ r, ∀ a ∈ l, I r → maj (o.add r (cost a)) = maj r + maj (cost a))
    (hover : ∀ r, ∀ a ∈ l, I r → o.over (o.add r (cost a)) = true → M < maj r + maj (cost a))
    (hnot : ∀ r, ∀ a ∈ l, I r → o.over (o.add r (cost a)) = false → I (o.add r (cost a))) :
    ∀ r, I r → (aux o cost r l).2.length * (M + 1) ≤ maj r + total (fun a => maj (cost a)) l := by
  induction l with
  | nil => intro r _; simp [aux]
  | cons a t ih =>
    have ih' := ih (fun r x hx => hadd r x (List.mem_cons_of_mem _ hx))
      (fun r x hx => hover r x (List.mem_cons_of_mem _ hx))
      (fun r x hx => hnot r x (List.mem_cons_of_mem _ hx))
    intro r hr
    have ht : total (fun a => maj (cost a)) (a :: t) =
        maj (cost a) + total (fun a => maj (cost a)) t := by simp [total]
    rw [ht]
    by_cases h : o.over (o.add r (cost a))
    · simp only [aux, h, if_true, List.length_cons]
      have h1 := ih' o.zero hzero
      have h2 := hover r a List.mem_cons_self hr h
      rw [hz] at h1
      rw [Nat.add_mul]
      omega
    · have hI := hnot r a List.mem_cons_self hr (by simpa using h)
      have hA := hadd r a List.mem_cons_self hr
      simp only [aux, h, Bool.false_eq_true, if_false]
      have h1 := ih' _ hI
      rw [hA] at h1
      omega

theorem count_le {m n k total : Nat} (hn : 0 < n) (hm : total ≤ n * m)
    (h : k * (m + 1) ≤ total) : k + 1 ≤ n := by
  refine Classical.byContradiction (fun hc => ?_)
  have hk : n ≤ k := by omega
  have := Nat.mul_le_mul_right (m + 1) hk
  rw [Nat.mul_add] at this
  omega

theorem divComp_spec {n a : Nat} (hn : 0 < n) : a ≤ n * Cost.divComp n a := by
  unfold Cost.divComp
  rw [Nat.mul_add]
  have := Nat.div_add_mod (a - 1) n
  have := Nat.mod_lt (a - 1) hn
  omega

/-- **C75 (threads).** The circuit is split into at most `n_threads` chunks, so that no more threads
are started than requested (for `usize` costs).  This relies on the first command of a chunk not
being counted (`C20_chunk_exceeds_cost`). -/
theorem C75_threads {α : Type} (cost : α → Nat) (cmds : List α) (n : Nat) (hn : 0 < n)
    (hbig : ∀ a ∈ cmds, Cost.divComp n (cmds.map cost).sum + cost a < Cost.half) :
    (splitWithCost (natSplitOps (cmds.map cost).sum n) cost cmds).length ≤ n := by
  have hdiv : (cmds.map cost).sum ≤ n * Cost.divComp n (cmds.map cost).sum := divComp_spec hn
  unfold natSplitOps
  generalize Cost.divComp n (cmds.map cost).sum = m at hbig hdiv
  cases cmds with
  | nil => simp [splitWithCost, groups, runs]
  | cons a0 t0 =>
    have hm : m < Cost.half := by have := hbig a0 List.mem_cons_self; omega
    have hc := aux_count (natOps m) cost id m (fun r => r ≤ m) (Nat.zero_le _) rfl (a0 :: t0)
      (fun r a _ _ => rfl)
      (by
        intro r a ha hr ho
        have hov : (natOps m).over (r + cost a) = decide (m < r + cost a) :=
          over_nat hm (by have := hbig a ha; omega)
        change (natOps m).over (r + cost a) = true at ho
        rw [hov] at ho
        simpa using ho)
      (by
        intro r a ha hr ho
        have hov : (natOps m).over (r + cost a) = decide (m < r + cost a) :=
          over_nat hm (by have := hbig a ha; omega)
        change (natOps m).over (r + cost a) = false at ho
        rw [hov] at ho
        change r + cost a ≤ m
        simpa using ho) 0 (Nat.zero_le _)
    rw [split_eq_aux]
    have hz : (natOps m).zero = 0 := rfl
    rw [hz]
    have hk : (aux (natOps m) cost 0 (a0 :: t0)).2.length + 1 ≤ n := by
      refine count_le hn hdiv ?_
      simpa [total] using hc
    unfold assemble
    split
    · omega
    · simpa using hk

theorem lex_add {m : Nat} {r x : List Nat} (hr : r.length = m + 1) (hx : x.length = m + 1) :
    Cost.major (Cost.add r x) = Cost.major r + Cost.major x ∧ (Cost.add r x).length = m + 1 := by
  cases r with
  | nil => simp at hr
  | cons r0 rs =>
    cases x with
    | nil => simp at hx
    | cons x0 xs =>
      refine ⟨rfl, ?_⟩
      simp only [Cost.add, List.length_zipWith]; omega

theorem lex_foldl {m : Nat} : ∀ (l : List (List Nat)) (r : List Nat), r.length = m + 1 →
    (∀ x ∈ l, x.length = m + 1) →
    Cost.major (l.foldl Cost.add r) = Cost.major r + (l.map Cost.major).sum ∧
      (l.foldl Cost.add r).length = m + 1 := by
  intro l
  induction l with
  | nil => intro r hr _; exact ⟨by simp, hr⟩
  | cons x t ih =>
    intro r hr h
    obtain ⟨h1, h2⟩ := lex_add hr (h x List.mem_cons_self)
    obtain ⟨h3, h4⟩ := ih _ h2 (fun y hy => h y (List.mem_cons_of_mem _ hy))
    refine ⟨?_, h4⟩
    rw [List.foldl_cons, h3, h1]
    simp [Nat.add_assoc]

theorem lex_sum {m : Nat} (l : List (List Nat)) (h : ∀ x ∈ l, x.length = m + 1) :
    Cost.major (Cost.sum (m + 1) l) = (l.map Cost.major).sum ∧
      (Cost.sum (m + 1) l).length = m + 1 := by
  cases l with
  | nil => simp [Cost.sum, List.replicate_succ, Cost.major]
  | cons x t =>
    have := lex_foldl t x (h x List.mem_cons_self) (fun y hy => h y (List.mem_cons_of_mem _ hy))
    simpa [Cost.sum] using this

theorem major_div {m n : Nat} {a : List Nat} (ha : a.length = m + 1) :
    Cost.major (Cost.divCost n a) = Cost.divComp n (Cost.major a) := by
  cases a with
  | nil => simp at ha
  | cons _ _ => rfl

/-- **C75 (threads, lexicographic costs).** The same for the costs of the default strategy: only the
major component is compared, and the number of chunks is still at most `n_threads`. -/
theorem C75_threads_lex {α : Type} (m : Nat) (cost : α → List Nat) (cmds : List α) (n : Nat)
    (hn : 0 < n) (hcost : ∀ a ∈ cmds, (cost a).length = m + 1)
    (hbig : ∀ a ∈ cmds, Cost.major (Cost.divCost n (Cost.sum (m + 1) (cmds.map cost))) +
      Cost.major (cost a) < Cost.half) :
    (splitWithCost (lexOps (m + 1) (Cost.divCost n (Cost.sum (m + 1) (cmds.map cost)))) cost
      cmds).length ≤ n := by
  obtain ⟨hs1, hs2⟩ := lex_sum (m := m) (cmds.map cost) (by simpa using hcost)
  have hdiv : (cmds.map (fun a => Cost.major (cost a))).sum ≤
      n * Cost.major (Cost.divCost n (Cost.sum (m + 1) (cmds.map cost))) := by
    rw [major_div hs2, hs1, List.map_map]
    exact divComp_spec hn
  have hlen : (Cost.divCost n (Cost.sum (m + 1) (cmds.map cost))).length = m + 1 := by
    simpa [Cost.divCost] using hs2
  generalize Cost.divCost n (Cost.sum (m + 1) (cmds.map cost)) = max at hbig hdiv hlen
  cases cmds with
  | nil => simp [splitWithCost, groups, runs]
  | cons a0 t0 =>
    have hm : Cost.major max < Cost.half := by have := hbig a0 List.mem_cons_self; omega
    have hover : ∀ r : List Nat, r.length = m + 1 → Cost.major r < Cost.half →
        (lexOps (m + 1) max).over r = decide (Cost.major max < Cost.major r) := by
      intro r hr hlt
      cases r with
      | nil => simp at hr
      | cons r0 rs =>
        cases max with
        | nil => simp at hlen
        | cons m0 ms =>
          simp only [Cost.major] at hlt hm
          have e : (lexOps (m + 1) (m0 :: ms)).over (r0 :: rs) =
              decide (Cost.asIsize r0 - Cost.asIsize m0 > 0) := rfl
          have e2 : Cost.major (m0 :: ms) < Cost.major (r0 :: rs) ↔ m0 < r0 := Iff.rfl
          rw [e, decide_eq_decide, e2]
          simp only [Cost.asIsize, hlt, hm, if_true]; omega
    have hz : Cost.major (lexOps (m + 1) max).zero = 0 := by
      simp [lexOps, List.replicate_succ, Cost.major]
    have hzl : (lexOps (m + 1) max).zero.length = m + 1 := by simp [lexOps]
    have hc := aux_count (lexOps (m + 1) max) cost Cost.major (Cost.major max)
      (fun r => Cost.major r ≤ Cost.major max ∧ r.length = m + 1) ⟨by omega, hzl⟩ hz (a0 :: t0)
      (fun r a ha hr => (lex_add hr.2 (hcost a ha)).1)
      (by
        intro r a ha hr ho
        obtain ⟨e1, e2⟩ := lex_add hr.2 (hcost a ha)
        have hb := hbig a ha
        change (lexOps (m + 1) max).over (Cost.add r (cost a)) = true at ho
        rw [hover _ e2 (by rw [e1]; have := hr.1; omega), e1] at ho
        exact of_decide_eq_true ho)
      (by
        intro r a ha hr ho
        obtain ⟨e1, e2⟩ := lex_add hr.2 (hcost a ha)
        have hb := hbig a ha
        change (lexOps (m + 1) max).over (Cost.add r (cost a)) = false at ho
        rw [hover _ e2 (by rw [e1]; have := hr.1; omega)] at ho
        exact ⟨Nat.not_lt.1 (of_decide_eq_false ho), e2⟩)
      (lexOps (m + 1) max).zero ⟨by omega, hzl⟩
    rw [split_eq_aux]
    rw [hz, Nat.zero_add] at hc
    have hk := count_le hn hdiv hc
    unfold assemble
    split
    · omega
    · simpa using hk

/-! ## Examples -/

/-- Two kinds of operations: `true` negates its value, `false` does nothing. -/
def exSem (o : Bool) (i out : Nat → Bool) : Prop := out 0 = (if o then !(i 0) else i 0)

/-- Removes the operation from a circuit with one operation that does nothing. -/
def exRewriting : Rewriting Bool Nat where
  opCost _ := 1
  hash c := some c.nodes.length
  next s := if s.circ.graph = [(.input 0, .node 1 0), (.node 1 0, .output 0)] ∧
      s.circ.nodes = [1] ∧ s.circ.op 1 = false then
      [⟨⟨[(.input 0, .output 0)], [], s.circ.op⟩, 0⟩] else []

theorem exSound : Sound exRewriting exSem := by
  have hmem : ∀ {s t : BState Bool Nat}, t ∈ exRewriting.next s →
      (s.circ.graph = [(.input 0, .node 1 0), (.node 1 0, .output 0)] ∧
      s.circ.nodes = [1] ∧ s.circ.op 1 = false) ∧ t = ⟨⟨[(.input 0, .output 0)], [], s.circ.op⟩, 0⟩ := by
    intro s t ht
    simp only [exRewriting] at ht
    split at ht
    · rename_i hc
      exact ⟨hc, by simpa using ht⟩
    · simp at ht
  have hab : ∀ {a b : Nat}, Iface a b [(.input 0, .node 1 0), (.node 1 0, .output 0)] →
      0 < a ∧ b = 1 := by
    intro a b hi
    refine ⟨hi.src 0 (.node 1 0) (by decide), ?_⟩
    have hb := hi.dst (.node 1 0) 0 (by decide)
    rcases b with _ | _ | b
    · omega
    · rfl
    · obtain ⟨x, hx⟩ := hi.one 1 (by omega)
      simp at hx
  refine ⟨?_, ?_, ?_⟩
  · intro s t a b ht hi
    obtain ⟨hc, rfl⟩ := hmem ht
    rw [hc.1] at hi
    obtain ⟨ha, rfl⟩ := hab hi
    refine ⟨?_, ?_, ?_⟩
    · intro i d h
      simp at h
      omega
    · intro x j h
      simp at h
      omega
    · intro j hj
      have : j = 0 := by omega
      subst this
      exact ⟨.input 0, rfl⟩
  · intro s t a b xs ys ht hi hx hy
    obtain ⟨hc, rfl⟩ := hmem ht
    rw [hc.1] at hi
    obtain ⟨ha, rfl⟩ := hab hi
    obtain ⟨x, xs, rfl⟩ : ∃ x l, xs = x :: l := by
      cases xs with
      | nil => simp at hx; omega
      | cons x l => exact ⟨x, l, rfl⟩
    obtain ⟨y, rfl⟩ := List.length_eq_one_iff.1 hy
    have e1 : Circ.Runs exSem s.circ (x :: xs) [y] ↔ x = y := by
      unfold Circ.Runs Run Circ.beh exSem
      rw [hc.1, hc.2.1]
      constructor
      · rintro ⟨vin, vout, h1, h2⟩
        have a1 := h2 (.input 0, .node 1 0) (by simp)
        have a2 := h2 (.node 1 0, .output 0) (by simp)
        have a3 := h1 1 (by simp)
        simp [hc.2.2] at a1 a2 a3
        rw [a1, ← a2, a3]
      · rintro rfl
        refine ⟨fun _ _ => x, fun _ _ => x, ?_, ?_⟩
        · intro n hn
          have : n = 1 := by simpa using hn
          subst this
          simp [hc.2.2]
        · simp
    rw [e1]
    unfold Circ.Runs Run Circ.beh
    constructor
    · rintro ⟨_, _, _, h2⟩
      have := h2 (.input 0, .output 0) (by simp)
      simpa using this
    · rintro rfl
      exact ⟨fun _ _ => x, fun _ _ => x, by simp, by simp⟩
  · intro s t ht _
    obtain ⟨_, rfl⟩ := hmem ht
    rfl

/-- A negation followed by an operation that does nothing, split into two chunks. -/
def exCirc : Circ Bool where
  graph := [(.input 0, .node 0 0), (.node 0 0, .node 1 0), (.node 1 0, .output 0)]
  nodes := [0, 1]
  op n := n == 0

theorem exCirc_wf : CircWF exCirc.graph 1 [.node 1 0] exCirc.nodes := by
  refine ⟨?_, ?_, ?_, ?_, ?_⟩
  · simp [exCirc]
  · intro n p d h
    simp [exCirc] at h ⊢
    omega
  · intro x n p h
    simp [exCirc] at h ⊢
    omega
  · intro i d h
    simp [exCirc] at h
    omega
  · intro x j
    rcases j with _ | j <;> simp [exCirc, eq_comm]

/-- The threads get a queue of four places; the first chunk stays, the second becomes empty. -/
example : ∃ r, badgerSplit exRewriting (fun _ => plainOpts 4 none none) 10 exampleOrder
      (natSplitOps 2 2) exCirc 1 [.node 1 0] = .done r ∧
    r.chunks.map (·.nodes) = [[0], []] ∧ r.cost exRewriting.opCost = 1 ∧
    exCirc.cost exRewriting.opCost = 2 := by
  refine ⟨_, rfl, ?_, ?_, ?_⟩ <;> decide +kernel

/-- The hypothesis of `C75_terminates` for it: all circuits have one of two hashes. -/
example : ∀ ns ∈ splitWithCost (natSplitOps 2 2) (fun n => exRewriting.opCost (exCirc.op n))
      exCirc.nodes, ∀ s h,
    Reachable (space exRewriting) ⟨chunkCirc exCirc ns, (chunkCirc exCirc ns).cost
      exRewriting.opCost⟩ s → exRewriting.hash s.circ = some h → h ∈ Finset.range 2 := by
  intro ns hns s h hr hh
  have hl : ns.length ≤ 1 := by
    have e : splitWithCost (natSplitOps 2 2) (fun n => exRewriting.opCost (exCirc.op n))
      exCirc.nodes = [[0], [1]] := by decide +kernel
    rw [e] at hns
    simp at hns
    rcases hns with rfl | rfl <;> simp
  have : s.circ.nodes.length ≤ 1 := by
    clear hh
    induction hr with
    | refl => exact hl
    | step _ hst ih =>
      obtain ⟨_, hm⟩ := hst
      simp only [space, exRewriting] at hm
      split at hm
      · simp at hm; subst hm; simp
      · simp at hm
  simp only [exRewriting, Option.some.injEq] at hh
  rw [Finset.mem_range]
  omega

/-- Five commands for two threads, with both kinds of costs; without threads to spare. -/
example : splitWithCost (natSplitOps 10 2) id [3, 1, 2, 2, 2] = [[3, 1], [2, 2, 2]] ∧
    splitWithCost (natSplitOps 10 4) id [3, 1, 2, 2, 2] = [[3], [1, 2], [2, 2]] ∧
    splitWithCost (lexOps 2 (Cost.divCost 2 (Cost.sum 2 [[3, 1], [1, 9], [2, 0]]))) id
      [[3, 1], [1, 9], [2, 0]] = [[[3, 1]], [[1, 9], [2, 0]]] := by decide +kernel

end Tket.BadgerSplit
