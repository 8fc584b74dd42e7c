import Verif.Model.BadgerSplit
import Verif.Props.Chunks
import Verif.Props.Backtracking
import Mathlib.Algebra.Order.BigOperators.Group.List

/-! # Lemmas on the split search -/

namespace Tket.BadgerSplit

open Tket.Chunks Tket.Backtracking

set_option linter.unusedSectionVars false

variable {O P V : Type} [LinearOrder P] [AddCommMonoid P]

/-! ## Specification -/

/-- What the nodes of a circuit do, given what operations do. Nothing is said about other nodes. -/
def Circ.beh (sem : O → (Nat → V) → (Nat → V) → Prop) (c : Circ O) : Beh V :=
  fun n i o => n ∈ c.nodes → sem (c.op n) i o

/-- `c` can turn the inputs `xs` into the outputs `ys`. -/
def Circ.Runs (sem : O → (Nat → V) → (Nat → V) → Prop) (c : Circ O) (xs ys : List V) : Prop :=
  Run (c.beh sem) c.graph xs ys

/-- The returned circuit can turn the inputs `xs` into the outputs `ys`. -/
def Result.Runs (sem : O → (Nat → V) → (Nat → V) → Prop) (r : Result O) (xs ys : List V) : Prop :=
  ∃ vin vout : Nat → Nat → Nat → V,
    (∀ i c, r.chunks[i]? = some c → ∀ n ∈ c.nodes, sem (c.op n) (vin i n) (vout i n)) ∧
    ∀ l ∈ r.links,
      (match l.1 with | .input i => xs[i]? | .node c n p => some (vout c n p)) =
      (match l.2 with | .output j => ys[j]? | .node c n p => some (vin c n p))

/-- The links of a circuit fit `a` inputs and `b` outputs, each of which has one link. -/
structure Iface (a b : Nat) (g : Graph) : Prop where
  src : ∀ i d, (.input i, d) ∈ g → i < a
  dst : ∀ s j, (s, .output j) ∈ g → j < b
  one : ∀ j, j < b → ∃ s, (g.filter (fun l => l.2 = .output j)).map (·.1) = [s]

/-- The rewriter is sound: it keeps interface and meaning, and tracks the cost exactly. -/
structure Sound (R : Rewriting O P) (sem : O → (Nat → V) → (Nat → V) → Prop) : Prop where
  iface : ∀ s t a b, t ∈ R.next s → Iface a b s.circ.graph → Iface a b t.circ.graph
  meaning : ∀ s t a b xs ys, t ∈ R.next s → Iface a b s.circ.graph → xs.length = a →
    ys.length = b → (t.circ.Runs sem xs ys ↔ s.circ.Runs sem xs ys)
  cost : ∀ s t, t ∈ R.next s → s.cost = s.circ.cost R.opCost → t.cost = t.circ.cost R.opCost

/-! ## One thread -/

theorem reach_sound {R : Rewriting O P} {sem : O → (Nat → V) → (Nat → V) → Prop}
    (hs : Sound R sem) {c : Circ O} {t : BState O P} {a b : Nat} (hi : Iface a b c.graph)
    (h : Reachable (space R) ⟨c, c.cost R.opCost⟩ t) :
    Iface a b t.circ.graph ∧
      (∀ xs ys, xs.length = a → ys.length = b → (t.circ.Runs sem xs ys ↔ c.Runs sem xs ys)) ∧
      t.cost = t.circ.cost R.opCost := by
  induction h with
  | refl => exact ⟨hi, fun _ _ _ _ => Iff.rfl, rfl⟩
  | step _ hst ih =>
    obtain ⟨ctx, hm⟩ := hst
    obtain ⟨i1, i2, i3⟩ := ih
    exact ⟨hs.iface _ _ _ _ hm i1, fun xs ys hx hy =>
      (hs.meaning _ _ _ _ xs ys hm i1 hx hy).trans (i2 xs ys hx hy),
      hs.cost _ _ hm i3⟩

theorem optimiseChunk_done {R : Rewriting O P} {sem : O → (Nat → V) → (Nat → V) → Prop}
    (hs : Sound R sem) {o : Opts P} {fuel : Nat} {c c' : Circ O} {a b : Nat}
    (hi : Iface a b c.graph) (h : optimiseChunk R o fuel c = .done c') :
    Iface a b c'.graph ∧
      (∀ xs ys, xs.length = a → ys.length = b → (c'.Runs sem xs ys ↔ c.Runs sem xs ys)) ∧
      c'.cost R.opCost ≤ c.cost R.opCost := by
  unfold optimiseChunk at h
  cases hr : optimise (space R) o fuel ⟨c, c.cost R.opCost⟩ () with
  | outOfFuel => rw [hr] at h; simp at h
  | panic => rw [hr] at h; simp at h
  | failed => rw [hr] at h; simp at h
  | done r =>
    rw [hr] at h
    simp only [Outcome.done.injEq] at h
    subst h
    obtain ⟨c0, h1, h2, h3, ⟨ctx, h4⟩, _⟩ := C06_result_reachable_not_worse _ _ _ _ _ _ hr
    simp only [space, Option.some.injEq] at h1 h4
    obtain ⟨r1, r2, r3⟩ := reach_sound hs hi h2
    refine ⟨r1, r2, ?_⟩
    rw [← r3, h4, h1]
    exact h3

theorem optimiseChunk_panic {R : Rewriting O P} {o : Opts P} {fuel : Nat} {c : Circ O}
    (h : optimiseChunk R o fuel c = .panic) : o.queueSize = 0 ∨ R.hash c = none := by
  by_cases hq : o.queueSize = 0
  · exact Or.inl hq
  · right
    cases hh : R.hash c with
    | none => rfl
    | some k =>
      exfalso
      have := C08_badger_does_not_panic_partial (space R) o fuel ⟨c, c.cost R.opCost⟩ ()
        (by omega) (by simp [space, hh]) (by simp [space])
      unfold optimiseChunk at h
      unfold badger at this
      cases hr : optimise (space R) o fuel ⟨c, c.cost R.opCost⟩ () with
      | outOfFuel => rw [hr] at h; simp at h
      | panic => rw [hr] at this; simp at this
      | failed => rw [hr] at this; simp at this
      | done r => rw [hr] at h; simp at h

theorem optimiseChunk_zero {R : Rewriting O P} {o : Opts P} {fuel : Nat} {c : Circ O}
    (hq : o.queueSize = 0) : optimiseChunk R o fuel c = .panic := by
  have := C08_badger_panics_on_zero_queue (space R) o fuel ⟨c, c.cost R.opCost⟩ () hq
  unfold badger at this
  unfold optimiseChunk
  cases hr : optimise (space R) o fuel ⟨c, c.cost R.opCost⟩ () with
  | outOfFuel => rw [hr] at this; simp at this
  | panic => rfl
  | failed => rfl
  | done r => rw [hr] at this; simp at this

/-! ## All threads -/

theorem collect_done {R : Rewriting O P} {opts : Nat → Opts P} {fuel : Nat} :
    ∀ (l : List (Circ O)) (i : Nat) (cs : List (Circ O)), collect R opts fuel i l = .done cs →
      cs.length = l.length ∧ ∀ (j : Nat) c c', l[j]? = some c → cs[j]? = some c' →
        optimiseChunk R (opts (i + j)) fuel c = .done c' := by
  intro l
  induction l with
  | nil =>
    intro i cs h
    simp only [collect, Outcome.done.injEq] at h
    subst h
    exact ⟨rfl, by simp⟩
  | cons c rest ih =>
    intro i cs h
    simp only [collect] at h
    cases h1 : optimiseChunk R (opts i) fuel c with
    | running => rw [h1] at h; simp at h
    | panic => rw [h1] at h; simp at h
    | done c' =>
      rw [h1] at h
      simp only at h
      cases h2 : collect R opts fuel (i + 1) rest with
      | running => rw [h2] at h; simp at h
      | panic => rw [h2] at h; simp at h
      | done cs' =>
        rw [h2] at h
        simp only [Outcome.done.injEq] at h
        subst h
        obtain ⟨e1, e2⟩ := ih (i + 1) cs' h2
        refine ⟨by simp [e1], ?_⟩
        intro j x x' hx hx'
        cases j with
        | zero =>
          simp only [List.getElem?_cons_zero, Option.some.injEq] at hx hx'
          subst hx hx'
          exact h1
        | succ j =>
          simp only [List.getElem?_cons_succ] at hx hx'
          have := e2 j x x' hx hx'
          rwa [show i + 1 + j = i + (j + 1) by omega] at this

theorem collect_panic {R : Rewriting O P} {opts : Nat → Opts P} {fuel : Nat} :
    ∀ (l : List (Circ O)) (i : Nat), collect R opts fuel i l = .panic →
      ∃ (j : Nat) (c : Circ O), l[j]? = some c ∧ optimiseChunk R (opts (i + j)) fuel c = .panic := by
  intro l
  induction l with
  | nil => intro i h; simp [collect] at h
  | cons c rest ih =>
    intro i h
    simp only [collect] at h
    cases h1 : optimiseChunk R (opts i) fuel c with
    | running => rw [h1] at h; simp at h
    | panic => exact ⟨0, c, rfl, by simpa using h1⟩
    | done c' =>
      rw [h1] at h
      simp only at h
      cases h2 : collect R opts fuel (i + 1) rest with
      | running => rw [h2] at h; simp at h
      | panic =>
        obtain ⟨j, x, hx, hp⟩ := ih (i + 1) h2
        exact ⟨j + 1, x, by simpa using hx, by rwa [show i + (j + 1) = i + 1 + j by omega]⟩
      | done cs' => rw [h2] at h; simp at h

theorem collect_running {R : Rewriting O P} {opts : Nat → Opts P} {fuel : Nat} :
    ∀ (l : List (Circ O)) (i : Nat), collect R opts fuel i l = .running →
      ∃ (j : Nat) (c : Circ O), l[j]? = some c ∧
        optimiseChunk R (opts (i + j)) fuel c = .running := by
  intro l
  induction l with
  | nil => intro i h; simp [collect] at h
  | cons c rest ih =>
    intro i h
    simp only [collect] at h
    cases h1 : optimiseChunk R (opts i) fuel c with
    | running => exact ⟨0, c, rfl, by simpa using h1⟩
    | panic => rw [h1] at h; simp at h
    | done c' =>
      rw [h1] at h
      simp only at h
      cases h2 : collect R opts fuel (i + 1) rest with
      | running =>
        obtain ⟨j, x, hx, hp⟩ := ih (i + 1) h2
        exact ⟨j + 1, x, by simpa using hx, by rwa [show i + (j + 1) = i + 1 + j by omega]⟩
      | panic => rw [h2] at h; simp at h
      | done cs' => rw [h2] at h; simp at h

/-! ## Replaced chunks -/

theorem replaceCircs_getElem? : ∀ (chs : List Chunk) (cs : List (Circ O)) (i : Nat) (ch : Chunk),
    (replaceCircs chs cs)[i]? = some ch ↔
      ∃ ch0 c, chs[i]? = some ch0 ∧ cs[i]? = some c ∧ ch = { ch0 with circ := c.graph } := by
  intro chs
  induction chs with
  | nil => intro cs i ch; simp [replaceCircs]
  | cons x xs ih =>
    intro cs i ch
    cases cs with
    | nil => simp [replaceCircs]
    | cons y ys =>
      cases i with
      | zero => simp [replaceCircs, eq_comm]
      | succ i => simp only [replaceCircs, List.getElem?_cons_succ]; exact ih ys i ch

theorem replaceCircs_length : ∀ (chs : List Chunk) (cs : List (Circ O)),
    chs.length = cs.length → (replaceCircs chs cs).length = chs.length := by
  intro chs
  induction chs with
  | nil => intro cs h; simp [replaceCircs]
  | cons x xs ih =>
    intro cs h
    cases cs with
    | nil => simp at h
    | cons y ys => simp only [replaceCircs, List.length_cons] at h ⊢; rw [ih ys (by omega)]

theorem replaceCircs_outputs : ∀ (chs : List Chunk) (cs : List (Circ O)),
    chs.length = cs.length → (replaceCircs chs cs).map (·.outputs) = chs.map (·.outputs) := by
  intro chs
  induction chs with
  | nil => intro cs h; simp [replaceCircs]
  | cons x xs ih =>
    intro cs h
    cases cs with
    | nil => simp at h
    | cons y ys =>
      simp only [replaceCircs, List.length_cons, List.map_cons] at h ⊢
      rw [ih ys (by omega)]

theorem replaceCircs_take : ∀ (chs : List Chunk) (cs : List (Circ O)) (i : Nat),
    (replaceCircs chs cs).take i = replaceCircs (chs.take i) (cs.take i) := by
  intro chs
  induction chs with
  | nil => intro cs i; simp [replaceCircs]
  | cons x xs ih =>
    intro cs i
    cases cs with
    | nil => cases i <;> simp [replaceCircs]
    | cons y ys =>
      cases i with
      | zero => simp [replaceCircs]
      | succ i => simp [replaceCircs, ih]

theorem avail_eq {ins : List Src} {a b : List Chunk} (h : a.map (·.outputs) = b.map (·.outputs)) :
    avail ins a = avail ins b := by
  unfold avail
  rw [List.flatMap_def, List.flatMap_def, h]

theorem replace_wf {ins : List Src} {chs : List Chunk} {cs : List (Circ O)}
    (hl : chs.length = cs.length) (hwf : ChunksWF ins chs)
    (hi : ∀ (i : Nat) ch c, chs[i]? = some ch → cs[i]? = some c →
      Iface ch.inputs.length ch.outputs.length c.graph) :
    ChunksWF ins (replaceCircs chs cs) := by
  intro i ch hch
  obtain ⟨ch0, c, h1, h2, rfl⟩ := (replaceCircs_getElem? chs cs i ch).1 hch
  have hw := hwf i ch0 h1
  have hf := hi i ch0 c h1 h2
  have hav : avail ins ((replaceCircs chs cs).take i) = avail ins (chs.take i) := by
    rw [replaceCircs_take]
    exact avail_eq (replaceCircs_outputs _ _ (by simp [hl]))
  rw [hav]
  exact ⟨hw.in_avail, hw.in_nodup, hw.out_fresh, hw.out_nodup, hf.src, hf.dst, hf.one⟩

theorem iface_of_wf {av : List Src} {ch : Chunk} (h : ChunkWF av ch) :
    Iface ch.inputs.length ch.outputs.length ch.circ := ⟨h.src_range, h.dst_range, h.out_one⟩

end Tket.BadgerSplit
