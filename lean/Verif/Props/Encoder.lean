import Verif.Lemmas.EncoderBase
import Verif.Lemmas.EncoderDen

/-!
# Properties of the pytket encoder: C28, C29, C33, C58

The region, the meaning of its wires (`IsVal`) and the execution of pytket commands on registers
(`Runs`) are specified in `Model/EncoderSpec.lean`, without reference to the encoder.
-/

set_option linter.unusedSectionVars false

namespace Verif.Encoder

variable {W E : Type} [DecidableEq W]

/-- The operations behind a list of commands are determined by their names. -/
theorem its_unique {c : Circ W E} {D : W → Den E} (hids : (c.items.map (·.id)).Nodup) :
    ∀ {cmds : List (Cmd E)} {a b : List (Item W E)} {s : Srt} {strict : Prop}
      {f f' : Nat → Content}, List.Forall₂ (Belongs D) cmds a → Runs D s strict f cmds b f' →
      (∀ it ∈ a, it ∈ c.items) → (∀ it ∈ b, it ∈ c.items) → a = b
  | [], _, _, _, _, _, _, ha, hb, _, _ => by cases ha; cases hb; rfl
  | cmd :: cmds, _, _, s, strict, f, f', ha, hb, h1, h2 => by
    cases ha with
    | cons ha1 ha2 =>
      cases hb with
      | cons hb1 hb2 =>
        rename_i x xs y ys
        have hid : x.id = y.id := ha1.1.symm.trans hb1.node
        have hxy : x = y :=
          List.inj_on_of_nodup_map hids (h1 x (by simp)) (h2 y (by simp)) hid
        subst hxy
        rw [its_unique hids ha2 hb2 (fun i hi => h1 i (List.mem_cons_of_mem _ hi))
          fun i hi => h2 i (List.mem_cons_of_mem _ hi)]

/-- **C58.** Encoding a well-formed region never fails, emits exactly one command for every
operation and every unsupported component, and every command carries the parameter expressions
which flow into the operation — whatever the order in which the leftover components are visited.

Missing, hence partial: unsupported components without any qubit or bit, for which it is false
(`C58_component_without_registers`). -/
theorem C58_encode_total_partial {c : Circ W E} {D : W → Den E}
    {order : List (Item W E) → List (Item W E)} (hD : IsVal c D) (hO : Ordered c)
    (hg : ∀ g ∈ c.items, g.kind = .group → c.emits g = true) (hord : ∀ l, (order l).Perm l) :
    ∃ e its, encode c order = .ok e ∧ its.Perm (c.items.filter c.emits) ∧
      List.Forall₂ (fun cmd it => cmd.node = it.id ∧ cmd.params = it.inParams D) e.cmds its :=
  encode_base hD hO hg hord

/-- The encoding of a region executes it, as far as registers of the sort `s` are concerned. -/
def Correct (c : Circ W E) (D : W → Den E) (s : Srt) (strict : Prop) (e : Enc W E) : Prop :=
  ∃ its f, its.Perm (c.items.filter c.emits) ∧
    List.Forall₂ (fun cmd it => cmd.node = it.id ∧ cmd.params = it.inParams D) e.cmds its ∧
    Runs D s strict (initFile c s) e.cmds its f ∧
    (∀ w ∈ c.outputs, ∃ tr, e.tr.wires w = some tr ∧
      List.Forall₂ (fun r v => Matches strict (f r) v) (tr.vals.reg s) ((D w).reg s)) ∧
    (s = .qubit → (c.outputs.flatMap fun w =>
      ((e.tr.wires w).map fun tr => tr.vals.reg s).getD []).Nodup)

theorem correct_of_safe {c : Circ W E} {D : W → Den E} {s : Srt} {strict : Prop}
    {order : List (Item W E) → List (Item W E)} (hD : IsVal c D) (hO : Ordered c)
    (hS : Safe c s) (hg : ∀ g ∈ c.items, g.kind = .group → c.emits g = true)
    (hord : ∀ l, (order l).Perm l)
    (hA : strict → AllocFirst c s c.items ∧
      ((∃ it ∈ c.items, it.kind = .alloc s) → AllUsed c s c.inputs)) :
    ∃ e, encode c order = .ok e ∧ Correct c D s strict e := by
  obtain ⟨e, its, h1, h2, h3⟩ := encode_base hD hO hg hord
  obtain ⟨its', f, h4, h5, h6, h7⟩ := encode_sort hD hO hS hord hA h1
  have : its = its' := its_unique hO.ids h3 h4
    (fun it hit => List.mem_of_mem_filter (h2.mem_iff.1 hit)) h5
  subst this
  exact ⟨e, h1, its, f, h2, h3, h4, h6, h7⟩

/-- **C28.** In a region whose qubits are handled linearly, every command acts on pairwise distinct
qubits, which at that point hold exactly the qubits flowing into the operation, and the output
wires carry pairwise distinct registers holding the right qubits.

Partial: unsupported components must not create qubits, no output wire may mix reused and new
qubits, and no discarded wire may precede another one (`Safe`); without these conditions it is
false (`C28_lazy_component`, `C28_straddling_wire`). -/
theorem C28_qubits_partial {c : Circ W E} {D : W → Den E}
    {order : List (Item W E) → List (Item W E)} (hD : IsVal c D) (hO : Ordered c)
    (hS : Safe c .qubit) (hg : ∀ g ∈ c.items, g.kind = .group → c.emits g = true)
    (hord : ∀ l, (order l).Perm l) :
    ∃ e, encode c order = .ok e ∧ Correct c D .qubit False e :=
  correct_of_safe hD hO hS hg hord (fun h => h.elim)

/-- **C28**, the statement about the tracker: after any part of the region has been encoded, the
wires which are still needed have pairwise disjoint, repetition-free lists of registers, none of
which is among the registers that may be handed out. -/
theorem C28_live_wires_partial {c : Circ W E} {D : W → Den E} {pre post : List (Item W E)}
    {t : Tracker W E} {e : Enc W E} (hD : IsVal c D) (hO : Ordered c) (hS : Safe c .qubit)
    (hsplit : c.items = pre ++ post) (ht : initTracker c = .ok t)
    (he : encItems c pre ⟨t, [], []⟩ = .ok e) :
    ∀ w tr, e.tr.wires w = some tr →
      w ∈ e.pending.flatMap (·.ins) ++ post.flatMap (·.ins) ++ c.outputs →
      (tr.vals.reg .qubit).Nodup ∧
      (∀ r ∈ tr.vals.reg .qubit, r ∉ (e.tr.pool .qubit).unused ∧ r < (e.tr.pool .qubit).size) ∧
      ∀ w' tr', e.tr.wires w' = some tr' → w' ≠ w →
        w' ∈ e.pending.flatMap (·.ins) ++ post.flatMap (·.ins) ++ c.outputs →
        ∀ r ∈ tr.vals.reg .qubit, r ∉ tr'.vals.reg .qubit := by
  have hSet : Setup c D .qubit := ⟨hD, hO, hS⟩
  obtain ⟨ρ0, h0⟩ := EInv.init (strict := False) hSet (fun h => h.elim) ht
  obtain ⟨st, hst, _⟩ := hO.topo
  have hfront : ∃ st', Front.items pre ⟨c.inputs, []⟩ = some st' := by
    rw [hsplit] at hst
    clear hsplit he h0
    generalize (⟨c.inputs, []⟩ : Front W E) = st0 at hst
    induction pre generalizing st0 with
    | nil => exact ⟨st0, rfl⟩
    | cons i pre ih =>
      simp only [List.cons_append, Front.items] at hst ⊢
      split at hst
      · exact absurd hst (by simp)
      · rename_i st1 h1
        exact ih st1 hst
  obtain ⟨st', hst'⟩ := hfront
  have h0' : EInv c D .qubit False (False ∧ HasAlloc .qubit pre) ⟨t, [], []⟩ []
      (initFile c .qubit) c.inputs
      (↑(pre.flatMap (·.ins)) + ↑(post.flatMap (·.ins) ++ c.outputs)) [] ρ0
      (pre.flatMap (·.outs) ++ post.flatMap (·.outs)) := by
    have := h0.weaken (le_refl _) (C' := False ∧ HasAlloc .qubit pre) (fun h => h.1.elim)
    unfold Circ.useList at this
    rw [hsplit, List.flatMap_append, List.flatMap_append, List.append_assoc] at this
    rw [Multiset.coe_add]
    exact this
  obtain ⟨its1, f1, ρ1, h1, hpe⟩ := EInv.items hSet pre _ e [] _ _ ρ0 st'
    (fun i hi => by rw [hsplit]; exact List.mem_append_left _ hi) h0' (fun h => h.elim) hst' he
  have hR := h1.inv.r
  have hact : ∀ w tr, e.tr.wires w = some tr →
      w ∈ e.pending.flatMap (·.ins) ++ post.flatMap (·.ins) ++ c.outputs →
      (w ∈ st'.avail ∧
        w ∈ (↑(e.pending.flatMap (·.ins)) + ↑(post.flatMap (·.ins) ++ c.outputs) : Multiset W)) ∧
      tr.vals.reg .qubit = ρ1 w := by
    intro w tr hw hmem
    have hP := hR.reg w tr hw
    have hF : w ∈ (↑(e.pending.flatMap (·.ins)) + ↑(post.flatMap (·.ins) ++ c.outputs) :
        Multiset W) := by
      rw [Multiset.coe_add, Multiset.mem_coe, ← List.append_assoc]
      exact hmem
    obtain ⟨tr', h2, h3, _⟩ := hR.live w hP hF
    rw [hw] at h2
    obtain rfl := Option.some.inj h2
    exact ⟨⟨hP, hF⟩, h3⟩
  intro w tr hw hmem
  obtain ⟨a, ha⟩ := hact w tr hw hmem
  rw [ha]
  refine ⟨hR.nodup w (Or.inl a), fun r hr => ⟨hR.used w a.1 a.2 r hr, hR.bound w (Or.inl a) r hr⟩, ?_⟩
  intro w' tr' hw' hne hmem' r hr
  obtain ⟨b, hb⟩ := hact w' tr' hw' hmem'
  rw [hb]
  exact hR.disj w w' (Or.inl a) (Or.inl b) hne.symm r hr

/-- **C29.** If no allocation comes after an operation that gives up a qubit (and all inputs are
used), every allocated qubit is still clean when it is first read.

Partial: without this order it is false (`C29_dirty_allocation`). -/
theorem C29_clean_partial {c : Circ W E} {D : W → Den E}
    {order : List (Item W E) → List (Item W E)} (hD : IsVal c D) (hO : Ordered c)
    (hS : Safe c .qubit) (hg : ∀ g ∈ c.items, g.kind = .group → c.emits g = true)
    (hord : ∀ l, (order l).Perm l) (hA : AllocFirst c .qubit c.items)
    (hI : AllUsed c .qubit c.inputs) :
    ∃ e, encode c order = .ok e ∧ Correct c D .qubit True e :=
  correct_of_safe hD hO hS hg hord (fun _ => ⟨hA, fun _ => hI⟩)

/-- **C33.** If bits which are copied are only read by operations without bit results, every
command finds in its bit arguments the values flowing into the operation, and no bit that is still
needed is overwritten.

Partial: without this condition it is false (`C33_copied_bit_overwritten`,
`C33_unused_input_shares_bit`). -/
theorem C33_bits_partial {c : Circ W E} {D : W → Den E}
    {order : List (Item W E) → List (Item W E)} (hD : IsVal c D) (hO : Ordered c)
    (hS : Safe c .bit) (hg : ∀ g ∈ c.items, g.kind = .group → c.emits g = true)
    (hord : ∀ l, (order l).Perm l) :
    ∃ e, encode c order = .ok e ∧ Correct c D .bit False e :=
  correct_of_safe hD hO hS hg hord (fun h => h.elim)

/-- **C33** for constants: constant `false` bits are found cleared. -/
theorem C33_constants_partial {c : Circ W E} {D : W → Den E}
    {order : List (Item W E) → List (Item W E)} (hD : IsVal c D) (hO : Ordered c)
    (hS : Safe c .bit) (hg : ∀ g ∈ c.items, g.kind = .group → c.emits g = true)
    (hord : ∀ l, (order l).Perm l) (hA : AllocFirst c .bit c.items)
    (hI : AllUsed c .bit c.inputs) :
    ∃ e, encode c order = .ok e ∧ Correct c D .bit True e :=
  correct_of_safe hD hO hS hg hord (fun _ => ⟨hA, fun _ => hI⟩)

/-! ### Examples for the hypotheses -/

section Examples

def q1 : Count := ⟨fun s => if s = .qubit then 1 else 0, 0⟩
def b1 : Count := ⟨fun s => if s = .bit then 1 else 0, 0⟩
def p1 : Count := ⟨fun _ => 0, 1⟩

/-- Two qubits and an angle: allocate a third qubit (0), `Rx` (1) on the first one, an unsupported
operation (2) on the second one, `CX` (3) on the two, `Toffoli` (4) on all three, measure the third
and discard it (5), negate the result in place (6). -/
def exCirc : Circ (Fin 13) Nat :=
  { inputs := [0, 1, 2]
    items := [⟨0, .alloc .qubit, [], [3], id⟩, ⟨1, .gate, [0, 2], [4], fun _ => []⟩,
      ⟨2, .group, [1], [5], fun _ => []⟩, ⟨3, .gate, [4, 5], [6, 7], fun _ => []⟩,
      ⟨4, .gate, [6, 7, 3], [8, 9, 10], fun _ => []⟩, ⟨5, .gate, [10], [11], fun _ => []⟩,
      ⟨6, .gate, [11], [12], fun _ => []⟩]
    outputs := [9, 8, 12]
    cnt := fun w => if w = 2 then p1 else if w = 11 ∨ w = 12 then b1 else q1
    nbrs := fun _ => 1
    declared := fun _ => 0
    paramVar := id }

theorem exCirc_ordered : Ordered exCirc :=
  ⟨by decide, ⟨_, rfl, by decide⟩, by decide, by
    intro it hit s hk
    simp only [exCirc, List.mem_cons, List.not_mem_nil, or_false] at hit
    rcases hit with rfl | rfl | rfl | rfl | rfl | rfl | rfl
    · exact ⟨_, rfl⟩
    all_goals (exact absurd hk (by simp)), by decide⟩

theorem exCirc_typed : ∀ it ∈ exCirc.items, it.Typed exCirc := by
  intro it hit
  simp only [exCirc, List.mem_cons, List.not_mem_nil, or_false] at hit
  rcases hit with rfl | rfl | rfl | rfl | rfl | rfl | rfl
  · exact ⟨3, rfl, by decide, by intro s; cases s <;> decide⟩
  all_goals exact fun ps => rfl

theorem exCirc_val : ∃ D, IsVal exCirc D :=
  exists_isVal exCirc_ordered exCirc_typed (by
    intro it hit s hk
    simp only [exCirc, List.mem_cons, List.not_mem_nil, or_false] at hit
    rcases hit with rfl | rfl | rfl | rfl | rfl | rfl | rfl
    · rfl
    all_goals (exact absurd hk (by simp)))

instance decNoStraddle : ∀ (k : Nat) (l : List Nat), Decidable (NoStraddle k l)
  | _, [] => .isTrue trivial
  | k, n :: l =>
    have := decNoStraddle (k - n) l
    inferInstanceAs (Decidable ((k = 0 ∨ n ≤ k) ∧ NoStraddle (k - n) l))

instance decDeadLast (c : Circ W E) (s : Srt) : ∀ l : List W, Decidable (DeadLast c s l)
  | [] => .isTrue trivial
  | w :: l =>
    have := decDeadLast c s l
    inferInstanceAs (Decidable
      ((c.nbrs w = 0 → (c.cnt w).reg s = 0 ∨ c.total l s = 0) ∧ DeadLast c s l))

instance (c : Circ W E) (s : Srt) (l : List W) : Decidable (AllUsed c s l) :=
  inferInstanceAs (Decidable (∀ w ∈ l, (c.cnt w).reg s ≠ 0 → c.nbrs w ≠ 0))

instance (c : Circ W E) (s : Srt) (it : Item W E) : Decidable (NonShrink c s it) :=
  inferInstanceAs (Decidable (c.total it.ins s ≤ c.total it.outs s ∧ AllUsed c s it.outs))

instance decAllocFirst (c : Circ W E) (s : Srt) :
    ∀ l : List (Item W E), Decidable (AllocFirst c s l)
  | [] => .isTrue trivial
  | it :: l =>
    have := decAllocFirst c s l
    inferInstanceAs (Decidable ((NonShrink c s it ∨ it.kind = .free ∨
      ∀ it' ∈ l, it'.kind ≠ .alloc s) ∧ AllocFirst c s l))

theorem exCirc_safe (s : Srt) : Safe exCirc s := by
  refine ⟨by cases s <;> decide, ?_, by cases s <;> decide⟩
  intro it hit
  simp only [exCirc, List.mem_cons, List.not_mem_nil, or_false] at hit
  cases s <;> rcases hit with rfl | rfl | rfl | rfl | rfl | rfl | rfl <;>
    exact ⟨by decide, by decide, by decide, by decide, by decide⟩

theorem exCirc_emits : ∀ g ∈ exCirc.items, g.kind = .group → exCirc.emits g = true := by decide

theorem exCirc_allocFirst : AllocFirst exCirc .qubit exCirc.items ∧
    AllUsed exCirc .qubit exCirc.inputs ∧ AllocFirst exCirc .bit exCirc.items ∧
    AllUsed exCirc .bit exCirc.inputs := by decide

/-- The hypotheses of all theorems above are met by `exCirc`, which uses an allocation, a parameter,
a lazily encoded component, a discarded qubit and a permuted output. -/
example : ∃ D e, IsVal exCirc D ∧ encode exCirc List.reverse = .ok e ∧
    Correct exCirc D .qubit True e ∧ Correct exCirc D .bit True e := by
  obtain ⟨D, hD⟩ := exCirc_val
  obtain ⟨e, h1, h2⟩ := C29_clean_partial (order := List.reverse) hD exCirc_ordered
    (exCirc_safe _) exCirc_emits List.reverse_perm exCirc_allocFirst.1 exCirc_allocFirst.2.1
  obtain ⟨e', h3, h4⟩ := C33_constants_partial (order := List.reverse) hD exCirc_ordered
    (exCirc_safe _) exCirc_emits List.reverse_perm exCirc_allocFirst.2.2.1
    exCirc_allocFirst.2.2.2
  rw [h1] at h3
  obtain rfl := Except.ok.inj h3
  exact ⟨D, e, hD, h1, h2, h4⟩

/-- The registers of the commands, for inspection. -/
def shape (r : Except Err (Enc W E)) : Option (List (Nat × List Nat × List Nat)) :=
  match r with
  | .ok e => some (e.cmds.map fun c => (c.node, c.args .qubit, c.args .bit))
  | .error _ => none

example : shape (encode exCirc id) = some [(1, [0], []), (2, [1], []), (3, [0, 1], []),
    (4, [0, 1, 2], []), (5, [2], [0]), (6, [], [0])] := by decide

end Examples

/-! ### Where the properties fail -/

section Failures

/-- A `CX` between an input qubit and a qubit made by an unsupported operation. -/
def lazyCirc : Circ (Fin 4) Nat :=
  { inputs := [0], outputs := [2, 3], cnt := fun _ => q1, nbrs := fun _ => 1,
    declared := fun _ => 0, paramVar := id,
    items := [⟨0, .group, [], [1], fun _ => []⟩, ⟨1, .gate, [0, 1], [2, 3], fun _ => []⟩] }

theorem lazyCirc_ordered : Ordered lazyCirc :=
  ⟨by decide, ⟨_, rfl, by decide⟩, by decide, by
    intro it hit s hk
    simp only [lazyCirc, List.mem_cons, List.not_mem_nil, or_false] at hit
    rcases hit with rfl | rfl <;> exact absurd hk (by simp), by decide⟩

theorem lazyCirc_typed : ∀ it ∈ lazyCirc.items, it.Typed lazyCirc := by
  intro it hit
  simp only [lazyCirc, List.mem_cons, List.not_mem_nil, or_false] at hit
  rcases hit with rfl | rfl <;> exact fun ps => rfl

/-- **C28 is false** in general: the inputs of a node are given back to the pool one after the
other, and an unsupported component is encoded only when one of its outputs is asked for; so a
qubit which the component creates gets the register of an input read just before.  The `CX` then
acts twice on the same qubit. -/
theorem C28_lazy_component :
    ∃ (W : Type) (_ : DecidableEq W) (c : Circ W Nat), Ordered c ∧ (∀ it ∈ c.items, it.Typed c) ∧
      (∀ w, c.useList.count w ≤ 1) ∧ (∀ g ∈ c.items, g.kind = .group → c.emits g = true) ∧
      ∃ e, encode c id = .ok e ∧ ∃ cmd ∈ e.cmds, ¬ (cmd.args .qubit).Nodup := by
  refine ⟨Fin 4, inferInstance, lazyCirc, lazyCirc_ordered, lazyCirc_typed, by decide, by decide, ?_⟩
  have h : shape (encode lazyCirc id) = some [(0, [0], []), (1, [0, 0], [])] := by decide
  cases he : encode lazyCirc id with
  | error x => rw [he] at h; exact absurd h (by simp [shape])
  | ok e =>
    rw [he] at h
    refine ⟨e, rfl, ?_⟩
    simp only [shape, Option.some.injEq] at h
    have hm : ((1, [0, 0], []) : Nat × List Nat × List Nat) ∈
        e.cmds.map fun c => (c.node, c.args .qubit, c.args .bit) := by rw [h]; simp
    obtain ⟨cmd, h1, h2⟩ := List.mem_map.1 hm
    simp only [Prod.mk.injEq] at h2
    exact ⟨cmd, h1, by rw [h2.2.1]; decide⟩

/-- An operation turning one qubit into a pair of qubits on one wire. -/
def pairCirc : Circ (Fin 2) Nat :=
  { inputs := [0], outputs := [1], nbrs := fun _ => 1, declared := fun _ => 0, paramVar := id,
    cnt := fun w => if w = 0 then q1 else ⟨fun s => if s = .qubit then 2 else 0, 0⟩
    items := [⟨0, .group, [0], [1], fun _ => []⟩] }

theorem pairCirc_ordered : Ordered pairCirc :=
  ⟨by decide, ⟨_, rfl, by decide⟩, by decide, by
    intro it hit s hk
    simp only [pairCirc, List.mem_cons, List.not_mem_nil, or_false] at hit
    rcases hit with rfl
    exact absurd hk (by simp), by decide⟩

theorem pairCirc_typed : ∀ it ∈ pairCirc.items, it.Typed pairCirc := by
  intro it hit
  simp only [pairCirc, List.mem_cons, List.not_mem_nil, or_false] at hit
  rcases hit with rfl
  exact fun ps => rfl

/-- **C28 is false** also for a wire which takes over a qubit and needs one more: the new one is
popped from the pool before the reused one is claimed. -/
theorem C28_straddling_wire :
    ∃ (W : Type) (_ : DecidableEq W) (c : Circ W Nat), Ordered c ∧ (∀ it ∈ c.items, it.Typed c) ∧
      (∀ w, c.useList.count w ≤ 1) ∧ (∀ g ∈ c.items, g.kind = .group → c.emits g = true) ∧
      ∃ e, encode c id = .ok e ∧ ∃ w ∈ c.outputs, ∃ tr, e.tr.wires w = some tr ∧
        ¬ (tr.vals.reg .qubit).Nodup := by
  refine ⟨Fin 2, inferInstance, pairCirc, pairCirc_ordered, pairCirc_typed, by decide, by decide, ?_⟩
  refine ⟨_, rfl, 1, by decide, _, rfl, by decide⟩

/-- Measure and discard a qubit, allocate another one, apply `H` to it. -/
def dirtyCirc : Circ (Fin 4) Nat :=
  { inputs := [0], outputs := [1, 3], nbrs := fun _ => 1, declared := fun _ => 0, paramVar := id,
    cnt := fun w => if w = 1 then b1 else q1
    items := [⟨0, .gate, [0], [1], fun _ => []⟩, ⟨1, .alloc .qubit, [], [2], fun _ => []⟩,
      ⟨2, .gate, [2], [3], fun _ => []⟩] }

theorem dirtyCirc_ordered : Ordered dirtyCirc :=
  ⟨by decide, ⟨_, rfl, by decide⟩, by decide, by
    intro it hit s hk
    simp only [dirtyCirc, List.mem_cons, List.not_mem_nil, or_false] at hit
    rcases hit with rfl | rfl | rfl
    · exact absurd hk (by simp)
    · exact ⟨_, rfl⟩
    · exact absurd hk (by simp), by decide⟩

theorem dirtyCirc_typed : ∀ it ∈ dirtyCirc.items, it.Typed dirtyCirc := by
  intro it hit
  simp only [dirtyCirc, List.mem_cons, List.not_mem_nil, or_false] at hit
  rcases hit with rfl | rfl | rfl
  · exact fun ps => rfl
  · exact ⟨2, rfl, by decide, by intro s; cases s <;> decide⟩
  · exact fun ps => rfl

theorem dirtyCirc_safe : Safe dirtyCirc .qubit := by
  refine ⟨by decide, ?_, by decide⟩
  intro it hit
  simp only [dirtyCirc, List.mem_cons, List.not_mem_nil, or_false] at hit
  rcases hit with rfl | rfl | rfl <;>
    exact ⟨by decide, by decide, by decide, by decide, by decide⟩

theorem dirtyCirc_cmds : shape (encode dirtyCirc id) = some [(0, [0], [0]), (2, [0], [])] := by
  decide

/-- **C29 is false** in general: the register of a measured and discarded qubit is handed out for
the next allocation, without a reset in between.  The region meets all other conditions. -/
theorem C29_dirty_allocation : ∃ (W : Type) (_ : DecidableEq W) (c : Circ W Nat) (e : Enc W Nat),
    Ordered c ∧ (∀ it ∈ c.items, it.Typed c) ∧ Safe c .qubit ∧ encode c id = .ok e ∧
      ∀ D, IsVal c D → ¬ Correct c D .qubit True e := by
  have hh := dirtyCirc_cmds
  cases he : encode dirtyCirc id with
  | error x => rw [he] at hh; exact absurd hh (by simp [shape])
  | ok e =>
    rw [he] at hh
    refine ⟨Fin 4, inferInstance, dirtyCirc, e, dirtyCirc_ordered, dirtyCirc_typed, dirtyCirc_safe,
      he, ?_⟩
    rintro D hD ⟨its, f, h1, h2, h3, _⟩
    simp only [shape, Option.some.injEq] at hh
    have hmem : ∀ it ∈ its, it ∈ dirtyCirc.items := fun it hit =>
      List.mem_of_mem_filter (h1.mem_iff.1 hit)
    match hcm : e.cmds, hh with
    | [c0, c1], hh =>
      rw [hcm] at h3
      simp only [List.map_cons, List.map_nil, List.cons.injEq, Prod.mk.injEq, and_true] at hh
      obtain ⟨⟨a1, a2, a3⟩, b1, b2, b3⟩ := hh
      cases h3 with
      | cons s0 t0 =>
        cases t0 with
        | cons s1 t1 =>
          rename_i i0 _ i1 _
          have hi1 : i1 = ⟨2, .gate, [2], [3], fun _ => []⟩ := by
            have hid := s1.node
            rw [b1] at hid
            have := hmem i1 (by simp)
            simp only [dirtyCirc, List.mem_cons, List.not_mem_nil, or_false] at this
            rcases this with rfl | rfl | rfl
            · exact absurd hid (by decide)
            · exact absurd hid (by decide)
            · rfl
          have hD2 : (D 2).reg .qubit = [.zero 1] := by
            have := hD.items ⟨1, .alloc .qubit, [], [2], fun _ => []⟩ (by simp [dirtyCirc])
            simpa [Item.outVals] using this.1
          obtain ⟨x, y, hxy, hf⟩ := s1.reads
          rw [b2, hi1] at *
          simp only [Item.inVals, List.flatMap_cons, List.flatMap_nil, List.append_nil, hD2] at hf
          cases hf with
          | cons hr hnil =>
            cases hnil
            simp only [List.cons_append, List.nil_append, List.cons.injEq] at hxy
            obtain ⟨rfl, _⟩ := hxy
            have := hr trivial
            rw [a2] at this
            unfold write at this
            split at this
            · exact absurd this (by simp)
            · simp at this
    | [], hh => simp at hh
    | [_], hh => simp at hh
    | _ :: _ :: _ :: _, hh => simp at hh

/-- A copied bit, negated on one branch and returned on the other. -/
def copyCirc : Circ (Fin 2) Nat :=
  { inputs := [0], outputs := [0, 1], nbrs := fun w => if w = 0 then 2 else 1
    declared := fun _ => 0, paramVar := id, cnt := fun _ => b1
    items := [⟨0, .gate, [0], [1], fun _ => []⟩] }

theorem copyCirc_ordered : Ordered copyCirc :=
  ⟨by decide, ⟨_, rfl, by decide⟩, by decide, by
    intro it hit s hk
    simp only [copyCirc, List.mem_cons, List.not_mem_nil, or_false] at hit
    rcases hit with rfl
    exact absurd hk (by simp), by decide⟩

theorem copyCirc_typed : ∀ it ∈ copyCirc.items, it.Typed copyCirc := by
  intro it hit
  simp only [copyCirc, List.mem_cons, List.not_mem_nil, or_false] at hit
  rcases hit with rfl
  exact fun ps => rfl

/-- **C33 is false** in general: a classical operation writes its result over its input bit, even
when the input is still needed.  Both output wires end up on the same bit. -/
theorem C33_copied_bit_overwritten :
    ∃ (W : Type) (_ : DecidableEq W) (c : Circ W Nat), Ordered c ∧ (∀ it ∈ c.items, it.Typed c) ∧
      ∃ e, encode c id = .ok e ∧ ∃ w w' tr tr', w ≠ w' ∧ w ∈ c.outputs ∧ w' ∈ c.outputs ∧
        e.tr.wires w = some tr ∧ e.tr.wires w' = some tr' ∧
        tr.vals.reg .bit = [0] ∧ tr'.vals.reg .bit = [0] ∧
        ∀ D, IsVal c D → (D w).reg .bit ≠ (D w').reg .bit := by
  refine ⟨Fin 2, inferInstance, copyCirc, copyCirc_ordered, copyCirc_typed, _, rfl, 0, 1, _, _,
    by decide, by decide, by decide, rfl, rfl, by decide, by decide, ?_⟩
  intro D hD heq
  have h0 := hD.inputs .bit
  have h1 := (hD.items ⟨0, .gate, [0], [1], fun _ => []⟩ (by simp [copyCirc])).1 .bit
  have hw := hD.width 1 .bit
  have hw : ((D 1).reg .bit).length = 1 := hw
  simp only [Item.outVals, List.flatMap_cons, List.flatMap_nil, List.append_nil, hw] at h1
  have h0' : (D 0).reg .bit = [.input 0] := by simpa [copyCirc, Circ.total, b1] using h0
  rw [h1, h0'] at heq
  simp at heq

/-- Two bits, of which the first one is ignored. -/
def ignoreCirc : Circ (Fin 3) Nat :=
  { inputs := [0, 1], outputs := [2], nbrs := fun w => if w = 0 then 0 else 1
    declared := fun _ => 0, paramVar := id, cnt := fun _ => b1
    items := [⟨0, .gate, [1], [2], fun _ => []⟩] }

theorem ignoreCirc_ordered : Ordered ignoreCirc :=
  ⟨by decide, ⟨_, rfl, by decide⟩, by decide, by
    intro it hit s hk
    simp only [ignoreCirc, List.mem_cons, List.not_mem_nil, or_false] at hit
    rcases hit with rfl
    exact absurd hk (by simp), by decide⟩

/-- **C33 is false** for an ignored input followed by another one: both get the same bit, so the
second input is expected in the place of the first (there, `initFile` has the first input), and the
tracker knows of one bit only. -/
theorem C33_unused_input_shares_bit :
    ∃ (W : Type) (_ : DecidableEq W) (c : Circ W Nat), Ordered c ∧ c.total c.inputs .bit = 2 ∧
      ∃ e, encode c id = .ok e ∧ (e.tr.pool .bit).size = 1 ∧
        ∃ cmd ∈ e.cmds, cmd.args .bit = [0] ∧ ∃ it ∈ c.items, cmd.node = it.id ∧
          ∀ D, IsVal c D → it.inVals D .bit = [.input 1] := by
  refine ⟨Fin 3, inferInstance, ignoreCirc, ignoreCirc_ordered, by decide, _, rfl, by decide,
    _, List.mem_cons_self, by decide, ⟨0, .gate, [1], [2], fun _ => []⟩, by simp [ignoreCirc],
    rfl, ?_⟩
  intro D hD
  have h0 := hD.inputs .bit
  have hw : ((D 0).reg .bit).length = 1 := hD.width 0 .bit
  have hw1 : ((D 1).reg .bit).length = 1 := hD.width 1 .bit
  have h0 : (D 0).reg .bit ++ (D 1).reg .bit = [.input 0, .input 1] := by
    simpa [ignoreCirc, Circ.total, b1, List.range_succ] using h0
  obtain ⟨a, ha⟩ := List.length_eq_one_iff.1 hw
  obtain ⟨b, hb⟩ := List.length_eq_one_iff.1 hw1
  rw [ha, hb] at h0
  simp only [List.cons_append, List.nil_append, List.cons.injEq, and_true] at h0
  simp [Item.inVals, hb, h0.2]

/-- An unsupported computation of an angle, used by a supported rotation. -/
def angleCirc : Circ (Fin 3) Nat :=
  { inputs := [0], outputs := [2], nbrs := fun _ => 1, declared := fun _ => 0, paramVar := id
    cnt := fun w => if w = 1 then p1 else q1
    items := [⟨0, .group, [], [1], fun _ => [0]⟩, ⟨1, .gate, [0, 1], [2], fun _ => []⟩] }

theorem angleCirc_ordered : Ordered angleCirc :=
  ⟨by decide, ⟨_, rfl, by decide⟩, by decide, by
    intro it hit s hk
    simp only [angleCirc, List.mem_cons, List.not_mem_nil, or_false] at hit
    rcases hit with rfl | rfl <;> exact absurd hk (by simp), by decide⟩

theorem angleCirc_typed : ∀ it ∈ angleCirc.items, it.Typed angleCirc := by
  intro it hit
  simp only [angleCirc, List.mem_cons, List.not_mem_nil, or_false] at hit
  rcases hit with rfl | rfl <;> exact fun ps => rfl

/-- **C58 is false** for unsupported components without qubits and bits: when their result is the
angle of a gate, the whole encoding fails. -/
theorem C58_component_without_registers :
    ∃ (W : Type) (_ : DecidableEq W) (c : Circ W Nat), Ordered c ∧ (∀ it ∈ c.items, it.Typed c) ∧
      (∃ D, IsVal c D) ∧ (∀ s, Safe c s) ∧ encode c id = .error .noRegisters := by
  refine ⟨Fin 3, inferInstance, angleCirc, angleCirc_ordered, angleCirc_typed,
    exists_isVal angleCirc_ordered angleCirc_typed ?_, ?_, rfl⟩
  · intro it hit s hk
    simp only [angleCirc, List.mem_cons, List.not_mem_nil, or_false] at hit
    rcases hit with rfl | rfl <;> exact absurd hk (by simp)
  · intro s
    refine ⟨by cases s <;> decide, ?_, by cases s <;> decide⟩
    intro it hit
    simp only [angleCirc, List.mem_cons, List.not_mem_nil, or_false] at hit
    cases s <;> rcases hit with rfl | rfl <;>
      exact ⟨by decide, by decide, by decide, by decide, by decide⟩

end Failures

end Verif.Encoder
