import Verif.Lemmas.RoundTripOut
import Verif.Lemmas.RoundTripFlow
import Verif.Props.Decoder
import Mathlib.Data.Fin.VecNotation

/-!
# C91: writing a circuit to pytket and reading it back
-/

set_option linter.unusedSectionVars false

namespace Verif.RoundTrip

open Verif.Encoder (Srt Circ Item Den Kind IsVal Ordered Enc Safe AllocFirst AllUsed encode Runs Matches Content)
open Verif.Decoder (V Cfg decode observe)

variable {W E T : Type} [DecidableEq W] [DecidableEq T]

/-- Everything that is needed to encode a region and decode it again: a plain region (`Fits`, `Plain`) in
dataflow order whose registers the encoder handles correctly (`Safe`, `AllocFirst`), with its values, and a
decoder that knows the signatures of its operations. -/
structure Ready (cfg : Cfg T Reg) (c : Circ W E) (ty : W → T) (num : E → Nat) (sigIn sigOut : Nat → List T)
    (D : W → Den E) (val : W → V Nat) : Prop where
  simple : cfg.Simple
  single : ∀ r, cfg.single r = true
  fits : Fits cfg c ty
  plain : ∀ it ∈ c.items, Plain cfg c ty it
  ord : Ordered c
  isVal : IsVal c D
  flow : IsFlow cfg c ty num D val
  safe : ∀ s, Safe c s
  alloc : ∀ s, AllocFirst c s c.items
  used : ∀ s, AllUsed c s c.inputs
  sig : ∀ it ∈ c.items, it.kind = .gate → sigIn it.id = it.ins.map ty ∧ sigOut it.id = it.outs.map ty

section
variable {cfg : Cfg T Reg} {c : Circ W E} {ty : W → T} {num : E → Nat} {sigIn sigOut : Nat → List T}
  {D : W → Den E} {val : W → V Nat} {order : List (Item W E) → List (Item W E)}

theorem emits_eq (hp : ∀ it ∈ c.items, Plain cfg c ty it) : c.items.filter c.emits = gates c := by
  refine List.filter_congr fun it hit => ?_
  have := hp it hit
  unfold Plain at this
  unfold Encoder.Circ.emits
  cases hk : it.kind <;> simp_all

theorem round_trip (h : Ready cfg c ty num sigIn sigOut D val) (hord : ∀ l, (order l).Perm l) :
    ∃ (e : Enc W E) (k : _) (its : List (Item W E)) (f : Srt → Nat → Content), encode c order = .ok e ∧ file sigIn sigOut num ty c e = some k ∧ its.Perm (gates c) ∧
      (∀ it ∈ its, it ∈ c.items ∧ it.kind = .gate ∧ ∀ w ∈ it.ins, w ∈ produced c) ∧
      (∀ s, Runs D s True (Encoder.initFile c s) e.cmds its (f s)) ∧
      (∀ s, ∀ w ∈ c.outputs, ∃ tr, e.tr.wires w = some tr ∧
        List.Forall₂ (fun r v => Matches True (f s r) v) (tr.vals.reg s) ((D w).reg s)) ∧
      (∀ s, c.total c.inputs s ≤ (e.tr.pool s).size) ∧
      ((∀ s, outRegs e c.outputs s <+: List.range (e.tr.pool s).size) →
        ∃ ns, decode cfg k = .ok ns ∧
          observe ns = its.map (receives val) ++ [(none, c.outputs.map val)]) := by
  have hS : Setup cfg c ty num D val := ⟨h.simple, h.fits, h.isVal, h.ord, h.plain, h.flow⟩
  have hng : ∀ it ∈ c.items, it.kind ≠ .group := fun it hit hk => by
    have := h.plain it hit
    unfold Plain at this
    simp only [hk] at this
  have hg : ∀ g ∈ c.items, g.kind = .group → c.emits g = true := fun g hg hk => absurd hk (hng g hg)
  obtain ⟨e, its, e1, e2, e3, P, hB⟩ := Encoder.encode_base_inv h.isVal h.ord hg hord
  have hrun : ∀ s, ∃ f, Runs D s True (Encoder.initFile c s) e.cmds its f ∧
      (∀ w ∈ c.outputs, ∃ tr, e.tr.wires w = some tr ∧
        List.Forall₂ (fun r v => Matches True (f r) v) (tr.vals.reg s) ((D w).reg s)) ∧
      (s = .qubit → (c.outputs.flatMap fun w =>
        ((e.tr.wires w).map fun tr => tr.vals.reg s).getD []).Nodup) := by
    intro s
    obtain ⟨e', h1, its', f, h2, h3, h4, h5, h6⟩ := Encoder.correct_of_safe (strict := True) h.isVal h.ord
      (h.safe s) hg hord (fun _ => ⟨h.alloc s, fun _ => h.used s⟩)
    rw [e1] at h1
    obtain rfl := Except.ok.inj h1
    have : its = its' := Encoder.its_unique h.ord.ids e3 h4
      (fun it hit => List.mem_of_mem_filter (e2.mem_iff.1 hit))
      (fun it hit => List.mem_of_mem_filter (h2.mem_iff.1 hit))
    subst this
    exact ⟨f, h4, h5, h6⟩
  choose f hr1 hr2 hr3 using hrun
  obtain ⟨hb, hsz0⟩ := Encoder.encode_bnd e1
  have hsz : ∀ s, c.total c.inputs s ≤ (e.tr.pool s).size := fun s => hsz0 s (h.safe s).inputs
  obtain ⟨hpr, hpo⟩ := all_produced h.ord hng
  have hits : ∀ it ∈ its, it ∈ c.items ∧ it.kind = .gate ∧ ∀ w ∈ it.ins, w ∈ produced c := by
    intro it hit
    have hm := e2.mem_iff.1 hit
    rw [emits_eq h.plain] at hm
    unfold gates at hm
    rw [List.mem_filter] at hm
    have hk : it.kind = .gate := by simpa using hm.2
    exact ⟨hm.1, hk, hpr it hm.1 hk⟩
  have hnodq : (regs e .qubit).Nodup := List.Nodup.map (fun a b h => by simpa using h) List.nodup_range
  have hlt : ∀ s, ∀ r ∈ outRegs e c.outputs s, r < (e.tr.pool s).size := outRegs_lt hb.1 c.outputs
  obtain ⟨p, o, p1, p2, p3, p4⟩ := perm_identity (outs := (outRegs e c.outputs .qubit).map (Prod.mk Srt.qubit))
    (all := regs e .qubit) hnodq
    (List.Nodup.map (fun a b h => by simpa using h) (hr3 .qubit rfl)) (by
      intro r hr
      obtain ⟨a, ha, rfl⟩ := List.mem_map.1 hr
      exact List.mem_map.2 ⟨a, List.mem_range.2 (hlt .qubit a ha), rfl⟩)
  have hpar := outPars_lookup hB c.outputs fun w hw => by
    obtain ⟨tr, h1, _⟩ := hr2 .qubit w hw
    rw [h1]
    simp
  let k : Decoder.Circ T Reg Nat :=
    { qubits := regs e .qubit
      bits := regs e .bit
      sigIn := c.inputs.map ty
      sigOut := c.outputs.map ty
      cmds := e.cmds.map (command sigIn sigOut num)
      perm := o
      outParams := (c.outputs.flatMap fun w => (D w).params).map num }
  refine ⟨e, k, its, f, e1, ?_, by rw [← emits_eq h.plain]; exact e2, hits, hr1, hr2, hsz, ?_⟩
  · unfold file
    rw [hpar, p1]
    simp only
    rw [p2]
  intro hpre
  have hR0 : Rel c D val (Encoder.initFile c) (Decoder.startRegs cfg k) :=
    start_rel (k := k) (sz := fun s => (e.tr.pool s).size) hS rfl rfl rfl hsz
  obtain ⟨m, r1, r2, r3⟩ := run_all (nq := (e.tr.pool .qubit).size) (n := (e.tr.pool .bit).size) hS h.sig
    e.cmds its _ f _ hR0 hr1 hits e3
    (fun x hx => ⟨fun r hr => hb.2 x hx .qubit r hr, fun r hr => hb.2 x hx .bit r hr⟩)
  have hoq : k.outQubits = regs e .qubit := filterMap_of_mapM p3
  have hout := fun s => outRegs_read hS r2 s c.outputs hpo (hr2 s)
  have hlen : ∀ s, c.total c.outputs s ≤ (e.tr.pool s).size := fun s => by
    rw [← (hout s).2]
    simpa using (hpre s).length_le
  have hpref : ∀ s, (sel c s c.outputs).map val <+: (regs e s).map (get m s) := fun s => by
    rw [← (hout s).1]
    exact ((hpre s).map _).map _
  have hok : k.Ok cfg := by
    refine ⟨fun r _ => h.single r, hnodq, List.Nodup.map (fun a b h => by simpa using h) List.nodup_range, r3,
      by rw [hoq], p4, ?_, ?_, ?_, ?_⟩
    · show cfg.countQ (c.inputs.map ty) ≤ (regs e .qubit).length
      rw [countQ_eq h.simple h.fits]
      simpa [regs] using hsz .qubit
    · show cfg.countQ (c.outputs.map ty) ≤ (regs e .qubit).length
      rw [countQ_eq h.simple h.fits]
      simpa [regs] using hlen .qubit
    · show cfg.countB (c.outputs.map ty) ≤ (regs e .bit).length
      rw [countB_eq h.simple h.fits]
      simpa [regs] using hlen .bit
    · show cfg.countP (c.outputs.map ty) ≤ ((c.outputs.flatMap fun w => (D w).params).map num).length
      rw [countP_eq h.simple h.fits, List.length_map, lenP h.isVal]
  obtain ⟨ns, n1, n2⟩ := Decoder.C38_succeeds_partial cfg h.simple k hok
  refine ⟨ns, n1, ?_⟩
  rw [n2]
  unfold Decoder.spec
  have : Decoder.runCmds cfg k.bits (Decoder.startRegs cfg k) k.cmds = (its.map (receives val), m) := r1
  rw [this, hoq]
  simp only
  congr 3
  exact feed_val h.simple h.fits h.isVal h.flow.par c.outputs _ _ _ (hpref .qubit) (hpref .bit)
    (List.prefix_refl _)

/-- **C91.** A plain region survives being written to pytket and read back: encoding it succeeds, decoding the
result succeeds, and in the decoded region every operation and the output node receives on every port the
same value as in the original one, if the registers of the outputs, of each sort, are the first registers in
order.

Partial: without the condition on the output registers it is false (`C91_crossed_outputs`); operations that
read bits, that consume qubits and those the encoder does not know are left out (`Plain`). -/
theorem C91_round_trip_partial (h : Ready cfg c ty num sigIn sigOut D val) (hord : ∀ l, (order l).Perm l) :
    ∃ e k, encode c order = .ok e ∧ file sigIn sigOut num ty c e = some k ∧
      ((∀ s, outRegs e c.outputs s <+: List.range (e.tr.pool s).size) →
        ∃ (ns : _) (its : List (Item W E)), decode cfg k = .ok ns ∧ its.Perm (gates c) ∧
          observe ns = its.map (receives val) ++ [(none, c.outputs.map val)]) := by
  obtain ⟨e, k, its, f, h1, h2, h3, _, _, _, _, h4⟩ := round_trip h hord
  refine ⟨e, k, h1, h2, fun hp => ?_⟩
  obtain ⟨ns, n1, n2⟩ := h4 hp
  exact ⟨ns, its, n1, h3, n2⟩

/-- **C91** for circuits that do not allocate qubits and have no boolean outputs: if the `k`-th qubit output
comes along the line of the `k`-th qubit input, the circuit survives. -/
theorem C91_lines_partial (h : Ready cfg c ty num sigIn sigOut D val) (hord : ∀ l, (order l).Perm l)
    {line : W → Nat} (hL : Lines c line) (hna : ∀ it ∈ c.items, it.kind ≠ .alloc .qubit)
    (hout : (c.outputs.filter fun w => (c.cnt w).reg .qubit = 1).map line <+:
      List.range (c.total c.inputs .qubit)) (hbit : c.total c.outputs .bit = 0) :
    ∃ (e : Enc W E) (k : _) (ns : _) (its : List (Item W E)), encode c order = .ok e ∧ file sigIn sigOut num ty c e = some k ∧
      decode cfg k = .ok ns ∧ its.Perm (gates c) ∧
      observe ns = its.map (receives val) ++ [(none, c.outputs.map val)] := by
  obtain ⟨e, k, its, f, h1, h2, h3, hits, hr, ho, hsz, h4⟩ := round_trip h hord
  have hS : Setup cfg c ty num D val := ⟨h.simple, h.fits, h.isVal, h.ord, h.plain, h.flow⟩
  have hng : ∀ it ∈ c.items, it.kind ≠ .group := fun it hit hk => by
    have := h.plain it hit
    unfold Plain at this
    simp only [hk] at this
  obtain ⟨_, hpo⟩ := all_produced h.ord hng
  have hl := lines_run hS hna hL e.cmds its _ _ (lines_start hS hL) (hr .qubit) hits
  obtain ⟨ns, n1, n2⟩ := h4 (by
    intro s
    cases s with
    | qubit =>
      rw [outRegs_lines hS hna hl c.outputs hpo (ho .qubit)]
      refine List.IsPrefix.trans hout ?_
      have hle := hsz .qubit
      refine ⟨(List.range ((e.tr.pool .qubit).size - c.total c.inputs .qubit)).map
        (c.total c.inputs .qubit + ·), ?_⟩
      rw [← List.range_add]
      congr 1
      omega
    | bit =>
      have hz : ∀ ws : List W, c.total ws .bit = 0 →
          (∀ w ∈ ws, ∃ tr, e.tr.wires w = some tr ∧ List.Forall₂ (fun r v => Matches True (f .bit r) v)
            (tr.vals.reg .bit) ((D w).reg .bit)) → outRegs e ws .bit = [] := by
        intro ws
        induction ws with
        | nil => intros; rfl
        | cons w ws ih =>
          intro h0 hw
          have e0 : c.total (w :: ws) .bit = (c.cnt w).reg .bit + c.total ws .bit := by
            simp [Encoder.Circ.total]
          obtain ⟨tr, t1, t2⟩ := hw w List.mem_cons_self
          have : tr.vals.reg .bit = [] := by
            have := t2.length_eq
            rw [h.isVal.width] at this
            exact List.length_eq_zero_iff.1 (by omega)
          have ih' := ih (by omega) (fun x hx => hw x (List.mem_cons_of_mem _ hx))
          unfold outRegs at ih' ⊢
          rw [List.flatMap_cons, ih', t1]
          simp [this]
      rw [hz c.outputs hbit (ho .bit)]
      exact List.nil_prefix)
  exact ⟨e, k, ns, its, h1, h2, n1, h3, n2⟩

/-- The values that the theorems are about exist. -/
theorem C91_values_exist (num : E → Nat) (hs : cfg.Simple) (hf : Fits cfg c ty) (hO : Ordered c)
    (hp : ∀ it ∈ c.items, Plain cfg c ty it) (ht : ∀ it ∈ c.items, it.Typed c)
    (ha : ∀ it ∈ c.items, ∀ s, it.kind = .alloc s → it.ins = []) :
    ∃ D val, IsVal c D ∧ IsFlow cfg c ty num D val := by
  obtain ⟨D, hD⟩ := Encoder.exists_isVal hO ht ha
  obtain ⟨val, hv⟩ := exists_flow num hs hf hD hO hp
  exact ⟨D, val, hD, hv⟩

end

/-! ### Examples -/

section Examples
open Verif.Decoder (Ty)
open Verif.Encoder (q1 b1 p1)

/-- Qubits, booleans and rotations. -/
def cfg0 : Cfg Ty Reg where
  qubits t := match t with | .q => 1 | _ => 0
  bits t := match t with | .b | .tb => 1 | _ => 0
  param t := t == .rot
  qb := .q
  bool := .b
  tbool := .tb
  rot := .rot
  single _ := true

theorem cfg0_simple : cfg0.Simple := by
  constructor <;> first | rfl | (intro t; cases t <;> simp [cfg0, Decoder.Cfg.supported])

/-- The registers carried by a wire of a type. -/
def cntOf : Ty → Encoder.Count
  | .q => q1
  | .rot => p1
  | _ => b1

theorem fits_of {W : Type} [DecidableEq W] {c : Circ W Nat} {ty : W → Ty} (h : ∀ w, c.cnt w = cntOf (ty w))
    (ht : ∀ w, ty w = .q ∨ ty w = .b ∨ ty w = .rot) : Fits cfg0 c ty := by
  intro w
  rw [h w]
  rcases ht w with h | h | h <;> rw [h]
  · exact .inl ⟨rfl, rfl, rfl, rfl⟩
  · exact .inr (.inl ⟨.inl rfl, rfl, rfl, rfl⟩)
  · exact .inr (.inr ⟨rfl, rfl, rfl, rfl⟩)

def fullTy : Fin 9 → Ty := ![.q, .rot, .q, .rot, .q, .q, .q, .q, .b]

/-- Allocate a qubit (0), negate the angle (1), `Rz` (2), `CX` (3) with the new qubit, and measure that
(4). -/
def full : Circ (Fin 9) Nat :=
  { inputs := [0, 1]
    items := [⟨0, .alloc .qubit, [], [2], id⟩, ⟨1, .transparent, [1], [3], List.map (· + 1)⟩,
      ⟨2, .gate, [0, 3], [4], fun _ => []⟩, ⟨3, .gate, [4, 2], [5, 6], fun _ => []⟩,
      ⟨4, .gate, [6], [7, 8], fun _ => []⟩]
    outputs := [5, 7, 8]
    cnt := fun w => cntOf (fullTy w)
    nbrs := fun _ => 1
    declared := fun _ => 0
    paramVar := id }

def fullIn (n : Nat) : List Ty := if n = 2 then [.q, .rot] else if n = 3 then [.q, .q] else [.q]
def fullOut (n : Nat) : List Ty := if n = 2 then [.q] else if n = 3 then [.q, .q] else [.q, .b]

theorem full_ordered : Ordered full :=
  ⟨by decide, ⟨_, rfl, by decide⟩, by decide, by
    intro it hit s hk
    simp only [full, List.mem_cons, List.not_mem_nil, or_false] at hit
    rcases hit with rfl | rfl | rfl | rfl | rfl
    · exact ⟨_, rfl⟩
    all_goals (exact absurd hk (by simp)), by decide⟩

theorem full_typed : ∀ it ∈ full.items, it.Typed full := by
  intro it hit
  simp only [full, List.mem_cons, List.not_mem_nil, or_false] at hit
  rcases hit with rfl | rfl | rfl | rfl | rfl
  · exact ⟨2, rfl, by decide, by intro s; cases s <;> decide⟩
  · refine ⟨by intro s; cases s <;> decide, fun ps hp => ?_⟩
    rw [List.length_map, hp]
    decide
  all_goals exact fun ps => rfl

theorem full_plain : ∀ it ∈ full.items, Plain cfg0 full fullTy it := by
  intro it hit
  simp only [full, List.mem_cons, List.not_mem_nil, or_false] at hit
  rcases hit with rfl | rfl | rfl | rfl | rfl
  · trivial
  · intro s; cases s <;> decide
  all_goals
    refine ⟨by decide, by decide, by decide, ?_⟩
    simp [Decoder.Cfg.paramsLast, fullTy, cfg0]

theorem full_safe (s : Srt) : Safe full s := by
  refine ⟨by cases s <;> decide, ?_, by cases s <;> decide⟩
  intro it hit
  simp only [full, List.mem_cons, List.not_mem_nil, or_false] at hit
  cases s <;> rcases hit with rfl | rfl | rfl | rfl | rfl <;>
    exact ⟨by decide, by decide, by decide, by decide, by decide⟩

theorem full_ready : ∃ D val, Ready cfg0 full fullTy id fullIn fullOut D val := by
  obtain ⟨D, val, hD, hv⟩ := C91_values_exist (cfg := cfg0) (c := full) (ty := fullTy) id cfg0_simple
    (fits_of (fun _ => rfl) (by decide)) full_ordered full_plain full_typed (by
      intro it hit s hk
      simp only [full, List.mem_cons, List.not_mem_nil, or_false] at hit
      rcases hit with rfl | rfl | rfl | rfl | rfl
      · rfl
      all_goals (exact absurd hk (by simp)))
  refine ⟨D, val, cfg0_simple, fun _ => rfl, fits_of (fun _ => rfl) (by decide), full_plain, full_ordered, hD,
    hv, full_safe, by intro s; cases s <;> decide, by intro s; cases s <;> decide, ?_⟩
  intro it hit hk
  simp only [full, List.mem_cons, List.not_mem_nil, or_false] at hit
  rcases hit with rfl | rfl | rfl | rfl | rfl
  · cases hk
  · cases hk
  all_goals exact ⟨rfl, rfl⟩

theorem full_outputs : ∃ e, encode full id = .ok e ∧
    ∀ s, outRegs e full.outputs s <+: List.range (e.tr.pool s).size := by
  refine ⟨_, rfl, ?_⟩
  intro s
  cases s <;> decide

/-- The hypotheses of the theorem hold for `full`, and so it survives. -/
example : ∃ D val e k ns its, Ready cfg0 full fullTy id fullIn fullOut D val ∧ encode full id = .ok e ∧
    file fullIn fullOut id fullTy full e = some k ∧ decode cfg0 k = .ok ns ∧ List.Perm its (gates full) ∧
    observe ns = its.map (receives val) ++ [(none, full.outputs.map val)] := by
  obtain ⟨D, val, h⟩ := full_ready
  obtain ⟨e, k, h1, h2, h3⟩ := C91_round_trip_partial (order := id) h fun l => List.Perm.refl l
  obtain ⟨e', h4, h5⟩ := full_outputs
  rw [h1] at h4
  obtain rfl := Except.ok.inj h4
  obtain ⟨ns, its, n1, n2, n3⟩ := h3 h5
  exact ⟨D, val, e, k, ns, its, h, h1, h2, n1, n2, n3⟩

def pairTy : Fin 6 → Ty := ![.q, .q, .rot, .q, .q, .q]

/-- `Rz` (0) and `CX` (1). -/
def pair : Circ (Fin 6) Nat :=
  { inputs := [0, 1, 2]
    items := [⟨0, .gate, [0, 2], [3], fun _ => []⟩, ⟨1, .gate, [3, 1], [4, 5], fun _ => []⟩]
    outputs := [4, 5]
    cnt := fun w => cntOf (pairTy w)
    nbrs := fun _ => 1
    declared := fun _ => 0
    paramVar := id }

def pairIn (n : Nat) : List Ty := if n = 0 then [.q, .rot] else [.q, .q]
def pairOut (n : Nat) : List Ty := if n = 0 then [.q] else [.q, .q]

theorem pair_ordered : Ordered pair :=
  ⟨by decide, ⟨_, rfl, by decide⟩, by decide, by
    intro it hit s hk
    simp only [pair, List.mem_cons, List.not_mem_nil, or_false] at hit
    rcases hit with rfl | rfl
    all_goals (exact absurd hk (by simp)), by decide⟩

theorem pair_plain : ∀ it ∈ pair.items, Plain cfg0 pair pairTy it := by
  intro it hit
  simp only [pair, List.mem_cons, List.not_mem_nil, or_false] at hit
  rcases hit with rfl | rfl
  all_goals
    refine ⟨by decide, by decide, by decide, ?_⟩
    simp [Decoder.Cfg.paramsLast, pairTy, cfg0]

theorem pair_ready : ∃ D val, Ready cfg0 pair pairTy id pairIn pairOut D val := by
  obtain ⟨D, val, hD, hv⟩ := C91_values_exist (cfg := cfg0) (c := pair) (ty := pairTy) id cfg0_simple
    (fits_of (fun _ => rfl) (by decide)) pair_ordered pair_plain (by
      intro it hit
      simp only [pair, List.mem_cons, List.not_mem_nil, or_false] at hit
      rcases hit with rfl | rfl <;> exact fun ps => rfl) (by
      intro it hit s hk
      simp only [pair, List.mem_cons, List.not_mem_nil, or_false] at hit
      rcases hit with rfl | rfl
      all_goals (exact absurd hk (by simp)))
  refine ⟨D, val, cfg0_simple, fun _ => rfl, fits_of (fun _ => rfl) (by decide), pair_plain, pair_ordered, hD,
    hv, ?_, by intro s; cases s <;> decide, by intro s; cases s <;> decide, ?_⟩
  · intro s
    refine ⟨by cases s <;> decide, ?_, by cases s <;> decide⟩
    intro it hit
    simp only [pair, List.mem_cons, List.not_mem_nil, or_false] at hit
    cases s <;> rcases hit with rfl | rfl <;>
      exact ⟨by decide, by decide, by decide, by decide, by decide⟩
  · intro it hit hk
    simp only [pair, List.mem_cons, List.not_mem_nil, or_false] at hit
    rcases hit with rfl | rfl
    all_goals exact ⟨rfl, rfl⟩

/-- The lines of `pair`. -/
def pairLine : Fin 6 → Nat := ![0, 1, 0, 0, 0, 1]

theorem pair_lines : Lines pair pairLine := ⟨by decide, by decide⟩

/-- The hypotheses of the second theorem hold for `pair`. -/
example : ∃ D val e k ns its, Ready cfg0 pair pairTy id pairIn pairOut D val ∧ encode pair id = .ok e ∧
    file pairIn pairOut id pairTy pair e = some k ∧ decode cfg0 k = .ok ns ∧ List.Perm its (gates pair) ∧
    observe ns = its.map (receives val) ++ [(none, pair.outputs.map val)] := by
  obtain ⟨D, val, h⟩ := pair_ready
  obtain ⟨e, k, ns, its, h1, h2, h3, h4, h5⟩ := C91_lines_partial (order := id) h (fun l => List.Perm.refl l)
    pair_lines (by decide) (by decide) (by decide)
  exact ⟨D, val, e, k, ns, its, h, h1, h2, h3, h4, h5⟩

end Examples

/-! ### Where it fails -/

section Failures
open Verif.Decoder (Ty)

/-- Two qubits that cross, and a boolean that is returned twice. -/
def crossed : Circ (Fin 2) Nat :=
  { inputs := [0, 1], items := [], outputs := [1, 0], cnt := fun _ => cntOf .q, nbrs := fun _ => 1
    declared := fun _ => 0, paramVar := id }

def twice : Circ (Fin 1) Nat :=
  { inputs := [0], items := [], outputs := [0, 0], cnt := fun _ => cntOf .b, nbrs := fun _ => 2
    declared := fun _ => 0, paramVar := id }

theorem ready_empty {n : Nat} {c : Circ (Fin n) Nat} {t : Ty} (ht : t = .q ∨ t = .b) (h0 : c.items = [])
    (hc : ∀ w, c.cnt w = cntOf t) (hO : Ordered c) (hs : ∀ s, Safe c s) (hu : ∀ s, AllUsed c s c.inputs) :
    ∃ D val, Ready cfg0 c (fun _ => t) id (fun _ => []) (fun _ => []) D val := by
  have hf : Fits cfg0 c fun _ => t := fits_of hc fun _ => by
    rcases ht with h | h
    · exact .inl h
    · exact .inr (.inl h)
  have hi : ∀ {P : Item (Fin n) Nat → Prop}, ∀ it ∈ c.items, P it := fun it hit => by
    rw [h0] at hit; cases hit
  obtain ⟨D, val, hD, hv⟩ := C91_values_exist (cfg := cfg0) (c := c) (ty := fun _ => t) id cfg0_simple
    hf hO hi hi hi
  exact ⟨D, val, cfg0_simple, fun _ => rfl, hf, hi, hO, hD, hv, hs, fun s => by rw [h0]; trivial, hu, hi⟩

/-- **C91 is false** for a region whose wires cross: it meets all the other conditions, but comes back with its
outputs exchanged. -/
theorem C91_crossed_outputs : ∃ D val e k ns, Ready cfg0 crossed (fun _ => .q) id (fun _ => []) (fun _ => []) D val ∧
    encode crossed id = .ok e ∧ file (fun _ => []) (fun _ => []) id (fun _ => Ty.q) crossed e = some k ∧
    decode cfg0 k = .ok ns ∧ observe ns = [(none, [.inp 0, .inp 1])] ∧
    crossed.outputs.map val = [.inp 1, .inp 0] := by
  obtain ⟨D, val, h⟩ := ready_empty (c := crossed) (t := .q) (.inl rfl) rfl (fun _ => rfl)
    ⟨by decide, ⟨_, rfl, by decide⟩, by decide, fun it hit => (by cases hit), by decide⟩
    (fun s => ⟨by cases s <;> decide, fun it hit => (by cases hit), by cases s <;> decide⟩)
    (by intro s; cases s <;> decide)
  have h0 : val 0 = .inp 0 := h.flow.inp 0 0 rfl rfl
  have h1 : val 1 = .inp 1 := h.flow.inp 1 1 rfl rfl
  refine ⟨D, val, _, _, _, h, rfl, rfl, rfl, rfl, ?_⟩
  simp [crossed, h0, h1]

/-- A region which returns a boolean twice is encoded with one bit, and cannot be decoded with its own
signature. -/
theorem C91_bit_returned_twice : ∃ D val e k err,
    Ready cfg0 twice (fun _ => .b) id (fun _ => []) (fun _ => []) D val ∧ encode twice id = .ok e ∧
      file (fun _ => []) (fun _ => []) id (fun _ => Ty.b) twice e = some k ∧ decode cfg0 k = .error err := by
  obtain ⟨D, val, h⟩ := ready_empty (c := twice) (t := .b) (.inr rfl) rfl (fun _ => rfl)
    ⟨by decide, ⟨_, rfl, by decide⟩, by decide, fun it hit => (by cases hit), by decide⟩
    (fun s => ⟨by cases s <;> decide, fun it hit => (by cases hit), by cases s <;> decide⟩)
    (by intro s; cases s <;> decide)
  exact ⟨D, val, _, _, _, h, rfl, rfl, rfl⟩

end Failures

end Verif.RoundTrip
