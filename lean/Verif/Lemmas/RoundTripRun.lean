import Verif.Lemmas.RoundTrip
import Verif.Lemmas.EncoderBase

/-!
# Commands of the encoder, run by the decoder
-/

set_option linter.unusedSectionVars false

namespace Verif.RoundTrip

open Verif.Encoder (Srt Circ Item Den Kind Val Content IsVal Ordered Enc Step Runs Matches Front)
open Verif.Decoder (V Cfg)

variable {W E T : Type} [DecidableEq W] [DecidableEq T]

/-! ### Lists -/

theorem lookup_zip_left {α : Type} (s : Srt) (r : Nat) : ∀ (a : List Nat) (L : List α),
    ((a.map (Prod.mk s)).zip L).lookup (s, r) = (a.zip L).lookup r
  | [], _ => rfl
  | x :: a, [] => rfl
  | x :: a, y :: L => by
    simp only [List.map_cons, List.zip_cons_cons, List.lookup_cons]
    rw [lookup_zip_left s r a L]
    by_cases h : r = x
    · subst h; simp
    · rw [show (r == x) = false from by simpa using h,
        show ((s, r) == (s, x)) = false from by simpa using h]

theorem lookup_zip_right {α β : Type} (g : α → β) (r : Nat) : ∀ (a : List Nat) (L : List α),
    (a.zip (L.map g)).lookup r = ((a.zip L).lookup r).map g
  | [], _ => rfl
  | x :: a, [] => rfl
  | x :: a, y :: L => by
    simp only [List.map_cons, List.zip_cons_cons, List.lookup_cons]
    rw [lookup_zip_right g r a L]
    cases r == x <;> rfl

theorem lookup_mem {α : Type} {r : Nat} {x : α} : ∀ {a : List Nat} {L : List α},
    (a.zip L).lookup r = some x → x ∈ L
  | [], _, h => by simp at h
  | y :: a, [], h => by simp at h
  | y :: a, z :: L, h => by
    simp only [List.zip_cons_cons, List.lookup_cons] at h
    split at h
    · cases h; exact List.mem_cons_self
    · exact List.mem_cons_of_mem _ (lookup_mem h)

theorem lookup_range' {α : Type} (r : Nat) : ∀ (n p : Nat) (L : List α), L.length ≤ n → p ≤ r →
    ((List.range' p n).zip L).lookup r = L[r - p]?
  | 0, p, L, hl, _ => by
    have : L = [] := List.length_eq_zero_iff.1 (by omega)
    subst this; simp
  | n + 1, p, [], _, _ => by simp
  | n + 1, p, x :: L, hl, hp => by
    rw [List.range'_succ, List.zip_cons_cons, List.lookup_cons]
    by_cases h : r = p
    · subst h; simp
    · rw [show (r == p) = false from by simpa using h]
      simp only [List.length_cons] at hl
      have := lookup_range' r n (p + 1) L (by omega) (by omega)
      simp only
      rw [this]
      have : r - p = (r - (p + 1)) + 1 := by omega
      rw [this, List.getElem?_cons_succ]

theorem lookup_range {α : Type} (r n : Nat) (L : List α) (hl : L.length ≤ n) :
    ((List.range n).zip L).lookup r = L[r]? := by
  rw [List.range_eq_range', lookup_range' r n 0 L hl (Nat.zero_le _), Nat.sub_zero]

/-! ### One command -/

/-- The registers of the decoder hold the values which the registers of the file hold. -/
structure Rel (c : Circ W E) (D : W → Den E) (val : W → V Nat) (f : Srt → Nat → Content)
    (m : Decoder.Regs Reg Nat) : Prop where
  clean : ∀ s r, f s r = .clean → get m s (s, r) = fresh s
  holds : ∀ s r v, f s r = .holds v → ∀ w ∈ produced c, (D w).reg s = [v] → get m s (s, r) = val w

section
variable {cfg : Cfg T Reg} {c : Circ W E} {ty : W → T} {D : W → Den E} {num : E → Nat} {val : W → V Nat}
  {f : Srt → Nat → Content} {m : Decoder.Regs Reg Nat}

/-- What is known about the region. -/
structure Setup (cfg : Cfg T Reg) (c : Circ W E) (ty : W → T) (num : E → Nat) (D : W → Den E)
    (val : W → V Nat) : Prop where
  simple : cfg.Simple
  fits : Fits cfg c ty
  isVal : IsVal c D
  ord : Ordered c
  plain : ∀ it ∈ c.items, Plain cfg c ty it
  flow : IsFlow cfg c ty num D val

theorem Rel.read (hS : Setup cfg c ty num D val) (hR : Rel c D val f m) {s : Srt} {r : Nat} {w : W} {v : Val}
    (hw : w ∈ produced c) (hv : (D w).reg s = [v]) (hm : Matches True (f s r) v) :
    get m s (s, r) = val w := by
  rcases origin hS.fits hS.isVal hS.plain hw hv with ⟨k, rfl⟩ | ⟨n, k, rfl⟩ | ⟨it, hit, hk, hwo, rfl⟩
  · exact hR.holds s r _ hm w hw hv
  · exact hR.holds s r _ hm w hw hv
  · rw [hS.flow.alloc it hit s hk w hwo]
    exact hR.clean s r (hm trivial)

theorem Rel.readAll (hS : Setup cfg c ty num D val) (hR : Rel c D val f m) {s : Srt} : ∀ {a : List Nat}
    {ws : List W}, (∀ w ∈ ws, w ∈ produced c ∧ (c.cnt w).reg s = 1) →
    List.Forall₂ (fun r v => Matches True (f s r) v) a (ws.map (v1 D s)) →
    (a.map (Prod.mk s)).map (get m s) = ws.map val
  | [], [], _, _ => rfl
  | r :: a, w :: ws, hw, h => by
    rw [List.map_cons, List.map_cons, List.map_cons]
    cases h with
    | cons h1 h2 =>
      have hw0 := hw w List.mem_cons_self
      rw [hR.read hS hw0.1 (reg_one hS.isVal hw0.2) h1,
        hR.readAll hS (fun x hx => hw x (List.mem_cons_of_mem _ hx)) h2]

theorem tg_vals (hf : Fits cfg c ty) (hD : IsVal c D) (s : Srt) (p : Nat) (ws : List W) :
    ws.flatMap (fun w => (D w).reg s) = (tg c s p ws).map fun x => v1 D s x.1 := by
  rw [flatMap_reg hf hD, ← tg_fst c s ws p, List.map_map]
  rfl

theorem qs_eq {sigIn sigOut : Nat → List T} {n : Nat} (cmd : Encoder.Cmd E)
    (hb : ∀ r ∈ cmd.args .bit, r < n) :
    (command sigIn sigOut num cmd).qs ((List.range n).map (Prod.mk Srt.bit)) =
        (cmd.args .qubit).map (Prod.mk .qubit) ∧
      (command sigIn sigOut num cmd).bs ((List.range n).map (Prod.mk Srt.bit)) =
        (cmd.args .bit).map (Prod.mk .bit) := by
  unfold Decoder.Cmd.qs Decoder.Cmd.bs command
  simp only [List.filter_append]
  have h1 : ∀ x ∈ (cmd.args .qubit).map (Prod.mk Srt.qubit), x ∉ (List.range n).map (Prod.mk Srt.bit) := by
    intro x hx hx'
    obtain ⟨a, _, rfl⟩ := List.mem_map.1 hx
    obtain ⟨b, _, h⟩ := List.mem_map.1 hx'
    cases h
  have h2 : ∀ x ∈ (cmd.args .bit).map (Prod.mk Srt.bit), x ∈ (List.range n).map (Prod.mk Srt.bit) := by
    intro x hx
    obtain ⟨a, ha, rfl⟩ := List.mem_map.1 hx
    exact List.mem_map.2 ⟨a, List.mem_range.2 (hb a ha), rfl⟩
  constructor
  · rw [List.filter_eq_self.2 (fun x hx => by simpa using h1 x hx),
      List.filter_eq_nil_iff.2 (fun x hx => by simpa using h2 x hx), List.append_nil]
  · rw [List.filter_eq_nil_iff.2 (fun x hx => by simpa using h1 x hx),
      List.filter_eq_self.2 (fun x hx => by simpa using h2 x hx), List.nil_append]

/-- The arguments of the command of a plain gate. -/
theorem step_args (hS : Setup cfg c ty num D val) {g : Srt → Nat → Content} {cmd : Encoder.Cmd E} {it : Item W E}
    (hit : it ∈ c.items) (hk : it.kind = .gate) (hst : ∀ s, Step D s True (g s) cmd it) :
    (cmd.args .qubit).length = c.total it.ins .qubit ∧ (cmd.args .bit).length = c.total it.outs .bit ∧
      ∀ s, (cmd.args s).Nodup := by
  have hpl := hS.plain it hit
  unfold Plain at hpl
  simp only [hk] at hpl
  have hin : ∀ s, (it.inVals D s).length = c.total it.ins s := fun s => by
    unfold Encoder.Item.inVals
    rw [flatMap_reg hS.fits hS.isVal, List.length_map, total_eq hS.fits]
  have hout : ∀ s, (it.outVals D s).length = c.total it.outs s := fun s => by
    unfold Encoder.Item.outVals
    rw [flatMap_reg hS.fits hS.isVal, List.length_map, total_eq hS.fits]
  have q1 := (hst .qubit).length
  have q2 := (hst .qubit).writes
  have b1 := (hst .bit).length
  have b2 := (hst .bit).writes
  rw [hin, hout] at q1 b1
  rw [hout] at q2 b2
  refine ⟨by omega, by omega, fun s => ?_⟩
  cases s with
  | qubit => exact (hst .qubit).distinct (.inl rfl)
  | bit =>
    by_cases h0 : it.outVals D .bit = []
    · have := hout .bit
      rw [h0] at this
      simp only [List.length_nil] at this
      have : cmd.args .bit = [] := List.length_eq_zero_iff.1 (by omega)
      rw [this]
      exact List.nodup_nil
    · exact (hst .bit).distinct (.inr h0)

/-- The values a command receives are those which its operation receives. -/
theorem command_reads (hS : Setup cfg c ty num D val) (hR : Rel c D val f m) {sigIn sigOut : Nat → List T}
    {n : Nat} {cmd : Encoder.Cmd E} {it : Item W E} (hit : it ∈ c.items) (hk : it.kind = .gate)
    (hins : ∀ w ∈ it.ins, w ∈ produced c) (hsig : sigIn it.id = it.ins.map ty)
    (hst : ∀ s, Step D s True (f s) cmd it) (hpar : cmd.params = it.inParams D)
    (hb : ∀ r ∈ cmd.args .bit, r < n) :
    (command sigIn sigOut num cmd).reads cfg ((List.range n).map (Prod.mk Srt.bit)) m = it.ins.map val := by
  have hpl := hS.plain it hit
  unfold Plain at hpl
  simp only [hk] at hpl
  unfold Decoder.Cmd.reads
  rw [(qs_eq cmd hb).1, (qs_eq cmd hb).2]
  have hnode : (command sigIn sigOut num cmd).nodeIn cfg ((List.range n).map (Prod.mk Srt.bit)) =
      it.ins.map ty := by
    show sigIn cmd.node = _
    rw [(hst .qubit).node, hsig]
  rw [hnode]
  refine feed_val hS.simple hS.fits hS.isVal hS.flow.par it.ins _ _ _ ?_ ?_ ?_
  · obtain ⟨a, b, h1, h2⟩ := (hst .qubit).reads
    rw [h1, List.map_append, List.map_append]
    unfold Encoder.Item.inVals at h2
    rw [flatMap_reg hS.fits hS.isVal] at h2
    rw [show m.q = get m .qubit from rfl, hR.readAll hS (fun w hw => by
      unfold sel at hw
      rw [List.mem_filter] at hw
      exact ⟨hins w hw.1, by simpa using hw.2⟩) h2]
    exact List.prefix_append _ _
  · have : sel c .bit it.ins = [] :=
      List.length_eq_zero_iff.1 ((total_eq hS.fits .bit it.ins).symm.trans hpl.2.1)
    rw [this]
    exact List.nil_prefix
  · show _ <+: cmd.params.map num
    rw [hpar]
    exact List.prefix_refl _

/-- A command leaves in the registers what its operation produces. -/
theorem command_step (hS : Setup cfg c ty num D val) (hR : Rel c D val f m) {sigIn sigOut : Nat → List T}
    {n : Nat} {cmd : Encoder.Cmd E} {it : Item W E} (hit : it ∈ c.items) (hk : it.kind = .gate)
    (hins : ∀ w ∈ it.ins, w ∈ produced c) (hsig : sigIn it.id = it.ins.map ty)
    (hsig' : sigOut it.id = it.outs.map ty)
    (hst : ∀ s, Step D s True (f s) cmd it) (hpar : cmd.params = it.inParams D)
    (hb : ∀ r ∈ cmd.args .bit, r < n) :
    Rel c D val (fun s => Encoder.write s (f s) (cmd.args s) (it.outVals D s))
      ((command sigIn sigOut num cmd).step cfg ((List.range n).map (Prod.mk Srt.bit)) m) := by
  have hreads := command_reads (sigOut := sigOut) hS hR hit hk hins hsig hst hpar hb
  have hno : (command sigIn sigOut num cmd).nodeOut cfg ((List.range n).map (Prod.mk Srt.bit)) =
      it.outs.map ty := by
    show sigOut cmd.node = _
    rw [(hst .qubit).node, hsig']
  obtain ⟨_, _, hnd⟩ := step_args hS hit hk hst
  have hget : ∀ s r, get ((command sigIn sigOut num cmd).step cfg ((List.range n).map (Prod.mk Srt.bit)) m) s
      (s, r) = match ((cmd.args s).zip (tg c s 0 it.outs)).lookup r with
        | some x => .out it.id x.2 (it.ins.map val)
        | none => get m s (s, r) := by
    intro s r
    unfold Decoder.Cmd.step
    rw [hno, (qs_eq cmd hb).1, (qs_eq cmd hb).2, hreads]
    have := assign_get hS.simple hS.fits
      (fun port => .out (command sigIn sigOut num cmd).label port (it.ins.map val)) it.outs 0 m
      (fun s => (cmd.args s).map (Prod.mk s)) s
      (List.Nodup.map (fun a b h => by simpa using h) (hnd s)) (s, r)
    rw [lookup_zip_left] at this
    have hl : (command sigIn sigOut num cmd).label = it.id := (hst .qubit).node
    rw [hl] at this ⊢
    exact this
  have hw : ∀ s r, Encoder.write s (f s) (cmd.args s) (it.outVals D s) r =
      match ((cmd.args s).zip (tg c s 0 it.outs)).lookup r with
        | some x => .holds (v1 D s x.1)
        | none => if s = .qubit ∧ r ∈ cmd.args s then .junk else f s r := by
    intro s r
    unfold Encoder.write
    have : it.outVals D s = (tg c s 0 it.outs).map fun x => v1 D s x.1 := tg_vals hS.fits hS.isVal s 0 _
    rw [this, lookup_zip_right]
    cases ((cmd.args s).zip (tg c s 0 it.outs)).lookup r <;> rfl
  constructor
  · intro s r h
    rw [hget]
    simp only [hw] at h
    cases hl : ((cmd.args s).zip (tg c s 0 it.outs)).lookup r with
    | some x => rw [hl] at h; cases h
    | none =>
      rw [hl] at h
      simp only at h ⊢
      split at h
      · cases h
      · exact hR.clean s r h
  · intro s r v h w hwp hv
    rw [hget]
    simp only [hw] at h
    cases hl : ((cmd.args s).zip (tg c s 0 it.outs)).lookup r with
    | some x =>
      rw [hl] at h
      simp only at h ⊢
      cases h
      obtain ⟨h1, h2⟩ := mem_tg (lookup_mem hl)
      have hx : x.1 ∈ produced c := List.mem_append_right _
        (List.mem_flatMap.2 ⟨it, hit, List.mem_of_getElem? h2⟩)
      have := unique_wire hS.fits hS.isVal hS.ord hS.plain hwp hx hv (reg_one hS.isVal h1)
      rw [this, hS.flow.gate it hit hk x.2 x.1 h2]
    | none =>
      rw [hl] at h
      simp only at h ⊢
      split at h
      · cases h
      · exact hR.holds s r v h w hwp hv

/-- The command fits its operation. -/
theorem command_ok (hS : Setup cfg c ty num D val) {sigIn sigOut : Nat → List T} {g : Srt → Nat → Content}
    {nq n : Nat} {cmd : Encoder.Cmd E} {it : Item W E} (hit : it ∈ c.items) (hk : it.kind = .gate)
    (hsig : sigIn it.id = it.ins.map ty) (hsig' : sigOut it.id = it.outs.map ty)
    (hst : ∀ s, Step D s True (g s) cmd it) (hpar : cmd.params = it.inParams D)
    (hq : ∀ r ∈ cmd.args .qubit, r < nq) (hb : ∀ r ∈ cmd.args .bit, r < n) :
    (command sigIn sigOut num cmd).Ok cfg ((List.range nq).map (Prod.mk Srt.qubit))
      ((List.range n).map (Prod.mk Srt.bit)) := by
  have hpl := hS.plain it hit
  unfold Plain at hpl
  simp only [hk] at hpl
  obtain ⟨l1, l2, hnd⟩ := step_args hS hit hk hst
  have hnode := (hst .qubit).node
  have e1 : (command sigIn sigOut num cmd).sigIn = it.ins.map ty := by
    show sigIn cmd.node = _
    rw [hnode, hsig]
  have e2 : (command sigIn sigOut num cmd).sigOut = it.outs.map ty := by
    show sigOut cmd.node = _
    rw [hnode, hsig']
  have e3 : (command sigIn sigOut num cmd).mode = .split 0 := rfl
  refine ⟨?_, ?_, ?_, ?_, ?_, ?_, ?_, ?_, ?_, ?_, ?_, ?_⟩
  · intro r hr
    rcases List.mem_append.1 hr with hr | hr
    · obtain ⟨a, ha, rfl⟩ := List.mem_map.1 hr
      exact .inl (List.mem_map.2 ⟨a, List.mem_range.2 (hq a ha), rfl⟩)
    · obtain ⟨a, ha, rfl⟩ := List.mem_map.1 hr
      exact .inr (List.mem_map.2 ⟨a, List.mem_range.2 (hb a ha), rfl⟩)
  · rw [(qs_eq cmd hb).1]
    exact List.Nodup.map (fun a b h => by simpa using h) (hnd .qubit)
  · rw [e1]; exact hpl.2.2.2
  · intro k hk'
    rw [e3] at hk'
    cases hk'
    exact Nat.zero_le _
  · intro r hr
    rw [e3] at hr
    simp [Decoder.Mode.readBits] at hr
  · intro _ t ht
    rw [e1] at ht
    obtain ⟨w, _, rfl⟩ := List.mem_map.1 ht
    rcases hS.fits w with h | h | h
    · exact .inl h.1
    · exact .inr (.inl h.1)
    · exact .inr (.inr h.1)
  · intro _
    rw [e1, countQ_eq hS.simple hS.fits, (qs_eq cmd hb).1, List.length_map, l1]
  · intro _
    rw [e1, countB_eq hS.simple hS.fits, e3, hpl.2.1]
    simp [Decoder.Mode.readBits]
  · intro _
    rw [e1, countP_eq hS.simple hS.fits]
    show _ = (cmd.params.map num).length
    rw [hpar, List.length_map]
    exact (lenP hS.isVal it.ins).symm
  · intro _
    rw [e2, countQ_eq hS.simple hS.fits, (qs_eq cmd hb).1, List.length_map, l1, hpl.1]
  · intro _
    rw [e2, countB_eq hS.simple hS.fits, e3, (qs_eq cmd hb).2]
    simp [Decoder.Mode.writeBits, l2]
  · intro _
    rw [e2, countP_eq hS.simple hS.fits, hpl.2.2.1]

/-! ### All commands -/

theorem run_all (hS : Setup cfg c ty num D val) {sigIn sigOut : Nat → List T} {nq n : Nat}
    (hsig : ∀ it ∈ c.items, it.kind = .gate → sigIn it.id = it.ins.map ty ∧ sigOut it.id = it.outs.map ty) :
    ∀ (cmds : List (Encoder.Cmd E)) (its : List (Item W E)) (f f' : Srt → Nat → Content)
      (m : Decoder.Regs Reg Nat), Rel c D val f m → (∀ s, Runs D s True (f s) cmds its (f' s)) →
      (∀ it ∈ its, it ∈ c.items ∧ it.kind = .gate ∧ ∀ w ∈ it.ins, w ∈ produced c) →
      List.Forall₂ (Encoder.Belongs D) cmds its →
      (∀ x ∈ cmds, (∀ r ∈ x.args .qubit, r < nq) ∧ ∀ r ∈ x.args .bit, r < n) →
      ∃ m', Decoder.runCmds cfg ((List.range n).map (Prod.mk Srt.bit)) m (cmds.map (command sigIn sigOut num)) =
          (its.map (receives val), m') ∧ Rel c D val f' m' ∧
        ∀ x ∈ cmds.map (command sigIn sigOut num), x.Ok cfg ((List.range nq).map (Prod.mk Srt.qubit))
          ((List.range n).map (Prod.mk Srt.bit))
  | [], its, f, f', m, hR, hr, _, hb, _ => by
    cases hb
    refine ⟨m, rfl, ?_, fun x hx => by cases hx⟩
    have : f = f' := funext fun s => by
      have h := hr s
      generalize f s = x at h ⊢
      generalize f' s = y at h ⊢
      cases h
      rfl
    exact this ▸ hR
  | cmd :: cmds, its, f, f', m, hR, hr, hits, hb, hargs => by
    cases hb with
    | @cons _ it _ its hb1 hb2 =>
      obtain ⟨hi1, hi2, hi3⟩ := hits it List.mem_cons_self
      have hst : ∀ s, Step D s True (f s) cmd it := fun s => by
        have := hr s
        cases this with
        | cons h _ => exact h
      have hrest : ∀ s, Runs D s True (Encoder.write s (f s) (cmd.args s) (it.outVals D s)) cmds its (f' s) :=
        fun s => by
          have := hr s
          cases this with
          | cons _ h => exact h
      have ha := hargs cmd List.mem_cons_self
      obtain ⟨g1, g2⟩ := hsig it hi1 hi2
      have hR' := command_step (sigOut := sigOut) hS hR hi1 hi2 hi3 g1 g2 hst hb1.2 ha.2
      obtain ⟨m', e1, e2, e3⟩ := run_all hS hsig cmds its _ f' _ hR' hrest
        (fun i hi => hits i (List.mem_cons_of_mem _ hi)) hb2
        (fun x hx => hargs x (List.mem_cons_of_mem _ hx))
      refine ⟨m', ?_, e2, ?_⟩
      · rw [List.map_cons, List.map_cons]
        unfold Decoder.runCmds
        rw [e1, command_reads (sigOut := sigOut) hS hR hi1 hi2 hi3 g1 hst hb1.2 ha.2]
        have hl : (command sigIn sigOut num cmd).label = it.id := hb1.1
        rw [hl]
        rfl
      · intro x hx
        rw [List.map_cons] at hx
        rcases List.mem_cons.1 hx with rfl | hx
        · exact command_ok hS hi1 hi2 g1 g2 hst hb1.2 ha.1 ha.2
        · exact e3 x hx

/-! ### The start -/

theorem start_rel (hS : Setup cfg c ty num D val) {k : Decoder.Circ T Reg Nat} {sz : Srt → Nat}
    (hq : k.qubits = (List.range (sz .qubit)).map (Prod.mk .qubit))
    (hb : k.bits = (List.range (sz .bit)).map (Prod.mk .bit)) (hin : k.sigIn = c.inputs.map ty)
    (hsz : ∀ s, c.total c.inputs s ≤ sz s) :
    Rel c D val (Encoder.initFile c) (Decoder.startRegs cfg k) := by
  have hget : ∀ s r, get (Decoder.startRegs cfg k) s (s, r) =
      match (tg c s 0 c.inputs)[r]? with
        | some x => .inp x.2
        | none => fresh s := by
    intro s r
    unfold Decoder.startRegs
    rw [hin, hq, hb]
    have := assign_get hS.simple hS.fits .inp c.inputs 0 ⟨fun _ => .zero, fun _ => .ff⟩
      (fun s => (List.range (sz s)).map (Prod.mk s)) s
      (List.Nodup.map (fun a b h => by simpa using h) List.nodup_range) (s, r)
    rw [lookup_zip_left, lookup_range] at this
    · rw [this]
      cases (tg c s 0 c.inputs)[r]? <;> cases s <;> rfl
    · have h0 := congrArg List.length (tg_fst c s c.inputs 0)
      rw [List.length_map, ← total_eq hS.fits] at h0
      rw [h0]
      exact hsz s
  have hlen : ∀ s, (tg c s 0 c.inputs).length = c.total c.inputs s := fun s => by
    have h0 := congrArg List.length (tg_fst c s c.inputs 0)
    rwa [List.length_map, ← total_eq hS.fits] at h0
  constructor
  · intro s r h
    rw [hget]
    unfold Encoder.initFile at h
    split at h
    · cases h
    rename_i hlt
    rw [List.getElem?_eq_none (by rw [hlen]; omega)]
  · intro s r v h w hw hv
    rw [hget]
    unfold Encoder.initFile at h
    split at h
    · rename_i hlt
      cases h
      have hr : r < (tg c s 0 c.inputs).length := by rw [hlen]; exact hlt
      rw [List.getElem?_eq_getElem hr]
      simp only
      obtain ⟨h1, h2⟩ := mem_tg (List.getElem_mem hr)
      have h3 := hS.isVal.inputs s
      rw [tg_vals hS.fits hS.isVal s 0] at h3
      have h4 := congrArg (fun l => l[r]?) h3
      simp only [List.getElem?_map, List.getElem?_eq_getElem hr, List.getElem?_range hlt, Option.map_some,
        Option.some.injEq] at h4
      have h5 := unique_wire hS.fits hS.isVal hS.ord hS.plain hw
        (List.mem_append_left _ (List.mem_of_getElem? h2)) hv (by rw [reg_one hS.isVal h1, h4])
      rw [h5]
      refine (hS.flow.inp _ _ h2 ?_).symm
      rcases hS.fits (tg c s 0 c.inputs)[r].1 with h | h | h
      · rw [h.1, param_qb hS.simple]
      · rcases h.1 with h1 | h1
        · rw [h1, param_bool hS.simple]
        · rw [h1, param_tbool hS.simple]
      · cases s <;> omega
    · cases h

/-! ### Wires are produced before they are used -/

theorem needAll_avail : ∀ (ws : List W) (st st' : Front W E), st.pend = [] →
    Front.needAll ws st = some st' → st' = st ∧ ∀ w ∈ ws, w ∈ st.avail
  | [], st, st', _, h => by cases h; exact ⟨rfl, fun w hw => by cases hw⟩
  | w :: ws, st, st', hp, h => by
    unfold Front.needAll Front.need at h
    split at h
    · cases h
    rename_i st1 h1
    split at h1
    · rename_i hw
      cases h1
      obtain ⟨e1, e2⟩ := needAll_avail ws st st' hp h
      exact ⟨e1, fun x hx => by
        rcases List.mem_cons.1 hx with rfl | hx
        · exact hw
        · exact e2 x hx⟩
    · rw [hp] at h1
      simp at h1

theorem front_produced : ∀ (its : List (Item W E)) (st st' : Front W E), st.pend = [] →
    (∀ it ∈ its, it.kind ≠ .group) → Front.items its st = some st' →
    st'.pend = [] ∧ (∀ w ∈ st'.avail, w ∈ st.avail ++ its.flatMap (·.outs)) ∧
      ∀ it ∈ its, it.kind = .gate → ∀ w ∈ it.ins, w ∈ st.avail ++ its.flatMap (·.outs)
  | [], st, st', hp, _, h => by
    cases h
    exact ⟨hp, fun w hw => by simpa using hw, fun it hit => by cases hit⟩
  | it :: its, st, st', hp, hng, h => by
    unfold Front.items at h
    split at h
    · cases h
    rename_i st1 h1
    have hst1 : st1.pend = [] ∧ (∀ w ∈ st1.avail, w ∈ it.outs ++ st.avail) ∧
        (it.kind = .gate → ∀ w ∈ it.ins, w ∈ st.avail) := by
      unfold Front.item at h1
      have hg := hng it List.mem_cons_self
      cases hk : it.kind with
      | group => exact absurd hk hg
      | free =>
        simp only [hk] at h1
        cases h1
        exact ⟨hp, fun w hw => List.mem_append_right _ hw, fun h => by cases h⟩
      | alloc s =>
        simp only [hk] at h1
        cases h1
        exact ⟨hp, fun w hw => hw, fun h => by cases h⟩
      | gate =>
        simp only [hk] at h1
        split at h1
        · cases h1
        rename_i st2 h2
        cases h1
        obtain ⟨rfl, e2⟩ := needAll_avail _ _ _ hp h2
        exact ⟨hp, fun w hw => hw, fun _ => e2⟩
      | transparent =>
        simp only [hk] at h1
        split at h1
        · cases h1
        rename_i st2 h2
        cases h1
        obtain ⟨rfl, e2⟩ := needAll_avail _ _ _ hp h2
        exact ⟨hp, fun w hw => hw, fun _ => e2⟩
      | dup =>
        simp only [hk] at h1
        split at h1
        · cases h1
        rename_i st2 h2
        cases h1
        obtain ⟨rfl, e2⟩ := needAll_avail _ _ _ hp h2
        exact ⟨hp, fun w hw => hw, fun _ => e2⟩
    obtain ⟨i1, i2, i3⟩ := front_produced its st1 st' hst1.1
      (fun i hi => hng i (List.mem_cons_of_mem _ hi)) h
    have hsub : ∀ w ∈ st1.avail ++ its.flatMap (·.outs),
        w ∈ st.avail ++ (it :: its).flatMap (·.outs) := by
      intro w hw
      rw [List.flatMap_cons]
      simp only [List.mem_append] at hw ⊢
      rcases hw with hw | hw
      · rcases List.mem_append.1 (hst1.2.1 w hw) with hw | hw
        · exact .inr (.inl hw)
        · exact .inl hw
      · exact .inr (.inr hw)
    refine ⟨i1, fun w hw => hsub w (i2 w hw), fun i hi hk w hw => ?_⟩
    rcases List.mem_cons.1 hi with rfl | hi
    · exact List.mem_append_left _ (hst1.2.2 hk w hw)
    · exact hsub w (i3 i hi hk w hw)

theorem all_produced (hO : Ordered c) (hng : ∀ it ∈ c.items, it.kind ≠ .group) :
    (∀ it ∈ c.items, it.kind = .gate → ∀ w ∈ it.ins, w ∈ produced c) ∧
      ∀ w ∈ c.outputs, w ∈ produced c := by
  obtain ⟨st, h1, h2⟩ := hO.topo
  obtain ⟨a, b, d⟩ := front_produced c.items ⟨c.inputs, []⟩ st rfl hng h1
  refine ⟨d, fun w hw => ?_⟩
  rcases h2 w hw with h | ⟨g, hg, _⟩
  · exact b w h
  · rw [a] at hg; cases hg

end

end Verif.RoundTrip
