import Verif.Model.RoundTrip
import Verif.Model.RoundTripSpec
import Verif.Lemmas.EncoderBound
import Verif.Lemmas.Registers
import Mathlib.Data.List.Nodup

/-!
# Lemmas about the round trip
-/

set_option linter.unusedSectionVars false

namespace Verif.RoundTrip

open Verif.Encoder (Srt Circ Item Den Kind Val Content IsVal Ordered Enc Step Runs Matches Front)
open Verif.Decoder (V Cfg)

variable {W E T : Type} [DecidableEq W] [DecidableEq T]

/-- The wires of a region that carry registers of the sort. -/
def sel (c : Circ W E) (s : Srt) (ws : List W) : List W := ws.filter fun w => (c.cnt w).reg s = 1

/-- The same with their ports. -/
def tg (c : Circ W E) (s : Srt) (p : Nat) (ws : List W) : List (W × Nat) :=
  (ws.zipIdx p).filter fun x => (c.cnt x.1).reg s = 1

theorem tg_cons (c : Circ W E) (s : Srt) (p : Nat) (w : W) (ws : List W) :
    tg c s p (w :: ws) = if (c.cnt w).reg s = 1 then (w, p) :: tg c s (p + 1) ws else tg c s (p + 1) ws := by
  unfold tg
  rw [List.zipIdx_cons, List.filter_cons]
  simp

theorem sel_cons (c : Circ W E) (s : Srt) (w : W) (ws : List W) :
    sel c s (w :: ws) = if (c.cnt w).reg s = 1 then w :: sel c s ws else sel c s ws := by
  unfold sel
  rw [List.filter_cons]
  simp

theorem tg_fst (c : Circ W E) (s : Srt) : ∀ (ws : List W) (p : Nat), (tg c s p ws).map Prod.fst = sel c s ws
  | [], _ => rfl
  | w :: ws, p => by
    rw [tg_cons, sel_cons]
    split <;> simp [tg_fst c s ws]

theorem mem_tg {c : Circ W E} {s : Srt} {ws : List W} {x : W × Nat} (h : x ∈ tg c s 0 ws) :
    (c.cnt x.1).reg s = 1 ∧ ws[x.2]? = some x.1 := by
  unfold tg at h
  rw [List.mem_filter] at h
  refine ⟨by simpa using h.2, ?_⟩
  have := List.mem_zipIdx_iff_getElem?.1 h.1
  simpa using this

/-- The value of a wire with one register. -/
def v1 (D : W → Den E) (s : Srt) (w : W) : Val := ((D w).reg s).headD (.zero 0)

section Fits
variable {cfg : Cfg T Reg} {c : Circ W E} {ty : W → T} {D : W → Den E}

theorem Fits.reg (hf : Fits cfg c ty) (w : W) (s : Srt) : (c.cnt w).reg s = 0 ∨ (c.cnt w).reg s = 1 := by
  rcases hf w with h | h | h <;> cases s <;> omega

theorem reg_one (hD : IsVal c D) {w : W} {s : Srt} (h : (c.cnt w).reg s = 1) : (D w).reg s = [v1 D s w] := by
  have := hD.width w s
  rw [h] at this
  obtain ⟨v, hv⟩ := List.length_eq_one_iff.1 this
  simp [v1, hv]

theorem reg_zero (hD : IsVal c D) {w : W} {s : Srt} (h : (c.cnt w).reg s = 0) : (D w).reg s = [] := by
  have := hD.width w s
  rw [h] at this
  exact List.length_eq_zero_iff.1 this

theorem flatMap_reg (hf : Fits cfg c ty) (hD : IsVal c D) (s : Srt) : ∀ ws : List W,
    ws.flatMap (fun w => (D w).reg s) = (sel c s ws).map (v1 D s)
  | [] => rfl
  | w :: ws => by
    rw [sel_cons, List.flatMap_cons, flatMap_reg hf hD s ws]
    rcases hf.reg w s with h | h
    · rw [reg_zero hD h]; simp [h]
    · rw [reg_one hD h]; simp [h]

theorem total_eq (hf : Fits cfg c ty) (s : Srt) : ∀ ws : List W, c.total ws s = (sel c s ws).length
  | [] => rfl
  | w :: ws => by
    rw [sel_cons]
    have e0 : c.total (w :: ws) s = (c.cnt w).reg s + c.total ws s := by simp [Circ.total]
    rw [e0, total_eq hf s ws]
    rcases hf.reg w s with h | h <;> simp [h] <;> omega

theorem countQ_eq (hs : cfg.Simple) (hf : Fits cfg c ty) : ∀ ws : List W,
    cfg.countQ (ws.map ty) = c.total ws .qubit
  | [] => rfl
  | w :: ws => by
    have ih := countQ_eq hs hf ws
    simp only [Decoder.Cfg.countQ, Circ.total, List.map_cons, List.sum_cons] at ih ⊢
    have h0 : cfg.qubits (ty w) = (c.cnt w).reg .qubit := by
      rcases hf w with h | h | h
      · rw [h.1, hs.qb_q, h.2.1]
      · rcases h.1 with h1 | h1
        · rw [h1, hs.bool_q, h.2.1]
        · rw [h1, hs.tbool_q, h.2.1]
      · have := hs.param _ h.1
        simp [Decoder.Cfg.supported] at this
        omega
    omega

theorem countB_eq (hs : cfg.Simple) (hf : Fits cfg c ty) : ∀ ws : List W,
    cfg.countB (ws.map ty) = c.total ws .bit
  | [] => rfl
  | w :: ws => by
    have ih := countB_eq hs hf ws
    simp only [Decoder.Cfg.countB, Circ.total, List.map_cons, List.sum_cons] at ih ⊢
    have h0 : cfg.bits (ty w) = (c.cnt w).reg .bit := by
      rcases hf w with h | h | h
      · rw [h.1, hs.qb_b, h.2.2.1]
      · rcases h.1 with h1 | h1
        · rw [h1, hs.bool_b, h.2.2.1]
        · rw [h1, hs.tbool_b, h.2.2.1]
      · have := hs.param _ h.1
        simp [Decoder.Cfg.supported] at this
        omega
    omega

theorem param_qb (hs : cfg.Simple) : cfg.param cfg.qb = false := by
  cases h : cfg.param cfg.qb
  · rfl
  · have := hs.param _ h
    simp [Decoder.Cfg.supported, hs.qb_q] at this

theorem param_bool (hs : cfg.Simple) : cfg.param cfg.bool = false := by
  cases h : cfg.param cfg.bool
  · rfl
  · have := hs.param _ h
    simp [Decoder.Cfg.supported, hs.bool_b] at this

theorem param_tbool (hs : cfg.Simple) : cfg.param cfg.tbool = false := by
  cases h : cfg.param cfg.tbool
  · rfl
  · have := hs.param _ h
    simp [Decoder.Cfg.supported, hs.tbool_b] at this

theorem qb_ne_bool (hs : cfg.Simple) : cfg.qb ≠ cfg.bool := fun h => by
  have := hs.qb_q; rw [h, hs.bool_q] at this; omega

theorem qb_ne_tbool (hs : cfg.Simple) : cfg.qb ≠ cfg.tbool := fun h => by
  have := hs.qb_q; rw [h, hs.tbool_q] at this; omega

theorem countP_eq (hs : cfg.Simple) (hf : Fits cfg c ty) : ∀ ws : List W,
    cfg.countP (ws.map ty) = c.totalP ws
  | [] => rfl
  | w :: ws => by
    have ih := countP_eq hs hf ws
    simp only [Decoder.Cfg.countP, Circ.totalP, List.map_cons, List.sum_cons, List.countP_cons] at ih ⊢
    have h0 : (if cfg.param (ty w) = true then 1 else 0) = (c.cnt w).params := by
      rcases hf w with h | h | h
      · rw [h.1, param_qb hs, h.2.2.2]; rfl
      · rcases h.1 with h1 | h1
        · rw [h1, param_bool hs, h.2.2.2]; rfl
        · rw [h1, param_tbool hs, h.2.2.2]; rfl
      · simp [h.1, h.2.2.2]
    omega

theorem lenP (hD : IsVal c D) : ∀ ws : List W, (ws.flatMap fun w => (D w).params).length = c.totalP ws
  | [] => rfl
  | w :: ws => by
    have ih := lenP hD ws
    have := hD.widthP w
    simp only [List.flatMap_cons, List.length_append, Circ.totalP, List.map_cons, List.sum_cons] at ih ⊢
    omega

/-! ### Assigning and feeding ports -/

/-- The registers of one sort. -/
def get (m : Decoder.Regs Reg Nat) : Srt → Reg → V Nat
  | .qubit => m.q
  | .bit => m.b

theorem assign_get (hs : cfg.Simple) (hf : Fits cfg c ty) (g : Nat → V Nat) :
    ∀ (os : List W) (p : Nat) (m : Decoder.Regs Reg Nat) (args : Srt → List Reg) (s : Srt),
      (args s).Nodup → ∀ r,
      get (Decoder.assign cfg g m p (os.map ty) (args .qubit) (args .bit)) s r =
        match ((args s).zip (tg c s p os)).lookup r with
        | some x => g x.2
        | none => get m s r
  | [], p, m, args, s, _, r => by simp [Decoder.assign, tg]
  | w :: os, p, m, args, s, hn, r => by
    have key : ∀ (m' : Decoder.Regs Reg Nat) (args' : Srt → List Reg), (args' s).Nodup → _ :=
      fun m' args' hn' => assign_get hs hf g os (p + 1) m' args' s hn' r
    rw [List.map_cons, tg_cons]
    unfold Decoder.assign
    rcases hf w with h | h | h
    · rw [if_pos h.1]
      cases hq : args .qubit with
      | nil =>
        have k0 := key m args hn
        rw [hq] at k0
        simp only
        rw [k0]
        cases s with
        | qubit => simp [hq]
        | bit => rw [if_neg (by rw [h.2.2.1]; decide)]
      | cons q qs =>
        have k0 := key { m with q := Decoder.setReg m.q q (g p) }
          (fun s => match s with | .qubit => qs | .bit => args .bit) (by
            cases s with
            | qubit => rw [hq] at hn; exact (List.nodup_cons.1 hn).2
            | bit => exact hn)
        simp only at k0 ⊢
        rw [k0]
        cases s with
        | bit => rw [if_neg (by rw [h.2.2.1]; decide)]; rfl
        | qubit =>
          rw [if_pos h.2.1, hq]
          simp only [List.zip_cons_cons, List.lookup_cons]
          rw [hq] at hn
          by_cases hr : r = q
          · subst hr
            have hno : (qs.zip (tg c .qubit (p + 1) os)).lookup r = none := by
              rw [List.lookup_eq_none_iff]
              intro x hx
              have := (List.of_mem_zip hx).1
              simp only [bne_iff_ne, ne_eq]
              rintro rfl
              exact (List.nodup_cons.1 hn).1 this
            rw [hno]
            simp [get, Decoder.setReg]
          · rw [show (r == q) = false from by simpa using hr]
            simp only
            cases ((qs.zip (tg c .qubit (p + 1) os)).lookup r) <;> simp [get, Decoder.setReg, hr]
    · have hne : ty w ≠ cfg.qb := by
        rintro h0
        rcases h.1 with h1 | h1
        · exact qb_ne_bool hs (h0.symm.trans h1)
        · exact qb_ne_tbool hs (h0.symm.trans h1)
      rw [if_neg hne, if_pos h.1]
      cases hq : args .bit with
      | nil =>
        have k0 := key m args hn
        rw [hq] at k0
        simp only
        rw [k0]
        cases s with
        | bit => simp [hq]
        | qubit => rw [if_neg (by rw [h.2.1]; decide)]
      | cons q qs =>
        have k0 := key { m with b := Decoder.setReg m.b q (g p) }
          (fun s => match s with | .bit => qs | .qubit => args .qubit) (by
            cases s with
            | bit => rw [hq] at hn; exact (List.nodup_cons.1 hn).2
            | qubit => exact hn)
        simp only at k0 ⊢
        rw [k0]
        cases s with
        | qubit => rw [if_neg (by rw [h.2.1]; decide)]; rfl
        | bit =>
          rw [if_pos h.2.2.1, hq]
          simp only [List.zip_cons_cons, List.lookup_cons]
          rw [hq] at hn
          by_cases hr : r = q
          · subst hr
            have hno : (qs.zip (tg c .bit (p + 1) os)).lookup r = none := by
              rw [List.lookup_eq_none_iff]
              intro x hx
              have := (List.of_mem_zip hx).1
              simp only [bne_iff_ne, ne_eq]
              rintro rfl
              exact (List.nodup_cons.1 hn).1 this
            rw [hno]
            simp [get, Decoder.setReg]
          · rw [show (r == q) = false from by simpa using hr]
            simp only
            cases ((qs.zip (tg c .bit (p + 1) os)).lookup r) <;> simp [get, Decoder.setReg, hr]
    · have hne : ty w ≠ cfg.qb := by
        intro h0; rw [h0, param_qb hs] at h; simp at h
      have hne2 : ¬ (ty w = cfg.bool ∨ ty w = cfg.tbool) := by
        rintro (h0 | h0)
        · rw [h0, param_bool hs] at h; simp at h
        · rw [h0, param_tbool hs] at h; simp at h
      rw [if_neg hne, if_neg hne2, key m args hn, if_neg]
      cases s with
      | qubit => rw [h.2.1]; decide
      | bit => rw [h.2.2.1]; decide

theorem feed_val {num : E → Nat} {val : W → V Nat} (hs : cfg.Simple) (hf : Fits cfg c ty) (hD : IsVal c D)
    (hp : ∀ w e, cfg.param (ty w) = true → (D w).params = [e] → val w = .par (num e)) :
    ∀ (ws : List W) (Q B : List (V Nat)) (P : List Nat),
      (sel c .qubit ws).map val <+: Q → (sel c .bit ws).map val <+: B →
      ((ws.flatMap fun w => (D w).params).map num) <+: P →
      Decoder.feed cfg (ws.map ty) Q B P = ws.map val
  | [], _, _, _, _, _, _ => rfl
  | w :: ws, Q, B, P, hQ, hB, hP => by
    rw [List.map_cons, List.map_cons]
    rw [sel_cons] at hQ hB
    rw [List.flatMap_cons] at hP
    unfold Decoder.feed
    rcases hf w with h | h | h
    · rw [if_neg (by rw [h.1, param_qb hs]; decide), if_pos h.1]
      rw [if_pos h.2.1] at hQ
      rw [if_neg (by rw [h.2.2.1]; decide)] at hB
      have h0 : (D w).params = [] := List.length_eq_zero_iff.1 (by rw [hD.widthP, h.2.2.2])
      rw [h0] at hP
      obtain ⟨Q', rfl⟩ := hQ
      simp only [List.map_cons, List.cons_append, List.headD_cons, List.tail_cons]
      rw [feed_val hs hf hD hp ws _ B P (List.prefix_append _ _) hB (by simpa using hP)]
    · have hne : ty w ≠ cfg.qb := by
        rintro h0
        rcases h.1 with h1 | h1
        · exact qb_ne_bool hs (h0.symm.trans h1)
        · exact qb_ne_tbool hs (h0.symm.trans h1)
      have hnp : ¬ cfg.param (ty w) = true := by
        rcases h.1 with h1 | h1
        · rw [h1, param_bool hs]; decide
        · rw [h1, param_tbool hs]; decide
      rw [if_neg hnp, if_neg hne, if_pos h.1]
      rw [if_neg (by rw [h.2.1]; decide)] at hQ
      rw [if_pos h.2.2.1] at hB
      have h0 : (D w).params = [] := List.length_eq_zero_iff.1 (by rw [hD.widthP, h.2.2.2])
      rw [h0] at hP
      obtain ⟨B', rfl⟩ := hB
      simp only [List.map_cons, List.cons_append, List.headD_cons, List.tail_cons]
      rw [feed_val hs hf hD hp ws Q _ P hQ (List.prefix_append _ _) (by simpa using hP)]
    · rw [if_pos h.1]
      rw [if_neg (by rw [h.2.1]; decide)] at hQ
      rw [if_neg (by rw [h.2.2.1]; decide)] at hB
      obtain ⟨e, he⟩ := List.length_eq_one_iff.1 ((hD.widthP w).trans h.2.2.2)
      rw [he] at hP
      obtain ⟨P', rfl⟩ := hP
      simp only [List.map_cons, List.cons_append, List.nil_append, List.tail_cons]
      rw [feed_val hs hf hD hp ws Q B _ hQ hB (List.prefix_append _ _), hp w e h.1 he]

end Fits

/-! ### Every value is on one wire -/

/-- All wires of the region. -/
def produced (c : Circ W E) : List W := c.inputs ++ c.items.flatMap (·.outs)

section Unique
variable {cfg : Cfg T Reg} {c : Circ W E} {ty : W → T} {D : W → Den E}

theorem outVals_cases (hf : Fits cfg c ty) (hD : IsVal c D) (hp : ∀ it ∈ c.items, Plain cfg c ty it) (s : Srt) :
    ∀ it ∈ c.items, (it.outVals D s).Nodup ∧ ∀ v ∈ it.outVals D s,
      (it.kind = .gate ∧ ∃ k, v = .out it.id k) ∨ (it.kind = .alloc s ∧ v = .zero it.id) := by
  intro it hit
  have hm := hD.items it hit
  have hpl := hp it hit
  unfold Encoder.Item.Meaning at hm
  unfold Plain at hpl
  cases hk : it.kind with
  | gate =>
    simp only [hk] at hm
    rw [hm.1 s]
    refine ⟨List.Nodup.map (fun a b h => by simpa using h) List.nodup_range, fun v hv => ?_⟩
    obtain ⟨k, _, rfl⟩ := List.mem_map.1 hv
    exact .inl ⟨rfl, k, rfl⟩
  | group => simp only [hk] at hpl
  | dup => simp only [hk] at hpl
  | transparent =>
    simp only [hk] at hm hpl
    have : it.outVals D s = [] := by
      rw [hm.1 s]
      unfold Encoder.Item.inVals
      rw [flatMap_reg hf hD, List.map_eq_nil_iff]
      exact List.length_eq_zero_iff.1 ((total_eq hf s it.ins).symm.trans (hpl s))
    rw [this]
    exact ⟨List.nodup_nil, fun v hv => by cases hv⟩
  | alloc s' =>
    simp only [hk] at hm
    by_cases hss : s = s'
    · subst hss
      rw [hm.1]
      exact ⟨by simp, fun v hv => .inr ⟨rfl, by simpa using hv⟩⟩
    · rw [hm.2.1 s hss]
      exact ⟨List.nodup_nil, fun v hv => by cases hv⟩
  | free =>
    simp only [hk] at hm
    unfold Encoder.Item.outVals
    rw [hm]
    exact ⟨List.nodup_nil, fun v hv => by cases hv⟩

theorem items_nodup (hf : Fits cfg c ty) (hD : IsVal c D) (hp : ∀ it ∈ c.items, Plain cfg c ty it) (s : Srt) :
    ∀ its : List (Item W E), (∀ it ∈ its, it ∈ c.items) → (its.map (·.id)).Nodup →
      ((its.flatMap (·.outs)).flatMap fun w => (D w).reg s).Nodup ∧
        ∀ v ∈ (its.flatMap (·.outs)).flatMap (fun w => (D w).reg s), ∃ it ∈ its, v ∈ it.outVals D s
  | [], _, _ => ⟨by simp, fun v hv => by cases hv⟩
  | it :: its, hin, hid => by
    obtain ⟨h1, h2⟩ := items_nodup hf hD hp s its (fun i hi => hin i (List.mem_cons_of_mem _ hi))
      (List.nodup_cons.1 hid).2
    obtain ⟨h3, h4⟩ := outVals_cases hf hD hp s it (hin it List.mem_cons_self)
    rw [List.flatMap_cons, List.flatMap_append]
    refine ⟨List.nodup_append.2 ⟨h3, h1, ?_⟩, ?_⟩
    · intro v hv v' hv' heq
      subst heq
      obtain ⟨it', hit', hv'⟩ := h2 _ hv'
      have e1 := h4 v hv
      have e2 := (outVals_cases hf hD hp s it' (hin it' (List.mem_cons_of_mem _ hit'))).2 v hv'
      have hne : it.id ≠ it'.id := fun h =>
        (List.nodup_cons.1 hid).1 (List.mem_map.2 ⟨it', hit', h.symm⟩)
      rcases e1 with ⟨_, k, rfl⟩ | ⟨_, rfl⟩ <;> rcases e2 with ⟨_, k', h⟩ | ⟨_, h⟩
      · simp at h; exact hne h.1
      · cases h
      · cases h
      · simp at h; exact hne h
    · intro v hv
      rcases List.mem_append.1 hv with hv | hv
      · exact ⟨it, List.mem_cons_self, hv⟩
      · obtain ⟨i, hi, hv⟩ := h2 v hv
        exact ⟨i, List.mem_cons_of_mem _ hi, hv⟩

/-- Every value is carried by one wire only. -/
theorem unique_wire (hf : Fits cfg c ty) (hD : IsVal c D) (hO : Ordered c)
    (hp : ∀ it ∈ c.items, Plain cfg c ty it) {s : Srt} {w w' : W} {v : Val} (hw : w ∈ produced c)
    (hw' : w' ∈ produced c) (h : (D w).reg s = [v]) (h' : (D w').reg s = [v]) : w = w' := by
  have hall : ((produced c).flatMap fun w => (D w).reg s).Nodup := by
    obtain ⟨h1, h2⟩ := items_nodup hf hD hp s c.items (fun _ h => h) hO.ids
    unfold produced
    rw [List.flatMap_append, hD.inputs s]
    refine List.nodup_append.2 ⟨List.Nodup.map (fun a b h => by simpa using h) List.nodup_range, h1, ?_⟩
    intro v hv v' hv' heq
    subst heq
    obtain ⟨k, _, rfl⟩ := List.mem_map.1 hv
    obtain ⟨it, hit, hv'⟩ := h2 _ hv'
    rcases (outVals_cases hf hD hp s it hit).2 _ hv' with ⟨_, k', h⟩ | ⟨_, h⟩ <;> cases h
  by_contra hne
  have hpw := (List.nodup_flatMap.1 hall).2
  have : Std.Symm (Function.onFun List.Disjoint fun w => (D w).reg s) := ⟨fun a b hab => List.Disjoint.symm hab⟩
  have : List.Disjoint ((D w).reg s) ((D w').reg s) := hpw.forall hw hw' hne
  rw [h, h'] at this
  simp at this

/-- Where a value comes from. -/
theorem origin (hf : Fits cfg c ty) (hD : IsVal c D) (hp : ∀ it ∈ c.items, Plain cfg c ty it)
    {s : Srt} {w : W} {v : Val} (hw : w ∈ produced c) (h : (D w).reg s = [v]) :
    (∃ k, v = .input k) ∨ (∃ n k, v = .out n k) ∨
      ∃ it ∈ c.items, it.kind = .alloc s ∧ w ∈ it.outs ∧ v = .zero it.id := by
  rcases List.mem_append.1 hw with hw | hw
  · left
    have : v ∈ c.inputs.flatMap fun w => (D w).reg s := List.mem_flatMap.2 ⟨w, hw, by rw [h]; simp⟩
    rw [hD.inputs s] at this
    obtain ⟨k, _, rfl⟩ := List.mem_map.1 this
    exact ⟨k, rfl⟩
  · right
    obtain ⟨it, hit, hwo⟩ := List.mem_flatMap.1 hw
    have : v ∈ it.outVals D s := List.mem_flatMap.2 ⟨w, hwo, by rw [h]; simp⟩
    rcases (outVals_cases hf hD hp s it hit).2 v this with ⟨_, k, rfl⟩ | ⟨hk, rfl⟩
    · exact .inl ⟨_, _, rfl⟩
    · exact .inr ⟨it, hit, hk, hwo, rfl⟩

end Unique

end Verif.RoundTrip
