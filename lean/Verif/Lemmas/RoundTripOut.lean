import Verif.Lemmas.RoundTripRun
import Verif.Props.Encoder
import Verif.Props.Registers

/-!
# The outputs of the round trip
-/

set_option linter.unusedSectionVars false

namespace Verif.RoundTrip

open Verif.Encoder (Srt Circ Item Den Kind Val Content IsVal Ordered Enc Step Runs Matches Front)
open Verif.Decoder (V Cfg)

variable {W E T : Type} [DecidableEq W] [DecidableEq T]

/-! ### Permutations -/

section
variable {R : Type} [DecidableEq R]
open Registers

theorem mem_treeInsert {k v : Nat} {x : Nat × Nat} : ∀ {m : List (Nat × Nat)}, x ∈ treeInsert k v m →
    x = (k, v) ∨ x ∈ m
  | [], h => by simpa [treeInsert] using h
  | e :: es, h => by
    unfold treeInsert at h
    split at h
    · simpa using h
    split at h
    · rcases List.mem_cons.1 h with h | h
      · exact .inl h
      · exact .inr (List.mem_cons_of_mem _ h)
    · rcases List.mem_cons.1 h with h | h
      · exact .inr (h ▸ List.mem_cons_self)
      · rcases mem_treeInsert h with h | h
        · exact .inl h
        · exact .inr (List.mem_cons_of_mem _ h)

theorem reorder_lt {known : List R} : ∀ (ps : List (R × R)) (m m' : List (Nat × Nat)),
    (∀ x ∈ m, x.2 < known.length) → reorder known ps m = some m' → ∀ x ∈ m', x.2 < known.length
  | [], m, m', hm, h => by cases h; exact hm
  | (a, b) :: ps, m, m', hm, h => by
    unfold reorder at h
    split at h
    · rename_i i j hi hj
      refine reorder_lt ps _ m' (fun x hx => ?_) h
      rcases mem_treeInsert hx with rfl | hx
      · exact (List.getElem?_eq_some_iff.1 (indexOf_get hi)).1
      · exact hm x hx
    · cases h

theorem filterMap_of_mapM {α β : Type} {g : α → Option β} : ∀ {l : List α} {r : List β},
    l.mapM g = some r → l.filterMap g = r
  | [], r, h => by
    simp at h
    simp [h]
  | a :: l, r, h => by
    rw [List.mapM_cons] at h
    cases ha : g a with
    | none => rw [ha] at h; cases h
    | some x =>
      cases hl : l.mapM g with
      | none => rw [ha, hl] at h; cases h
      | some y =>
        rw [ha, hl] at h
        cases h
        rw [List.filterMap_cons, ha, filterMap_of_mapM hl]

/-- The stored permutation is the identity: the decoder offers the registers in their order. -/
theorem perm_identity {outs all : List R} (hn : all.Nodup) (ho : outs.Nodup) (hs : ∀ r ∈ outs, r ∈ all) :
    ∃ p o, finalPermutation outs all = some p ∧ outputPermutation (trackAll [] all) p = some o ∧
      knownQubits all o = some all ∧ ∀ i ∈ o, i < all.length := by
  have hk : ∀ r : R, r ∈ (extendOutputs outs all) ↔ r ∈ all := fun r => by
    rw [mem_extendOutputs]
    exact ⟨fun h => h.elim (hs r) id, Or.inr⟩
  have hperm : (extendOutputs outs all).Perm all :=
    (List.perm_ext_iff_of_nodup (extendOutputs_nodup ho) hn).2 hk
  have hid : ∀ l : List R, (l.map fun r => (r, r)).map Prod.fst = l ∧
      (l.map fun r => (r, r)).map Prod.snd = l := fun l => by
    constructor <;> simp [Function.comp_def]
  obtain ⟨out, h1, h2, h3⟩ := C31_complete_permutation
    (perm := (extendOutputs outs all).map fun r => (r, r)) hn
    (by rw [(hid _).1]; exact hperm) (by rw [(hid _).2]; exact hperm)
  have : out = all := by
    refine List.ext_getElem? fun j => ?_
    cases hj : all[j]? with
    | none =>
      rw [List.getElem?_eq_none_iff] at hj ⊢
      rw [h2.length_eq]
      exact hj
    | some r =>
      exact h3 j r r hj (List.mem_map.2 ⟨r, (hk r).2 (List.mem_of_getElem? hj), rfl⟩)
  subst this
  have ht : trackAll [] out = out := by simpa using trackAll_nodup (known := []) (by simpa using hn)
  unfold decodeQubits at h1
  cases ho : outputPermutation (trackAll [] out) ((extendOutputs outs out).map fun r => (r, r)) with
  | none => rw [ho] at h1; cases h1
  | some o =>
    rw [ho] at h1
    simp only at h1
    refine ⟨_, o, finalPermutation_eq hs, ho, by rw [ht] at h1; exact h1, ?_⟩
    unfold outputPermutation at ho
    cases hr : reorder (trackAll [] out) ((extendOutputs outs out).map fun r => (r, r)) [] with
    | none => rw [hr] at ho; cases ho
    | some m =>
      rw [hr] at ho
      cases ho
      intro i hi
      obtain ⟨x, hx, rfl⟩ := List.mem_map.1 hi
      have := reorder_lt _ _ _ (fun x hx => by cases hx) hr x hx
      rwa [ht] at this

end

/-! ### Outputs -/

section
variable {cfg : Cfg T Reg} {c : Circ W E} {ty : W → T} {D : W → Den E} {num : E → Nat} {val : W → V Nat}
  {f : Srt → Nat → Content} {m : Decoder.Regs Reg Nat} {e : Enc W E}

theorem outRegs_read (hS : Setup cfg c ty num D val) (hR : Rel c D val f m) (s : Srt) : ∀ (ws : List W),
    (∀ w ∈ ws, w ∈ produced c) →
    (∀ w ∈ ws, ∃ tr, e.tr.wires w = some tr ∧
      List.Forall₂ (fun r v => Matches True (f s r) v) (tr.vals.reg s) ((D w).reg s)) →
    ((outRegs e ws s).map (Prod.mk s)).map (get m s) = (sel c s ws).map val ∧
      (outRegs e ws s).length = c.total ws s
  | [], _, _ => ⟨rfl, rfl⟩
  | w :: ws, hw, h => by
    obtain ⟨i1, i2⟩ := outRegs_read hS hR s ws (fun x hx => hw x (List.mem_cons_of_mem _ hx))
      (fun x hx => h x (List.mem_cons_of_mem _ hx))
    obtain ⟨tr, h1, h2⟩ := h w List.mem_cons_self
    have hcons : outRegs e (w :: ws) s = tr.vals.reg s ++ outRegs e ws s := by
      simp [outRegs, h1]
    have e0 : c.total (w :: ws) s = (c.cnt w).reg s + c.total ws s := by simp [Circ.total]
    rw [hcons, sel_cons, e0]
    rcases hS.fits.reg w s with h0 | h0
    · rw [reg_zero hS.isVal h0] at h2
      cases h3 : tr.vals.reg s with
      | cons a b => rw [h3] at h2; cases h2
      | nil =>
        rw [h0]
        simp only [List.nil_append]
        exact ⟨by simpa using i1, by omega⟩
    · rw [reg_one hS.isVal h0] at h2
      cases h3 : tr.vals.reg s with
      | nil => rw [h3] at h2; cases h2
      | cons r b =>
        rw [h3] at h2
        cases h2 with
        | cons h4 h5 =>
          cases h5
          have := hR.read hS (hw w List.mem_cons_self) (reg_one hS.isVal h0) h4
          rw [h0, if_pos rfl]
          simp only [List.cons_append, List.nil_append, List.map_cons, this, List.length_cons]
          exact ⟨by rw [i1], by omega⟩

theorem outPars_lookup {P : List W} {F : Multiset W} (hB : Encoder.BInv c D e.tr P F) : ∀ (ws : List W),
    (∀ w ∈ ws, e.tr.wires w ≠ none) →
    Encoder.lookupParams e.tr.exprs (outPars e ws) = some (ws.flatMap fun w => (D w).params)
  | [], _ => rfl
  | w :: ws, h => by
    have ih := outPars_lookup hB ws (fun x hx => h x (List.mem_cons_of_mem _ hx))
    cases hw : e.tr.wires w with
    | none => exact absurd hw (h w List.mem_cons_self)
    | some tr =>
      have hcons : outPars e (w :: ws) = tr.vals.params ++ outPars e ws := by simp [outPars, hw]
      rw [hcons, List.flatMap_cons]
      exact Encoder.lookupParams_append (hB.par w tr hw) ih

theorem outRegs_lt (hb : Encoder.TBnd e.tr) (ws : List W) (s : Srt) :
    ∀ r ∈ outRegs e ws s, r < (e.tr.pool s).size := by
  intro r hr
  obtain ⟨w, _, hr⟩ := List.mem_flatMap.1 hr
  cases hw : e.tr.wires w with
  | none => rw [hw] at hr; cases hr
  | some tr =>
    rw [hw] at hr
    exact (hb s).2 w tr hw r hr

/-! ### Lines -/

/-- Every register holds the qubit of its line. -/
def OnLine (c : Circ W E) (D : W → Den E) (line : W → Nat) (f : Nat → Content) : Prop :=
  ∀ r v, f r = .holds v → ∀ w ∈ produced c, (D w).reg .qubit = [v] → r = line w

theorem OnLine.read (hS : Setup cfg c ty num D val) (hna : ∀ it ∈ c.items, it.kind ≠ .alloc .qubit)
    {line : W → Nat} {g : Nat → Content} (hl : OnLine c D line g) : ∀ {a : List Nat} {ws : List W},
    (∀ w ∈ ws, w ∈ produced c ∧ (c.cnt w).reg .qubit = 1) →
    List.Forall₂ (fun r v => Matches True (g r) v) a (ws.map (v1 D .qubit)) → a = ws.map line
  | [], [], _, _ => rfl
  | r :: a, w :: ws, hw, h => by
    rw [List.map_cons] at h ⊢
    cases h with
    | cons h1 h2 =>
      have hw0 := hw w List.mem_cons_self
      rw [← hl.read hS hna (fun x hx => hw x (List.mem_cons_of_mem _ hx)) h2]
      have hv := reg_one hS.isVal hw0.2
      have : g r = .holds (v1 D .qubit w) := by
        rcases origin hS.fits hS.isVal hS.plain hw0.1 hv with ⟨k, hk⟩ | ⟨n, k, hk⟩ | ⟨it, hit, hk, _⟩
        · rw [hk] at h1 ⊢; exact h1
        · rw [hk] at h1 ⊢; exact h1
        · exact absurd hk (hna it hit)
      rw [hl r _ this w hw0.1 hv]

theorem zip_lookup_map {line : W → Nat} {r : Nat} {x : W × Nat} : ∀ {a : List Nat} {L : List (W × Nat)},
    a = (L.map Prod.fst).map line → (a.zip L).lookup r = some x → r = line x.1
  | _, [], rfl, h => by cases h
  | _, y :: L, rfl, h => by
    simp only [List.map_cons, List.zip_cons_cons, List.lookup_cons] at h
    split at h
    · rename_i h0
      cases h
      simpa using h0
    · exact zip_lookup_map rfl h

theorem lines_run (hS : Setup cfg c ty num D val) (hna : ∀ it ∈ c.items, it.kind ≠ .alloc .qubit)
    {line : W → Nat} (hL : Lines c line) : ∀ (cmds : List (Encoder.Cmd E)) (its : List (Item W E))
    (g g' : Nat → Content), OnLine c D line g → Runs D .qubit True g cmds its g' →
    (∀ it ∈ its, it ∈ c.items ∧ it.kind = .gate ∧ ∀ w ∈ it.ins, w ∈ produced c) → OnLine c D line g'
  | [], its, g, g', hl, hr, _ => by cases hr; exact hl
  | cmd :: cmds, its, g, g', hl, hr, hits => by
    cases hr with
    | @cons _ _ it _ its _ hst hrest =>
      obtain ⟨hi1, hi2, hi3⟩ := hits it List.mem_cons_self
      refine lines_run hS hna hL cmds its _ g' ?_ hrest (fun i hi => hits i (List.mem_cons_of_mem _ hi))
      have hpl := hS.plain it hi1
      unfold Plain at hpl
      simp only [hi2] at hpl
      obtain ⟨a, b, h1, h2⟩ := hst.reads
      unfold Encoder.Item.inVals at h2
      rw [flatMap_reg hS.fits hS.isVal] at h2
      have ha := hl.read hS hna (fun w hw => by
        unfold sel at hw
        rw [List.mem_filter] at hw
        exact ⟨hi3 w hw.1, by simpa using hw.2⟩) h2
      have hlen := hst.length
      unfold Encoder.Item.inVals Encoder.Item.outVals at hlen
      rw [flatMap_reg hS.fits hS.isVal, flatMap_reg hS.fits hS.isVal, List.length_map, List.length_map,
        ← total_eq hS.fits, ← total_eq hS.fits, h1, ha, List.length_append, List.length_map,
        ← total_eq hS.fits] at hlen
      have hb0 : b = [] := List.length_eq_zero_iff.1 (by omega)
      rw [hb0, List.append_nil, ha, ← show _ = (sel c .qubit it.ins).map line from hL.gate it hi1 hi2] at h1
      intro r v h w hwp hv
      unfold Encoder.write at h
      have hov : it.outVals D .qubit = (tg c .qubit 0 it.outs).map fun x => v1 D .qubit x.1 :=
        tg_vals hS.fits hS.isVal .qubit 0 _
      rw [hov, lookup_zip_right] at h
      cases hlk : ((cmd.args .qubit).zip (tg c .qubit 0 it.outs)).lookup r with
      | some x =>
        rw [hlk] at h
        simp only [Option.map_some] at h
        cases h
        obtain ⟨m1, m2⟩ := mem_tg (lookup_mem hlk)
        have hx : x.1 ∈ produced c := List.mem_append_right _
          (List.mem_flatMap.2 ⟨it, hi1, List.mem_of_getElem? m2⟩)
        have := unique_wire hS.fits hS.isVal hS.ord hS.plain hwp hx hv (reg_one hS.isVal m1)
        rw [this]
        exact zip_lookup_map (h1.trans (by rw [tg_fst]; rfl)) hlk
      | none =>
        rw [hlk] at h
        simp only [Option.map_none] at h
        split at h
        · cases h
        · exact hl r v h w hwp hv

theorem lines_start (hS : Setup cfg c ty num D val) {line : W → Nat} (hL : Lines c line) :
    OnLine c D line (Encoder.initFile c .qubit) := by
  intro r v h w hw hv
  unfold Encoder.initFile at h
  split at h
  · rename_i hlt
    cases h
    have h3 := hS.isVal.inputs .qubit
    rw [flatMap_reg hS.fits hS.isVal] at h3
    have hr : r < (sel c .qubit c.inputs).length := by rw [← total_eq hS.fits]; exact hlt
    have h4 := congrArg (fun l => l[r]?) h3
    simp only [List.getElem?_map, List.getElem?_eq_getElem hr, List.getElem?_range hlt, Option.map_some,
      Option.some.injEq] at h4
    have hmem := List.getElem_mem hr
    unfold sel at hmem
    rw [List.mem_filter] at hmem
    have h5 := unique_wire hS.fits hS.isVal hS.ord hS.plain hw
      (List.mem_append_left _ hmem.1) hv (by
        have := reg_one (s := .qubit) hS.isVal (by simpa using hmem.2)
        rw [this]
        exact congrArg (· :: []) h4)
    have h6 := congrArg (fun l => l[r]?) (show (sel c .qubit c.inputs).map line = _ from hL.inp)
    simp only [List.getElem?_map, List.getElem?_eq_getElem hr, List.getElem?_range hlt, Option.map_some,
      Option.some.injEq] at h6
    rw [h5]
    exact h6.symm
  · cases h

theorem outRegs_lines (hS : Setup cfg c ty num D val) (hna : ∀ it ∈ c.items, it.kind ≠ .alloc .qubit)
    {line : W → Nat} {g : Nat → Content} (hl : OnLine c D line g) : ∀ (ws : List W),
    (∀ w ∈ ws, w ∈ produced c) →
    (∀ w ∈ ws, ∃ tr, e.tr.wires w = some tr ∧
      List.Forall₂ (fun r v => Matches True (g r) v) (tr.vals.reg .qubit) ((D w).reg .qubit)) →
    outRegs e ws .qubit = (sel c .qubit ws).map line
  | [], _, _ => rfl
  | w :: ws, hw, h => by
    have ih := outRegs_lines hS hna hl ws (fun x hx => hw x (List.mem_cons_of_mem _ hx))
      (fun x hx => h x (List.mem_cons_of_mem _ hx))
    obtain ⟨tr, h1, h2⟩ := h w List.mem_cons_self
    have hcons : outRegs e (w :: ws) .qubit = tr.vals.reg .qubit ++ outRegs e ws .qubit := by
      simp [outRegs, h1]
    rw [hcons, sel_cons, ih]
    rcases hS.fits.reg w .qubit with h0 | h0
    · rw [reg_zero hS.isVal h0] at h2
      cases h3 : tr.vals.reg .qubit with
      | cons a b => rw [h3] at h2; cases h2
      | nil => simp [h0]
    · rw [reg_one hS.isVal h0] at h2
      have := hl.read hS hna (ws := [w]) (fun x hx => by
        cases List.mem_singleton.1 hx
        exact ⟨hw w List.mem_cons_self, h0⟩) h2
      rw [this, if_pos h0]
      rfl

end

end Verif.RoundTrip
