import Verif.Lemmas.RoundTripRun

/-!
# Every plain region has symbolic values
-/

set_option linter.unusedSectionVars false

namespace Verif.RoundTrip

open Verif.Encoder (Srt Circ Item Den Kind Val Content IsVal Ordered Front)
open Verif.Decoder (V Cfg)

variable {W E T : Type} [DecidableEq W] [DecidableEq T]

theorem totalP_mem {c : Circ W E} {w : W} : ∀ {ws : List W}, w ∈ ws → (c.cnt w).params ≤ c.totalP ws
  | x :: ws, h => by
    have e0 : c.totalP (x :: ws) = (c.cnt x).params + c.totalP ws := by simp [Encoder.Circ.totalP]
    rcases List.mem_cons.1 h with rfl | h
    · omega
    · have := totalP_mem (c := c) h
      omega

/-- The values after an item. -/
def flowStep (m : W → V Nat) (it : Item W E) : W → V Nat := fun w =>
  match it.kind with
  | .gate => if w ∈ it.outs then .out it.id (it.outs.idxOf w) (it.ins.map m) else m w
  | .alloc s => if w ∈ it.outs then fresh s else m w
  | _ => m w

/-- The items in `done` have the right values. -/
structure Good (P : List W) (done : List (Item W E)) (m : W → V Nat) : Prop where
  gate : ∀ it ∈ done, it.kind = .gate → (∀ w ∈ it.ins, w ∈ P) ∧ (∀ w ∈ it.outs, w ∈ P) ∧
    ∀ j w, it.outs[j]? = some w → m w = .out it.id j (it.ins.map m)
  alloc : ∀ it ∈ done, ∀ s, it.kind = .alloc s → (∀ w ∈ it.outs, w ∈ P) ∧ ∀ w ∈ it.outs, m w = fresh s

theorem flowStep_other {m : W → V Nat} {it : Item W E} {w : W} (h : w ∉ it.outs) : flowStep m it w = m w := by
  unfold flowStep
  split <;> simp [h]

theorem Good.step {P : List W} {done : List (Item W E)} {m : W → V Nat} (h : Good P done m) {it : Item W E}
    (hn : (P ++ it.outs).Nodup) (hi : it.kind = .gate → ∀ w ∈ it.ins, w ∈ P) :
    Good (P ++ it.outs) (done ++ [it]) (flowStep m it) ∧ ∀ w ∈ P, flowStep m it w = m w := by
  have hd := (List.nodup_append.1 hn).2.2
  have hold : ∀ w ∈ P, flowStep m it w = m w := fun w hw =>
    flowStep_other fun hw' => hd w hw w hw' rfl
  refine ⟨⟨?_, ?_⟩, hold⟩
  · intro i hi' hk
    rcases List.mem_append.1 hi' with hi' | hi'
    · obtain ⟨g1, g2, g3⟩ := h.gate i hi' hk
      refine ⟨fun w hw => List.mem_append_left _ (g1 w hw), fun w hw => List.mem_append_left _ (g2 w hw), ?_⟩
      intro j w hj
      rw [hold w (g2 w (List.mem_of_getElem? hj)), g3 j w hj]
      congr 1
      exact List.map_congr_left fun x hx => (hold x (g1 x hx)).symm
    · cases List.mem_singleton.1 hi'
      refine ⟨fun w hw => List.mem_append_left _ (hi hk w hw), fun w hw => List.mem_append_right _ hw, ?_⟩
      intro j w hj
      have hins : it.ins.map (flowStep m it) = it.ins.map m :=
        List.map_congr_left fun x hx => hold x (hi hk x hx)
      rw [hins]
      unfold flowStep
      simp only [hk]
      rw [if_pos (List.mem_of_getElem? hj)]
      obtain ⟨hlt, he⟩ := List.getElem?_eq_some_iff.1 hj
      have hno : it.outs.Nodup := (List.nodup_append.1 hn).2.1
      have : it.outs.idxOf w = j := by
        rw [← he]
        exact hno.idxOf_getElem _ _
      rw [this]
  · intro i hi' s hk
    rcases List.mem_append.1 hi' with hi' | hi'
    · obtain ⟨g1, g2⟩ := h.alloc i hi' s hk
      exact ⟨fun w hw => List.mem_append_left _ (g1 w hw), fun w hw => by rw [hold w (g1 w hw), g2 w hw]⟩
    · cases List.mem_singleton.1 hi'
      refine ⟨fun w hw => List.mem_append_right _ hw, fun w hw => ?_⟩
      unfold flowStep
      simp only [hk]
      rw [if_pos hw]

theorem flow_items : ∀ (its done : List (Item W E)) (st st' : Front W E) (P : List W) (m : W → V Nat),
    st.pend = [] → (∀ it ∈ its, it.kind ≠ .group) → (∀ w ∈ st.avail, w ∈ P) →
    (P ++ its.flatMap (·.outs)).Nodup → Front.items its st = some st' → Good P done m →
    ∃ m', Good (P ++ its.flatMap (·.outs)) (done ++ its) m' ∧ (∀ w ∈ P, m' w = m w) ∧
      ∀ w, (∀ it ∈ its, (it.kind = .gate ∨ ∃ s, it.kind = .alloc s) → w ∉ it.outs) → m' w = m w
  | [], done, st, st', P, m, _, _, _, _, _, hg => by
    exact ⟨m, by simpa using hg, fun _ _ => rfl, fun _ _ => rfl⟩
  | it :: its, done, st, st', P, m, hp, hng, hav, hn, h, hg => by
    rw [List.flatMap_cons, ← List.append_assoc] at hn ⊢
    unfold Front.items at h
    split at h
    · cases h
    rename_i st1 h1
    have hsingle : Front.items [it] st = some st1 := by
      unfold Front.items
      rw [h1]
      rfl
    obtain ⟨f1, f2, f3⟩ := front_produced [it] st st1 hp
      (fun i hi => hng i (by cases List.mem_singleton.1 hi; exact List.mem_cons_self)) hsingle
    have hins : it.kind = .gate → ∀ w ∈ it.ins, w ∈ P := by
      intro hk w hw
      unfold Front.item at h1
      simp only [hk] at h1
      split at h1
      · cases h1
      rename_i st2 h2
      exact hav w ((needAll_avail _ _ _ hp h2).2 w hw)
    obtain ⟨g1, g2⟩ := hg.step (it := it) (List.nodup_append.1 hn).1 hins
    obtain ⟨m', i1, i2, i3⟩ := flow_items its (done ++ [it]) st1 st' (P ++ it.outs) _ f1
      (fun i hi => hng i (List.mem_cons_of_mem _ hi)) (by
        intro w hw
        have := f2 w hw
        simp only [List.flatMap_cons, List.flatMap_nil, List.append_nil] at this
        rcases List.mem_append.1 this with hw | hw
        · exact List.mem_append_left _ (hav w hw)
        · exact List.mem_append_right _ hw) hn h g1
    refine ⟨m', by rw [List.append_assoc] at i1; simpa using i1, fun w hw => ?_, fun w hw => ?_⟩
    · rw [i2 w (List.mem_append_left _ hw), g2 w hw]
    · rw [i3 w fun i hi => hw i (List.mem_cons_of_mem _ hi)]
      have := hw it List.mem_cons_self
      unfold flowStep
      cases hk : it.kind with
      | gate => simp [this (.inl hk)]
      | alloc s => simp [this (.inr ⟨s, hk⟩)]
      | _ => rfl

/-- A plain region in dataflow order has symbolic values. -/
theorem exists_flow {cfg : Cfg T Reg} {c : Circ W E} {ty : W → T} {D : W → Den E} (num : E → Nat)
    (hs : cfg.Simple) (hf : Fits cfg c ty) (hD : IsVal c D) (hO : Ordered c)
    (hp : ∀ it ∈ c.items, Plain cfg c ty it) :
    ∃ val, IsFlow cfg c ty num D val := by
  have hng : ∀ it ∈ c.items, it.kind ≠ .group := fun it hit hk => by
    have := hp it hit
    unfold Plain at this
    simp only [hk] at this
  obtain ⟨st, hst, _⟩ := hO.topo
  let m0 : W → V Nat := fun w =>
    if cfg.param (ty w) = true then (match (D w).params with | e :: _ => .par (num e) | [] => .none)
    else .inp (c.inputs.idxOf w)
  obtain ⟨m, h1, h2, h3⟩ := flow_items c.items [] ⟨c.inputs, []⟩ st c.inputs m0 rfl hng (fun _ h => h)
    hO.single hst ⟨fun it hit => (by cases hit), fun it hit => (by cases hit)⟩
  have hnopar : ∀ w, cfg.param (ty w) = true → ∀ it ∈ c.items,
      (it.kind = .gate ∨ ∃ s, it.kind = .alloc s) → w ∉ it.outs := by
    intro w hw it hit hk hwo
    have hone : (c.cnt w).params = 1 := by
      rcases hf w with h | h | h
      · rw [h.1, param_qb hs] at hw; cases hw
      · rcases h.1 with h' | h'
        · rw [h', param_bool hs] at hw; cases hw
        · rw [h', param_tbool hs] at hw; cases hw
      · exact h.2.2.2
    rcases hk with hk | ⟨s, hk⟩
    · have := hp it hit
      unfold Plain at this
      simp only [hk] at this
      have h0 := this.2.2.1
      unfold Encoder.Circ.totalP at h0
      have := totalP_mem hwo (c := c)
      unfold Encoder.Circ.totalP at this
      omega
    · have := hD.items it hit
      unfold Encoder.Item.Meaning at this
      simp only [hk] at this
      have h0 := this.2.2
      unfold Encoder.Item.outParams at h0
      have h4 : (D w).params = [] := by
        rw [List.flatMap_eq_nil_iff] at h0
        exact h0 w hwo
      have := hD.widthP w
      rw [h4, hone] at this
      cases this
  refine ⟨m, ?_, ?_, ?_, ?_⟩
  · intro w e hw he
    rw [h3 w (hnopar w hw)]
    simp [m0, hw, he]
  · intro i w hi hw
    rw [h2 w (List.mem_of_getElem? hi)]
    have hn := (List.nodup_append.1 hO.single).1
    obtain ⟨hlt, he⟩ := List.getElem?_eq_some_iff.1 hi
    have : c.inputs.idxOf w = i := by
      rw [← he]
      exact hn.idxOf_getElem _ _
    simp [m0, hw, this]
  · intro it hit hk j w hj
    exact (h1.gate it (by simpa using hit) hk).2.2 j w hj
  · intro it hit s hk w hw
    exact (h1.alloc it (by simpa using hit) s hk).2 w hw

end Verif.RoundTrip
