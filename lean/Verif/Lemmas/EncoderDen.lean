import Verif.Lemmas.EncoderRun

/-!
# Every region has a meaning

The assignment of values to wires which the theorems about the encoder speak about exists.
-/

set_option linter.unusedSectionVars false

namespace Verif.Encoder

variable {W E : Type} [DecidableEq W]

/-- Distribution of values over wires. -/
def assign (c : Circ W E) : List W → (Srt → List Val) → List E → (W → Den E) → W → Den E
  | [], _, _, D => D
  | w :: ws, rs, ps, D =>
    assign c ws (fun s => (rs s).drop ((c.cnt w).reg s)) (ps.drop (c.cnt w).params)
      (Function.update D w ⟨fun s => (rs s).take ((c.cnt w).reg s), ps.take (c.cnt w).params⟩)

theorem assign_of_not_mem (c : Circ W E) : ∀ (ws : List W) (rs : Srt → List Val) (ps : List E)
    (D : W → Den E) (x : W), x ∉ ws → assign c ws rs ps D x = D x
  | [], _, _, _, _, _ => rfl
  | w :: ws, rs, ps, D, x, hx => by
    rw [assign, assign_of_not_mem c ws _ _ _ x (fun h => hx (List.mem_cons_of_mem _ h)),
      Function.update_of_ne (fun h => hx (by simp [h]))]

/-- The widths are right. -/
def Wide (c : Circ W E) (D : W → Den E) : Prop :=
  (∀ w s, ((D w).reg s).length = (c.cnt w).reg s) ∧
    ∀ w, ((D w).params).length = (c.cnt w).params

theorem assign_spec (c : Circ W E) : ∀ (ws : List W) (rs : Srt → List Val) (ps : List E)
    (D : W → Den E), ws.Nodup → (∀ s, (rs s).length = c.total ws s) →
    ps.length = c.totalP ws → Wide c D →
    Wide c (assign c ws rs ps D) ∧
      (∀ s, ws.flatMap (fun w => (assign c ws rs ps D w).reg s) = rs s) ∧
      ws.flatMap (fun w => (assign c ws rs ps D w).params) = ps
  | [], rs, ps, D, _, hr, hp, hD => by
    refine ⟨hD, fun s => ?_, ?_⟩
    · have := hr s
      simp only [Circ.total, List.map_nil, List.sum_nil] at this
      simp [List.length_eq_zero_iff.1 this]
    · simp only [Circ.totalP, List.map_nil, List.sum_nil] at hp
      simp [List.length_eq_zero_iff.1 hp]
  | w :: ws, rs, ps, D, hn, hr, hp, hD => by
    have hp' : ps.length = (c.cnt w).params + c.totalP ws := by
      simpa [Circ.totalP] using hp
    have hr' : ∀ s, (rs s).length = (c.cnt w).reg s + c.total ws s := by
      intro s; rw [hr, Circ.total_cons]
    obtain ⟨hw, hn'⟩ := List.nodup_cons.1 hn
    obtain ⟨h1, h2, h3⟩ := assign_spec c ws (fun s => (rs s).drop ((c.cnt w).reg s))
      (ps.drop (c.cnt w).params)
      (Function.update D w ⟨fun s => (rs s).take ((c.cnt w).reg s), ps.take (c.cnt w).params⟩) hn'
      (by intro s; rw [List.length_drop, hr']; omega)
      (by rw [List.length_drop, hp']; omega)
      (by
        refine ⟨fun x s => ?_, fun x => ?_⟩
        · by_cases hx : x = w
          · subst hx
            simp only [Function.update_self, List.length_take, hr']
            omega
          · rw [Function.update_of_ne hx]; exact hD.1 x s
        · by_cases hx : x = w
          · subst hx
            simp only [Function.update_self, List.length_take, hp']
            omega
          · rw [Function.update_of_ne hx]; exact hD.2 x)
    have hself : assign c (w :: ws) rs ps D w =
        ⟨fun s => (rs s).take ((c.cnt w).reg s), ps.take (c.cnt w).params⟩ := by
      rw [assign, assign_of_not_mem c ws _ _ _ w hw, Function.update_self]
    refine ⟨h1, fun s => ?_, ?_⟩
    · rw [List.flatMap_cons, hself]
      simp only [assign, h2]
      exact List.take_append_drop _ _
    · rw [List.flatMap_cons, hself]
      simp only [assign, h3]
      exact List.take_append_drop _ _

/-- The meaning of one item, given the values of its inputs. -/
def evalItem (c : Circ W E) (it : Item W E) (D : W → Den E) : W → Den E :=
  match it.kind with
  | .gate | .group => assign c it.outs
      (fun s => (List.range (c.total it.outs s)).map (Val.out it.id)) (it.pf (it.inParams D)) D
  | .transparent => assign c it.outs (it.inVals D) (it.pf (it.inParams D)) D
  | .alloc s => assign c it.outs (fun s' => if s' = s then [.zero it.id] else []) [] D
  | .free => D
  | .dup => match it.ins with
    | w :: _ => fun x => if x ∈ it.outs then D w else D x
    | [] => D

theorem evalItem_of_not_mem {c : Circ W E} {it : Item W E} {D : W → Den E} {x : W}
    (h : x ∉ it.outs) : evalItem c it D x = D x := by
  unfold evalItem
  cases it.kind with
  | dup =>
    dsimp only
    cases it.ins with
    | nil => rfl
    | cons w ws => simp [h]
  | free => rfl
  | _ => exact assign_of_not_mem _ _ _ _ _ _ h

/-- The meaning of an item only depends on the values of its wires. -/
theorem Item.Meaning.congr {it : Item W E} {D D' : W → Den E} (h : it.Meaning D)
    (hi : it.kind ≠ .free → ∀ w ∈ it.ins, D' w = D w) (ho : ∀ w ∈ it.outs, D' w = D w) :
    it.Meaning D' := by
  have e1 : it.kind ≠ .free → ∀ s, it.inVals D' s = it.inVals D s := fun hk s =>
    List.flatMap_congr fun w hw => by rw [hi hk w hw]
  have e2 : ∀ s, it.outVals D' s = it.outVals D s := fun s =>
    List.flatMap_congr fun w hw => by rw [ho w hw]
  have e3 : it.kind ≠ .free → it.inParams D' = it.inParams D := fun hk =>
    List.flatMap_congr fun w hw => by rw [hi hk w hw]
  have e4 : it.outParams D' = it.outParams D :=
    List.flatMap_congr fun w hw => by rw [ho w hw]
  unfold Item.Meaning at h ⊢
  split at h <;> rename_i hk
  · have hk' : it.kind ≠ .free := by rw [hk]; simp
    simpa only [e2, e3 hk', e4] using h
  · have hk' : it.kind ≠ .free := by rw [hk]; simp
    simpa only [e2, e3 hk', e4] using h
  · have hk' : it.kind ≠ .free := by rw [hk]; simp
    simpa only [e1 hk', e2, e3 hk', e4] using h
  · simpa only [e2, e4] using h
  · exact h
  · have hk' : it.kind ≠ .free := by rw [hk]; simp
    obtain ⟨w, hw, hDo⟩ := h
    exact ⟨w, hw, fun o hoo => by rw [ho o hoo, hi hk' w (by simp [hw]), hDo o hoo]⟩

theorem evalItem_spec {c : Circ W E} {it : Item W E} {D : W → Den E} (ht : it.Typed c)
    (hn : it.outs.Nodup) (hdis : it.kind ≠ .free → ∀ w ∈ it.ins, w ∉ it.outs) (hD : Wide c D) :
    Wide c (evalItem c it D) ∧ it.Meaning (evalItem c it D) := by
  have hin : it.kind ≠ .free → ∀ s, it.inVals (evalItem c it D) s = it.inVals D s := fun hk s =>
    List.flatMap_congr fun w hw => by rw [evalItem_of_not_mem (hdis hk w hw)]
  have hinP : it.kind ≠ .free → it.inParams (evalItem c it D) = it.inParams D := fun hk =>
    List.flatMap_congr fun w hw => by rw [evalItem_of_not_mem (hdis hk w hw)]
  have hlP : (it.inParams D).length = c.totalP it.ins := by
    unfold Item.inParams Circ.totalP
    induction it.ins with
    | nil => rfl
    | cons w ws ih => simp [ih, hD.2]
  have hl : ∀ s, (it.inVals D s).length = c.total it.ins s := fun s =>
    length_flatMap_total c s _ _ fun w _ => hD.1 w s
  unfold Item.Typed at ht
  unfold Item.Meaning
  cases hk : it.kind <;> rw [hk] at ht <;> simp only at ht ⊢ <;> rw [hk] at hin hinP
  case gate =>
    have hev : evalItem c it D = assign c it.outs
      (fun s => (List.range (c.total it.outs s)).map (Val.out it.id)) (it.pf (it.inParams D)) D := by
      unfold evalItem; rw [hk]
    obtain ⟨h1, h2, h3⟩ := assign_spec c it.outs
      (fun s => (List.range (c.total it.outs s)).map (Val.out it.id)) (it.pf (it.inParams D)) D hn
      (by simp) (ht _) hD
    rw [← hev] at h1 h2 h3
    refine ⟨h1, fun s => ?_, ?_⟩
    · have : it.outVals (evalItem c it D) s = _ := h2 s
      rw [this]; simp
    · rw [hinP (by simp)]; exact h3
  case group =>
    have hev : evalItem c it D = assign c it.outs
      (fun s => (List.range (c.total it.outs s)).map (Val.out it.id)) (it.pf (it.inParams D)) D := by
      unfold evalItem; rw [hk]
    obtain ⟨h1, h2, h3⟩ := assign_spec c it.outs
      (fun s => (List.range (c.total it.outs s)).map (Val.out it.id)) (it.pf (it.inParams D)) D hn
      (by simp) (ht _) hD
    rw [← hev] at h1 h2 h3
    refine ⟨h1, fun s => ?_, ?_⟩
    · have : it.outVals (evalItem c it D) s = _ := h2 s
      rw [this]; simp
    · rw [hinP (by simp)]; exact h3
  case transparent =>
    have hev : evalItem c it D = assign c it.outs (it.inVals D) (it.pf (it.inParams D)) D := by
      unfold evalItem; rw [hk]
    obtain ⟨h1, h2, h3⟩ := assign_spec c it.outs (it.inVals D) (it.pf (it.inParams D)) D hn
      (fun s => by rw [hl, ht.1 s]) (ht.2 _ hlP) hD
    rw [← hev] at h1 h2 h3
    exact ⟨h1, fun s => by rw [hin (by simp)]; exact h2 s, by rw [hinP (by simp)]; exact h3⟩
  case alloc s =>
    obtain ⟨w, ho, hp, hr⟩ := ht
    have hev : evalItem c it D =
        assign c it.outs (fun s' => if s' = s then [.zero it.id] else []) [] D := by
      unfold evalItem; rw [hk]
    obtain ⟨h1, h2, h3⟩ := assign_spec c it.outs
      (fun s' => if s' = s then [.zero it.id] else []) [] D hn
      (fun s' => by
        rw [ho]
        simp only [Circ.total, List.map_cons, List.map_nil, List.sum_cons, List.sum_nil, hr]
        split <;> rfl) (by simp [ho, Circ.totalP, hp]) hD
    rw [← hev] at h1 h2 h3
    refine ⟨h1, ?_, ?_, h3⟩
    · have : it.outVals (evalItem c it D) s = _ := h2 s
      rw [this]; simp
    · intro s' hs
      have : it.outVals (evalItem c it D) s' = _ := h2 s'
      rw [this]; simp [hs]
  case free =>
    have hev : evalItem c it D = D := by
      unfold evalItem; rw [hk]
    rw [hev]
    exact ⟨hD, ht⟩
  case dup =>
    obtain ⟨w, hw, hc⟩ := ht
    have hev : evalItem c it D = fun x => if x ∈ it.outs then D w else D x := by
      unfold evalItem; rw [hk, hw]
    rw [hev]
    have hwo : w ∉ it.outs := hdis (by rw [hk]; simp) w (by simp [hw])
    refine ⟨⟨fun x s => ?_, fun x => ?_⟩, w, hw, fun o ho => ?_⟩
    · dsimp only
      split
      · rename_i hx
        rw [hD.1, hc x hx]
      · exact hD.1 x s
    · dsimp only
      split
      · rename_i hx
        rw [hD.2, hc x hx]
      · exact hD.2 x
    · simp [ho, hwo]

/-- What is available, or will be once the waiting components are encoded. -/
def Front.known (st : Front W E) (w : W) : Prop := w ∈ st.avail ∨ ∃ g ∈ st.pend, w ∈ g.outs

theorem Front.need_known {st st' : Front W E} {w : W} (h : st.need w = some st') :
    st.known w ∧ ∀ x, st'.known x → st.known x := by
  unfold Front.need at h
  split at h
  · rename_i hw
    obtain rfl := Option.some.inj h
    exact ⟨Or.inl hw, fun _ h => h⟩
  · split at h
    · rename_i g hg
      obtain rfl := Option.some.inj h
      obtain ⟨h1, h2⟩ := find_dropOwner hg
      have hm : g ∈ st.pend := h2.mem_iff.2 (by simp)
      refine ⟨Or.inr ⟨g, hm, h1⟩, ?_⟩
      rintro x (hx | ⟨g', hg', hx⟩)
      · rcases List.mem_append.1 hx with hx | hx
        · exact Or.inr ⟨g, hm, hx⟩
        · exact Or.inl hx
      · exact Or.inr ⟨g', h2.mem_iff.2 (List.mem_cons_of_mem _ hg'), hx⟩
    · exact absurd h (by simp)

theorem Front.needAll_known : ∀ {ws : List W} {st st' : Front W E},
    Front.needAll ws st = some st' →
    (∀ w ∈ ws, st.known w) ∧ ∀ x, st'.known x → st.known x
  | [], st, st', h => by
    obtain rfl := Option.some.inj h
    exact ⟨by simp, fun _ h => h⟩
  | w :: ws, st, st', h => by
    simp only [Front.needAll] at h
    split at h
    · exact absurd h (by simp)
    rename_i st1 h1
    obtain ⟨a1, a2⟩ := Front.need_known h1
    obtain ⟨b1, b2⟩ := Front.needAll_known h
    refine ⟨fun x hx => ?_, fun x hx => a2 x (b2 x hx)⟩
    rcases List.mem_cons.1 hx with rfl | hx
    · exact a1
    · exact a2 x (b1 x hx)

theorem Front.item_known {it : Item W E} {st st' : Front W E} (h : Front.item it st = some st')
    (ha : ∀ s, it.kind = .alloc s → it.ins = []) :
    (it.kind ≠ .free → ∀ w ∈ it.ins, st.known w) ∧
      ∀ x, st'.known x → x ∈ it.outs ∨ st.known x := by
  unfold Front.item at h
  split at h
  · rename_i hk
    obtain rfl := Option.some.inj h
    exact ⟨fun h' => absurd hk h', fun x hx => Or.inr hx⟩
  · rename_i hk
    split at h
    · rename_i hin
      obtain rfl := Option.some.inj h
      refine ⟨fun _ w hw => Or.inl (hin w hw), ?_⟩
      rintro x (hx | ⟨g, hg, hx⟩)
      · exact Or.inr (Or.inl hx)
      · rcases List.mem_append.1 hg with hg | hg
        · exact Or.inr (Or.inr ⟨g, hg, hx⟩)
        · rw [List.mem_singleton.1 hg] at hx
          exact Or.inl hx
    · exact absurd h (by simp)
  · rename_i s hk
    obtain rfl := Option.some.inj h
    refine ⟨fun _ w hw => by rw [ha s hk] at hw; simp at hw, ?_⟩
    rintro x (hx | hx)
    · rcases List.mem_append.1 hx with hx | hx
      · exact Or.inl hx
      · exact Or.inr (Or.inl hx)
    · exact Or.inr (Or.inr hx)
  · split at h
    · exact absurd h (by simp)
    rename_i st1 h1
    obtain rfl := Option.some.inj h
    obtain ⟨a1, a2⟩ := Front.needAll_known h1
    refine ⟨fun _ => a1, ?_⟩
    rintro x (hx | hx)
    · rcases List.mem_append.1 hx with hx | hx
      · exact Or.inl hx
      · exact Or.inr (a2 x (Or.inl hx))
    · exact Or.inr (a2 x (Or.inr hx))

theorem foldl_eval {c : Circ W E} : ∀ (rest done : List (Item W E)) (D : W → Den E)
    (st : Front W E) (known : List W), Wide c D → (∀ it ∈ rest, it.Typed c) →
    (∀ it ∈ rest, ∀ s, it.kind = .alloc s → it.ins = []) →
    (known ++ rest.flatMap (·.outs)).Nodup → (∀ x, st.known x → x ∈ known) →
    (∀ it ∈ done, (∀ w ∈ it.outs, w ∈ known) ∧ (it.kind ≠ .free → ∀ w ∈ it.ins, w ∈ known) ∧
      it.Meaning D) →
    (∃ st', Front.items rest st = some st') →
    ∃ D', Wide c D' ∧ (∀ x ∈ known, D' x = D x) ∧ ∀ it ∈ done ++ rest, it.Meaning D'
  | [], done, D, st, known, hD, _, _, _, _, hdone, _ =>
    ⟨D, hD, fun _ _ => rfl, fun it hit => (hdone it (by simpa using hit)).2.2⟩
  | it :: rest, done, D, st, known, hD, ht, ha, hn, hk, hdone, hst => by
    obtain ⟨st', hst⟩ := hst
    simp only [Front.items] at hst
    split at hst
    · exact absurd hst (by simp)
    rename_i st1 h1
    rw [List.flatMap_cons] at hn
    have hnd := hn
    simp only [List.nodup_append, List.mem_append] at hnd
    obtain ⟨n1, ⟨n2, n3, n4⟩, n5⟩ := hnd
    have htt := ht it (by simp)
    obtain ⟨k1, k2⟩ := Front.item_known h1 (ha it (by simp))
    obtain ⟨e1, e2⟩ := evalItem_spec htt n2
      (fun hkk w hw ho => n5 w (hk w (k1 hkk w hw)) w (Or.inl ho) rfl) hD
    have hold : ∀ x ∈ known, evalItem c it D x = D x := fun x hx =>
      evalItem_of_not_mem fun ho => n5 x hx x (Or.inl ho) rfl
    obtain ⟨D', d1, d2, d3⟩ := foldl_eval rest (done ++ [it]) (evalItem c it D) st1
      (known ++ it.outs) e1 (fun i hi => ht i (List.mem_cons_of_mem _ hi))
      (fun i hi => ha i (List.mem_cons_of_mem _ hi)) (by rw [List.append_assoc]; exact hn)
      (by
        intro x hx
        rcases k2 x hx with hx | hx
        · exact List.mem_append_right _ hx
        · exact List.mem_append_left _ (hk x hx))
      (by
        intro i hi
        rcases List.mem_append.1 hi with hi | hi
        · obtain ⟨a, b, d⟩ := hdone i hi
          exact ⟨fun w hw => List.mem_append_left _ (a w hw),
            fun hkk w hw => List.mem_append_left _ (b hkk w hw),
            d.congr (fun hkk w hw => hold w (b hkk w hw)) fun w hw => hold w (a w hw)⟩
        · rw [List.mem_singleton.1 hi]
          exact ⟨fun w hw => List.mem_append_right _ hw,
            fun hkk w hw => List.mem_append_left _ (hk w (k1 hkk w hw)), e2⟩)
      ⟨st', hst⟩
    refine ⟨D', d1, fun x hx => ?_, by simpa using d3⟩
    rw [d2 x (List.mem_append_left _ hx), hold x hx]

/-- A well-typed region in dataflow order has a meaning. -/
theorem exists_isVal {c : Circ W E} (hO : Ordered c) (ht : ∀ it ∈ c.items, it.Typed c)
    (ha : ∀ it ∈ c.items, ∀ s, it.kind = .alloc s → it.ins = []) : ∃ D, IsVal c D := by
  obtain ⟨h1, h2, h3⟩ := assign_spec c c.inputs
    (fun s => (List.range (c.total c.inputs s)).map Val.input)
    ((List.range (c.totalP c.inputs)).map c.paramVar)
    (fun w => ⟨fun s => List.replicate ((c.cnt w).reg s) (.zero 0),
      List.replicate (c.cnt w).params (c.paramVar 0)⟩)
    (List.nodup_append.1 hO.single).1 (by simp) (by simp)
    ⟨by simp, by simp⟩
  obtain ⟨st, hst, _⟩ := hO.topo
  obtain ⟨D', d1, d2, d3⟩ := foldl_eval (c := c) c.items [] _ ⟨c.inputs, []⟩ c.inputs h1 ht ha
    hO.single (by rintro x (hx | ⟨g, hg, _⟩); exact hx; simp at hg) (by simp) ⟨st, hst⟩
  refine ⟨D', d1.1, d1.2, fun s => ?_, ?_, by simpa using d3⟩
  · rw [← h2 s]
    exact List.flatMap_congr fun w hw => by rw [d2 w hw]
  · rw [← h3]
    exact List.flatMap_congr fun w hw => by rw [d2 w hw]

end Verif.Encoder
