import Verif.Lemmas.SubRegions

namespace Verif.SubRegions

/-- All regions replaced at once. -/
def applyP (P : Nat → Option (List Item)) : Forest → Forest
  | .nil => .nil
  | .cons i d ks r =>
    .cons i d (match P i with
      | none => applyP P ks
      | some is => place is (applyP P ks)) (applyP P r)

/-- A node with what is below it, after the replacement. -/
def inner (P : Nat → Option (List Item)) (s : Sub) : Sub :=
  ⟨s.id, s.df, match P s.id with
    | none => applyP P s.kids
    | some is => place is (applyP P s.kids)⟩

theorem tops_apply (P : Nat → Option (List Item)) (t : Forest) :
    (applyP P t).tops = t.tops.map (inner P) := by
  induction t with
  | nil => rfl
  | cons i d ks r _ ih =>
    rw [applyP, Forest.tops, ih, Forest.tops, List.map_cons]
    rfl

theorem topIds_apply (P : Nat → Option (List Item)) (t : Forest) :
    (applyP P t).tops.map Sub.id = t.tops.map Sub.id := by
  rw [tops_apply, List.map_map]
  rfl

theorem get_redo (r : Nat) (is : List Item) (t : Forest) (k : Nat) :
    (redo r is t).get k = (t.get k).map fun s =>
      ⟨s.id, s.df, if s.id = r then place is s.kids else redo r is s.kids⟩ := by
  induction t with
  | nil => rfl
  | cons i d ks f _ ih =>
    rw [redo]
    split
    · rename_i h
      rw [Forest.get, Forest.get]
      split
      · simp [h]
      · exact ih
    · rename_i h
      rw [Forest.get, Forest.get]
      split
      · simp [h]
      · exact ih

theorem redo_place (r : Nat) (is js : List Item) (t : Forest) (hr : r ∉ news js) :
    redo r is (place js t) = place js (redo r is t) := by
  induction js with
  | nil => rfl
  | cons j js ih =>
    cases j with
    | new n =>
      simp only [news, List.mem_cons, not_or] at hr
      rw [place, place, redo, if_neg (fun h => hr.1 h.symm), ih hr.2]
      rfl
    | old k =>
      simp only [news] at hr
      rw [place, place, get_redo]
      cases hk : t.get k with
      | none => exact ih hr
      | some s =>
        obtain ⟨_, rfl⟩ := get_some hk
        simp only [Option.map_some]
        rw [redo, ih hr]
        split <;> rfl

/-- One more region. -/
def upd (P : Nat → Option (List Item)) (r : Nat) (is : List Item) : Nat → Option (List Item) :=
  fun n => if n = r then some is else P n

theorem applyP_congr {P Q : Nat → Option (List Item)} {t : Forest}
    (h : ∀ n ∈ t.ids, P n = Q n) : applyP P t = applyP Q t := by
  induction t with
  | nil => rfl
  | cons i d ks r ih1 ih2 =>
    rw [applyP, applyP, h i (by simp [Forest.ids]), ih1 (fun n hn => h n (by simp [Forest.ids, hn])),
      ih2 (fun n hn => h n (by simp [Forest.ids, hn]))]

theorem redo_apply {P : Nat → Option (List Item)} {r : Nat} {is : List Item} {t : Forest}
    (hP : P r = none) (hf : ∀ a js, P a = some js → r ∉ news js) (hn : t.ids.Nodup) :
    redo r is (applyP P t) = applyP (upd P r is) t := by
  induction t with
  | nil => rfl
  | cons i d ks f ih1 ih2 =>
    obtain ⟨h1, h2, h3, h4, h5⟩ := nodup_cons hn
    rw [applyP, applyP, redo, ih2 h4]
    by_cases hi : i = r
    · subst hi
      rw [if_pos rfl, hP, upd, if_pos rfl]
      dsimp only
      rw [applyP_congr (P := P) (Q := upd P i is) (t := ks)]
      intro n hm
      rw [upd, if_neg]
      rintro rfl
      exact h1 hm
    · rw [if_neg hi]
      have hu : upd P r is i = P i := by rw [upd, if_neg hi]
      rw [hu]
      cases hp : P i with
      | none =>
        dsimp only
        rw [ih1 h3]
      | some js =>
        dsimp only
        rw [redo_place _ _ _ _ (hf i js hp), ih1 h3]

theorem node_under {t : Forest} {s s' : Sub} (hs : s' ∈ t.tops) (h : Node s'.kids s) : Node t s := by
  induction t with
  | nil => simp [Forest.tops] at hs
  | cons i d ks r _ ih =>
    simp only [Forest.tops, List.mem_cons] at hs
    rcases hs with rfl | hs
    · exact .down h
    · exact .next (ih hs)

theorem node_place {js : List Item} {t : Forest} {s : Sub} (h : Node (place js t) s) :
    s.id ∈ news js ∨ Node t s := by
  induction js with
  | nil => cases h
  | cons j js ih =>
    cases j with
    | new n =>
      rw [place] at h
      rcases node_cons.mp h with rfl | h | h
      · exact Or.inl (by simp [news])
      · cases h
      · rcases ih h with h | h
        · exact Or.inl (by simp [news, h])
        · exact Or.inr h
    | old k =>
      rw [place] at h
      cases hk : t.get k with
      | none =>
        rw [hk] at h
        exact ih h
      | some s' =>
        rw [hk] at h
        obtain ⟨hs, rfl⟩ := get_some hk
        rcases node_cons.mp h with rfl | h | h
        · exact Or.inr (top_node hs)
        · exact Or.inr (node_under hs h)
        · exact ih h

theorem node_apply {P : Nat → Option (List Item)} {t : Forest} {s' : Sub}
    (h : Node (applyP P t) s') :
    (∃ a js, P a = some js ∧ s'.id ∈ news js) ∨ ∃ s, Node t s ∧ s' = inner P s := by
  induction t with
  | nil => cases h
  | cons i d ks r ih1 ih2 =>
    rw [applyP] at h
    rcases node_cons.mp h with rfl | h | h
    · exact Or.inr ⟨⟨i, d, ks⟩, .here, rfl⟩
    · have h : (∃ a js, P a = some js ∧ s'.id ∈ news js) ∨ Node (applyP P ks) s' := by
        cases hp : P i with
        | none =>
          rw [hp] at h
          exact Or.inr h
        | some js =>
          rw [hp] at h
          rcases node_place h with h | h
          · exact Or.inl ⟨i, js, hp, h⟩
          · exact Or.inr h
      rcases h with h | h
      · exact Or.inl h
      · rcases ih1 h with h | ⟨s, h, e⟩
        · exact Or.inl h
        · exact Or.inr ⟨s, .down h, e⟩
    · rcases ih2 h with h | ⟨s, h, e⟩
      · exact Or.inl h
      · exact Or.inr ⟨s, .next h, e⟩

/-- Not a new node. -/
def NotNew (P : Nat → Option (List Item)) (n : Nat) : Prop := ∀ a js, P a = some js → n ∉ news js

theorem mem_apply {P : Nat → Option (List Item)} {t : Forest} {n : Nat} (hf : NotNew P n)
    (h : n ∈ (applyP P t).ids) : n ∈ t.ids := by
  obtain ⟨d, ks, h⟩ := mem_node h
  rcases node_apply h with ⟨a, js, h1, h2⟩ | ⟨s, hs, e⟩
  · exact absurd h2 (hf a js h1)
  · have : n = s.id := by
      have := congrArg Sub.id e
      exact this
    rw [this]
    exact node_mem hs

theorem mem_place {js : List Item} {t : Forest} (ht : (t.tops.map Sub.id).Nodup) {n : Nat}
    (hf : n ∉ news js) : n ∈ (place js t).ids ↔
      ∃ s ∈ t.tops, s.id ∈ olds js ∧ (n = s.id ∨ n ∈ s.kids.ids) := by
  induction js with
  | nil => simp [place, Forest.ids, olds]
  | cons j js ih =>
    cases j with
    | new m =>
      simp only [news, List.mem_cons, not_or] at hf
      rw [place]
      simp only [Forest.ids, List.mem_cons, hf.1, false_or, List.mem_append, List.not_mem_nil, olds]
      exact ih hf.2
    | old k =>
      simp only [news] at hf
      rw [place]
      cases hk : t.get k with
      | none =>
        dsimp only
        rw [ih hf]
        simp only [olds, List.mem_cons]
        constructor
        · rintro ⟨s, hs, h, hx⟩
          exact ⟨s, hs, Or.inr h, hx⟩
        · rintro ⟨s, hs, rfl | h, hx⟩
          · rw [get_mem ht hs] at hk
            cases hk
          · exact ⟨s, hs, h, hx⟩
      | some s' =>
        obtain ⟨hs', rfl⟩ := get_some hk
        dsimp only
        simp only [Forest.ids, List.mem_cons, List.mem_append]
        rw [ih hf]
        simp only [olds, List.mem_cons]
        constructor
        · rintro (h | h | ⟨s, hs, h, hx⟩)
          · exact ⟨s', hs', Or.inl rfl, Or.inl h⟩
          · exact ⟨s', hs', Or.inl rfl, Or.inr h⟩
          · exact ⟨s, hs, Or.inr h, hx⟩
        · rintro ⟨s, hs, h | h, hx⟩
          · have : s = s' := by
              have e := get_mem ht hs
              rw [h, hk] at e
              exact (Option.some.inj e).symm
            subst this
            rcases hx with hx | hx
            · exact Or.inl hx
            · exact Or.inr (Or.inl hx)
          · exact Or.inr (Or.inr ⟨s, hs, h, hx⟩)

/-- The nodes that are left. -/
theorem survives {P : Nat → Option (List Item)} {t : Forest} (hn : t.ids.Nodup) {n : Nat}
    (hf : NotNew P n) : n ∈ (applyP P t).ids ↔
      n ∈ t.ids ∧ ∀ a js c, P a = some js → Inside t a c n → c ∈ olds js := by
  induction t with
  | nil =>
    simp [applyP, Forest.ids]
  | cons i d ks r ih1 ih2 =>
    obtain ⟨h1, h2, h3, h4, h5⟩ := nodup_cons hn
    have ih1 := ih1 h3
    have ih2 := ih2 h4
    have hk : ∀ x, x ∈ ((match P i with
        | none => applyP P ks
        | some is => place is (applyP P ks)) : Forest).ids → x = n → x ∈ ks.ids := by
      rintro x hx rfl
      cases hp : P i with
      | none =>
        rw [hp] at hx
        exact (ih1.mp hx).1
      | some js =>
        rw [hp] at hx
        dsimp only at hx
        obtain ⟨d', ks', hx⟩ := mem_node hx
        rcases node_place hx with hx | hx
        · exact absurd hx (hf i js hp)
        · exact (ih1.mp (node_mem hx)).1
    simp only [applyP, Forest.ids, List.mem_cons, List.mem_append]
    by_cases hni : n = i
    · subst hni
      refine iff_of_true (Or.inl rfl) ⟨Or.inl rfl, ?_⟩
      intro a js c _ hi
      exfalso
      rcases inside_cons.mp hi with ⟨rfl, s, hs, rfl, hx⟩ | hi | hi
      · rcases hx with rfl | hx
        · exact h1 (node_mem (top_node hs))
        · exact h1 (top_inner hs hx)
      · exact h1 (inside_mem hi).2.1
      · exact h2 (inside_mem hi).2.1
    · simp only [hni, false_or]
      by_cases hnk : n ∈ ks.ids
      · have hr : n ∉ (applyP P r).ids := fun h => h5 _ hnk (ih2.mp h).1
        simp only [hr, or_false, hnk, true_or, true_and]
        have hin : ∀ a c, Inside (.cons i d ks r) a c n ↔
            (a = i ∧ ∃ s ∈ ks.tops, s.id = c ∧ (n = c ∨ n ∈ s.kids.ids)) ∨ Inside ks a c n := by
          intro a c
          rw [inside_cons]
          constructor
          · rintro (h | h | h)
            · exact Or.inl h
            · exact Or.inr h
            · exact absurd (inside_mem h).2.1 (h5 _ hnk)
          · rintro (h | h)
            · exact Or.inl h
            · exact Or.inr (Or.inl h)
        simp only [hin]
        cases hp : P i with
        | none =>
          dsimp only
          rw [ih1]
          constructor
          · rintro ⟨_, h⟩ a js c hj (⟨rfl, _⟩ | hi)
            · rw [hp] at hj; cases hj
            · exact h a js c hj hi
          · intro h
            exact ⟨hnk, fun a js c hj hi => h a js c hj (Or.inr hi)⟩
        | some js =>
          dsimp only
          have htn : ((applyP P ks).tops.map Sub.id).Nodup := by
            rw [topIds_apply]
            exact tops_nodup h3
          rw [mem_place htn (hf i js hp)]
          constructor
          · rintro ⟨s', hs', ho, hx⟩
            have hm : n ∈ (applyP P ks).ids := by
              rcases hx with rfl | hx
              · exact node_mem (top_node hs')
              · exact top_inner hs' hx
            rw [tops_apply, List.mem_map] at hs'
            obtain ⟨s, hs, rfl⟩ := hs'
            have hxs : n = s.id ∨ n ∈ s.kids.ids := by
              rcases hx with hx | hx
              · exact Or.inl hx
              · right
                obtain ⟨d', ks', hx⟩ := mem_node hx
                rw [inner] at hx
                dsimp only at hx
                have : Node (applyP P s.kids) ⟨n, d', ks'⟩ := by
                  cases hp' : P s.id with
                  | none => rw [hp'] at hx; exact hx
                  | some js' =>
                    rw [hp'] at hx
                    exact (node_place hx).resolve_left (hf s.id js' hp')
                exact mem_apply hf (node_mem this)
            have hall := (ih1.mp hm).2
            rintro a js' c hj (⟨rfl, s2, hs2, rfl, hx2⟩ | hi)
            · rw [hp] at hj
              cases hj
              rw [← top_disjoint h3 hs hs2 hxs hx2]
              exact ho
            · exact hall a js' c hj hi
          · intro h
            have hm := ih1.mpr ⟨hnk, fun a js c hj hi => h a js c hj (Or.inr hi)⟩
            obtain ⟨s', hs', hx⟩ := mem_top_ids hm
            refine ⟨s', hs', ?_, hx⟩
            have hs2 := hs'
            rw [tops_apply, List.mem_map] at hs2
            obtain ⟨s, hs, rfl⟩ := hs2
            have hxs : n = s.id ∨ n ∈ s.kids.ids := by
              rcases hx with hx | hx
              · exact Or.inl hx
              · right
                obtain ⟨d', ks', hx⟩ := mem_node hx
                rw [inner] at hx
                dsimp only at hx
                have : Node (applyP P s.kids) ⟨n, d', ks'⟩ := by
                  cases hp' : P s.id with
                  | none => rw [hp'] at hx; exact hx
                  | some js' =>
                    rw [hp'] at hx
                    exact (node_place hx).resolve_left (hf s.id js' hp')
                exact mem_apply hf (node_mem this)
            exact h i js s.id hp (Or.inl ⟨rfl, s, hs, rfl, hxs⟩)
      · have hl : n ∉ ((match P i with
            | none => applyP P ks
            | some is => place is (applyP P ks)) : Forest).ids := fun h => hnk (hk n h rfl)
        simp only [hl, false_or, hnk]
        rw [ih2]
        refine and_congr_right fun hnr => ?_
        refine forall_congr' fun a => forall_congr' fun js => forall_congr' fun c =>
          forall_congr' fun _ => ?_
        rw [inside_cons]
        constructor
        · rintro h (⟨rfl, s, hs, rfl, hx⟩ | hi | hi)
          · exfalso
            rcases hx with rfl | hx
            · exact hnk (node_mem (top_node hs))
            · exact hnk (top_inner hs hx)
          · exact absurd (inside_mem hi).2.1 hnk
          · exact h hi
        · intro h hi
          exact h (Or.inr (Or.inr hi))

theorem kidsOf_apply {P : Nat → Option (List Item)} {t : Forest} (hn : t.ids.Nodup) {n : Nat}
    (hf : NotNew P n) (hm : n ∈ (applyP P t).ids) {s : Sub} (hs : Node t s) (he : s.id = n) :
    (applyP P t).kidsOf n = some (inner P s).kids := by
  cases hk : (applyP P t).kidsOf n with
  | none => exact absurd hm (kidsOf_none.mp hk)
  | some f =>
    obtain ⟨d, h⟩ := kidsOf_node hk
    rcases node_apply h with ⟨a, js, h1, h2⟩ | ⟨s', hs', e⟩
    · exact absurd h2 (hf a js h1)
    · have : s' = s := by
        refine node_unique hn hs' hs ?_
        have := congrArg Sub.id e
        rw [he]
        exact this.symm
      subst this
      rw [← e]

theorem place_ids {js : List Item} {t : Forest} (h : ∀ k ∈ olds js, (t.get k).isSome) :
    (place js t).tops.map Sub.id = js.map Item.id := by
  induction js with
  | nil => rfl
  | cons j js ih =>
    cases j with
    | new n =>
      rw [place, Forest.tops, List.map_cons, List.map_cons, ih h]
      rfl
    | old k =>
      have hk := h k (by simp [olds])
      have ih := ih fun x hx => h x (by simp [olds, hx])
      rw [place]
      cases hg : t.get k with
      | none => rw [hg] at hk; cases hk
      | some s =>
        dsimp only
        rw [Forest.tops, List.map_cons, List.map_cons, ih]
        rfl

/-- The rounds, in order. -/
def updAll : (Nat → Option (List Item)) → List (Nat × List Item) → Nat → Option (List Item)
  | P, [] => P
  | P, p :: ps => updAll (upd P p.1 p.2) ps

theorem updAll_eq (P : Nat → Option (List Item)) (ps : List (Nat × List Item))
    (hk : (ps.map Prod.fst).Nodup) (n : Nat) (js : List Item) :
    updAll P ps n = some js ↔ (n, js) ∈ ps ∨ (n ∉ ps.map Prod.fst ∧ P n = some js) := by
  induction ps generalizing P with
  | nil => simp [updAll]
  | cons p ps ih =>
    obtain ⟨r, is⟩ := p
    simp only [List.map_cons, List.nodup_cons] at hk
    rw [updAll, ih _ hk.2, upd]
    by_cases h : n = r
    · subst h
      have : ∀ x, (n, x) ∈ ps → False := fun x hx => hk.1 (List.mem_map.mpr ⟨_, hx, rfl⟩)
      simp only [if_pos, List.mem_cons, Prod.mk.injEq, true_and, Option.some.injEq, List.map_cons,
        true_or, not_true_eq_false, false_and, or_false]
      constructor
      · rintro (h | ⟨_, h⟩)
        · exact absurd h (this js)
        · exact Or.inl h.symm
      · rintro (h | h)
        · exact Or.inr ⟨hk.1, h.symm⟩
        · exact absurd h (this js)
    · simp [h, List.mem_cons]

theorem round_apply {P : Nat → Option (List Item)} {r : Nat} {is : List Item} {t : Forest}
    (hn : t.ids.Nodup) (hP : P r = none) (hf : NotNew P r) (hm : r ∈ (applyP P t).ids)
    {d : Bool} {ks : Forest} (hs : Node t ⟨r, d, ks⟩) (ho : ∀ k ∈ olds is, k ∈ ks.tops.map Sub.id) :
    round r is (applyP P t) = some (applyP (upd P r is) t) := by
  rw [round, kidsOf_apply hn hf hm hs rfl]
  dsimp only
  rw [if_pos, redo_apply hP hf hn]
  rw [List.all_eq_true]
  intro k hk
  rw [get_isSome]
  simp only [inner, hP]
  rw [topIds_apply]
  exact ho k hk

theorem reassemble_apply {t : Forest} (hn : t.ids.Nodup) (ps : List (Nat × List Item))
    (P : Nat → Option (List Item)) (hk : (ps.map Prod.fst).Nodup)
    (hreg : ∀ p ∈ ps, ∃ d ks, Node t ⟨p.1, d, ks⟩ ∧ ∀ k ∈ olds p.2, k ∈ ks.tops.map Sub.id)
    (hnone : ∀ p ∈ ps, P p.1 = none) (hfresh : ∀ p ∈ ps, ∀ n ∈ news p.2, n ∉ t.ids)
    (hfreshP : ∀ a js, P a = some js → ∀ n ∈ news js, n ∉ t.ids)
    (hkeep : ∀ p ∈ ps, ∀ p' ∈ ps, ∀ c, Inside t p.1 c p'.1 → c ∈ olds p.2)
    (hkeepP : ∀ a js, P a = some js → ∀ p' ∈ ps, ∀ c, Inside t a c p'.1 → c ∈ olds js) :
    reassemble ps (applyP P t) = some (applyP (updAll P ps) t) := by
  induction ps generalizing P with
  | nil => rfl
  | cons p ps ih =>
    obtain ⟨r, is⟩ := p
    simp only [List.map_cons, List.nodup_cons] at hk
    obtain ⟨d, ks, hs, ho⟩ := hreg _ List.mem_cons_self
    have hmem : r ∈ t.ids := node_mem hs
    have hf : NotNew P r := fun a js h h' => hfreshP a js h r h' hmem
    have hm : r ∈ (applyP P t).ids :=
      (survives hn hf).mpr ⟨hmem, fun a js c h hi => hkeepP a js h _ List.mem_cons_self c hi⟩
    rw [reassemble, round_apply hn (hnone _ List.mem_cons_self) hf hm hs ho]
    dsimp only
    rw [updAll]
    refine ih _ hk.2 (fun p hp => hreg p (List.mem_cons_of_mem _ hp)) ?_
      (fun p hp => hfresh p (List.mem_cons_of_mem _ hp)) ?_
      (fun p hp p' hp' => hkeep p (List.mem_cons_of_mem _ hp) p' (List.mem_cons_of_mem _ hp')) ?_
    · intro p hp
      rw [upd, if_neg, hnone p (List.mem_cons_of_mem _ hp)]
      intro h
      exact hk.1 (h ▸ List.mem_map.mpr ⟨p, hp, rfl⟩)
    · intro a js h
      rw [upd] at h
      split at h
      · cases h
        exact hfresh _ List.mem_cons_self
      · exact hfreshP a js h
    · intro a js h p' hp' c hi
      rw [upd] at h
      split at h
      · rename_i ha
        cases h
        subst ha
        exact hkeep _ List.mem_cons_self p' (List.mem_cons_of_mem _ hp') c hi
      · exact hkeepP a js h p' (List.mem_cons_of_mem _ hp') c hi

theorem inside_ne {t : Forest} (hn : t.ids.Nodup) {a c n : Nat} (h : Inside t a c n) : a ≠ n := by
  induction h with
  | here s h1 h2 h3 =>
    obtain ⟨h4, _⟩ := nodup_cons hn
    rintro rfl
    rcases h3 with rfl | h3
    · exact h4 (h2 ▸ node_mem (top_node h1))
    · exact h4 (top_inner h1 h3)
  | down _ ih => exact ih (nodup_cons hn).2.2.1
  | next _ ih => exact ih (nodup_cons hn).2.2.2.1

theorem exists_perm_cons {α : Type} {a : α} {l : List α} (h : a ∈ l) : ∃ l', (a :: l').Perm l := by
  obtain ⟨s, t, rfl⟩ := List.append_of_mem h
  exact ⟨s ++ t, List.perm_middle.symm⟩

end Verif.SubRegions
