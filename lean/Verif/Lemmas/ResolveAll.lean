import Verif.Model.ResolveAllSpec
import Mathlib.Data.List.Basic
import Mathlib.Data.List.Nodup

/-!
# Lemmas on the resolution of all modifiers
-/

namespace Tket.ResolveAll

/-! ## The first loop -/

/-- The graph when `done` have been replaced. -/
structure After (o : Ops) (g : Graph) (done : List Nat) (h : Graph) : Prop where
  edges : h.edges = g.edges.map (moved g done)
  nodes : h.nodes = g.nodes ++ (List.range done.length).map (g.next + ·)
  next : h.next = g.next + done.length
  repl : ∀ x ∈ done, Replaced o g x
  nodup : done.Nodup

theorem moved_src {g : Graph} {done : List Nat} {e : Edge} {n : Nat} (hn : n < g.next) :
    (moved g done e).src = n ↔ e.src = n ∧ n ∉ done := by
  unfold moved newNode
  split
  · rename_i h
    constructor
    · intro he
      simp only at he
      omega
    · rintro ⟨rfl, h'⟩
      exact absurd h h'
  · rename_i h
    constructor
    · rintro rfl
      exact ⟨rfl, h⟩
    · exact fun h => h.1

theorem moved_sport {g : Graph} {done : List Nat} {e : Edge} : (moved g done e).sport = e.sport := by
  unfold moved
  split <;> rfl

theorem moved_dst {g : Graph} {done : List Nat} {e : Edge} : (moved g done e).dst = e.dst := by
  unfold moved
  split <;> rfl

/-- The uses of a modifier, after replacements. -/
theorem uses_after {o : Ops} {g h : Graph} {done : List Nat} (ha : After o g done h) {n : Nat}
    (hn : n < g.next) :
    h.edges.filter (fun e => e.src = n ∧ e.sport = 0) =
      if n ∈ done then [] else g.edges.filter (fun e => e.src = n ∧ e.sport = 0) := by
  rw [ha.edges, List.filter_map]
  split
  · rename_i hd
    rw [List.map_eq_nil_iff, List.filter_eq_nil_iff]
    intro e _
    simp [moved_src hn, hd]
  · rename_i hd
    have h1 : g.edges.filter ((fun e => decide (e.src = n ∧ e.sport = 0)) ∘ moved g done) =
        g.edges.filter (fun e => e.src = n ∧ e.sport = 0) := by
      apply List.filter_congr
      intro e _
      simp [moved_src hn, hd, moved_sport]
    rw [h1]
    conv_rhs => rw [← List.map_id (g.edges.filter (fun e => e.src = n ∧ e.sport = 0))]
    apply List.map_congr_left
    intro e he
    simp only [List.mem_filter, decide_eq_true_eq] at he
    unfold moved
    rw [if_neg (by rw [he.2.1]; exact hd)]
    rfl

theorem verify_iff {o : Ops} {g h : Graph} {done : List Nat} (hv : g.Valid o) (ha : After o g done h)
    (n : Nat) : verify o h n = true ∧ o.outcome n = .ok ↔ n ∉ done ∧ Replaced o g n := by
  unfold verify Replaced
  by_cases hm : o.isMod n = true
  · rw [uses_after ha (hv.below n (hv.mods n hm))]
    by_cases hd : n ∈ done
    · simp [hd]
    · simp only [hm, Bool.true_and, hd, if_false, not_false_eq_true, true_and]
      constructor
      · rintro ⟨h1, h2⟩
        refine ⟨h2, ?_⟩
        split at h1
        · rename_i e he
          exact ⟨e, he, by simpa using h1⟩
        · cases h1
      · rintro ⟨h1, e, h2, h3⟩
        rw [h2]
        exact ⟨by simpa using h3, h1⟩
  · simp [hm]

theorem after_step {o : Ops} {g h : Graph} {done : List Nat} (ha : After o g done h) {n : Nat}
    (hn : n < g.next) (hd : n ∉ done) (hr : Replaced o g n) :
    After o g (done ++ [n]) ⟨h.nodes ++ [h.next], h.edges.map (redirect n h.next), h.next + 1⟩ where
  edges := by
    simp only
    rw [ha.edges, List.map_map]
    apply List.map_congr_left
    intro e _
    simp only [Function.comp_apply]
    unfold redirect
    by_cases he : e.src = n
    · rw [if_pos ((moved_src hn).2 ⟨he, hd⟩)]
      unfold moved newNode
      rw [he, if_neg hd, if_pos (by simp), ha.next]
      rw [List.idxOf_append_of_notMem hd]
      simp
    · rw [if_neg (fun hc => he ((moved_src hn).1 hc).1)]
      unfold moved newNode
      by_cases hed : e.src ∈ done
      · rw [if_pos hed, if_pos (by simp [hed]), List.idxOf_append_of_mem hed]
      · rw [if_neg hed, if_neg (by simp [hed, he])]
  nodes := by
    simp only
    rw [ha.nodes, ha.next]
    simp [List.range_succ]
  next := by
    simp only [ha.next, List.length_append, List.length_singleton]
    omega
  repl x hx := by
    rcases List.mem_append.1 hx with hx | hx
    · exact ha.repl x hx
    · rw [List.mem_singleton.1 hx]
      exact hr
  nodup := by
    rw [List.nodup_append]
    refine ⟨ha.nodup, by simp, ?_⟩
    intro a h1 b h2
    rw [List.mem_singleton.1 h2]
    rintro rfl
    exact hd h1

theorem rewriteAll_after {o : Ops} {g : Graph} (hv : g.Valid o) (ns : List Nat) :
    ∀ {done h h'}, After o g done h → rewriteAll o ns h = .ok h' →
      ∃ done', After o g done' h' ∧ ∀ x, x ∈ done' ↔ x ∈ done ∨ x ∈ ns ∧ Replaced o g x := by
  induction ns with
  | nil =>
    intro done h h' ha hr
    cases hr
    exact ⟨done, ha, by simp⟩
  | cons n ns ih =>
    intro done h h' ha hr
    simp only [rewriteAll] at hr
    split at hr
    · cases hr
    · rename_i h2 ht
      unfold tryRewrite at ht
      by_cases hc : verify o h n = true ∧ o.outcome n = .ok
      · rw [if_pos hc.1, hc.2] at ht
        cases ht
        obtain ⟨c1, c2⟩ := (verify_iff hv ha n).1 hc
        obtain ⟨done', d1, d2⟩ := ih (after_step ha (hv.below n (hv.mods n c2.1)) c1 c2) hr
        refine ⟨done', d1, fun x => ?_⟩
        rw [d2]
        simp only [List.mem_append, List.mem_cons, List.not_mem_nil, or_false]
        constructor
        · rintro ((h1 | rfl) | h1)
          · exact .inl h1
          · exact .inr ⟨.inl rfl, c2⟩
          · exact .inr ⟨.inr h1.1, h1.2⟩
        · rintro (h1 | ⟨rfl | h1, h3⟩)
          · exact .inl (.inl h1)
          · exact .inl (.inr rfl)
          · exact .inr ⟨h1, h3⟩
      · have hh : h2 = h := by
          split at ht
          · rename_i hvf
            split at ht
            · rename_i ho
              exact absurd ⟨hvf, ho⟩ hc
            · cases ht; rfl
            · cases ht
          · cases ht; rfl
        subst hh
        obtain ⟨done', d1, d2⟩ := ih ha hr
        refine ⟨done', d1, fun x => ?_⟩
        rw [d2]
        simp only [List.mem_cons]
        have := mt (verify_iff hv ha n).2 hc
        constructor
        · rintro (h1 | ⟨h1, h2⟩)
          · exact .inl h1
          · exact .inr ⟨.inr h1, h2⟩
        · rintro (h1 | ⟨rfl | h1, h3⟩)
          · exact .inl h1
          · left
            apply Classical.byContradiction
            intro hnd
            exact this ⟨hnd, h3⟩
          · exact .inr ⟨h1, h3⟩

theorem after_nil (o : Ops) (g : Graph) : After o g [] g where
  edges := by
    conv_lhs => rw [← List.map_id g.edges]
    apply List.map_congr_left
    intro e _
    simp [moved]
  nodes := by simp
  next := by simp
  repl := by simp
  nodup := by simp

/-- The loop does not stop early if all modifiers can be applied. -/
theorem rewriteAll_ok {o : Ops} (h : ∀ m, o.isMod m = true → o.outcome m = .ok) (ns : List Nat) :
    ∀ g, ∃ g', rewriteAll o ns g = .ok g' := by
  induction ns with
  | nil => exact fun g => ⟨g, rfl⟩
  | cons n ns ih =>
    intro g
    simp only [rewriteAll, tryRewrite]
    by_cases hv : verify o g n = true
    · have hm : o.isMod n = true := by
        unfold verify at hv
        simp only [Bool.and_eq_true] at hv
        exact hv.1
      rw [if_pos hv, h n hm]
      exact ih _
    · rw [if_neg hv]
      exact ih _

/-! ## The second loop -/

/-- An edge leads from `a` to `b`. -/
def Arrow (g : Graph) (a b : Nat) : Prop := ∃ e ∈ g.edges, e.src = a ∧ e.dst = b

/-- What is known after removals, beginning with `l`. -/
structure Shrunk (g : Graph) (l : Nat → Prop) (g' : Graph) : Prop where
  sub : ∀ n ∈ g'.nodes, n ∈ g.nodes
  gone : ∀ n, l n → n ∉ g'.nodes
  reach : ∀ n ∈ g.nodes, n ∉ g'.nodes → ∃ m, l m ∧ Relation.ReflTransGen (Arrow g) m n
  closed : ∀ e ∈ g.edges, e.src ∉ g'.nodes → e.dst ∉ g'.nodes
  edges : g'.edges = g.edges.filter (fun e => e.src ∈ g'.nodes ∧ e.dst ∈ g'.nodes)

/-- Edges join nodes. -/
def Graph.Closed (g : Graph) : Prop := ∀ e ∈ g.edges, e.src ∈ g.nodes ∧ e.dst ∈ g.nodes

theorem remove_closed {g : Graph} (h : g.Closed) (n : Nat) : (remove g n).Closed := by
  intro e he
  simp only [remove, List.mem_filter, decide_eq_true_eq] at he ⊢
  have := h e he.1
  exact ⟨⟨this.1, he.2.1⟩, this.2, he.2.2⟩

theorem shrunk_closed {g g' : Graph} {l} (h : Shrunk g l g') : g'.Closed := by
  intro e he
  rw [h.edges] at he
  simpa using (List.mem_filter.1 he).2

theorem shrunk_refl {g : Graph} (h : g.Closed) : Shrunk g (fun _ => False) g where
  sub _ hn := hn
  gone _ hn := hn.elim
  reach _ h1 h2 := absurd h1 h2
  closed e he h1 := absurd (h e he).1 h1
  edges := by
    rw [List.filter_eq_self.2]
    intro e he
    simpa using h e he

theorem shrunk_trans {g g1 g2 : Graph} {l1 l2 l : Nat → Prop} (h1 : Shrunk g l1 g1)
    (h2 : Shrunk g1 l2 g2) (hl : ∀ n, l n ↔ l1 n ∨ l2 n) : Shrunk g l g2 where
  sub n hn := h1.sub n (h2.sub n hn)
  gone n hn := by
    rcases (hl n).1 hn with h | h
    · exact fun hc => h1.gone n h (h2.sub n hc)
    · exact h2.gone n h
  reach n hn hn' := by
    by_cases hc : n ∈ g1.nodes
    · obtain ⟨m, m1, m2⟩ := h2.reach n hc hn'
      refine ⟨m, (hl m).2 (.inr m1), Relation.ReflTransGen.mono ?_ _ _ m2⟩
      rintro a b ⟨e, he, h⟩
      rw [h1.edges] at he
      exact ⟨e, (List.mem_filter.1 he).1, h⟩
    · obtain ⟨m, m1, m2⟩ := h1.reach n hn hc
      exact ⟨m, (hl m).2 (.inl m1), m2⟩
  closed e he hs hd := by
    have hd1 := h2.sub _ hd
    by_cases hc : e.src ∈ g1.nodes
    · refine h2.closed e ?_ hs hd
      rw [h1.edges]
      simp [he, hc, hd1]
    · exact h1.closed e he hc hd1
  edges := by
    rw [h2.edges, h1.edges, List.filter_filter]
    apply List.filter_congr
    intro e _
    by_cases h : e.src ∈ g2.nodes ∧ e.dst ∈ g2.nodes
    · simp [h, h2.sub _ h.1, h2.sub _ h.2]
    · simp only [h, decide_false, Bool.false_and]

/-- The inner loop. -/
theorem removeLoop_shrunk (fuel : Nat) : ∀ {l g g'}, g.Closed → removeLoop fuel l g = .ok g' →
    Shrunk g (· ∈ l) g' := by
  have hnil : ∀ {fuel : Nat} {g g' : Graph}, g.Closed → removeLoop fuel [] g = .ok g' →
      Shrunk g (· ∈ ([] : List Nat)) g' := by
    intro fuel g g' hc h
    have : g' = g := by
      cases fuel <;> · simp only [removeLoop] at h; cases h; rfl
    subst this
    have := shrunk_refl hc
    exact ⟨this.sub, fun _ h => (by cases h), fun n h1 h2 => absurd h1 h2, this.closed, this.edges⟩
  induction fuel with
  | zero =>
    intro l g g' hc h
    cases l with
    | nil => exact hnil hc h
    | cons n l => simp only [removeLoop] at h; cases h
  | succ fuel ih =>
    intro l g g' hc h
    cases l with
    | nil => exact hnil hc h
    | cons n l =>
      simp only [removeLoop] at h
      split at h
      · rename_i hn
        have hs := ih (remove_closed hc n) h
        have hnn : n ∉ g'.nodes := by
          intro hcn
          have := hs.sub n hcn
          simp [remove] at this
        have harrow : ∀ {a b}, Arrow (remove g n) a b → Arrow g a b := by
          rintro a b ⟨e, he, h⟩
          exact ⟨e, (List.mem_filter.1 he).1, h⟩
        refine ⟨?_, ?_, ?_, ?_, ?_⟩
        · intro x hx
          have := hs.sub x hx
          exact (List.mem_filter.1 this).1
        · intro x hx
          rcases List.mem_cons.1 hx with rfl | hx
          · exact hnn
          · exact hs.gone x (by simp [hx])
        · intro x hx hx'
          by_cases hxn : x = n
          · subst hxn
            exact ⟨x, by simp, .refl⟩
          · obtain ⟨m, m1, m2⟩ := hs.reach x (by simp [remove, hx, hxn]) hx'
            have m2 := Relation.ReflTransGen.mono (fun a b => harrow) _ _ m2
            rcases List.mem_append.1 m1 with m1 | m1
            · simp only [List.mem_reverse, outNeighbours, List.mem_map, List.mem_filter,
                decide_eq_true_eq] at m1
              obtain ⟨e, ⟨e1, e2⟩, e3⟩ := m1
              exact ⟨n, by simp, .head ⟨e, e1, e2, e3⟩ m2⟩
            · exact ⟨m, by simp [m1], m2⟩
        · intro e he hsrc
          by_cases h1 : e.src = n
          · apply hs.gone
            apply List.mem_append_left
            simp only [List.mem_reverse, outNeighbours, List.mem_map, List.mem_filter,
              decide_eq_true_eq]
            exact ⟨e, ⟨he, h1⟩, rfl⟩
          · by_cases h2 : e.dst = n
            · rw [h2]
              exact hnn
            · exact hs.closed e (by simp [remove, he, h1, h2]) hsrc
        · rw [hs.edges]
          simp only [remove, List.filter_filter]
          apply List.filter_congr
          intro e _
          by_cases h1 : e.src = n
          · simp [h1, hnn]
          · by_cases h2 : e.dst = n
            · simp [h2, hnn]
            · simp [h1, h2]
      · cases h

theorem removeAll_shrunk (o : Ops) (ns : List Nat) : ∀ {g g'}, g.Closed → removeAll o ns g = .ok g' →
    Shrunk g (fun n => n ∈ ns ∧ o.isMod n = true ∧ n ∈ g.nodes) g' := by
  induction ns with
  | nil =>
    intro g g' hc h
    cases h
    have := shrunk_refl hc
    exact ⟨this.sub, fun _ h => by simp at h, fun n h1 h2 => absurd h1 h2, this.closed, this.edges⟩
  | cons n ns ih =>
    intro g g' hc h
    simp only [removeAll] at h
    split at h
    · rename_i hn
      split at h
      · cases h
      · rename_i g1 h1
        have s1 := removeLoop_shrunk _ hc h1
        have s2 := ih (shrunk_closed s1) h
        have := shrunk_trans s1 s2 (fun _ => Iff.rfl)
        refine ⟨this.sub, ?_, ?_, this.closed, this.edges⟩
        · rintro x ⟨h1, h2, h3⟩ hx
          rcases List.mem_cons.1 h1 with rfl | h1
          · exact this.gone x (.inl (by simp)) hx
          · exact this.gone x (.inr ⟨h1, h2, s2.sub x hx⟩) hx
        · intro x h1 h2
          obtain ⟨m, m1, m2⟩ := this.reach x h1 h2
          refine ⟨m, ?_, m2⟩
          rcases m1 with m1 | ⟨m1, m3, m4⟩
          · simp only [List.mem_singleton] at m1
            subst m1
            exact ⟨by simp, hn.2, hn.1⟩
          · exact ⟨by simp [m1], m3, s1.sub _ m4⟩
    · rename_i hn
      have s := ih hc h
      refine ⟨s.sub, ?_, ?_, s.closed, s.edges⟩
      · rintro x ⟨h1, h2, h3⟩
        rcases List.mem_cons.1 h1 with rfl | h1
        · exact absurd ⟨h3, h2⟩ hn
        · exact s.gone x ⟨h1, h2, h3⟩
      · intro x h1 h2
        obtain ⟨m, ⟨m1, m3⟩, m2⟩ := s.reach x h1 h2
        exact ⟨m, ⟨by simp [m1], m3⟩, m2⟩

/-- Graphs in which modifiers have at most one use, by modifiers. -/
structure Chains (o : Ops) (g : Graph) : Prop where
  closed : g.Closed
  one : ∀ m, o.isMod m = true → (g.edges.filter (fun e => e.src = m)).length ≤ 1
  mod : ∀ e ∈ g.edges, o.isMod e.src = true → o.isMod e.dst = true ∧ e.dst ≠ e.src

theorem chains_remove {o : Ops} {g : Graph} (h : Chains o g) (n : Nat) : Chains o (remove g n) where
  closed := remove_closed h.closed n
  one m hm := by
    refine Nat.le_trans ?_ (h.one m hm)
    simp only [remove]
    rw [List.filter_filter]
    apply List.Sublist.length_le
    apply List.monotone_filter_right
    intro e he
    simp only [Bool.and_eq_true] at he
    exact he.1
  mod e he hm := h.mod e (List.mem_filter.1 he).1 hm

theorem removeLoop_ok {o : Ops} (fuel : Nat) : ∀ {n g}, Chains o g → o.isMod n = true →
    n ∈ g.nodes → g.nodes.length ≤ fuel → ∃ g', removeLoop fuel [n] g = .ok g' ∧ Chains o g' := by
  induction fuel with
  | zero =>
    intro n g _ _ hn hf
    have : g.nodes = [] := List.length_eq_zero_iff.1 (by omega)
    rw [this] at hn
    cases hn
  | succ fuel ih =>
    intro n g hc hm hn hf
    simp only [removeLoop, hn, if_true]
    have hlen : (remove g n).nodes.length ≤ fuel := by
      have : (remove g n).nodes.length < g.nodes.length := by
        simp only [remove]
        apply List.length_filter_lt_length_iff_exists.2
        exact ⟨n, hn, by simp⟩
      omega
    have h1 := hc.one n hm
    unfold outNeighbours
    cases hE : g.edges.filter (fun e => e.src = n) with
    | nil =>
      simp only [List.map_nil, List.reverse_nil, List.append_nil]
      refine ⟨remove g n, ?_, chains_remove hc n⟩
      cases fuel <;> rfl
    | cons e l =>
      rw [hE] at h1
      have : l = [] := List.length_eq_zero_iff.1 (by simpa using h1)
      subst this
      have he : e ∈ g.edges ∧ e.src = n := by
        have : e ∈ g.edges.filter (fun e => e.src = n) := by rw [hE]; simp
        simpa using List.mem_filter.1 this
      obtain ⟨m1, m2⟩ := hc.mod e he.1 (by rw [he.2]; exact hm)
      simp only [List.map_cons, List.map_nil, List.reverse_singleton, List.append_nil]
      refine ih (chains_remove hc n) m1 ?_ hlen
      simp only [remove, List.mem_filter, decide_eq_true_eq, ne_eq]
      exact ⟨(hc.closed e he.1).2, by simpa [he.2] using m2⟩

theorem removeAll_ok {o : Ops} (ns : List Nat) : ∀ {g}, Chains o g →
    ∃ g', removeAll o ns g = .ok g' := by
  induction ns with
  | nil => exact fun _ => ⟨_, rfl⟩
  | cons n ns ih =>
    intro g hc
    simp only [removeAll]
    split
    · rename_i hn
      obtain ⟨g', h1, h2⟩ := removeLoop_ok _ hc hn.2 hn.1 (Nat.le_refl _)
      simp only [h1]
      exact ih h2
    · exact ih hc

end Tket.ResolveAll
