import Verif.Lemmas.ResolveAll

/-!
# C81: the modifier resolver replaces every modified call and removes nothing else
-/

namespace Tket.ResolveAll

theorem after_closed {o : Ops} {g h : Graph} {done : List Nat} (hv : g.Valid o)
    (ha : After o g done h) : h.Closed := by
  intro e he
  rw [ha.edges, List.mem_map] at he
  obtain ⟨e, he, rfl⟩ := he
  rw [ha.nodes, moved_dst]
  refine ⟨?_, List.mem_append_left _ (hv.dst e he)⟩
  unfold moved
  split
  · rename_i hd
    apply List.mem_append_right
    rw [List.mem_map]
    exact ⟨_, List.mem_range.2 (List.idxOf_lt_length_iff.2 hd), rfl⟩
  · exact List.mem_append_left _ (hv.src e he)

/-- What the pass does, for all programs. The modifiers in `done` are replaced: the edges from them begin
at new nodes. All modifiers are removed with everything that depends on one that is not replaced. That
only modifiers are removed is false, see below. -/
theorem C81_result_partial (o : Ops) (seen seen' : List Nat) (g g' : Graph) (hv : g.Valid o)
    (h : resolve o seen seen' g = .ok g') :
    ∃ done : List Nat, done.Nodup ∧ (∀ x, x ∈ done ↔ x ∈ seen ∧ Replaced o g x) ∧
      (∀ n, n ∈ g'.nodes ↔ n ∈ g.nodes ∧ ¬ Removed o seen seen' g n ∨
        ∃ x ∈ done, n = newNode g done x) ∧
      g'.edges = (g.edges.map (moved g done)).filter
        (fun e => e.src ∈ g'.nodes ∧ e.dst ∈ g'.nodes) := by
  unfold resolve at h
  split at h
  · cases h
  · rename_i h1 hr
    obtain ⟨done, ha, hd⟩ := rewriteAll_after hv seen (after_nil o g) hr
    have hd : ∀ x, x ∈ done ↔ x ∈ seen ∧ Replaced o g x := by simpa using hd
    have s := removeAll_shrunk o seen' (after_closed hv ha) h
    refine ⟨done, ha.nodup, hd, ?_, ?_⟩
    · have harrow : ∀ {a b}, a ∈ g.nodes → (Arrow h1 a b ↔ Uses o seen g a b) := by
        intro a b hab
        unfold Arrow Uses
        rw [← hd, ha.edges]
        simp only [List.mem_map]
        constructor
        · rintro ⟨_, ⟨e, he, rfl⟩, e1, e2⟩
          obtain ⟨e1, e3⟩ := (moved_src (hv.below a hab)).1 e1
          exact ⟨e3, e, he, e1, by rw [← e2, moved_dst]⟩
        · rintro ⟨h0, e, he, e1, e2⟩
          exact ⟨_, ⟨e, he, rfl⟩, (moved_src (hv.below a hab)).2 ⟨e1, h0⟩, by rw [moved_dst, e2]⟩
      have hpath : ∀ {m n}, m ∈ g.nodes →
          (Relation.ReflTransGen (Arrow h1) m n → n ∈ g.nodes ∧
            Relation.ReflTransGen (Uses o seen g) m n) := by
        intro m n hm hp
        induction hp with
        | refl => exact ⟨hm, .refl⟩
        | tail _ hb ih =>
          have hb' := (harrow ih.1).1 hb
          obtain ⟨-, e, he, -, e2⟩ := hb'
          exact ⟨e2 ▸ hv.dst e he, ih.2.tail ((harrow ih.1).1 hb)⟩
      have hnew : ∀ n, n ∈ h1.nodes ↔ n ∈ g.nodes ∨ ∃ x ∈ done, n = newNode g done x := by
        intro n
        rw [ha.nodes, List.mem_append, List.mem_map]
        refine or_congr_right ?_
        simp only [List.mem_range, newNode]
        constructor
        · rintro ⟨i, hi, rfl⟩
          exact ⟨done[i], List.getElem_mem hi, by rw [ha.nodup.idxOf_getElem i hi]⟩
        · rintro ⟨x, hx, rfl⟩
          exact ⟨_, List.idxOf_lt_length_iff.2 hx, rfl⟩
      intro n
      constructor
      · intro hn
        rcases (hnew n).1 (s.sub n hn) with h2 | h2
        · refine .inl ⟨h2, ?_⟩
          rintro ⟨m, m1, m2, m3⟩
          have hm := hv.mods m m2
          have : ∀ n, Relation.ReflTransGen (Uses o seen g) m n → n ∈ g.nodes ∧ n ∉ g'.nodes := by
            intro n hp
            induction hp with
            | refl => exact ⟨hm, s.gone m ⟨m1, m2, (hnew m).2 (.inl hm)⟩⟩
            | tail _ hb ih =>
              obtain ⟨e, he, e1, e2⟩ := (harrow ih.1).2 hb
              obtain ⟨-, e', he', -, e2'⟩ := hb
              exact ⟨e2' ▸ hv.dst e' he', e2 ▸ s.closed e he (e1 ▸ ih.2)⟩
          exact (this n m3).2 hn
        · exact .inr h2
      · intro hn
        apply Classical.byContradiction
        intro hc
        have hn1 : n ∈ h1.nodes := (hnew n).2 (hn.elim (fun h => .inl h.1) .inr)
        obtain ⟨m, ⟨m1, m2, -⟩, m3⟩ := s.reach n hn1 hc
        obtain ⟨p1, p2⟩ := hpath (hv.mods m m2) m3
        rcases hn with hn | ⟨x, hx, rfl⟩
        · exact hn.2 ⟨m, m1, m2, p2⟩
        · have := hv.below _ p1
          unfold newNode at this
          omega
    · rw [s.edges, ha.edges]

/-- If each modifier is used once at most and can be applied, the pass removes the modifiers and nothing
else, and the operations that used modified functions use the new nodes instead. -/
theorem C81_linear (o : Ops) (seen seen' : List Nat) (g : Graph) (hv : g.Valid o) (hl : Linear o g)
    (hs : ∀ m, o.isMod m = true → m ∈ seen) (hs' : ∀ m, o.isMod m = true → m ∈ seen') :
    ∃ g' done, resolve o seen seen' g = .ok g' ∧ done.Nodup ∧
      (∀ x, x ∈ done ↔ o.isMod x = true ∧ ∃ e ∈ g.edges, e.src = x ∧ o.isMod e.dst = false) ∧
      (∀ n, n ∈ g'.nodes ↔ n ∈ g.nodes ∧ o.isMod n = false ∨ ∃ x ∈ done, n = newNode g done x) ∧
      g'.edges = (g.edges.filter (fun e => o.isMod e.dst = false)).map (fun e =>
        if o.isMod e.src then { e with src := newNode g done e.src } else e) := by
  have hrep : ∀ x, Replaced o g x ↔
      o.isMod x = true ∧ ∃ e ∈ g.edges, e.src = x ∧ o.isMod e.dst = false := by
    intro x
    unfold Replaced
    constructor
    · rintro ⟨h1, -, e, h2, h3⟩
      have : e ∈ g.edges.filter (fun e => e.src = x ∧ e.sport = 0) := by rw [h2]; simp
      simp only [List.mem_filter, decide_eq_true_eq] at this
      exact ⟨h1, e, this.1, this.2.1, h3⟩
    · rintro ⟨h1, e, h2, h3, h4⟩
      refine ⟨h1, hl.applies x h1, e, ?_, h4⟩
      have h5 := hl.one x h1
      have h6 : g.edges.filter (fun e => e.src = x ∧ e.sport = 0) =
          g.edges.filter (fun e => e.src = x) := by
        apply List.filter_congr
        intro e' he'
        by_cases hx : e'.src = x
        · simp [hx, (hl.value e' he' (by rw [hx]; exact h1)).1]
        · simp [hx]
      rw [h6]
      have h7 : e ∈ g.edges.filter (fun e => e.src = x) := by simp [h2, h3]
      revert h5 h7
      generalize g.edges.filter (fun e => e.src = x) = l
      intro h5 h7
      match l with
      | [a] => rw [List.mem_singleton.1 h7]
      | [] => cases h7
      | _ :: _ :: _ => simp at h5
  obtain ⟨h1, hr⟩ := rewriteAll_ok hl.applies seen g
  obtain ⟨done0, ha, hd0⟩ := rewriteAll_after hv seen (after_nil o g) hr
  have hd0 : ∀ x, x ∈ done0 ↔ x ∈ seen ∧ Replaced o g x := by simpa using hd0
  have hch : Chains o h1 := by
    refine ⟨after_closed hv ha, ?_, ?_⟩
    · intro m hm
      refine Nat.le_trans ?_ (hl.one m hm)
      rw [ha.edges, List.filter_map, List.length_map]
      apply List.Sublist.length_le
      apply List.monotone_filter_right
      intro e he
      simp only [Function.comp_apply, decide_eq_true_eq, moved_src (hv.below m (hv.mods m hm))] at he ⊢
      exact he.1
    · intro e he hm
      rw [ha.edges, List.mem_map] at he
      obtain ⟨e, he, rfl⟩ := he
      obtain ⟨e1, e2⟩ := (moved_src (hv.below _ (hv.mods _ hm))).1 rfl
      rw [moved_dst]
      rw [← e1] at hm e2 ⊢
      refine ⟨?_, (hl.value e he hm).2⟩
      cases hdm : o.isMod e.dst with
      | true => rfl
      | false => exact absurd ((hd0 _).2 ⟨hs _ hm, (hrep _).2 ⟨hm, e, he, rfl, hdm⟩⟩) e2
  obtain ⟨g', hg'⟩ := removeAll_ok seen' hch
  have hres : resolve o seen seen' g = .ok g' := by
    unfold resolve
    simp only [hr]
    exact hg'
  obtain ⟨done, d1, d2, d3, d4⟩ := C81_result_partial o seen seen' g g' hv hres
  have hrem : ∀ n, Removed o seen seen' g n ↔ o.isMod n = true := by
    intro n
    constructor
    · rintro ⟨m, -, m2, m3⟩
      induction m3 with
      | refl => exact m2
      | tail _ hb ih =>
        obtain ⟨b1, e, he, b2, b3⟩ := hb
        rw [← b3]
        cases hdm : o.isMod e.dst with
        | true => rfl
        | false => exact absurd ⟨hs _ ih, (hrep _).2 ⟨ih, e, he, b2, hdm⟩⟩ b1
    · intro hm
      exact ⟨n, hs' n hm, hm, .refl⟩
  have d2' : ∀ x, x ∈ done ↔ o.isMod x = true ∧ ∃ e ∈ g.edges, e.src = x ∧ o.isMod e.dst = false := by
    intro x
    rw [d2, hrep]
    exact ⟨fun h => h.2, fun h => ⟨hs x h.1, h⟩⟩
  have d3' : ∀ n, n ∈ g'.nodes ↔
      n ∈ g.nodes ∧ o.isMod n = false ∨ ∃ x ∈ done, n = newNode g done x := by
    intro n
    rw [d3, hrem]
    simp
  refine ⟨g', done, hres, d1, d2', d3', ?_⟩
  rw [d4, List.filter_map]
  have hnew : ∀ x, newNode g done x ∉ g.nodes := by
    intro x hx
    have := hv.below _ hx
    unfold newNode at this
    omega
  have hf : g.edges.filter
      ((fun e => decide (e.src ∈ g'.nodes ∧ e.dst ∈ g'.nodes)) ∘ moved g done) =
      g.edges.filter (fun e => o.isMod e.dst = false) := by
    apply List.filter_congr
    intro e he
    simp only [Function.comp_apply, decide_eq_decide, moved_dst]
    have hdst : e.dst ∈ g'.nodes ↔ o.isMod e.dst = false := by
      rw [d3']
      constructor
      · rintro (h | ⟨x, hx, h⟩)
        · exact h.2
        · exact absurd (h ▸ hv.dst e he) (hnew x)
      · exact fun h => .inl ⟨hv.dst e he, h⟩
    rw [hdst]
    constructor
    · exact fun h => h.2
    · intro h
      refine ⟨?_, h⟩
      unfold moved
      split
      · rename_i hx
        exact (d3' _).2 (.inr ⟨_, hx, rfl⟩)
      · rename_i hx
        refine (d3' _).2 (.inl ⟨hv.src e he, ?_⟩)
        cases hm : o.isMod e.src with
        | false => rfl
        | true => exact absurd ((d2' _).2 ⟨hm, e, he, rfl, h⟩) hx
  rw [hf]
  apply List.map_congr_left
  intro e he
  simp only [List.mem_filter, decide_eq_true_eq] at he
  unfold moved
  by_cases hm : o.isMod e.src = true
  · rw [if_pos hm, if_pos ((d2' _).2 ⟨hm, e, he.1, rfl, he.2⟩)]
  · rw [if_neg hm, if_neg (fun hc => hm ((d2' _).1 hc).1)]

/-- A modifier that is not replaced (it is used twice, or its function is not known): the pass fails, or
it removes what uses the modified function and everything that depends on it. -/
theorem C81_unreplaced (o : Ops) (seen seen' : List Nat) (g g' : Graph) (hv : g.Valid o)
    (h : resolve o seen seen' g = .ok g') (m : Nat) (hm : m ∈ seen') (hmod : o.isMod m = true)
    (hr : ¬ Replaced o g m) (e : Edge) (he : e ∈ g.edges) (hs : e.src = m) (n : Nat)
    (hn : Relation.ReflTransGen
      (fun a b => o.isMod a = false ∧ ∃ e ∈ g.edges, e.src = a ∧ e.dst = b) e.dst n) :
    n ∉ g'.nodes := by
  obtain ⟨done, -, -, d3, -⟩ := C81_result_partial o seen seen' g g' hv h
  have hpath : Relation.ReflTransGen (Uses o seen g) m n := by
    refine .head ⟨fun hc => hr hc.2, e, he, hs, rfl⟩ (Relation.ReflTransGen.mono ?_ _ _ hn)
    rintro a b ⟨h1, h2⟩
    refine ⟨fun hc => ?_, h2⟩
    rw [hc.2.1] at h1
    cases h1
  have hng : n ∈ g.nodes := by
    rcases Relation.ReflTransGen.cases_tail hn with h1 | ⟨_, -, -, e', he', -, h2⟩
    · rw [h1]
      exact hv.dst e he
    · rw [← h2]
      exact hv.dst e' he'
  rw [d3]
  rintro (h1 | ⟨x, -, h1⟩)
  · exact h1.2 ⟨m, hm, hmod, hpath⟩
  · have := hv.below n hng
    unfold newNode at h1
    omega

/-! ## Examples -/

/-- Node 1 is a modifier; it can be applied. -/
def ops : Ops := ⟨fun n => n = 1, fun _ => .ok⟩

/-- A function is loaded (0), modified (1) and called (2); the result is the output (3). -/
def once : Graph := ⟨[0, 1, 2, 3], [⟨0, 0, 1, 0⟩, ⟨1, 0, 2, 0⟩, ⟨2, 0, 3, 0⟩], 4⟩

/-- The result. -/
def result (g : Graph) : Option (List Nat × List Edge) :=
  match resolve ops [0, 1, 2, 3, 5] [0, 1, 2, 3, 5] g with
  | .ok g => some (g.nodes, g.edges)
  | .error _ => none

example : result once = some ([0, 2, 3, 4], [⟨4, 0, 2, 0⟩, ⟨2, 0, 3, 0⟩]) := by decide

theorem once_valid : once.Valid ops := by
  refine ⟨by decide, by decide, by decide, by decide, ?_⟩
  intro n hn
  simp only [ops, decide_eq_true_eq] at hn
  subst hn
  decide

example : Linear ops once := by
  refine ⟨?_, by decide, fun _ _ => rfl⟩
  intro n hn
  simp only [ops, decide_eq_true_eq] at hn
  subst hn
  decide

/-- The modified function is called twice (by 2 and 5). -/
def twice : Graph :=
  ⟨[0, 1, 2, 5, 3], [⟨0, 0, 1, 0⟩, ⟨1, 0, 2, 0⟩, ⟨1, 0, 5, 0⟩, ⟨2, 0, 5, 1⟩, ⟨5, 0, 3, 0⟩], 6⟩

/-- The pass removes both calls and the output. -/
theorem C81_two_calls_wrong : result twice = some ([0], []) := by decide

theorem twice_valid : twice.Valid ops := by
  refine ⟨by decide, by decide, by decide, by decide, ?_⟩
  intro n hn
  simp only [ops, decide_eq_true_eq] at hn
  subst hn
  decide

example : ¬ Replaced ops twice 1 := by
  rintro ⟨-, -, e, h, -⟩
  revert h
  simp [twice]

/-- If the calls have two results, the pass panics. -/
theorem C81_two_calls_panic :
    resolve ops [0, 1, 2, 5, 3] [0, 1, 2, 5, 3] ⟨twice.nodes, twice.edges ++ [⟨5, 1, 3, 1⟩], 6⟩ =
      .error .panic := by
  rfl

/-- A modified argument of the function that is compiled: the call is removed. -/
theorem C81_unknown_function_wrong :
    (match resolve ⟨ops.isMod, fun _ => .skip⟩ [0, 1, 2, 3] [0, 1, 2, 3] once with
      | .ok g => some (g.nodes, g.edges)
      | .error _ => none) = some ([0], []) := by
  decide

end Tket.ResolveAll
