import Verif.Lemmas.CopyExpr

/-! # Lemmas about the construction of expressions -/

namespace Verif.CopyExpr

open Verif.Resource

variable {T : Type} {r : Region T} {st : St} {allowed : List (Nat × Nat)} {excl : List Nat}
  {order : List Nat} {isCall : Nat → Bool} {o : Nat} {tb : Nat → List Nat → Nat}

theorem loop_inv (hp : Pos r order st) (htb : Picks st tb) : ∀ (fuel : Nat) (s : Trav),
    J r st isCall allowed excl o s →
    loop r st isCall tb allowed excl fuel s = .fuel ∨
    ∃ s', loop r st isCall tb allowed excl fuel s = .ok s' ∧ J r st isCall allowed excl o s' ∧
      s'.queue = []
  | 0, s, _ => .inl rfl
  | fuel + 1, s, hj => by
    rw [loop]
    by_cases hq : s.queue = []
    · exact .inr ⟨s, by rw [if_pos hq], hj, hq⟩
    · rw [if_neg hq]
      obtain ⟨h1, h2⟩ := htb fuel s.queue hq
      dsimp only
      rw [if_neg (hj.disj _ h1)]
      obtain ⟨s', h3, h4, _⟩ := hj.visit hp h1 h2
      rw [h3]
      dsimp only
      exact loop_inv hp htb fuel s' h4

theorem inScope_of_type {n : Nat} {d : Dir} {i : Nat} {t : T} (hn : n ∈ r.nodes)
    (h : r.type? n d i = some t) : r.InScope n := by
  refine ⟨hn, ?_⟩
  intro hs
  simp [Region.type?, hs] at h

theorem outputOk_iff {output : Nat × Nat} : outputOk r output = true ↔
    ∃ t, r.type? output.1 .out output.2 = some t ∧ r.copyable t = true := by
  unfold outputOk
  cases r.type? output.1 .out output.2 <;> simp

theorem Good.inScope {output : Nat × Nat} (h : Good r excl output) : r.InScope output.1 := by
  obtain ⟨t, ht, _⟩ := h.typ
  exact inScope_of_type h.adm.mem ht

/-- The traversal, for any fuel. -/
theorem traverse_inv (hp : Pos r order st) (htb : Picks st tb) {output : Nat × Nat}
    (hg : Good r excl output) (fuel : Nat) :
    traverse r st isCall tb allowed excl fuel output.1 = .fuel ∨
    ∃ s, traverse r st isCall tb allowed excl fuel output.1 = .ok s ∧
      J r st isCall allowed excl output.1 s ∧ s.queue = [] := by
  unfold traverse
  obtain ⟨a, ha⟩ := Option.ne_none_iff_exists'.1 ((hp.scope _).2 hg.inScope)
  rw [ha]
  exact loop_inv hp htb fuel _ (.init hg.adm hg.inScope)

theorem traverse_total (hp : Pos r order st) (htb : Picks st tb) {output : Nat × Nat}
    (hg : Good r excl output) (fuel : Nat) (hf : r.nodes.length < fuel) :
    ∃ s, traverse r st isCall tb allowed excl fuel output.1 = .ok s ∧
      J r st isCall allowed excl output.1 s ∧ s.queue = [] := by
  unfold traverse
  obtain ⟨a, ha⟩ := Option.ne_none_iff_exists'.1 ((hp.scope _).2 hg.inScope)
  rw [ha]
  exact loop_spec hp htb fuel _ (.init hg.adm hg.inScope) (by simpa using hf)

theorem J.nodes_iff {s : Trav} (hp : Pos r order st) (hj : J r st isCall allowed excl o s)
    (hq : s.queue = []) (n : Nat) : n ∈ s.nodes ↔ Cone r allowed excl o n := by
  constructor
  · intro h
    exact (hj.cone n (.inl h)).1
  · intro h
    rcases hj.reach hp h with h | ⟨k, hk, _⟩
    · exact h
    · simp [hq] at hk

theorem J.inputs_iff {s : Trav} (hp : Pos r order st) (hj : J r st isCall allowed excl o s)
    (hq : s.queue = []) (x : Nat × Nat) : x ∈ s.inputs ↔ IsInput r allowed excl o x := by
  rw [hj.inputs, hj.nodes_iff hp hq]
  rfl

theorem mem_usedOuts {n : Nat} {x : Nat × Nat} : x ∈ usedOuts r allowed excl o n ↔
    x.1 = n ∧ x.2 < numOut r n ∧ ∃ y ∈ r.linked x.1 x.2,
      ¬ (Cone r allowed excl o y.1 ∧ r.Valid ⟨y.1, .inc, y.2⟩ ∧ Inner r allowed excl y.1 y.2) := by
  unfold usedOuts
  simp only [List.mem_map, List.mem_filter, List.mem_range, decide_eq_true_eq]
  constructor
  · rintro ⟨p, ⟨h1, h2⟩, rfl⟩
    exact ⟨rfl, h1, h2⟩
  · rintro ⟨rfl, h1, h2⟩
    exact ⟨x.2, ⟨h1, h2⟩, rfl⟩

theorem J.outputs_iff {s : Trav} (hp : Pos r order st) (hj : J r st isCall allowed excl o s)
    (hq : s.queue = []) (x : Nat × Nat) : x ∈ s.outputs ↔ IsOutput r allowed excl o x := by
  rw [hj.outputs, List.mem_flatMap]
  constructor
  · rintro ⟨n, hn, hx⟩
    obtain ⟨rfl, h1, h2⟩ := mem_usedOuts.1 hx
    obtain ⟨h3, h4, _⟩ := hj.cone _ (.inl hn)
    exact ⟨h3, (valid_out h4.mem).2 h1, h2⟩
  · rintro ⟨h1, h2, h3⟩
    refine ⟨x.1, (hj.nodes_iff hp hq _).2 h1, ?_⟩
    exact mem_usedOuts.2 ⟨rfl, (valid_out h2.1).1 h2, h3⟩

theorem J.onodup {s : Trav} (hj : J r st isCall allowed excl o s) : s.outputs.Nodup := by
  rw [hj.outputs, List.nodup_flatMap]
  constructor
  · intro x _
    unfold usedOuts
    refine List.Nodup.map ?_ (List.Nodup.filter _ List.nodup_range)
    intro a b h
    simpa using h
  · refine hj.nodup.imp ?_
    intro a b hab x hxa hxb
    exact hab ((mem_usedOuts.1 hxa).1.symm.trans (mem_usedOuts.1 hxb).1)

/-! ### Sorting -/

theorem keyLe_iff {a b : Nat × Nat} : keyLe a b = true ↔ a.1 < b.1 ∨ (a.1 = b.1 ∧ a.2 ≤ b.2) := by
  simp [keyLe]

theorem keyLe_total {a b : Nat × Nat} (h : ¬ keyLe a b = true) : keyLe b a = true := by
  rw [keyLe_iff] at h ⊢
  omega

theorem keyLe_trans {a b c : Nat × Nat} (h : keyLe a b = true) (h' : keyLe b c = true) :
    keyLe a c = true := by
  rw [keyLe_iff] at h h' ⊢
  omega

theorem insertBy_perm (key : Nat × Nat → Nat × Nat) (x : Nat × Nat) : ∀ l : List (Nat × Nat),
    (insertBy key x l).Perm (x :: l)
  | [] => .refl _
  | y :: ys => by
    rw [insertBy]
    split
    · exact .refl _
    · exact ((insertBy_perm key x ys).cons y).trans (.swap x y ys)

theorem sortBy_perm (key : Nat × Nat → Nat × Nat) : ∀ l : List (Nat × Nat), (sortBy key l).Perm l
  | [] => .refl _
  | x :: l => (insertBy_perm key x _).trans ((sortBy_perm key l).cons x)

theorem insertBy_sorted (key : Nat × Nat → Nat × Nat) (x : Nat × Nat) : ∀ l : List (Nat × Nat),
    (l.Pairwise fun a b => keyLe (key a) (key b) = true) →
    (insertBy key x l).Pairwise fun a b => keyLe (key a) (key b) = true
  | [], _ => by simp [insertBy]
  | y :: ys, h => by
    rw [List.pairwise_cons] at h
    rw [insertBy]
    split
    · rename_i hxy
      rw [List.pairwise_cons, List.pairwise_cons]
      refine ⟨?_, h⟩
      intro a ha
      rcases List.mem_cons.1 ha with rfl | ha
      · exact hxy
      · exact keyLe_trans hxy (h.1 a ha)
    · rename_i hxy
      rw [List.pairwise_cons]
      refine ⟨?_, insertBy_sorted key x ys h.2⟩
      intro a ha
      rcases List.mem_cons.1 ((insertBy_perm key x ys).mem_iff.1 ha) with rfl | ha
      · exact keyLe_total hxy
      · exact h.1 a ha

theorem sortBy_sorted (key : Nat × Nat → Nat × Nat) : ∀ l : List (Nat × Nat),
    (sortBy key l).Pairwise fun a b => keyLe (key a) (key b) = true
  | [] => .nil
  | x :: l => insertBy_sorted key x _ (sortBy_sorted key l)

theorem insertBy_filter (key : Nat × Nat → Nat × Nat) (k : Nat × Nat) (x : Nat × Nat) :
    ∀ l : List (Nat × Nat), (insertBy key x l).filter (fun y => key y = k) =
      (x :: l).filter fun y => key y = k
  | [] => rfl
  | y :: ys => by
    rw [insertBy]
    split
    · rfl
    · rename_i hxy
      rw [List.filter_cons, insertBy_filter key k x ys]
      by_cases hx : key x = k <;> by_cases hy : key y = k
      · exact absurd (by rw [hx, hy, keyLe_iff]; omega) hxy
      all_goals simp [List.filter_cons, hx, hy]

/-- The sort is stable. -/
theorem sortBy_filter (key : Nat × Nat → Nat × Nat) (k : Nat × Nat) : ∀ l : List (Nat × Nat),
    (sortBy key l).filter (fun y => key y = k) = l.filter fun y => key y = k
  | [] => rfl
  | x :: l => by
    show (insertBy key x (sortBy key l)).filter _ = _
    rw [insertBy_filter, List.filter_cons, List.filter_cons, sortBy_filter key k l]

theorem sortKey_isSome {x : Nat × Nat} (hp : Pos r order st) (hv : r.Valid ⟨x.1, .inc, x.2⟩) :
    (sortKey r allowed excl x).isSome := by
  unfold sortKey
  cases allowed.idxOf? x with
  | some i => rfl
  | none =>
    obtain ⟨n, p, hs⟩ := hp.wf.connected _ _ hv
    rw [hs]
    dsimp only
    cases excl.idxOf? n <;> rfl

theorem sortInputs_total {s : Trav} (hp : Pos r order st) (hj : J r st isCall allowed excl o s) :
    sortInputs r allowed excl s.inputs =
      some (sortBy (fun x => (sortKey r allowed excl x).getD (0, 0)) s.inputs) := by
  unfold sortInputs
  rw [if_pos]
  rw [List.all_eq_true]
  intro x hx
  exact sortKey_isSome hp ((hj.inputs x).1 hx).2.1

/-! ### Results -/

variable {nbr : Nat → List Nat} {fuel : Nat} {output : Nat × Nat}

theorem tryNew_ok (hp : Pos r order st) (htb : Picks st tb) (hg : Good r excl output) {e : Expr}
    (h : tryNew r st nbr isCall tb fuel output allowed excl = .ok e) :
    ∃ s b, J r st isCall allowed excl output.1 s ∧ s.queue = [] ∧
      anyReachable r st nbr fuel s.outputs s.inputs = some b ∧
      e = if b then .notConvex else .composite
        (sortBy (fun x => (sortKey r allowed excl x).getD (0, 0)) s.inputs) s.outputs s.calls
        s.nodes.reverse := by
  unfold tryNew at h
  rw [if_pos (outputOk_iff.2 hg.typ), if_pos (admissible_iff.2 hg.adm)] at h
  rcases traverse_inv (isCall := isCall) (allowed := allowed) hp htb hg fuel with h1 | ⟨s, h1, hj, hq⟩
  · rw [h1] at h
    exact absurd h (by simp)
  · rw [h1] at h
    dsimp only at h
    cases hr : anyReachable r st nbr fuel s.outputs s.inputs with
    | none =>
      rw [hr] at h
      exact absurd h (by simp)
    | some b =>
      rw [hr, sortInputs_total hp hj] at h
      refine ⟨s, b, hj, hq, hr, ?_⟩
      cases b <;> simpa using h.symm

theorem tryNew_composite (hp : Pos r order st) (htb : Picks st tb) (hg : Good r excl output)
    {ins outs : List (Nat × Nat)} {calls nodes : List Nat}
    (h : tryNew r st nbr isCall tb fuel output allowed excl = .ok (.composite ins outs calls nodes)) :
    ∃ s, J r st isCall allowed excl output.1 s ∧ s.queue = [] ∧
      anyReachable r st nbr fuel s.outputs s.inputs = some false ∧
      ins = sortBy (fun x => (sortKey r allowed excl x).getD (0, 0)) s.inputs ∧ outs = s.outputs ∧
      calls = s.calls ∧ nodes = s.nodes.reverse := by
  obtain ⟨s, b, hj, hq, hr, he⟩ := tryNew_ok hp htb hg h
  cases b
  · simp only [Bool.false_eq_true, if_false, Expr.composite.injEq] at he
    exact ⟨s, hj, hq, hr, he⟩
  · exact absurd he (by simp)

/-! ### Fuel -/

theorem sum_sublist {l l' : List Nat} (h : l.Sublist l') : l.sum ≤ l'.sum := by
  induction h with
  | slnil => exact Nat.le_refl _
  | cons a _ ih => rw [List.sum_cons]; omega
  | cons_cons a _ ih => rw [List.sum_cons, List.sum_cons]; omega

/-- The number of links of a node. -/
def links (r : Region T) (n : Nat) : Nat :=
  ((List.range (numOut r n)).map fun p => (r.linked n p).length).sum

theorem usedOuts_links (n : Nat) :
    ((usedOuts r allowed excl o n).map fun x => (r.linked x.1 x.2).length).sum ≤ links r n := by
  unfold usedOuts links
  rw [List.map_map]
  exact sum_sublist (List.filter_sublist.map _)

theorem flatMap_links : ∀ l : List Nat,
    ((l.flatMap (usedOuts r allowed excl o)).map fun x => (r.linked x.1 x.2).length).sum ≤
      (l.map (links r)).sum
  | [] => by simp
  | n :: l => by
    have h1 := usedOuts_links (r := r) (allowed := allowed) (excl := excl) (o := o) n
    have h2 := flatMap_links l
    rw [List.flatMap_cons, List.map_append, List.sum_append, List.map_cons, List.sum_cons]
    omega

theorem J.links_le {s : Trav} (hj : J r st isCall allowed excl o s) :
    (s.outputs.map fun x => (r.linked x.1 x.2).length).sum ≤ (r.nodes.map (links r)).sum := by
  rw [hj.outputs]
  refine Nat.le_trans (flatMap_links _) ?_
  obtain ⟨l, hl, hs⟩ := List.subperm_of_subset hj.nodup fun n hn => (hj.cone n (.inl hn)).2.1.mem
  rw [← (hl.map _).sum_nat]
  exact sum_sublist (hs.map _)

end Verif.CopyExpr
