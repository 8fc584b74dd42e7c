import Verif.Model.UnsupSpec

namespace Verif.Unsup

open List (Perm)

/-! ### Union-find -/

theorem union_mono {rep : Nat → Nat} (a b : Nat) {i j : Nat} (h : rep i = rep j) : union rep a b i = union rep a b j := by
  simp only [union, h]

theorem union_self (rep : Nat → Nat) (a b : Nat) : union rep a b a = union rep a b b := by
  unfold union
  by_cases h : rep a = rep b <;> simp [h]

theorem unions_some {nodes : List (Node × Nat)} {comp : Nat} {rep : Nat → Nat} {p : Node} {ps : List Node} {c : Nat}
    (h : (nodes.find? fun x => x.1 = p).map Prod.snd = some c) :
    unions nodes comp rep (p :: ps) = unions nodes comp (union rep c comp) ps := by
  rw [unions.eq_2, h]

theorem unions_none {nodes : List (Node × Nat)} {comp : Nat} {rep : Nat → Nat} {p : Node} {ps : List Node}
    (h : (nodes.find? fun x => x.1 = p).map Prod.snd = none) :
    unions nodes comp rep (p :: ps) = unions nodes comp rep ps := by
  rw [unions.eq_2, h]

theorem unions_mono (nodes : List (Node × Nat)) (comp : Nat) (ps : List Node) :
    ∀ {rep : Nat → Nat} {i j : Nat}, rep i = rep j → unions nodes comp rep ps i = unions nodes comp rep ps j := by
  induction ps with
  | nil => intro rep i j h; exact h
  | cons p ps ih =>
    intro rep i j h
    cases hc : (nodes.find? fun x => x.1 = p).map Prod.snd with
    | some c => rw [unions_some hc]; exact ih (union_mono _ _ h)
    | none => rw [unions_none hc]; exact ih h

theorem unions_mem (nodes : List (Node × Nat)) (comp : Nat) (ps : List Node) :
    ∀ {rep : Nat → Nat} {p : Node} {c : Nat}, p ∈ ps → (nodes.find? fun x => x.1 = p).map Prod.snd = some c →
      unions nodes comp rep ps c = unions nodes comp rep ps comp := by
  induction ps with
  | nil => intro rep p c h; cases h
  | cons q ps ih =>
    intro rep p c h hc
    rcases List.mem_cons.mp h with rfl | h
    · rw [unions_some hc]
      exact unions_mono _ _ _ (union_self _ _ _)
    · cases hq : (nodes.find? fun x => x.1 = q).map Prod.snd with
      | some d => rw [unions_some hq]; exact ih h hc
      | none => rw [unions_none hq]; exact ih h hc

theorem unions_sound (nodes : List (Node × Nat)) (comp : Nat) (R : Nat → Nat → Prop) (hsymm : ∀ i j, R i j → R j i)
    (htrans : ∀ i j k, R i j → R j k → R i k) (ps : List Node) :
    ∀ {rep : Nat → Nat}, (∀ i j, rep i = rep j → R i j) →
      (∀ p ∈ ps, ∀ c, (nodes.find? fun x => x.1 = p).map Prod.snd = some c → R c comp) →
      ∀ i j, unions nodes comp rep ps i = unions nodes comp rep ps j → R i j := by
  induction ps with
  | nil => intro rep h _ i j e; exact h i j e
  | cons p ps ih =>
    intro rep h hp i j e
    have hp' : ∀ q ∈ ps, ∀ c, (nodes.find? fun x => x.1 = q).map Prod.snd = some c → R c comp :=
      fun q hq => hp q (List.mem_cons_of_mem _ hq)
    cases hc : (nodes.find? fun x => x.1 = p).map Prod.snd with
    | some c =>
      rw [unions_some hc] at e
      refine ih ?_ hp' i j e
      have hcc := hp p List.mem_cons_self c hc
      intro i j e
      unfold union at e
      by_cases h1 : rep i = rep comp <;> by_cases h2 : rep j = rep comp <;> simp only [h1, h2, if_true, if_false] at e
      · exact h i j (h1.trans h2.symm)
      · exact htrans _ _ _ (h _ _ h1) (htrans _ _ _ (hsymm _ _ hcc) (h _ _ e))
      · exact htrans _ _ _ (h _ _ e) (htrans _ _ _ hcc (h _ _ h2.symm))
      · exact h _ _ e
    | none =>
      rw [unions_none hc] at e
      exact ih h hp' i j e

theorem unions_lt (nodes : List (Node × Nat)) (comp n : Nat) (ps : List Node) (hn : ∀ x ∈ nodes, x.2 < n) :
    ∀ {rep : Nat → Nat}, (∀ i < n, rep i < n) → ∀ i < n, unions nodes comp rep ps i < n := by
  induction ps with
  | nil => intro rep h; exact h
  | cons p ps ih =>
    intro rep h
    cases hc : (nodes.find? fun x => x.1 = p).map Prod.snd with
    | some c =>
      rw [unions_some hc]
      apply ih
      intro i hi
      unfold union
      split
      · apply h
        cases hf : nodes.find? (fun x => x.1 = p) with
        | none => rw [hf] at hc; cases hc
        | some y =>
          rw [hf] at hc
          cases hc
          exact hn _ (List.mem_of_find?_eq_some hf)
      · exact h i hi
    | none =>
      rw [unions_none hc]
      exact ih h

/-! ### The map of nodes -/

def Tracker.keys (t : Tracker) : List Node := t.nodes.map Prod.fst

theorem find_mem {l : List (Node × Nat)} {n : Node} {c : Nat} (h : (l.find? fun x => x.1 = n).map Prod.snd = some c) :
    (n, c) ∈ l := by
  cases hf : l.find? (fun x => x.1 = n) with
  | none => rw [hf] at h; cases h
  | some y =>
    rw [hf] at h
    cases h
    have := List.find?_some hf
    have e : y.1 = n := by simpa using this
    rw [← e]
    exact List.mem_of_find?_eq_some hf

theorem mem_find {l : List (Node × Nat)} (hl : (l.map Prod.fst).Nodup) {n : Node} {c : Nat} (h : (n, c) ∈ l) :
    (l.find? fun x => x.1 = n).map Prod.snd = some c := by
  induction l with
  | nil => cases h
  | cons y l ih =>
    rw [List.map_cons, List.nodup_cons] at hl
    rw [List.find?_cons]
    rcases List.mem_cons.mp h with rfl | h
    · simp
    · have : y.1 ≠ n := fun e => hl.1 (by rw [e]; exact List.mem_map_of_mem (f := Prod.fst) h)
      simp only [this, decide_false]
      exact ih hl.2 h

theorem key_unique {l : List (Node × Nat)} (hl : (l.map Prod.fst).Nodup) {n : Node} {c d : Nat} (h : (n, c) ∈ l) (h' : (n, d) ∈ l) :
    c = d := by
  have := mem_find hl h
  rw [mem_find hl h'] at this
  cases this
  rfl

theorem get_none {t : Tracker} {n : Node} (h : n ∉ t.keys) : t.get n = none := by
  unfold Tracker.get
  rw [List.find?_eq_none.mpr]
  · rfl
  · intro x hx e
    have : x.1 = n := by simpa using e
    exact h (this ▸ List.mem_map_of_mem (f := Prod.fst) hx)

/-- The nodes of a set. -/
def Tracker.cls (t : Tracker) (v : Nat) : List Node := (t.nodes.filter fun x => t.rep x.2 = v).map Prod.fst

theorem mem_cls {t : Tracker} {v : Nat} {a : Node} : a ∈ t.cls v ↔ ∃ c, (a, c) ∈ t.nodes ∧ t.rep c = v := by
  unfold Tracker.cls
  simp only [List.mem_map, List.mem_filter, decide_eq_true_eq, Prod.exists]
  constructor
  · rintro ⟨b, c, ⟨h1, h2⟩, rfl⟩; exact ⟨c, h1, h2⟩
  · rintro ⟨c, h1, h2⟩; exact ⟨a, c, ⟨h1, h2⟩, rfl⟩

theorem extract_some {t : Tracker} (hk : t.keys.Nodup) {n : Node} {c : Nat} (h : (n, c) ∈ t.nodes) :
    t.extract n = some (t.cls (t.rep c), { t with nodes := t.nodes.filter fun x => t.rep x.2 ≠ t.rep c }) := by
  unfold Tracker.extract
  rw [show t.get n = some c from mem_find hk h, Option.map_some]
  have key : ∀ x ∈ t.nodes, (x.1 = n ∨ t.rep x.2 = t.rep c) ↔ t.rep x.2 = t.rep c := by
    intro x hx
    refine ⟨fun h' => h'.elim (fun e => ?_) id, Or.inr⟩
    have : x.2 = c := key_unique hk (n := n) (by rw [← e]; exact hx) h
    rw [this]
  have e1 : (t.nodes.filter fun x => decide (x.1 = n ∨ t.rep x.2 = t.rep c)) = t.nodes.filter fun x => t.rep x.2 = t.rep c := by
    apply List.filter_congr
    intro x hx
    rw [decide_eq_decide]
    exact key x hx
  have e2 : (t.nodes.filter fun x => decide (¬ (x.1 = n ∨ t.rep x.2 = t.rep c))) = t.nodes.filter fun x => t.rep x.2 ≠ t.rep c := by
    apply List.filter_congr
    intro x hx
    rw [decide_eq_decide, key x hx]
  unfold Tracker.cls
  simp only
  rw [e1, e2]

/-! ### The invariant -/

theorem Joined.mono {r : Region} {k k' : List Node} (h : ∀ x ∈ k, x ∈ k') {a b : Node} (j : Joined r k a b) : Joined r k' a b := by
  induction j with
  | refl ha => exact .refl (h _ ha)
  | right _ e hc ih => exact .right ih e (h _ hc)
  | left _ e hc ih => exact .left ih e (h _ hc)

theorem Joined.trans {r : Region} {k : List Node} {a b c : Node} (h : Joined r k a b) (h' : Joined r k b c) : Joined r k a c := by
  induction h' with
  | refl _ => exact h
  | right _ e hc ih => exact .right ih e hc
  | left _ e hc ih => exact .left ih e hc

theorem Joined.mem_right {r : Region} {k : List Node} {a b : Node} (h : Joined r k a b) : b ∈ k := by
  cases h <;> assumption

theorem Joined.mem_left {r : Region} {k : List Node} {a b : Node} (h : Joined r k a b) : a ∈ k := by
  induction h with
  | refl h => exact h
  | right _ _ _ ih => exact ih
  | left _ _ _ ih => exact ih

theorem Joined.symm {r : Region} {k : List Node} {a b : Node} (h : Joined r k a b) : Joined r k b a := by
  induction h with
  | refl ha => exact .refl ha
  | right h1 e hc ih => exact (Joined.left (.refl hc) e h1.mem_right).trans ih
  | left h1 e hc ih => exact (Joined.right (.refl hc) e h1.mem_right).trans ih

/-- What is known of an item. -/
structure Good (r : Region) (before : List Item) (i : Item) : Prop where
  kind : match i with
    | .op n => r.supported n = true
    | .group k => k ≠ [] ∧ (∀ x ∈ k, r.supported x = false) ∧ (∀ a ∈ k, ∀ b ∈ k, Joined r k a b) ∧ (AsksAll r → Convex r k)
  ready : ∀ x ∈ i.nodes, ∀ a ∈ (if r.supported x then r.requests x else r.preds x), a ∈ r.order →
    a ∈ i.nodes ∨ a ∈ before.flatMap Item.nodes

structure Inv (r : Region) (done : List Node) (s : State) : Prop where
  keys : s.tracker.keys.Nodup
  lt : ∀ x ∈ s.tracker.nodes, x.2 < s.tracker.count
  replt : ∀ i < s.tracker.count, s.tracker.rep i < s.tracker.count
  part : Perm (s.tracker.keys ++ s.emitted.flatMap Item.nodes) done
  unsup : ∀ x ∈ s.tracker.keys, r.supported x = false
  edge : ∀ x ∈ done, r.supported x = false → ∀ a c, a ∈ r.preds x → (a, c) ∈ s.tracker.nodes →
    ∃ d, (x, d) ∈ s.tracker.nodes ∧ s.tracker.rep d = s.tracker.rep c
  asked : AsksAll r → ∀ x ∈ done, r.supported x = true → (∃ y ∈ r.order, x ∈ r.preds y) →
    ∀ a ∈ r.preds x, a ∉ s.tracker.keys
  joined : ∀ a ca b cb, (a, ca) ∈ s.tracker.nodes → (b, cb) ∈ s.tracker.nodes → s.tracker.rep ca = s.tracker.rep cb →
    Joined r (s.tracker.cls (s.tracker.rep ca)) a b
  good : ∀ pre i post, s.emitted = pre ++ i :: post → Good r pre i

theorem Inv.empty (r : Region) : Inv r [] ⟨.new, []⟩ := by
  refine ⟨List.nodup_nil, fun x h => (List.not_mem_nil h).elim, fun i h => h, .refl _, fun x h => (List.not_mem_nil h).elim,
    fun x h => (List.not_mem_nil h).elim, fun _ x h => (List.not_mem_nil h).elim,
    fun a ca b cb h => (List.not_mem_nil h).elim, fun pre i post h => ?_⟩
  cases pre <;> cases h

theorem mem_keys {t : Tracker} {a : Node} : a ∈ t.keys ↔ ∃ c, (a, c) ∈ t.nodes := by
  unfold Tracker.keys
  simp

/-- The nodes visited so far. -/
def Prefix (r : Region) (done : List Node) : Prop := ∃ post, r.order = done ++ post

theorem Prefix.closed {r : Region} (hr : Topological r) {done : List Node} (h : Prefix r done) {x a : Node} (hx : x ∈ done)
    (ha : a ∈ r.preds x) (ho : a ∈ r.order) : a ∈ done := by
  obtain ⟨post, e⟩ := h
  obtain ⟨d1, d2, rfl⟩ := List.append_of_mem hx
  have := hr.before d1 x (d2 ++ post) (by rw [e]; simp) a ha ho
  exact List.mem_append_left _ this

theorem Path.done {r : Region} (hr : Topological r) {done : List Node} (h : Prefix r done) {a b : Node} {ps : List Node}
    (p : Path r a b ps) (hb : b ∈ done) : a ∈ done := by
  induction p with
  | nil a => exact hb
  | cons e _ ih => exact h.closed hr (ih hb) e.1 e.2.1

theorem good_append {r : Region} {l : List Item} {i : Item} (h : ∀ pre i post, l = pre ++ i :: post → Good r pre i)
    (hi : Good r l i) : ∀ pre j post, l ++ [i] = pre ++ j :: post → Good r pre j := by
  intro pre j post e
  rcases List.append_eq_append_iff.mp e with ⟨m, e1, e2⟩ | ⟨m, e1, e2⟩
  · cases m with
    | nil =>
      simp only [List.nil_append] at e2
      cases e2
      rw [List.append_nil] at e1
      rw [e1]
      exact hi
    | cons y m =>
      exfalso
      have := congrArg List.length e2
      simp at this
  · cases m with
    | nil =>
      simp only [List.nil_append] at e2
      cases e2
      rw [List.append_nil] at e1
      rw [← e1]
      exact hi
    | cons y m =>
      rw [List.cons_append] at e2
      cases e2
      exact h pre j m e1

/-- What one extraction does. -/
theorem Inv.extract {r : Region} (hr : Ok r) {done : List Node} (hd : Prefix r done) {s : State} (h : Inv r done s) {n : Node}
    {c : Nat} (hn : (n, c) ∈ s.tracker.nodes) :
    Inv r done ⟨{ s.tracker with nodes := s.tracker.nodes.filter fun x => s.tracker.rep x.2 ≠ s.tracker.rep c },
      s.emitted ++ [.group (s.tracker.cls (s.tracker.rep c))]⟩ ∧
    ∀ a ∈ (s.tracker.cls (s.tracker.rep c)).flatMap r.values, a ∉ s.tracker.cls (s.tracker.rep c) → a ∉ s.tracker.keys := by
  have hsub : ∀ x, x ∈ s.tracker.keys → x ∈ done := fun x hx => h.part.mem_iff.mp (List.mem_append_left _ hx)
  have hkk : ∀ x ∈ s.tracker.cls (s.tracker.rep c), x ∈ s.tracker.keys := by
    intro x hx
    obtain ⟨d, hd, -⟩ := mem_cls.mp hx
    exact mem_keys.mpr ⟨d, hd⟩
  -- predecessors outside are not in the tracker
  have hout : ∀ x ∈ s.tracker.cls (s.tracker.rep c), ∀ a ∈ r.preds x, a ∉ s.tracker.cls (s.tracker.rep c) →
      a ∉ s.tracker.keys := by
    intro x hx a ha hna hk
    obtain ⟨ca, hca⟩ := mem_keys.mp hk
    obtain ⟨d, hd1, hd2⟩ := h.edge x (hsub x (hkk x hx)) (h.unsup x (hkk x hx)) a ca ha hca
    obtain ⟨d', hd', e'⟩ := mem_cls.mp hx
    have := key_unique h.keys hd1 hd'
    subst this
    exact hna (mem_cls.mpr ⟨ca, hca, by rw [← hd2, e']⟩)
  constructor
  · have hmem : ∀ x, x ∈ (s.tracker.nodes.filter fun x => s.tracker.rep x.2 ≠ s.tracker.rep c) ↔
        x ∈ s.tracker.nodes ∧ s.tracker.rep x.2 ≠ s.tracker.rep c := by
      intro x; simp [List.mem_filter]
    refine ⟨?_, ?_, h.replt, ?_, ?_, ?_, ?_, ?_, ?_⟩
    · exact h.keys.sublist (List.filter_sublist.map _)
    · intro x hx; exact h.lt x ((hmem x).mp hx).1
    · refine List.Perm.trans ?_ h.part
      rw [List.flatMap_append]
      simp only [List.flatMap_cons, List.flatMap_nil, List.append_nil, Item.nodes]
      have hp : Perm ((s.tracker.nodes.filter fun x => s.tracker.rep x.2 ≠ s.tracker.rep c).map Prod.fst ++
          s.tracker.cls (s.tracker.rep c)) s.tracker.keys := by
        unfold Tracker.cls Tracker.keys
        rw [← List.map_append]
        apply List.Perm.map
        have := List.filter_append_perm (fun x : Node × Nat => decide (s.tracker.rep x.2 = s.tracker.rep c)) s.tracker.nodes
        refine (List.perm_append_comm.trans ?_).trans this
        apply List.Perm.append_left
        apply List.Perm.of_eq
        apply List.filter_congr
        intro x _
        simp
      exact ((List.perm_append_comm (l₁ := s.emitted.flatMap Item.nodes)).append_left _).trans
        ((List.append_assoc _ _ _ ▸ hp.append_right _))
    · intro x hx
      obtain ⟨d, hd⟩ := mem_keys.mp hx
      exact h.unsup x (mem_keys.mpr ⟨d, ((hmem _).mp hd).1⟩)
    · intro x hx hs a ca ha hca
      obtain ⟨h1, h2⟩ := (hmem _).mp hca
      obtain ⟨d, hd1, hd2⟩ := h.edge x hx hs a ca ha h1
      exact ⟨d, (hmem _).mpr ⟨hd1, by simp only; rw [hd2]; exact h2⟩, hd2⟩
    · intro hH x hx hs hy a ha hk
      obtain ⟨d, hd⟩ := mem_keys.mp hk
      exact h.asked hH x hx hs hy a ha (mem_keys.mpr ⟨d, ((hmem _).mp hd).1⟩)
    · intro a ca b cb ha hb e
      obtain ⟨ha1, ha2⟩ := (hmem _).mp ha
      obtain ⟨hb1, hb2⟩ := (hmem _).mp hb
      refine (h.joined a ca b cb ha1 hb1 e).mono ?_
      intro x hx
      obtain ⟨d, hd1, hd2⟩ := mem_cls.mp hx
      exact mem_cls.mpr ⟨d, (hmem _).mpr ⟨hd1, by simp only; rw [hd2]; exact ha2⟩, hd2⟩
    · apply good_append h.good
      refine ⟨⟨?_, fun x hx => h.unsup x (hkk x hx), ?_, ?_⟩, ?_⟩
      · intro e
        have : n ∈ s.tracker.cls (s.tracker.rep c) := mem_cls.mpr ⟨c, hn, rfl⟩
        rw [e] at this
        cases this
      · intro a ha b hb
        obtain ⟨ca, ha1, ha2⟩ := mem_cls.mp ha
        obtain ⟨cb, hb1, hb2⟩ := mem_cls.mp hb
        have := h.joined a ca b cb ha1 hb1 (ha2.trans hb2.symm)
        rw [ha2] at this
        exact this
      · intro hH a ha b hb ps p
        have hbd := hsub b (hkk b hb)
        clear hn
        induction p with
        | nil a =>
          intro x hx
          rw [List.mem_singleton] at hx
          rw [hx]; exact ha
        | @cons a b' b ps e p ih =>
          have hb'd : b' ∈ done := p.done hr.toTopological hd hbd
          have hb' : b' ∈ s.tracker.cls (s.tracker.rep c) := by
            obtain ⟨ca, ha1, ha2⟩ := mem_cls.mp ha
            cases hs : r.supported b' with
            | false =>
              obtain ⟨d, hd1, hd2⟩ := h.edge b' hb'd hs a ca e.1 ha1
              exact mem_cls.mpr ⟨d, hd1, hd2.trans ha2⟩
            | true =>
              cases p with
              | nil _ => exact hb
              | cons e' _ =>
                exact absurd (mem_keys.mpr ⟨ca, ha1⟩) (h.asked hH b' hb'd hs ⟨_, e'.2.2, e'.1⟩ a e.1)
          intro x hx
          rcases List.mem_cons.mp hx with rfl | hx
          · exact ha
          · exact ih hb' hb hbd x hx
      · intro x hx a ha ho
        simp only [Item.nodes] at hx ⊢
        rw [h.unsup x (hkk x hx)] at ha
        simp only [Bool.false_eq_true, if_false] at ha
        by_cases hk : a ∈ s.tracker.cls (s.tracker.rep c)
        · exact .inl hk
        · right
          have had := hd.closed hr.toTopological (hsub x (hkk x hx)) ha ho
          rcases List.mem_append.mp (h.part.mem_iff.mpr had) with h1 | h1
          · exact absurd h1 (hout x hx a ha hk)
          · exact h1
  · intro a ha hna
    obtain ⟨x, hx, ha⟩ := List.mem_flatMap.mp ha
    exact hout x hx a (hr.values x a ha) hna

theorem request_untracked (r : Region) (fuel : Nat) (s : State) {n : Node} (h : n ∉ s.tracker.keys) : request r fuel s n = s := by
  cases fuel with
  | zero => rfl
  | succ f => rw [request, Tracker.extract, get_none h]; rfl

theorem request_list (r : Region) (fuel : Nat) (s : State) (ns : List Node) (h : ∀ n ∈ ns, n ∉ s.tracker.keys) :
    ns.foldl (request r fuel) s = s := by
  induction ns with
  | nil => rfl
  | cons n ns ih =>
    rw [List.foldl_cons, request_untracked r fuel s (h n List.mem_cons_self)]
    exact ih fun m hm => h m (List.mem_cons_of_mem _ hm)

/-- Nothing is extracted while a subgraph is emitted. -/
theorem Inv.ask_eq {r : Region} (hr : Ok r) {done : List Node} (hd : Prefix r done) {s : State} (h : Inv r done s) {n : Node}
    {c : Nat} (hn : (n, c) ∈ s.tracker.nodes) :
    ask r s n = ⟨{ s.tracker with nodes := s.tracker.nodes.filter fun x => s.tracker.rep x.2 ≠ s.tracker.rep c },
      s.emitted ++ [.group (s.tracker.cls (s.tracker.rep c))]⟩ := by
  unfold ask
  obtain ⟨m, hm⟩ : ∃ m, s.tracker.nodes.length = m + 1 := by
    cases e : s.tracker.nodes with
    | nil => rw [e] at hn; cases hn
    | cons x l => exact ⟨l.length, rfl⟩
  rw [hm, request, extract_some h.keys hn]
  simp only
  rw [request_list]
  intro a ha hk
  obtain ⟨ha1, ha2⟩ := List.mem_filter.mp ha
  refine (h.extract hr hd hn).2 a ha1 (by simpa using ha2) ?_
  obtain ⟨d, hd'⟩ := mem_keys.mp hk
  exact mem_keys.mpr ⟨d, (List.mem_filter.mp hd').1⟩

theorem Inv.ask {r : Region} (hr : Ok r) {done : List Node} (hd : Prefix r done) {s : State} (h : Inv r done s) (n : Node) :
    Inv r done (ask r s n) ∧ n ∉ (ask r s n).tracker.keys ∧ (∀ x ∈ (ask r s n).tracker.keys, x ∈ s.tracker.keys) ∧
      (n ∈ s.tracker.keys → (ask r s n).tracker.nodes.length < s.tracker.nodes.length) := by
  by_cases hk : n ∈ s.tracker.keys
  · obtain ⟨c, hn⟩ := mem_keys.mp hk
    rw [h.ask_eq hr hd hn]
    refine ⟨(h.extract hr hd hn).1, ?_, ?_, fun _ => ?_⟩
    · intro hk
      obtain ⟨d, hd⟩ := mem_keys.mp hk
      obtain ⟨h1, h2⟩ := List.mem_filter.mp hd
      rw [key_unique h.keys h1 hn] at h2
      simp at h2
    · intro x hx
      obtain ⟨d, hd⟩ := mem_keys.mp hx
      exact mem_keys.mpr ⟨d, (List.mem_filter.mp hd).1⟩
    · apply List.length_filter_lt_length_iff_exists.mpr
      exact ⟨_, hn, by simp⟩
  · have e : Unsup.ask r s n = s := request_untracked r _ s hk
    rw [e]
    exact ⟨h, hk, fun x hx => hx, fun h => absurd h hk⟩

theorem Inv.asks {r : Region} (hr : Ok r) {done : List Node} (hd : Prefix r done) (ns : List Node) {s : State} (h : Inv r done s) :
    Inv r done (ns.foldl (Unsup.ask r) s) ∧ (∀ n ∈ ns, n ∉ (ns.foldl (Unsup.ask r) s).tracker.keys) ∧
      ∀ x ∈ (ns.foldl (Unsup.ask r) s).tracker.keys, x ∈ s.tracker.keys := by
  induction ns generalizing s with
  | nil => exact ⟨h, fun n hn => (List.not_mem_nil hn).elim, fun x hx => hx⟩
  | cons n ns ih =>
    obtain ⟨h1, h2, h3, -⟩ := h.ask hr hd n
    obtain ⟨i1, i2, i3⟩ := ih h1
    refine ⟨i1, fun m hm => ?_, fun x hx => h3 x (i3 x hx)⟩
    rcases List.mem_cons.mp hm with rfl | hm
    · exact fun hx => h2 (i3 _ hx)
    · exact i2 m hm

theorem Inv.op {r : Region} (hr : Ok r) {done : List Node} {n : Node} (hd : Prefix r (done ++ [n])) {s : State} (h : Inv r done s)
    (hs : r.supported n = true) (hq : ∀ a ∈ r.requests n, a ∉ s.tracker.keys) :
    Inv r (done ++ [n]) { s with emitted := s.emitted ++ [.op n] } := by
  refine ⟨h.keys, h.lt, h.replt, ?_, h.unsup, ?_, ?_, h.joined, ?_⟩
  · rw [List.flatMap_append, ← List.append_assoc]
    exact h.part.append_right _
  · intro x hx hsx
    rcases List.mem_append.mp hx with hx | hx
    · exact h.edge x hx hsx
    · rw [List.mem_singleton.mp hx, hs] at hsx; cases hsx
  · intro hH x hx hsx hy a ha
    rcases List.mem_append.mp hx with hx | hx
    · exact h.asked hH x hx hsx hy a ha
    · have e := List.mem_singleton.mp hx
      subst e
      obtain ⟨post, eo⟩ := hd
      exact hq a (hH x (by rw [eo]; simp) hs hy a ha)
  · apply good_append h.good
    refine ⟨hs, ?_⟩
    intro x hx a ha ho
    have e := List.mem_singleton.mp hx
    subst e
    rw [hs, if_pos rfl] at ha
    right
    obtain ⟨post, eo⟩ := hd
    have had := hr.before done x post (by rw [eo]; simp) a (hr.requests x a ha) ho
    rcases List.mem_append.mp (h.part.mem_iff.mpr had) with h1 | h1
    · exact absurd h1 (hq a ha)
    · exact h1

/-- The sets after `new_set`. -/
def rep0 (t : Tracker) : Nat → Nat := fun i => if i = t.count then i else t.rep i

theorem rep0_lt {t : Tracker} {i : Nat} (h : i < t.count) : rep0 t i = t.rep i := if_neg (Nat.ne_of_lt h)

theorem rep0_count (t : Tracker) : rep0 t t.count = t.count := if_pos rfl

theorem record_spec {t : Tracker} (hk : t.keys.Nodup) (hlt : ∀ x ∈ t.nodes, x.2 < t.count) (hrep : ∀ i < t.count, t.rep i < t.count)
    {n : Node} (hn : n ∉ t.keys) (ps : List Node) (hps : n ∉ ps) :
    (t.record ps n).nodes = (n, t.count) :: t.nodes ∧
    (∀ i j, i < t.count → j < t.count → t.rep i = t.rep j → (t.record ps n).rep i = (t.record ps n).rep j) ∧
    (∀ a c, a ∈ ps → (a, c) ∈ t.nodes → (t.record ps n).rep c = (t.record ps n).rep t.count) ∧
    (∀ i < t.count + 1, (t.record ps n).rep i < t.count + 1) ∧
    (∀ i j, i < t.count → j < t.count → (t.record ps n).rep i = (t.record ps n).rep j →
      t.rep i = t.rep j ∨ ((∃ a c, a ∈ ps ∧ (a, c) ∈ t.nodes ∧ t.rep i = t.rep c) ∧ ∃ a c, a ∈ ps ∧ (a, c) ∈ t.nodes ∧ t.rep j = t.rep c)) ∧
    (∀ i, i < t.count → (t.record ps n).rep i = (t.record ps n).rep t.count →
      ∃ a c, a ∈ ps ∧ (a, c) ∈ t.nodes ∧ t.rep i = t.rep c) := by
  have hnodes : (t.record ps n).nodes = (n, t.count) :: t.nodes := by
    unfold Tracker.record
    simp only [List.cons.injEq, true_and]
    apply List.filter_eq_self.mpr
    intro x hx
    have : x.1 ≠ n := fun e => hn (e ▸ List.mem_map_of_mem (f := Prod.fst) hx)
    simp [this]
  have hkeys : (((n, t.count) :: t.nodes).map Prod.fst).Nodup := by
    rw [List.map_cons, List.nodup_cons]; exact ⟨hn, hk⟩
  have hrepeq : (t.record ps n).rep = unions ((n, t.count) :: t.nodes) t.count (rep0 t) ps := by
    rw [← hnodes]; rfl
  have hmem : ∀ p ∈ ps, ∀ c, (((n, t.count) :: t.nodes).find? fun x => x.1 = p).map Prod.snd = some c → (p, c) ∈ t.nodes := by
    intro p hp c hc
    rcases List.mem_cons.mp (find_mem hc) with e | h
    · cases e; exact absurd hp hps
    · exact h
  let M : Nat → Prop := fun i => rep0 t i = rep0 t t.count ∨ ∃ a c, a ∈ ps ∧ (a, c) ∈ t.nodes ∧ rep0 t i = rep0 t c
  have resp : ∀ i j, rep0 t i = rep0 t j → M i → M j := by
    intro i j e h
    rcases h with h | ⟨a, c, h1, h2, h3⟩
    · exact .inl (e.symm.trans h)
    · exact .inr ⟨a, c, h1, h2, e.symm.trans h3⟩
  have hsound : ∀ i j, (t.record ps n).rep i = (t.record ps n).rep j → rep0 t i = rep0 t j ∨ (M i ∧ M j) := by
    rw [hrepeq]
    refine unions_sound _ _ (fun i j => rep0 t i = rep0 t j ∨ (M i ∧ M j))
      (fun i j h => h.elim (fun e => .inl e.symm) fun h => .inr ⟨h.2, h.1⟩) ?_ ps (fun i j e => .inl e) ?_
    · rintro i j k (e | ⟨h1, h2⟩) (e' | ⟨h3, h4⟩)
      · exact .inl (e.trans e')
      · exact .inr ⟨resp j i e.symm h3, h4⟩
      · exact .inr ⟨h1, resp j k e' h2⟩
      · exact .inr ⟨h1, h4⟩
    · intro p hp c hc
      exact .inr ⟨.inr ⟨p, c, hp, hmem p hp c hc, rfl⟩, .inl rfl⟩
  have hM : ∀ i < t.count, M i → ∃ a c, a ∈ ps ∧ (a, c) ∈ t.nodes ∧ t.rep i = t.rep c := by
    intro i hi h
    rcases h with h | ⟨a, c, h1, h2, h3⟩
    · rw [rep0_lt hi, rep0_count] at h
      have := hrep i hi
      omega
    · rw [rep0_lt hi, rep0_lt (hlt _ h2)] at h3
      exact ⟨a, c, h1, h2, h3⟩
  refine ⟨hnodes, ?_, ?_, ?_, ?_, ?_⟩
  · intro i j hi hj e
    rw [hrepeq]
    apply unions_mono
    rw [rep0_lt hi, rep0_lt hj, e]
  · intro a c ha hc
    rw [hrepeq]
    exact unions_mem _ _ _ ha (mem_find hkeys (List.mem_cons_of_mem _ hc))
  · rw [hrepeq]
    apply unions_lt
    · intro x hx
      rcases List.mem_cons.mp hx with rfl | hx
      · exact Nat.lt_succ_self _
      · exact Nat.lt_succ_of_lt (hlt x hx)
    · intro i hi
      by_cases hi' : i < t.count
      · rw [rep0_lt hi']; exact Nat.lt_succ_of_lt (hrep i hi')
      · have : i = t.count := by omega
        rw [this, rep0_count]; exact Nat.lt_succ_self _
  · intro i j hi hj e
    rcases hsound i j e with e | ⟨h1, h2⟩
    · rw [rep0_lt hi, rep0_lt hj] at e
      exact .inl e
    · exact .inr ⟨hM i hi h1, hM j hj h2⟩
  · intro i hi e
    rcases hsound i t.count e with e | ⟨h1, -⟩
    · exact hM i hi (.inl e)
    · exact hM i hi h1

theorem Inv.record {r : Region} (hr : Ok r) {done : List Node} {n : Node} (hd : Prefix r (done ++ [n])) {s : State} (h : Inv r done s)
    (hs : r.supported n = false) :
    Inv r (done ++ [n]) { s with tracker := s.tracker.record (r.preds n) n } := by
  obtain ⟨post, eo⟩ := hd
  have hnd : n ∉ done := by
    have := hr.nodup
    rw [eo] at this
    have := (List.nodup_append.mp (List.nodup_append.mp this).1).2.2
    intro hx
    exact this n hx n (List.mem_singleton.mpr rfl) rfl
  have hpre : ∀ a ∈ r.preds n, a ∈ r.order → a ∈ done := fun a ha ho => hr.before done n post (by rw [eo]; simp) a ha ho
  have hno : n ∈ r.order := by rw [eo]; simp
  have hsub : ∀ x, x ∈ s.tracker.keys → x ∈ done := fun x hx => h.part.mem_iff.mp (List.mem_append_left _ hx)
  have hnk : n ∉ s.tracker.keys := fun hk => hnd (hsub n hk)
  obtain ⟨h1, h2, h3, h4, h5, h6⟩ := record_spec h.keys h.lt h.replt hnk (r.preds n) (fun hp => hnd (hpre n hp hno))
  have hcount : (s.tracker.record (r.preds n) n).count = s.tracker.count + 1 := rfl
  generalize ht : s.tracker.record (r.preds n) n = t' at *
  have hkeys' : t'.keys = n :: s.tracker.keys := by unfold Tracker.keys; rw [h1]; rfl
  have hup : ∀ x ∈ s.tracker.nodes, x ∈ t'.nodes := fun x hx => by rw [h1]; exact List.mem_cons_of_mem _ hx
  have hin : (n, s.tracker.count) ∈ t'.nodes := by rw [h1]; exact List.mem_cons_self
  -- old sets stay together
  have hcls : ∀ ca, ca < s.tracker.count → ∀ x ∈ s.tracker.cls (s.tracker.rep ca), x ∈ t'.cls (t'.rep ca) := by
    intro ca hca x hx
    obtain ⟨d, hd1, hd2⟩ := mem_cls.mp hx
    exact mem_cls.mpr ⟨d, hup _ hd1, h2 d ca (h.lt _ hd1) hca hd2⟩
  -- joined with the new node
  have hnew : ∀ a ca, (a, ca) ∈ s.tracker.nodes → t'.rep ca = t'.rep s.tracker.count →
      Joined r (t'.cls (t'.rep s.tracker.count)) a n := by
    intro a ca ha e
    obtain ⟨p, c, hp, hc, ec⟩ := h6 ca (h.lt _ ha) e
    have j := (h.joined a ca p c ha hc ec).mono (hcls ca (h.lt _ ha))
    rw [e] at j
    exact .right j hp (mem_cls.mpr ⟨_, hin, rfl⟩)
  refine ⟨?_, ?_, ?_, ?_, ?_, ?_, ?_, ?_, h.good⟩
  · simp only [hkeys']; exact List.nodup_cons.mpr ⟨hnk, h.keys⟩
  · intro x hx
    simp only [h1] at hx
    simp only [hcount]
    rcases List.mem_cons.mp hx with rfl | hx
    · exact Nat.lt_succ_self _
    · exact Nat.lt_succ_of_lt (h.lt x hx)
  · simp only [hcount]; exact h4
  · simp only [hkeys', List.cons_append]
    exact (h.part.cons n).trans (List.perm_append_comm (l₁ := [n]))
  · intro x hx
    simp only [hkeys'] at hx
    rcases List.mem_cons.mp hx with rfl | hx
    · exact hs
    · exact h.unsup x hx
  · intro x hx hsx a c ha hc
    simp only [h1] at hc
    rcases List.mem_cons.mp hc with e | hc'
    · -- the new node has no successor yet
      cases e
      exfalso
      rcases List.mem_append.mp hx with hx | hx
      · exact hnd (Prefix.closed hr.toTopological ⟨n :: post, by rw [eo]; simp⟩ hx ha hno)
      · rw [List.mem_singleton.mp hx] at ha
        exact hnd (hpre n ha hno)
    · rcases List.mem_append.mp hx with hx | hx
      · obtain ⟨d, hd1, hd2⟩ := h.edge x hx hsx a c ha hc'
        exact ⟨d, hup _ hd1, h2 d c (h.lt _ hd1) (h.lt _ hc') hd2⟩
      · have e := List.mem_singleton.mp hx
        subst e
        exact ⟨_, hin, (h3 a c ha hc').symm⟩
  · intro hH x hx hsx hy a ha hk
    simp only [hkeys'] at hk
    rcases List.mem_append.mp hx with hx | hx
    · rcases List.mem_cons.mp hk with e | hk
      · subst e
        exact hnd (Prefix.closed hr.toTopological ⟨a :: post, by rw [eo]; simp⟩ (by assumption) ha hno)
      · exact h.asked hH x hx hsx hy a ha hk
    · rw [List.mem_singleton.mp hx, hs] at hsx; cases hsx
  · intro a ca b cb ha hb e
    simp only [h1] at ha hb
    simp only at e ⊢
    rcases List.mem_cons.mp ha with ea | ha <;> rcases List.mem_cons.mp hb with eb | hb
    · cases ea; cases eb
      exact .refl (mem_cls.mpr ⟨_, hin, rfl⟩)
    · cases ea
      exact (hnew b cb hb e.symm).symm
    · cases eb
      rw [e]
      exact hnew a ca ha e
    · have hca := h.lt _ ha
      have hcb := h.lt _ hb
      rcases h5 ca cb hca hcb e with e' | ⟨⟨p, c, hp, hc, ec⟩, ⟨q, d, hq, hd, ed⟩⟩
      · exact (h.joined a ca b cb ha hb e').mono (hcls ca hca)
      · have e1 : t'.rep ca = t'.rep s.tracker.count := (h2 ca c hca (h.lt _ hc) ec).trans (h3 p c hp hc)
        have e2 : t'.rep cb = t'.rep s.tracker.count := e.symm.trans e1
        rw [e1]
        exact (hnew a ca ha e1).trans (hnew b cb hb e2).symm

theorem Inv.visit {r : Region} (hr : Ok r) (hc : ∀ x, r.constant x = none) {done : List Node} {n : Node}
    (hd : Prefix r (done ++ [n])) {s : State} (h : Inv r done s) : Inv r (done ++ [n]) (visit r s n) := by
  have hd' : Prefix r done := by
    obtain ⟨post, e⟩ := hd
    exact ⟨n :: post, by rw [e]; simp⟩
  obtain ⟨h1, h2, -⟩ := h.asks hr hd' (r.requests n)
  unfold Unsup.visit
  rw [hc n]
  simp only
  cases hs : r.supported n with
  | true => exact h1.op hr hd hs h2
  | false => exact h1.record hr hd hs

theorem Inv.visits {r : Region} (hr : Ok r) (hc : ∀ x, r.constant x = none) (ns : List Node) :
    ∀ {done : List Node} {s : State}, Prefix r (done ++ ns) → Inv r done s → Inv r (done ++ ns) (ns.foldl (Unsup.visit r) s) := by
  induction ns with
  | nil => intro done s _ h; simpa using h
  | cons n ns ih =>
    intro done s hd h
    rw [List.foldl_cons]
    have e : done ++ n :: ns = done ++ [n] ++ ns := by simp
    rw [e] at hd ⊢
    refine ih hd (h.visit hr hc ?_)
    obtain ⟨post, eo⟩ := hd
    exact ⟨ns ++ post, by rw [eo]; simp⟩

theorem Inv.run {r : Region} (hr : Ok r) (hc : ∀ x, r.constant x = none) : Inv r r.order (run r) := by
  have := Inv.visits hr hc r.order (done := []) ⟨[], by simp⟩ (Inv.empty r)
  exact this

theorem Inv.finish {r : Region} (hr : Ok r) {pick : List Node → Node} (hp : Picks pick) (fuel : Nat) :
    ∀ {s : State}, s.tracker.nodes.length ≤ fuel → Inv r r.order s →
      Inv r r.order (finish r pick fuel s) ∧ (finish r pick fuel s).tracker.nodes = [] := by
  induction fuel with
  | zero =>
    intro s hl h
    exact ⟨h, List.eq_nil_of_length_eq_zero (Nat.le_zero.mp hl)⟩
  | succ f ih =>
    intro s hl h
    rw [Unsup.finish]
    cases hn : s.tracker.nodes with
    | nil => exact ⟨h, hn⟩
    | cons x l =>
      simp only [List.isEmpty_cons, Bool.false_eq_true, if_false]
      have hk : pick (s.tracker.nodes.map Prod.fst) ∈ s.tracker.keys := hp _ (by unfold Tracker.keys; rw [hn]; simp)
      rw [← hn]
      obtain ⟨h1, -, -, h4⟩ := h.ask hr ⟨[], by simp⟩ (pick (s.tracker.nodes.map Prod.fst))
      exact ih (by have := h4 hk; omega) h1

/-- The invariant at the end. -/
theorem Inv.encoded {r : Region} (hr : Ok r) (hc : ∀ x, r.constant x = none) {pick : List Node → Node} (hp : Picks pick) :
    Perm ((encoded r pick).flatMap Item.nodes) r.order ∧
      ∀ pre i post, encoded r pick = pre ++ i :: post → Good r pre i := by
  obtain ⟨h, hn⟩ := Inv.finish hr hp _ (Nat.le_refl _) (Inv.run hr hc)
  refine ⟨?_, h.good⟩
  have := h.part
  unfold Tracker.keys at this
  rw [hn] at this
  exact this

end Verif.Unsup
