import Verif.Model.ForceOrderSpec
import Mathlib.Data.List.Basic
import Mathlib.Data.List.Nodup
import Mathlib.Data.List.Induction
import Mathlib.Tactic.Tauto
import Mathlib.Data.List.Perm.Subperm

/-!
# Lemmas on the forced order
-/

namespace Tket.ForceOrder

theorem mem_ready {G : Graph} {v : List Nat} {n : Nat} :
    G.ready v n = true ↔ n ∉ v ∧ ∀ p ∈ G.preds n, p ∈ v := by
  simp [Graph.ready]

theorem mem_next {G : Graph} {v : List Nat} {n : Nat} :
    n ∈ G.next v ↔ n ∈ G.nodes ∧ G.ready v n = true ∧
      ∀ m ∈ G.nodes, G.ready v m = true → rank (G.op n) ≤ rank (G.op m) := by
  unfold Graph.next
  simp only [List.mem_filter, List.all_eq_true, decide_eq_true_eq]
  constructor
  · rintro ⟨⟨h1, h2⟩, h3⟩
    exact ⟨h1, h2, fun m hm hr => h3 m ⟨hm, hr⟩⟩
  · rintro ⟨h1, h2, h3⟩
    exact ⟨⟨h1, h2⟩, fun m hm => h3 m hm.1 hm.2⟩

/-- A node of least rank exists. -/
theorem exists_least (f : Nat → Int) {l : List Nat} (h : l ≠ []) : ∃ n ∈ l, ∀ m ∈ l, f n ≤ f m := by
  induction l with
  | nil => exact absurd rfl h
  | cons a l ih =>
    by_cases hl : l = []
    · subst hl
      exact ⟨a, by simp, by simp⟩
    · obtain ⟨n, hn, hmin⟩ := ih hl
      by_cases ha : f a ≤ f n
      · refine ⟨a, by simp, ?_⟩
        intro m hm
        cases hm with
        | head => exact Int.le_refl _
        | tail _ hm => exact Int.le_trans ha (hmin m hm)
      · refine ⟨n, by simp [hn], ?_⟩
        intro m hm
        cases hm with
        | head => omega
        | tail _ hm => exact hmin m hm

/-- If a node is left, a node is ready: one that the former needs, or itself. -/
theorem exists_ready {G : Graph} (hG : WF G) {v : List Nat} {x : Nat} (hx : x ∈ G.nodes)
    (hv : x ∉ v) : ∃ z, (z = x ∨ Needs G x z) ∧ z ∈ G.nodes ∧ G.ready v z = true := by
  obtain ⟨d, hd⟩ := hG.acyclic
  generalize hk : d x = k
  induction k using Nat.strongRecOn generalizing x with
  | _ k ih =>
    by_cases hp : ∀ p ∈ G.preds x, p ∈ v
    · exact ⟨x, .inl rfl, hx, mem_ready.2 ⟨hv, hp⟩⟩
    · simp only [not_forall] at hp
      obtain ⟨p, hp, hpv⟩ := hp
      obtain ⟨z, h1, h2⟩ := ih (d p) (by have := hd x hx p hp; omega) (hG.closed x hx p hp) hpv rfl
      refine ⟨z, .inr ?_, h2⟩
      rcases h1 with rfl | h1
      · exact .single hp
      · exact .head hp h1

/-- Every node was a candidate when it was visited. -/
inductive Greedy (G : Graph) : List Nat → Prop
  | nil : Greedy G []
  | snoc {v n} : Greedy G v → n ∈ G.next v → Greedy G (v ++ [n])

theorem greedy_split {G : Graph} {l : List Nat} (h : Greedy G l) {pre post : List Nat} {n : Nat}
    (e : l = pre ++ n :: post) : n ∈ G.next pre := by
  induction h generalizing post with
  | nil => simp at e
  | snoc h hn ih =>
    rename_i v k
    rcases List.eq_nil_or_concat post with rfl | ⟨q, b, rfl⟩
    · have := List.append_inj' e rfl
      obtain ⟨rfl, e2⟩ := this
      cases e2
      exact hn
    · rw [List.concat_eq_append] at e
      have : v ++ [k] = (pre ++ n :: q) ++ [b] := by rw [e]; simp
      exact ih (List.append_inj' this rfl).1

theorem greedy_nodup {G : Graph} {l : List Nat} (h : Greedy G l) : l.Nodup := by
  induction h with
  | nil => exact List.nodup_nil
  | snoc h hn ih =>
    rw [List.nodup_append]
    refine ⟨ih, by simp, ?_⟩
    intro a ha b hb
    simp only [List.mem_singleton] at hb
    subst hb
    rintro rfl
    exact (mem_ready.1 (mem_next.1 hn).2.1).1 ha

theorem greedy_subset {G : Graph} {l : List Nat} (h : Greedy G l) : ∀ n ∈ l, n ∈ G.nodes := by
  induction h with
  | nil => simp
  | snoc h hn ih =>
    intro n hm
    rw [List.mem_append, List.mem_singleton] at hm
    rcases hm with hm | rfl
    · exact ih n hm
    · exact (mem_next.1 hn).1

theorem getD_mem {n : Nat} {ns : List Nat} (k : Nat) :
    (n :: ns).getD (k % (n :: ns).length) n ∈ n :: ns := by
  have : k % (n :: ns).length < (n :: ns).length := Nat.mod_lt _ (by simp)
  rw [List.getD_eq_getElem?_getD, List.getElem?_eq_getElem this, Option.getD_some]
  exact List.getElem_mem this

/-- The traversal is greedy, and complete if there is enough fuel. -/
theorem traverse_spec {G : Graph} (hG : WF G) (pick : Pick) (fuel : Nat) {v : List Nat}
    (hv : Greedy G v) : Greedy G (traverse G pick fuel v) ∧
      (G.nodes.length ≤ v.length + fuel → ∀ n ∈ G.nodes, n ∈ traverse G pick fuel v) := by
  induction fuel generalizing v with
  | zero =>
    refine ⟨hv, ?_⟩
    intro hl n hn
    have hsub : v ⊆ G.nodes := greedy_subset hv
    have hp := ((greedy_nodup hv).subperm hsub).perm_of_length_le (by omega)
    exact hp.symm.subset hn
  | succ fuel ih =>
    unfold traverse
    cases hn : G.next v with
    | nil =>
      refine ⟨hv, ?_⟩
      intro _ x hx
      refine Classical.byContradiction fun hc => ?_
      obtain ⟨z, -, hz, hr⟩ := exists_ready hG hx hc
      have : G.nodes.filter (G.ready v) ≠ [] := by
        intro he
        have : z ∈ G.nodes.filter (G.ready v) := List.mem_filter.2 ⟨hz, hr⟩
        rw [he] at this
        cases this
      obtain ⟨y, hy, hmin⟩ := exists_least (fun n => rank (G.op n)) this
      rw [List.mem_filter] at hy
      have hy' : y ∈ G.next v :=
        mem_next.2 ⟨hy.1, hy.2, fun m hm hr => hmin m (List.mem_filter.2 ⟨hm, hr⟩)⟩
      rw [hn] at hy'
      cases hy'
    | cons n ns =>
      simp only
      have hm : (n :: ns).getD (pick v (n :: ns) % (n :: ns).length) n ∈ G.next v := by
        rw [hn]
        exact getD_mem _
      obtain ⟨h1, h2⟩ := ih (Greedy.snoc hv hm)
      refine ⟨h1, fun hl => h2 ?_⟩
      simp only [List.length_append, List.length_cons, List.length_nil]
      omega

theorem order_greedy {G : Graph} (hG : WF G) (pick : Pick) : Greedy G (order G pick) :=
  (traverse_spec hG pick _ .nil).1

theorem order_perm {G : Graph} (hG : WF G) (pick : Pick) : (order G pick).Perm G.nodes := by
  have h := traverse_spec hG pick G.nodes.length .nil
  have hg := order_greedy hG pick
  exact (List.perm_ext_iff_of_nodup (greedy_nodup hg) hG.nodup).2
    fun n => ⟨fun hn => greedy_subset hg n hn, fun hn => h.2 (by simp) n hn⟩

/-- Why a node is visited after one of higher rank. -/
theorem delayed {G : Graph} (hG : WF G) {l pre mid post : List Nat} {y x : Nat} (h : Greedy G l)
    (e : l = pre ++ y :: (mid ++ x :: post)) (hr : rank (G.op x) < rank (G.op y)) :
    ∃ z ∈ y :: mid, Needs G x z ∧ rank (G.op y) ≤ rank (G.op z) := by
  have hnd := greedy_nodup h
  have hy := mem_next.1 (greedy_split h e)
  have hx : x ∈ G.nodes := greedy_subset h x (by rw [e]; simp)
  have hxp : x ∉ pre := by
    intro hc
    rw [e, List.nodup_append] at hnd
    exact hnd.2.2 x hc x (by simp) rfl
  obtain ⟨z, h1, h2, h3⟩ := exists_ready hG hx hxp
  have hz := hy.2.2 z h2 h3
  rcases h1 with rfl | h1
  · omega
  · refine ⟨z, ?_, h1, hz⟩
    -- everything that `x` needs is visited before it
    have hbefore : ∀ a, Needs G x a → a ∈ pre ++ y :: mid := by
      have e' : l = (pre ++ y :: mid) ++ x :: post := by rw [e]; simp
      have step : ∀ b q r, l = q ++ b :: r → ∀ p ∈ G.preds b, p ∈ q := by
        intro b q r hb p hp
        exact (mem_ready.1 (mem_next.1 (greedy_split h hb)).2.1).2 p hp
      intro a ha
      induction ha with
      | single hp => exact step x _ _ e' _ hp
      | tail _ hp ih =>
        obtain ⟨q, r, hq⟩ := List.append_of_mem ih
        have := step _ q (r ++ x :: post) (by rw [e', hq]; simp) _ hp
        rw [hq]
        simp [this]
    have := hbefore z h1
    rw [List.mem_append] at this
    rcases this with hz | hz
    · exact absurd hz (mem_ready.1 h3).1
    · exact hz

/-- All orders that some tie-breaking gives. -/
def orders (G : Graph) : Nat → List Nat → List (List Nat)
  | 0, v => [v]
  | fuel + 1, v =>
    match G.next v with
    | [] => [v]
    | n :: ns => (n :: ns).flatMap fun k => orders G fuel (v ++ [k])

theorem traverse_mem (G : Graph) (pick : Pick) (fuel : Nat) (v : List Nat) :
    traverse G pick fuel v ∈ orders G fuel v := by
  induction fuel generalizing v with
  | zero => simp [traverse, orders]
  | succ fuel ih =>
    unfold traverse orders
    cases G.next v with
    | nil => simp
    | cons n ns =>
      simp only [List.mem_flatMap]
      exact ⟨_, getD_mem _, ih _⟩

/-! ## Order edges -/

theorem edges_split {l : List Nat} {a b : Nat} :
    (a, b) ∈ edges l ↔ ∃ pre post, l = pre ++ a :: b :: post := by
  induction l with
  | nil => simp [edges]
  | cons x l ih =>
    cases l with
    | nil =>
      simp only [edges, List.not_mem_nil, false_iff]
      rintro ⟨pre, post, e⟩
      have := congrArg List.length e
      simp at this
      omega
    | cons y l =>
      simp only [edges, List.mem_cons, Prod.mk.injEq]
      rw [ih]
      constructor
      · rintro (⟨rfl, rfl⟩ | ⟨pre, post, e⟩)
        · exact ⟨[], l, rfl⟩
        · exact ⟨x :: pre, post, by rw [e]; rfl⟩
      · rintro ⟨pre, post, e⟩
        cases pre with
        | nil =>
          cases e
          exact .inl ⟨rfl, rfl⟩
        | cons z pre =>
          rw [List.cons_append, List.cons.injEq] at e
          exact .inr ⟨pre, post, e.2⟩

theorem mem_forced {G : Graph} {pick : Pick} {n p : Nat} :
    p ∈ (forceOrder G pick).preds n ↔ p ∈ G.preds n ∨ (p, n) ∈ edges (order G pick) := by
  unfold forceOrder
  simp only [List.mem_append, List.mem_map, List.mem_filter, beq_iff_eq]
  constructor
  · rintro (h | ⟨⟨a, b⟩, ⟨h1, h2⟩, h3⟩)
    · exact .inl h
    · simp only at h2 h3
      subst h2 h3
      exact .inr h1
  · rintro (h | h)
    · exact .inl h
    · exact .inr ⟨(p, n), ⟨h, rfl⟩, rfl⟩

/-- A list that agrees with the order edges of another is the other. -/
theorem unique_of_edges {l l' : List Nat} (hnd : l.Nodup) (hp : l'.Perm l)
    (h : ∀ q n r, l' = q ++ n :: r → ∀ p, (p, n) ∈ edges l → p ∈ q) : l' = l := by
  have hnd' : l'.Nodup := hp.nodup_iff.2 hnd
  have key : ∀ pre post, l = pre ++ post → ∃ r, l' = pre ++ r := by
    intro pre
    induction pre using List.reverseRecOn with
    | nil => intro _ _; exact ⟨l', rfl⟩
    | append_singleton pre n ih =>
      intro post e
      obtain ⟨r, hr⟩ := ih (n :: post) (by rw [e]; simp)
      have hlen := hp.length_eq
      cases r with
      | nil =>
        rw [hr, e] at hlen
        simp at hlen
      | cons b r =>
        by_cases hb : b = n
        · subst hb
          exact ⟨r, by rw [hr]; simp⟩
        · exfalso
          have hbl : b ∈ l := hp.subset (by rw [hr]; simp)
          have hbp : b ∉ pre := by
            intro hc
            rw [hr, List.nodup_append] at hnd'
            exact hnd'.2.2 b hc b (by simp) rfl
          rw [e] at hbl
          have hbq : b ∈ post := by
            simp only [List.mem_append, List.mem_singleton] at hbl
            tauto
          obtain ⟨s, t, hst⟩ := List.append_of_mem hbq
          -- the predecessor of `b` in the order
          obtain ⟨c, hc, hce⟩ : ∃ c, c ∈ n :: s ∧ (c, b) ∈ edges l := by
            rcases List.eq_nil_or_concat s with rfl | ⟨s', c, rfl⟩
            · exact ⟨n, by simp, edges_split.2 ⟨pre, t, by rw [e, hst]; simp⟩⟩
            · exact ⟨c, by simp, edges_split.2 ⟨pre ++ n :: s', t, by rw [e, hst]; simp⟩⟩
          have hcp := h pre b r hr c hce
          rw [e, hst] at hnd
          have : ((pre ++ (n :: s)) ++ b :: t).Nodup := by simpa using hnd
          have := (List.nodup_append.1 this).1
          exact (List.nodup_append.1 this).2.2 c hcp c hc rfl
  obtain ⟨r, hr⟩ := key l [] (by simp)
  have hlen := hp.length_eq
  rw [hr, List.length_append] at hlen
  have : r = [] := by
    apply List.eq_nil_of_length_eq_zero
    omega
  rw [hr, this, List.append_nil]

end Tket.ForceOrder
