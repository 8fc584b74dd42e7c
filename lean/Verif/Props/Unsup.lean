import Verif.Lemmas.Unsup

/-
C72: components of operations that pytket cannot represent.
-/
namespace Verif.Unsup

open List (Perm)

/-- Every operation of the region is encoded exactly once: alone if it can be encoded, and otherwise in one
subgraph. Missing are constants of the module that cannot be encoded. -/
theorem C72_once_partial (r : Region) (hr : Ok r) (hc : ∀ x, r.constant x = none) (pick : List Node → Node) (hp : Picks pick) :
    Perm ((encoded r pick).flatMap Item.nodes) r.order ∧
      (∀ n, .op n ∈ encoded r pick ↔ n ∈ r.order ∧ r.supported n = true) ∧
      ∀ n, (∃ k, .group k ∈ encoded r pick ∧ n ∈ k) ↔ n ∈ r.order ∧ r.supported n = false := by
  obtain ⟨h1, h2⟩ := Inv.encoded hr hc hp
  have hop : ∀ n, .op n ∈ encoded r pick → r.supported n = true := by
    intro n hn
    obtain ⟨pre, post, e⟩ := List.append_of_mem hn
    exact (h2 pre _ post e).kind
  have hgr : ∀ k, .group k ∈ encoded r pick → ∀ n ∈ k, r.supported n = false := by
    intro k hk
    obtain ⟨pre, post, e⟩ := List.append_of_mem hk
    exact (h2 pre _ post e).kind.2.1
  have hin : ∀ i ∈ encoded r pick, ∀ n ∈ i.nodes, n ∈ r.order :=
    fun i hi n hn => h1.mem_iff.mp (List.mem_flatMap.mpr ⟨i, hi, hn⟩)
  refine ⟨h1, fun n => ⟨fun hn => ⟨hin _ hn n (List.mem_singleton.mpr rfl), hop n hn⟩, ?_⟩,
    fun n => ⟨fun ⟨k, hk, hn⟩ => ⟨hin _ hk n hn, hgr k hk n hn⟩, ?_⟩⟩
  · rintro ⟨ho, hs⟩
    obtain ⟨i, hi, hn⟩ := List.mem_flatMap.mp (h1.mem_iff.mpr ho)
    cases i with
    | op m => rw [List.mem_singleton.mp hn]; exact hi
    | group k => rw [hgr k hi n hn] at hs; cases hs
  · rintro ⟨ho, hs⟩
    obtain ⟨i, hi, hn⟩ := List.mem_flatMap.mp (h1.mem_iff.mpr ho)
    cases i with
    | op m =>
      have := hop m hi
      rw [← List.mem_singleton.mp hn, hs] at this
      cases this
    | group k => exact ⟨k, hi, hn⟩

/-- What an operation or subgraph needs is encoded before it. For operations this is what they ask for, for
subgraphs all that their operations follow. -/
theorem C72_order_partial (r : Region) (hr : Ok r) (hc : ∀ x, r.constant x = none) (pick : List Node → Node) (hp : Picks pick)
    (pre : List Item) (i : Item) (post : List Item) (h : encoded r pick = pre ++ i :: post) :
    ∀ x ∈ i.nodes, ∀ a ∈ (if r.supported x then r.requests x else r.preds x), a ∈ r.order →
      a ∈ i.nodes ∨ a ∈ pre.flatMap Item.nodes :=
  ((Inv.encoded hr hc hp).2 pre i post h).ready

/-- Subgraphs are not empty, and connected. -/
theorem C72_connected_partial (r : Region) (hr : Ok r) (hc : ∀ x, r.constant x = none) (pick : List Node → Node) (hp : Picks pick)
    (k : List Node) (h : .group k ∈ encoded r pick) : k ≠ [] ∧ ∀ a ∈ k, ∀ b ∈ k, Joined r k a b := by
  obtain ⟨pre, post, e⟩ := List.append_of_mem h
  have := ((Inv.encoded hr hc hp).2 pre _ post e).kind
  exact ⟨this.1, this.2.2.1⟩

/-- Subgraphs are convex. Missing are operations that can be encoded although they follow another by a link that
is no value. -/
theorem C72_convex_partial (r : Region) (hr : Ok r) (hc : ∀ x, r.constant x = none) (ha : AsksAll r) (pick : List Node → Node)
    (hp : Picks pick) (k : List Node) (h : .group k ∈ encoded r pick) : Convex r k := by
  obtain ⟨pre, post, e⟩ := List.append_of_mem h
  exact ((Inv.encoded hr hc hp).2 pre _ post e).kind.2.2.2 ha

/-- While a subgraph is encoded no other subgraph is started: all its inputs are there. -/
theorem C72_inputs_ready_partial (r : Region) (hr : Ok r) (hc : ∀ x, r.constant x = none) (pre : List Node) (n : Node) (post : List Node)
    (h : r.order = pre ++ n :: post) (a : Node) :
    let s := pre.foldl (visit r) ⟨.new, []⟩
    (ask r s a).emitted = s.emitted ∨ ∃ k, (ask r s a).emitted = s.emitted ++ [.group k] ∧ a ∈ k := by
  intro s
  have hi : Inv r pre s := by
    have := Inv.visits hr hc pre (done := []) ⟨n :: post, by simpa using h⟩ (Inv.empty r)
    simpa using this
  by_cases hk : a ∈ s.tracker.keys
  · obtain ⟨c, hc⟩ := mem_keys.mp hk
    rw [hi.ask_eq hr ⟨n :: post, h⟩ hc]
    exact .inr ⟨_, rfl, mem_cls.mpr ⟨c, hc, rfl⟩⟩
  · left
    unfold ask
    rw [request_untracked r _ s hk]

def exPick (l : List Node) : Node := l.headD 0

theorem exPick_picks : Picks exPick := by
  intro l h
  cases l with
  | nil => exact absurd rfl h
  | cons x l => exact List.mem_cons_self

/-- Two operations 0 and 1 that pytket cannot represent, then 2 which can and uses 1, then 3 which cannot and
uses 0 and 2, then 4 that stands alone. -/
def exRegion : Region where
  order := [0, 1, 2, 3, 4]
  preds n := match n with
    | 1 => [0]
    | 2 => [1]
    | 3 => [0, 2]
    | _ => []
  values n := match n with
    | 1 => [0]
    | 2 => [1]
    | 3 => [0, 2]
    | _ => []
  supported n := n == 2
  requests n := match n with
    | 2 => [1]
    | _ => []
  constant _ := none

theorem before_of_lt {r : Region} (hn : r.order.Pairwise (· < ·)) (hp : ∀ x ∈ r.order, ∀ a ∈ r.preds x, a ∈ r.order → a < x) : Topological r := by
  refine ⟨hn.imp fun h => Nat.ne_of_lt h, ?_⟩
  intro pre x post e a ha ho
  have hlt := hp x (by rw [e]; simp) a ha ho
  rw [e] at ho hn
  rcases List.mem_append.mp ho with h | h
  · exact h
  · exfalso
    rcases List.mem_cons.mp h with rfl | h
    · exact Nat.lt_irrefl _ hlt
    · exact Nat.lt_asymm hlt ((List.pairwise_cons.mp (List.pairwise_append.mp hn).2.1).1 a h)

theorem exRegion_ok : Ok exRegion := by
  refine { before_of_lt (by decide) (by decide) with values := fun x a h => h, requests := ?_ }
  intro x a h
  by_cases hx : x = 2
  · subst hx; exact h
  · have : exRegion.requests x = [] := by
      unfold exRegion
      simp only
    rw [this] at h
    cases h

example : AsksAll exRegion ∧ encoded exRegion exPick = [.group [1, 0], .op 2, .group [4], .group [3]] := by
  refine ⟨?_, by decide⟩
  intro x hx hs _ a ha
  have : x = 2 := by simpa [exRegion] using hs
  subst this
  exact ha

/-- The operations 0 and 2 cannot be represented. The constant loaded by 1 can, and follows 0 by an order
link. -/
def exOrder : Region where
  order := [0, 1, 2]
  preds n := match n with
    | 1 => [0]
    | 2 => [0, 1]
    | _ => []
  values n := match n with
    | 2 => [0, 1]
    | _ => []
  supported n := n == 1
  requests _ := []
  constant _ := none

/-- Constants are encoded also if they have order links. A subgraph need then not be convex: it contains the
operations before and after the constant, but not the constant. -/
theorem C72_not_convex : ∃ (r : Region) (pick : List Node → Node) (k : List Node), Ok r ∧ (∀ x, r.constant x = none) ∧ Picks pick ∧
    .group k ∈ encoded r pick ∧ ¬ Convex r k := by
  refine ⟨exOrder, exPick, [2, 0], ?_, fun _ => rfl, exPick_picks, by decide, ?_⟩
  · refine { before_of_lt (by decide) (by decide) with values := ?_, requests := fun x a h => (List.not_mem_nil h).elim }
    intro x a h
    by_cases hx : x = 2
    · subst hx; exact h
    · have : exOrder.values x = [] := by
        unfold exOrder
        simp only
      rw [this] at h
      cases h
  · intro h
    have p : Path exOrder 0 2 [0, 1, 2] :=
      .cons ⟨by decide, by decide, by decide⟩ (.cons ⟨by decide, by decide, by decide⟩ (.nil 2))
    have := h 0 (by decide) 2 (by decide) _ p 1 (by decide)
    exact absurd this (by decide)

/-- The operations 0 and 2 load the constant 9 of the module, which cannot be encoded, and 1 uses 0. -/
def exConst : Region where
  order := [0, 1, 2]
  preds n := match n with
    | 0 => [9]
    | 1 => [0]
    | 2 => [9]
    | _ => []
  values n := match n with
    | 0 => [9]
    | 1 => [0]
    | 2 => [9]
    | _ => []
  supported n := n == 1
  requests n := match n with
    | 1 => [0]
    | _ => []
  constant n := match n with
    | 0 => some 9
    | 2 => some 9
    | _ => none

/-- A constant of the module that cannot be encoded is put into a subgraph of the region with the operation that
loads it, and again for the next one: it is in two subgraphs. -/
theorem C72_constant_twice : ∃ (r : Region) (pick : List Node → Node) (c : Node), Topological r ∧ Picks pick ∧ c ∉ r.order ∧
    ((encoded r pick).filter fun i => decide (c ∈ i.nodes)) = [.group [0, c], .group [2, c]] :=
  ⟨exConst, exPick, 9, before_of_lt (by decide) (by decide), exPick_picks, by decide, by decide⟩

end Verif.Unsup
