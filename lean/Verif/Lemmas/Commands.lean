import Verif.Model.Commands
import Mathlib.Data.List.Basic
import Mathlib.Data.List.Perm.Basic
import Mathlib.Data.List.Nodup
import Mathlib.Logic.Relation
import Mathlib.Tactic.Common

/-!
# Lemmas about the command iterator
-/

namespace Tket.Commands

/-- The topological walker's contract, and agreement of the neighbour lists. -/
structure Region.WF (c : Region) : Prop where
  nodup : c.order.Nodup
  topo : ∀ n ∈ c.order, ∀ m ∈ c.succ n, m ∈ c.order → c.order.idxOf n < c.order.idxOf m
  adj : ∀ n ∈ c.order, ∀ m ∈ c.order, n ∈ c.pred m ↔ m ∈ c.succ n

/-- One dataflow step. -/
def Region.Edge (c : Region) (n m : Nat) : Prop := m ∈ c.succ n ∧ n ∈ c.order ∧ m ∈ c.order

structure Inv (c : Region) (st : St) (E done : List Nat) : Prop where
  split : c.order = done ++ st.rest
  perm : done.Perm (E ++ st.delayed ++ st.pending.toList)
  cons : ∀ m, st.consumers m = (st.delayed.map (fun d => (c.succ d).count m)).sum
  dl : ∀ d ∈ st.delayed, c.constLike d = true
  pl : ∀ n, st.pending = some n → c.constLike n = false ∧ ∃ p, done = p ++ [n]
  closed : ∀ l1 m l2, E = l1 ++ m :: l2 → ∀ n ∈ c.order, m ∈ c.succ n → n ∈ l1
  used : ∀ d ∈ E, c.constLike d = true →
    ∃ m ∈ c.succ d, ∃ t ∈ done, c.constLike t = false ∧ m ∈ c.order ∧ Relation.ReflTransGen c.Edge m t

theorem inv_init (c : Region) : Inv c (St.init c) [] [] where
  split := rfl
  perm := by simp [St.init]
  cons := by simp [St.init]
  dl := by simp [St.init]
  pl := by simp [St.init]
  closed := by intro l1 m l2 h; simp at h
  used := by simp

theorem Inv.delay {c : Region} {n : Nat} {r d : List Nat} {k : Nat → Nat} {E done : List Nat}
    (h : Inv c ⟨n :: r, d, k, none⟩ E done) (hc : c.constLike n = true) :
    Inv c ⟨r, n :: d, bump k (c.succ n), none⟩ E (done ++ [n]) where
  split := by simpa using h.split
  perm := by
    have := h.perm
    simp only [Option.toList_none, List.append_nil] at this ⊢
    calc (done ++ [n]).Perm (E ++ d ++ [n]) := this.append_right _
      _ |>.Perm (E ++ (n :: d)) := by
        rw [List.append_assoc]
        exact List.Perm.append_left _ (List.perm_append_comm)
  cons := by
    intro m
    have := h.cons m
    simp only [bump, List.map_cons, List.sum_cons] at this ⊢
    omega
  dl := by
    intro x hx
    rcases List.mem_cons.1 hx with rfl | hx
    · exact hc
    · exact h.dl x hx
  pl := by simp
  closed := h.closed
  used := by
    intro x hx hx'
    obtain ⟨m, hm, t, ht, hr⟩ := h.used x hx hx'
    exact ⟨m, hm, t, by simp [ht], hr⟩

theorem Inv.take {c : Region} {n : Nat} {r d : List Nat} {k : Nat → Nat} {E done : List Nat}
    (h : Inv c ⟨n :: r, d, k, none⟩ E done) (hc : c.constLike n = false) :
    Inv c ⟨r, d, k, some n⟩ E (done ++ [n]) where
  split := by simpa using h.split
  perm := by
    have := h.perm
    simp only [Option.toList_none, List.append_nil] at this
    exact this.append_right _
  cons := h.cons
  dl := h.dl
  pl := by
    intro m hm
    simp only [Option.some.injEq] at hm
    subst hm
    exact ⟨hc, done, rfl⟩
  closed := h.closed
  used := by
    intro x hx hx'
    obtain ⟨m, hm, t, ht, hr⟩ := h.used x hx hx'
    exact ⟨m, hm, t, by simp [ht], hr⟩

theorem advance_some (c : Region) : ∀ (r d : List Nat) (k : Nat → Nat) (E done : List Nat) (n : Nat)
    (st : St), Inv c ⟨r, d, k, none⟩ E done → advance c r d k = some (n, st) →
    ∃ done', Inv c { st with pending := some n } E done' := by
  intro r
  induction r with
  | nil => intro d k E done n st _ h; simp [advance] at h
  | cons x r ih =>
    intro d k E done n st hi h
    unfold advance at h
    by_cases hc : c.constLike x = true
    · rw [if_pos hc] at h
      exact ih _ _ _ _ _ _ (hi.delay hc) h
    · rw [if_neg hc] at h
      simp only [Option.some.injEq, Prod.mk.injEq] at h
      obtain ⟨rfl, rfl⟩ := h
      exact ⟨_, hi.take (by simpa using hc)⟩

theorem advance_none (c : Region) : ∀ (r d : List Nat) (k : Nat → Nat),
    advance c r d k = none → ∀ x ∈ r, c.constLike x = true := by
  intro r
  induction r with
  | nil => simp
  | cons y r ih =>
    intro d k h
    unfold advance at h
    by_cases hc : c.constLike y = true
    · rw [if_pos hc] at h
      intro x hx
      rcases List.mem_cons.1 hx with rfl | hx
      · exact hc
      · exact ih _ _ h x hx
    · rw [if_neg hc] at h; simp at h

theorem sum_pos {α : Type} (f : α → Nat) (l : List α) : 0 < (l.map f).sum ↔ ∃ x ∈ l, 0 < f x := by
  induction l with
  | nil => simp
  | cons a l ih => simp only [List.map_cons, List.sum_cons, List.mem_cons]
                   constructor
                   · intro h
                     by_cases ha : 0 < f a
                     · exact ⟨a, Or.inl rfl, ha⟩
                     · obtain ⟨x, hx, hx'⟩ := ih.1 (by omega)
                       exact ⟨x, Or.inr hx, hx'⟩
                   · rintro ⟨x, rfl | hx, hx'⟩
                     · omega
                     · have := ih.2 ⟨x, hx, hx'⟩; omega

theorem Inv.consumers_pos {c : Region} {st : St} {E done : List Nat} (h : Inv c st E done) (m : Nat) :
    0 < st.consumers m ↔ ∃ d ∈ st.delayed, m ∈ c.succ d := by
  rw [h.cons m, sum_pos]
  simp only [List.count_pos_iff]

theorem Inv.done_sub {c : Region} {st : St} {E done : List Nat} (h : Inv c st E done) {x : Nat}
    (hx : x ∈ done) : x ∈ c.order := by rw [h.split]; simp [hx]

theorem Inv.delayed_done {c : Region} {st : St} {E done : List Nat} (h : Inv c st E done) {x : Nat}
    (hx : x ∈ st.delayed) : x ∈ done := h.perm.mem_iff.2 (by simp [hx])

/-- Everything before a processed node has been processed. -/
theorem Inv.before_done {c : Region} {st : St} {E done : List Nat} (h : Inv c st E done) {p x : Nat}
    (hx : x ∈ done) (hlt : c.order.idxOf p < c.order.idxOf x) : p ∈ done := by
  by_contra hp
  rw [h.split, List.idxOf_append_of_notMem hp, List.idxOf_append_of_mem hx] at hlt
  have := List.idxOf_lt_length_iff.2 hx
  omega

theorem nextDelayed_spec {c : Region} (wf : c.WF) {st : St} {E done : List Nat} (h : Inv c st E done) :
    ∀ (fuel : Nat) (m : Nat), m ∈ c.order → c.order.idxOf m < fuel → 0 < st.consumers m →
    ∃ d, nextDelayed c st fuel m = some d ∧ d ∈ st.delayed ∧ ¬ 0 < st.consumers d ∧
      ∃ m' ∈ c.succ d, m' ∈ c.order ∧ Relation.ReflTransGen c.Edge m' m := by
  intro fuel
  induction fuel with
  | zero => intro m _ hf; omega
  | succ fuel ih =>
    intro m hm hf hk
    obtain ⟨d0, hd0, hs0⟩ := (h.consumers_pos m).1 hk
    have hd0o := h.done_sub (h.delayed_done hd0)
    unfold nextDelayed
    cases hfind : (c.pred m).find? (fun p => st.delayed.contains p) with
    | none =>
      exfalso
      have := List.find?_eq_none.1 hfind d0 ((wf.adj d0 hd0o m hm).2 hs0)
      simp [hd0] at this
    | some d =>
      have hdm := List.mem_of_find?_eq_some hfind
      have hdd : d ∈ st.delayed := by
        have := List.find?_some hfind
        simpa using this
      have hdo := h.done_sub (h.delayed_done hdd)
      have hsd := (wf.adj d hdo m hm).1 hdm
      have hlt := wf.topo d hdo m hsd hm
      simp only
      by_cases hkd : 0 < st.consumers d
      · rw [if_pos hkd]
        obtain ⟨e, he, he2, he3, m', hm', hmo, hr⟩ := ih d hdo (by omega) hkd
        exact ⟨e, he, he2, he3, m', hm', hmo, hr.tail ⟨hsd, hdo, hm⟩⟩
      · rw [if_neg hkd]
        exact ⟨d, rfl, hdd, hkd, m, hsd, hm, Relation.ReflTransGen.refl⟩

theorem closed_snoc {c : Region} {E : List Nat} {x : Nat}
    (h : ∀ l1 m l2, E = l1 ++ m :: l2 → ∀ n ∈ c.order, m ∈ c.succ n → n ∈ l1)
    (hx : ∀ n ∈ c.order, x ∈ c.succ n → n ∈ E) :
    ∀ l1 m l2, E ++ [x] = l1 ++ m :: l2 → ∀ n ∈ c.order, m ∈ c.succ n → n ∈ l1 := by
  intro l1 m l2 he n hn hm
  rcases List.eq_nil_or_concat l2 with rfl | ⟨l2', y, rfl⟩
  · have he' : E ++ [x] = l1 ++ [m] := he
    have := List.append_inj' he' rfl
    obtain ⟨rfl, h2⟩ := this
    simp only [List.cons.injEq, and_true] at h2
    subst h2
    exact hx n hn hm
  · have he' : E ++ [x] = (l1 ++ m :: l2') ++ [y] := by rw [he]; simp
    exact h l1 m l2' (List.append_inj' he' rfl).1 n hn hm

theorem perm_filter_ne {l : List Nat} (hl : l.Nodup) {d : Nat} (hd : d ∈ l) :
    l.Perm (d :: l.filter (· ≠ d)) := by
  have := List.perm_cons_erase hd
  rw [hl.erase_eq_filter] at this
  have e : (fun x : Nat => x != d) = (fun x => decide (x ≠ d)) := by
    funext x
    by_cases hx : x = d <;> simp [hx]
  rw [e] at this
  exact this

theorem sum_filter_ne (f : Nat → Nat) (l : List Nat) (hl : l.Nodup) (d : Nat) (hd : d ∈ l) :
    ((l.filter (· ≠ d)).map f).sum + f d = (l.map f).sum := by
  have := ((perm_filter_ne hl hd).map f).sum_nat
  rw [this]
  simp only [List.map_cons, List.sum_cons]
  omega

theorem settle_spec {c : Region} (wf : c.WF) {st : St} {E done : List Nat} {n fuel : Nat}
    (h : Inv c { st with pending := some n } E done) (hf : c.order.length < fuel) :
    ∃ x st', settle c fuel n st = some (x, st') ∧ Inv c st' (E ++ [x]) done := by
  have hdn : done.Nodup := (List.nodup_append.1 (h.split ▸ wf.nodup)).1
  have hcomb := h.perm.nodup_iff.1 hdn
  obtain ⟨hnc, dp, hdp⟩ := h.pl n rfl
  have hnd : n ∈ done := by rw [hdp]; simp
  have hno := h.done_sub hnd
  -- all predecessors of an emitted node are emitted
  have preds : ∀ x ∈ done, ¬ 0 < st.consumers x → ∀ p ∈ c.order, x ∈ c.succ p → p ∈ E := by
    intro x hx hk p hp hs
    have hlt := wf.topo p hp x hs (h.done_sub hx)
    have hpd := h.before_done hx hlt
    have := h.perm.mem_iff.1 hpd
    simp only [Option.toList_some, List.mem_append, List.mem_singleton] at this
    rcases this with (h1 | h1) | rfl
    · exact h1
    · exact absurd ((h.consumers_pos x).2 ⟨p, h1, hs⟩) hk
    · exfalso
      have hpdp : p ∉ dp := by
        rw [hdp] at hdn
        have := (List.nodup_append.1 hdn).2.2
        intro hc
        exact this p hc p (by simp) rfl
      rw [h.split, List.idxOf_append_of_mem hpd, List.idxOf_append_of_mem hx, hdp,
        List.idxOf_append_of_notMem hpdp] at hlt
      have := List.idxOf_lt_length_iff.2 hx
      rw [hdp] at this
      simp at this hlt
      omega
  unfold settle
  by_cases hk : 0 < st.consumers n
  · rw [if_pos hk]
    obtain ⟨d, hd, hdd, hdk, m', hm', hmo, hr⟩ := nextDelayed_spec wf h fuel n hno
      (by have := List.idxOf_lt_length_iff.2 hno; omega) hk
    have hd' : nextDelayed c st fuel n = some d := by
      rw [← hd]
      have : ∀ f m, nextDelayed c st f m = nextDelayed c { st with pending := some n } f m := by
        intro f
        induction f with
        | zero => intro m; rfl
        | succ f ih =>
          intro m
          unfold nextDelayed
          simp only
          split
          · rfl
          · rw [ih]
      exact this fuel n
    rw [hd']
    have hdd : d ∈ st.delayed := hdd
    have hdnodup : st.delayed.Nodup := by
      have := (List.nodup_append.1 hcomb).1
      exact (List.nodup_append.1 this).2.1
    have hle : ∀ m, (c.succ d).count m ≤ st.consumers m := by
      intro m
      have e1 := h.cons m
      have e2 := sum_filter_ne (fun d => (c.succ d).count m) st.delayed hdnodup d hdd
      simp only at e1 e2
      omega
    have hun : unbump st.consumers (c.succ d) = some (fun m => st.consumers m - (c.succ d).count m) := by
      unfold unbump
      rw [if_pos (fun m _ => hle m)]
    simp only [hun]
    refine ⟨d, _, rfl, ?_⟩
    have hperm : (E ++ st.delayed).Perm (E ++ [d] ++ st.delayed.filter (· ≠ d)) := by
      rw [List.append_assoc]
      apply List.Perm.append_left
      exact perm_filter_ne hdnodup hdd
    refine ⟨h.split, ?_, ?_, ?_, h.pl, ?_, ?_⟩
    · exact h.perm.trans (hperm.append_right _)
    · intro m
      have e1 := h.cons m
      have e2 := sum_filter_ne (fun d => (c.succ d).count m) st.delayed hdnodup d hdd
      simp only at e1 e2 ⊢
      omega
    · intro x hx
      exact h.dl x (List.mem_filter.1 hx).1
    · exact closed_snoc h.closed (preds d (h.delayed_done hdd) hdk)
    · intro x hx hxc
      rcases List.mem_append.1 hx with hx | hx
      · exact h.used x hx hxc
      · rw [List.mem_singleton] at hx
        subst hx
        exact ⟨m', hm', n, hnd, hnc, hmo, hr⟩
  · rw [if_neg hk]
    refine ⟨n, _, rfl, ?_⟩
    refine ⟨h.split, ?_, h.cons, h.dl, by simp, closed_snoc h.closed (preds n hnd hk), ?_⟩
    · have := h.perm
      simp only [Option.toList_some, Option.toList_none, List.append_nil] at this ⊢
      refine this.trans ?_
      rw [List.append_assoc, List.append_assoc]
      exact List.Perm.append_left _ List.perm_append_comm
    · intro x hx hxc
      rcases List.mem_append.1 hx with hx | hx
      · exact h.used x hx hxc
      · rw [List.mem_singleton] at hx
        subst hx
        rw [hnc] at hxc; simp at hxc

theorem Inv.length_le {c : Region} {st : St} {E done : List Nat} (h : Inv c st E done) :
    E.length ≤ c.order.length := by
  have h1 := h.perm.length_eq
  have h2 := congrArg List.length h.split
  simp at h1 h2
  omega

/-- The iteration ends in a state where nothing but constants is left. -/
theorem yielded_spec {c : Region} (wf : c.WF) {fuel : Nat} (hf : c.order.length < fuel) :
    ∀ (k : Nat) (st : St) (E done : List Nat), Inv c st E done → c.order.length < k + E.length →
    ∃ L st' done', yielded c fuel k st = some L ∧ Inv c st' (E ++ L) done' ∧ st'.pending = none ∧
      ∀ x ∈ st'.rest, c.constLike x = true := by
  intro k
  induction k with
  | zero => intro st E done h hk; have := h.length_le; omega
  | succ k ih =>
    intro st E done h hk
    have next : ∀ (n : Nat) (s : St) (done1 : List Nat), Inv c { s with pending := some n } E done1 →
        nextNode c fuel st = (settle c fuel n s).map some →
        ∃ L st' done', yielded c fuel (k + 1) st = some L ∧ Inv c st' (E ++ L) done' ∧
          st'.pending = none ∧ ∀ x ∈ st'.rest, c.constLike x = true := by
      intro n s done1 hi hn
      obtain ⟨x, s', hx, hi'⟩ := settle_spec wf hi hf
      obtain ⟨L, st', done', hL, hinv, hp, hr⟩ := ih s' (E ++ [x]) done1 hi' (by simp; omega)
      refine ⟨x :: L, st', done', ?_, by simpa using hinv, hp, hr⟩
      unfold yielded
      rw [hn, hx]
      simp [hL]
    cases hp : st.pending with
    | some n =>
      refine next n st done ?_ ?_
      · have : ({ st with pending := some n } : St) = st := by rw [← hp]
        rw [this]; exact h
      · unfold nextNode; rw [hp]
    | none =>
      have hst : st = ⟨st.rest, st.delayed, st.consumers, none⟩ := by rw [← hp]
      cases ha : advance c st.rest st.delayed st.consumers with
      | none =>
        refine ⟨[], st, done, ?_, by simpa using h, hp, advance_none c _ _ _ ha⟩
        unfold yielded nextNode
        rw [hp]; simp [ha]
      | some r =>
        obtain ⟨n, s⟩ := r
        obtain ⟨done1, hi⟩ := advance_some c _ _ _ _ _ _ _ (hst ▸ h) ha
        refine next n s done1 hi ?_
        unfold nextNode; rw [hp]; simp [ha]

end Tket.Commands
