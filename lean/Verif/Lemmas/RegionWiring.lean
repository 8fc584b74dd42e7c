import Verif.Model.RegionWiringSpec
import Verif.Lemmas.Modifier
import Mathlib.Data.List.Perm.Basic
import Mathlib.Tactic.SplitIfs

/-!
# Lemmas about the edges of modified regions
-/

namespace Tket.RegionWiring

open Tket.Modifier (Ty Sig Dir Port wireInout)

theorem collect_ok {α β : Type} {f : α → Except Err (List β)} {g : α → List β} : ∀ {l : List α},
    (∀ a ∈ l, f a = .ok (g a)) → collect f l = .ok (l.flatMap g)
  | [], _ => rfl
  | a :: l, h => by
    simp only [collect, h a (List.mem_cons_self ..), collect_ok (fun b hb => h b (List.mem_cons_of_mem _ hb)),
      List.flatMap_cons]

theorem collect_isOk {α β : Type} {f : α → Except Err (List β)} : ∀ {l : List α},
    (∃ r, collect f l = .ok r) ↔ ∀ a ∈ l, ∃ x, f a = .ok x
  | [] => by simp [collect]
  | a :: l => by
    simp only [collect, List.forall_mem_cons]
    rw [← collect_isOk (l := l)]
    cases h : f a with
    | error e => simp
    | ok x =>
      cases h' : collect f l with
      | error e => simp
      | ok y => simp

theorem connect_isOk (a b : End) : (∃ x, connect a b = .ok x) ↔ a.port.dir ≠ b.port.dir := by
  obtain ⟨n, ⟨d, i⟩⟩ := a
  obtain ⟨m, ⟨d', j⟩⟩ := b
  cases d <;> cases d' <;> simp [connect]

theorem connectEdge_isOk (r : Region) (dagger : Bool) (e : Edge) :
    (∃ x, connectEdge r dagger e = .ok x) ↔
      ∃ as, r.get dagger e.dst ⟨.inc, e.dport⟩ = some as ∧
        (as ≠ [] → ∃ bs, r.get dagger e.src ⟨.out, e.sport⟩ = some bs ∧
          ∀ a ∈ as, ∀ b ∈ bs, a.port.dir ≠ b.port.dir) := by
  unfold connectEdge
  cases h : r.get dagger e.dst ⟨.inc, e.dport⟩ with
  | none => simp
  | some as =>
    simp only [Option.some.injEq, exists_eq_left']
    rw [collect_isOk]
    cases h' : r.get dagger e.src ⟨.out, e.sport⟩ with
    | none =>
      simp only [reduceCtorEq, exists_false, false_and]
      cases as with
      | nil => simp
      | cons a as => simp only [ne_eq, reduceCtorEq, not_false_eq_true, forall_const, iff_false]
                     exact fun hh => hh a (List.mem_cons_self ..)
    | some bs =>
      simp only [Option.some.injEq, exists_eq_left']
      have key : ∀ a, (∃ x, collect (fun b => match connect a b with
          | .error e => .error e
          | .ok x => .ok [x]) bs = .ok x) ↔ ∀ b ∈ bs, a.port.dir ≠ b.port.dir := by
        intro a
        rw [collect_isOk]
        refine forall_congr' fun b => forall_congr' fun _ => ?_
        rw [← connect_isOk]
        cases connect a b <;> simp
      constructor
      · intro hh _ a ha
        exact (key a).1 (hh a ha)
      · intro hh a ha
        exact (key a).2 (hh (List.ne_nil_of_mem ha) a ha)

theorem get_faithful {r : Region} {dagger : Bool} {n : Nat} {f : Port → Port} (h : Faithful dagger (r.op n) f)
    (hn : n ∈ r.children) {p : Port} {t : Ty} (ht : (r.op n).ty p = some t) :
    r.get dagger n p = some [⟨n, f p⟩] := by
  simp [Region.get, hn, h.reg p t ht]

theorem connectEdge_faithful {r : Region} {dagger : Bool} {f : Nat → Port → Port}
    (hf : ∀ n ∈ r.children, Faithful dagger (r.op n) (f n)) {e : Edge} (he : e.Local r) :
    connectEdge r dagger e = .ok [image r dagger f e] := by
  obtain ⟨h1, h2, t, h3, h4⟩ := he
  have d3 := (hf _ h1).dir _ _ h3
  have d4 := (hf _ h2).dir _ _ h4
  simp only [connectEdge, get_faithful (hf _ h1) h1 h3, get_faithful (hf _ h2) h2 h4, collect, connect, image,
    quantum, h3, d3, d4]
  split_ifs <;> simp [flip]

/-- The edges in the order in which `connect_all` meets them. -/
theorem order_perm {r : Region} (hn : r.children.Nodup) :
    (r.children.flatMap fun n => r.edges.filter (fun e => e.src = n)).Perm r.inner := by
  unfold Region.inner
  generalize r.children = c at *
  generalize r.edges = l
  induction c with
  | nil => simp
  | cons a c ih =>
    rw [List.nodup_cons] at hn
    simp only [List.flatMap_cons]
    refine (List.Perm.append_left _ (ih hn.2)).trans ?_
    clear ih
    induction l with
    | nil => simp
    | cons e l ih2 =>
      by_cases h : e.src = a
      · subst h
        simpa [List.filter_cons, hn.1] using ih2
      · by_cases h' : e.src ∈ c
        · rw [List.filter_cons_of_neg (by simpa using h), List.filter_cons_of_pos (by simpa using h'),
            List.filter_cons_of_pos (by simp [h'])]
          exact List.perm_middle.trans (ih2.cons _)
        · simpa [List.filter_cons, h, h'] using ih2

theorem mem_order {r : Region} {e : Edge} :
    e ∈ (r.children.flatMap fun n => r.edges.filter (fun e => e.src = n)) ↔ e ∈ r.inner := by
  simp only [List.mem_flatMap, List.mem_filter, decide_eq_true_eq, Region.inner]
  constructor
  · rintro ⟨n, hn, he, rfl⟩; exact ⟨he, hn⟩
  · rintro ⟨he, hn⟩; exact ⟨_, hn, he, rfl⟩

theorem flatMap_singleton_map {α β : Type} (g : α → β) (l : List α) : l.flatMap (fun a => [g a]) = l.map g := by
  induction l with
  | nil => rfl
  | cons a l ih => simp [List.flatMap_cons, ih]

theorem flip_flip (p : Port) : flip (flip p) = p := by
  obtain ⟨d, i⟩ := p; cases d <;> rfl

theorem flip_dir_ne (p : Port) : (flip p).dir ≠ p.dir := by
  obtain ⟨d, i⟩ := p; cases d <;> simp [flip]

theorem image_touches {r : Region} {dagger : Bool} {f : Nat → Port → Port}
    (hf : ∀ n ∈ r.children, Faithful dagger (r.op n) (f n)) {e : Edge} (he : e.Local r) {n : Nat} {p : Port}
    (hn : n ∈ r.children) (hp : ((r.op n).ty p).isSome) :
    touches (image r dagger f e) ⟨n, f n p⟩ = e.touches n p := by
  obtain ⟨h1, h2, t, h3, h4⟩ := he
  have k1 : (End.mk e.src (f e.src ⟨.out, e.sport⟩) = ⟨n, f n p⟩) ↔ (e.src = n ∧ p = ⟨.out, e.sport⟩) := by
    constructor
    · intro h
      injection h with a b
      subst a
      exact ⟨rfl, ((hf _ h1).inj _ _ (by rw [h3]; rfl) hp b).symm⟩
    · rintro ⟨rfl, rfl⟩; rfl
  have k2 : (End.mk e.dst (f e.dst ⟨.inc, e.dport⟩) = ⟨n, f n p⟩) ↔ (e.dst = n ∧ p = ⟨.inc, e.dport⟩) := by
    constructor
    · intro h
      injection h with a b
      subst a
      exact ⟨rfl, ((hf _ h2).inj _ _ (by rw [h4]; rfl) hp b).symm⟩
    · rintro ⟨rfl, rfl⟩; rfl
  unfold touches image Edge.touches
  rw [Bool.eq_iff_iff]
  dsimp only
  split_ifs <;> simp only [Bool.or_eq_true, Bool.and_eq_true, decide_eq_true_eq, k1, k2]
  exact Or.comm

theorem hasQ_out {o : Op} {i : Nat} {t : Ty} (h : o.ty ⟨.out, i⟩ = some t) (ht : t.isQ = true) : o.hasQ :=
  Or.inr ⟨t, List.mem_of_getElem? h, ht⟩

theorem hasQ_in {o : Op} {i : Nat} {t : Ty} (h : o.ty ⟨.inc, i⟩ = some t) (ht : t.isQ = true) : o.hasQ :=
  Or.inl ⟨t, List.mem_of_getElem? h, ht⟩

theorem hasQ_iff {o : Op} : o.hasQ ↔ ∃ p t, o.ty p = some t ∧ t.isQ = true := by
  constructor
  · rintro (⟨t, h, ht⟩ | ⟨t, h, ht⟩)
    · obtain ⟨i, hi⟩ := List.getElem?_of_mem h
      exact ⟨⟨.inc, i⟩, t, hi, ht⟩
    · obtain ⟨i, hi⟩ := List.getElem?_of_mem h
      exact ⟨⟨.out, i⟩, t, hi, ht⟩
  · rintro ⟨⟨d, i⟩, t, h, ht⟩
    cases d
    · exact hasQ_in h ht
    · exact hasQ_out h ht

/-- A bound for the ranks of the ends of edges. -/
theorem rank_bound (rank : Nat → Nat) (l : List Edge) : ∃ M, ∀ e ∈ l, rank e.src ≤ M ∧ rank e.dst ≤ M := by
  induction l with
  | nil => exact ⟨0, by simp⟩
  | cons e l ih =>
    obtain ⟨M, h⟩ := ih
    refine ⟨M + rank e.src + rank e.dst, ?_⟩
    intro e' he'
    rcases List.mem_cons.1 he' with rfl | he'
    · omega
    · have := h e' he'; omega

end Tket.RegionWiring
