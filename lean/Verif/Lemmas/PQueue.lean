import Verif.Model.PQueue
import Mathlib.Data.List.Nodup
import Mathlib.Tactic.Common

/-!
# Invariant of the state queue (helper lemmas for `Verif.Props.PQueue`)
-/

namespace Tket.PQueue

set_option linter.unusedSectionVars false

variable {S P : Type} [LinearOrder P]

/-- The invariant: `acc` is the list of all entries accepted so far. -/
structure Inv (q : PQ S P) (acc : List (Entry S P)) : Prop where
  qnd : (q.queue.map Prod.fst).Nodup
  qlen : q.queue.length ≤ q.maxSize
  accnd : (acc.map Entry.hash).Nodup
  seen : ∀ h, h ∈ q.seen ↔ h ∈ acc.map Entry.hash
  qlk : ∀ e ∈ q.queue, ∃ s, q.lookup e.1 = some s ∧ (⟨s, e.2, e.1⟩ : Entry S P) ∈ acc
  lk : ∀ h s, q.lookup h = some s → ∃ c, (⟨s, c, h⟩ : Entry S P) ∈ acc
  rel : ∀ n l, q.atb = some (n, l) → ∀ h, (q.lookup h).isSome →
    h ∈ q.queue.map Prod.fst ∨ h ∈ l.map Prod.fst
  and : ∀ n l, q.atb = some (n, l) → (l.map Prod.fst).Nodup
  alen : ∀ n l, q.atb = some (n, l) → l.length = min n acc.length
  afull : ∀ n l, q.atb = some (n, l) → l.length < n → ∀ a ∈ acc, a.hash ∈ l.map Prod.fst
  alk : ∀ n l, q.atb = some (n, l) → ∀ e ∈ l,
    ∃ s, q.lookup e.1 = some s ∧ (⟨s, e.2, e.1⟩ : Entry S P) ∈ acc
  abest : ∀ n l, q.atb = some (n, l) → ∀ a ∈ acc, a.hash ∉ l.map Prod.fst →
    ∀ e ∈ l, e.2 ≤ a.cost

theorem inv_new (maxSize : Nat) (nBest : Option Nat) :
    Inv (PQ.new maxSize nBest : PQ S P) [] := by
  constructor <;> simp [PQ.new]

theorem mem_dropKey {h : Nat} {l : List (Item P)} {e : Item P} :
    e ∈ dropKey h l ↔ e ∈ l ∧ e.1 ≠ h := by simp [dropKey]

theorem dropKey_nodup {h : Nat} {l : List (Item P)} (hn : (l.map Prod.fst).Nodup) :
    ((dropKey h l).map Prod.fst).Nodup :=
  List.Nodup.sublist (List.Sublist.map _ List.filter_sublist) hn

theorem dropKey_eq_self {h : Nat} {l : List (Item P)} (hn : h ∉ l.map Prod.fst) :
    dropKey h l = l := by
  unfold dropKey
  rw [List.filter_eq_self]
  intro a ha
  simp only [ne_eq, decide_not, Bool.not_eq_eq_eq_not, Bool.not_true, decide_eq_false_iff_not]
  intro hc
  exact hn (List.mem_map.2 ⟨a, ha, hc⟩)

theorem dropKey_length_of_mem {l : List (Item P)} (hn : (l.map Prod.fst).Nodup) {e : Item P}
    (he : e ∈ l) : (dropKey e.1 l).length + 1 = l.length := by
  induction l with
  | nil => simp at he
  | cons a t ih =>
    simp only [List.map_cons, List.nodup_cons] at hn
    by_cases hae : a.1 = e.1
    · have : dropKey e.1 (a :: t) = dropKey e.1 t := by simp [dropKey, hae]
      rw [this, dropKey_eq_self (hae ▸ hn.1)]
      simp
    · have het : e ∈ t := by
        rcases List.mem_cons.1 he with h | h
        · exact absurd (by rw [h]) hae
        · exact h
      have : dropKey e.1 (a :: t) = a :: dropKey e.1 t := by simp [dropKey, hae]
      rw [this]
      simp [ih hn.2 het]

theorem dropKey_perm_of_mem {l : List (Item P)} (hn : (l.map Prod.fst).Nodup) {e : Item P}
    (he : e ∈ l) : l.Perm (e :: dropKey e.1 l) := by
  induction l with
  | nil => simp at he
  | cons a t ih =>
    simp only [List.map_cons, List.nodup_cons] at hn
    by_cases hae : a.1 = e.1
    · have : dropKey e.1 (a :: t) = dropKey e.1 t := by simp [dropKey, hae]
      rw [this, dropKey_eq_self (hae ▸ hn.1)]
      rcases List.mem_cons.1 he with h | h
      · rw [h]
      · exact absurd (List.mem_map.2 ⟨e, h, hae.symm⟩) hn.1
    · have het : e ∈ t := by
        rcases List.mem_cons.1 he with h | h
        · exact absurd (by rw [h]) hae
        · exact h
      have : dropKey e.1 (a :: t) = a :: dropKey e.1 t := by simp [dropKey, hae]
      rw [this]
      exact ((ih hn.2 het).cons a).trans (List.Perm.swap _ _ _)

theorem hasKey_iff {h : Nat} {l : List (Item P)} : hasKey h l = true ↔ h ∈ l.map Prod.fst := by
  simp only [hasKey, List.any_eq_true, decide_eq_true_eq, List.mem_map]

theorem key_unique {l : List (Item P)} (hn : (l.map Prod.fst).Nodup) {a b : Item P}
    (ha : a ∈ l) (hb : b ∈ l) (h : a.1 = b.1) : a = b :=
  List.inj_on_of_nodup_map hn ha hb h

theorem acc_unique {acc : List (Entry S P)} (hn : (acc.map Entry.hash).Nodup) {a b : Entry S P}
    (ha : a ∈ acc) (hb : b ∈ acc) (h : a.hash = b.hash) : a = b :=
  List.inj_on_of_nodup_map hn ha hb h

/-- Taking an entry out of the queue (the common body of `pop` and `pop_max`). -/
theorem inv_take {q : PQ S P} {acc : List (Entry S P)} (hi : Inv q acc) {e : Item P}
    (he : e ∈ q.queue) :
    ∃ s, q.lookup e.1 = some s ∧ (⟨s, e.2, e.1⟩ : Entry S P) ∈ acc ∧
      (PQ.takeState { q with queue := dropKey e.1 q.queue } e).2 = some ⟨s, e.2, e.1⟩ ∧
      (PQ.takeState { q with queue := dropKey e.1 q.queue } e).1.queue = dropKey e.1 q.queue ∧
      (PQ.takeState { q with queue := dropKey e.1 q.queue } e).1.maxSize = q.maxSize ∧
      (PQ.takeState { q with queue := dropKey e.1 q.queue } e).1.seen = q.seen ∧
      (PQ.takeState { q with queue := dropKey e.1 q.queue } e).1.atb = q.atb ∧
      Inv (PQ.takeState { q with queue := dropKey e.1 q.queue } e).1 acc := by
  obtain ⟨s, hs, hacc⟩ := hi.qlk e he
  refine ⟨s, hs, hacc, ?_, ?_, ?_, ?_, ?_, ?_⟩
  · unfold PQ.takeState; split <;> simp [hs]
  · unfold PQ.takeState; split <;> simp
  · unfold PQ.takeState; split <;> simp
  · unfold PQ.takeState; split <;> simp
  · unfold PQ.takeState; split <;> simp
  · unfold PQ.takeState
    have hlen : (dropKey e.1 q.queue).length ≤ q.maxSize :=
      Nat.le_trans (List.length_filter_le _ _) hi.qlen
    split
    · rename_i hna
      constructor
      · exact dropKey_nodup hi.qnd
      · exact hlen
      · exact hi.accnd
      · exact hi.seen
      · intro a ha
        obtain ⟨ha1, ha2⟩ := mem_dropKey.1 ha
        simpa [lookupRemove, ha2] using hi.qlk a ha1
      · intro h s' hl
        simp only [lookupRemove] at hl
        split at hl
        · simp at hl
        · exact hi.lk h s' hl
      · intro n l hl h hsome
        simp only [lookupRemove] at hsome
        split at hsome
        · simp at hsome
        · rename_i hne
          rcases hi.rel n l hl h hsome with h1 | h1
          · left
            obtain ⟨a, ha, rfl⟩ := List.mem_map.1 h1
            exact List.mem_map.2 ⟨a, mem_dropKey.2 ⟨ha, hne⟩, rfl⟩
          · exact Or.inr h1
      · exact hi.and
      · exact hi.alen
      · exact hi.afull
      · intro n l hl a ha
        have hl' : q.atb = some (n, l) := hl
        have hne : a.1 ≠ e.1 := by
          intro heq
          simp only [PQ.notInAtb, hl'] at hna
          have : hasKey e.1 l = true := hasKey_iff.2 (List.mem_map.2 ⟨a, ha, heq⟩)
          simp [this] at hna
        simpa [lookupRemove, hne] using hi.alk n l hl' a ha
      · exact hi.abest
    · rename_i hna
      constructor
      · exact dropKey_nodup hi.qnd
      · exact hlen
      · exact hi.accnd
      · exact hi.seen
      · intro a ha
        exact hi.qlk a (mem_dropKey.1 ha).1
      · exact hi.lk
      · intro n l hl h hsome
        have hl' : q.atb = some (n, l) := hl
        rcases hi.rel n l hl' h hsome with h1 | h1
        · obtain ⟨a, ha, rfl⟩ := List.mem_map.1 h1
          by_cases hae : a.1 = e.1
          · right
            simp only [PQ.notInAtb, hl'] at hna
            rw [hae]
            exact hasKey_iff.1 (by simpa using hna)
          · left
            exact List.mem_map.2 ⟨a, mem_dropKey.2 ⟨ha, hae⟩, rfl⟩
        · exact Or.inr h1
      · exact hi.and
      · exact hi.alen
      · exact hi.afull
      · exact hi.alk
      · exact hi.abest

theorem min_of_ne_nil (tb : TieBreak P) {l : List (Item P)} (h : l ≠ []) :
    ∃ e, tb.min l = some e ∧ e ∈ l ∧ ∀ e' ∈ l, e.2 ≤ e'.2 := tb.min_some l h

/-- `pop` on a non-empty queue. -/
theorem pop_spec {q : PQ S P} {acc : List (Entry S P)} (hi : Inv q acc) (tb : TieBreak P)
    (hne : q.queue ≠ []) :
    ∃ e s, e ∈ q.queue ∧ (∀ e' ∈ q.queue, e.2 ≤ e'.2) ∧
      (⟨s, e.2, e.1⟩ : Entry S P) ∈ acc ∧ q.lookup e.1 = some s ∧
      (q.pop tb).2 = some ⟨s, e.2, e.1⟩ ∧
      (q.pop tb).1.queue = dropKey e.1 q.queue ∧ (q.pop tb).1.maxSize = q.maxSize ∧
      (q.pop tb).1.seen = q.seen ∧ (q.pop tb).1.atb = q.atb ∧ Inv (q.pop tb).1 acc := by
  obtain ⟨e, h1, h2, h3⟩ := tb.min_some q.queue hne
  obtain ⟨s, hs, hacc, r⟩ := inv_take hi h2
  refine ⟨e, s, h2, h3, hacc, hs, ?_⟩
  simp only [PQ.pop, h1]
  exact r

theorem popMax_spec {q : PQ S P} {acc : List (Entry S P)} (hi : Inv q acc) (tb : TieBreak P)
    (hne : q.queue ≠ []) :
    ∃ e s, e ∈ q.queue ∧ (∀ e' ∈ q.queue, e'.2 ≤ e.2) ∧ tb.max q.queue = some e ∧
      (⟨s, e.2, e.1⟩ : Entry S P) ∈ acc ∧ q.lookup e.1 = some s ∧
      (q.popMax tb).2 = some ⟨s, e.2, e.1⟩ ∧
      (q.popMax tb).1.queue = dropKey e.1 q.queue ∧ (q.popMax tb).1.maxSize = q.maxSize ∧
      (q.popMax tb).1.seen = q.seen ∧ (q.popMax tb).1.atb = q.atb ∧
      Inv (q.popMax tb).1 acc := by
  obtain ⟨e, h1, h2, h3⟩ := tb.max_some q.queue hne
  obtain ⟨s, hs, hacc, r⟩ := inv_take hi h2
  refine ⟨e, s, h2, h3, h1, hacc, hs, ?_⟩
  simp only [PQ.popMax, h1]
  exact r

theorem pop_nil {q : PQ S P} (tb : TieBreak P) (h : q.queue = []) : q.pop tb = (q, none) := by
  simp [PQ.pop, h, tb.min_nil]

theorem popMax_nil {q : PQ S P} (tb : TieBreak P) (h : q.queue = []) :
    q.popMax tb = (q, none) := by
  simp [PQ.popMax, h, tb.max_nil]

theorem pop_inv {q : PQ S P} {acc : List (Entry S P)} (hi : Inv q acc) (tb : TieBreak P) :
    Inv (q.pop tb).1 acc := by
  by_cases h : q.queue = []
  · rw [pop_nil tb h]; exact hi
  · obtain ⟨e, s, r⟩ := pop_spec hi tb h
    exact r.2.2.2.2.2.2.2.2.2

theorem popMax_inv {q : PQ S P} {acc : List (Entry S P)} (hi : Inv q acc) (tb : TieBreak P) :
    Inv (q.popMax tb).1 acc := by
  by_cases h : q.queue = []
  · rw [popMax_nil tb h]; exact hi
  · obtain ⟨e, s, r⟩ := popMax_spec hi tb h
    exact r.2.2.2.2.2.2.2.2.2.2

/-- The part of `push_unchecked` after the eviction. -/
def pushRoom (tb : TieBreak P) (q : PQ S P) (s : S) (h : Nat) (c : P) :
    Option (PQ S P × Option (Entry S P)) :=
  let q := { q with seen := h :: q.seen }
  let q := { q with queue := dpqPush h c q.queue }
  let q := q.pushAtb tb h c
  match q.queue.find? (fun e => e.1 = h) with
  | none => none
  | some e =>
    let lk := lookupOrInsert q.lookup h s
    let q := { q with lookup := lk }
    some (q, (lk h).map (fun s' => ⟨s', e.2, h⟩))

theorem pushAtb_queue (tb : TieBreak P) (q : PQ S P) (h : Nat) (c : P) :
    (q.pushAtb tb h c).queue = q.queue ∧ (q.pushAtb tb h c).seen = q.seen ∧
      (q.pushAtb tb h c).maxSize = q.maxSize := by
  unfold PQ.pushAtb
  split
  · simp
  · split
    · split
      · simp
      · split
        · simp only [PQ.atbInsert, PQ.popMaxAtb]
          split <;> (try simp)
          split <;> simp
        · simp
    · simp [PQ.atbInsert]

/-- What `push_all_time_best` does to the lookup table and best-N list. -/
theorem pushAtb_cases (tb : TieBreak P) (q : PQ S P) (h : Nat) (c : P) {n : Nat}
    {l : List (Item P)} (hq : q.atb = some (n, l)) :
    (l.length ≠ n ∧ (q.pushAtb tb h c) = { q with atb := some (n, dpqPush h c l) }) ∨
    (l.length = n ∧ (∀ e ∈ l, e.2 ≤ c) ∧ q.pushAtb tb h c = q) ∨
    (l.length = n ∧ ∃ e ∈ l, (∀ e' ∈ l, e'.2 ≤ e.2) ∧ c < e.2 ∧
      q.pushAtb tb h c = { q with
        atb := some (n, dpqPush h c (dropKey e.1 l))
        lookup := if hasKey e.1 q.queue then q.lookup else lookupRemove q.lookup e.1 }) := by
  by_cases hl : l.length = n
  · right
    by_cases hnil : l = []
    · left
      subst hnil
      refine ⟨hl, by simp, ?_⟩
      have : n = 0 := by simpa using hl.symm
      simp [PQ.pushAtb, hq, this, tb.max_nil]
    · obtain ⟨e, h1, h2, h3⟩ := tb.max_some l hnil
      by_cases hc : c < e.2
      · right
        refine ⟨hl, e, h2, h3, hc, ?_⟩
        simp only [PQ.pushAtb, hq, hl, h1, hc, if_true, PQ.popMaxAtb, PQ.atbInsert, Option.map]
      · left
        refine ⟨hl, fun e' he' => le_trans (h3 e' he') (not_lt.1 hc), ?_⟩
        simp [PQ.pushAtb, hq, hl, h1, hc]
  · left
    refine ⟨hl, ?_⟩
    simp [PQ.pushAtb, hq, hl, PQ.atbInsert]

theorem pushRoom_spec {q : PQ S P} {acc : List (Entry S P)} (hi : Inv q acc) (tb : TieBreak P)
    (s : S) (h : Nat) (c : P) (hroom : q.queue.length < q.maxSize) (hns : h ∉ q.seen) :
    ∃ q', pushRoom tb q s h c = some (q', some ⟨s, c, h⟩) ∧
      q'.queue = (h, c) :: q.queue ∧ q'.maxSize = q.maxSize ∧ q'.seen = h :: q.seen ∧
      Inv q' (⟨s, c, h⟩ :: acc) := by
  have hacc : h ∉ acc.map Entry.hash := fun hh => hns ((hi.seen h).2 hh)
  have hlkh : q.lookup h = none := by
    rcases hlk : q.lookup h with _ | s'
    · rfl
    · obtain ⟨c', hc'⟩ := hi.lk h s' hlk
      exact absurd (List.mem_map.2 ⟨_, hc', rfl⟩) hacc
  have hqk : h ∉ q.queue.map Prod.fst := by
    intro hh
    obtain ⟨e, he, rfl⟩ := List.mem_map.1 hh
    obtain ⟨s', hs', _⟩ := hi.qlk e he
    rw [hlkh] at hs'; simp at hs'
  have hpush : dpqPush h c q.queue = (h, c) :: q.queue := by
    simp [dpqPush, dropKey_eq_self hqk]
  -- the state before `push_all_time_best`
  let q1 : PQ S P := { q with seen := h :: q.seen, queue := (h, c) :: q.queue }
  have hq1 : (q1.pushAtb tb h c).queue = (h, c) :: q.queue := (pushAtb_queue tb q1 h c).1
  have hq1s : (q1.pushAtb tb h c).seen = h :: q.seen := (pushAtb_queue tb q1 h c).2.1
  have hq1m : (q1.pushAtb tb h c).maxSize = q.maxSize := (pushAtb_queue tb q1 h c).2.2
  have hlk1 : (q1.pushAtb tb h c).lookup h = none := by
    rcases hatb : q.atb with _ | ⟨n, l⟩
    · have : q1.pushAtb tb h c = q1 := by simp [PQ.pushAtb, q1, hatb]
      rw [this]; exact hlkh
    · have hatb1 : q1.atb = some (n, l) := hatb
      rcases pushAtb_cases tb q1 h c hatb1 with ⟨_, hr⟩ | ⟨_, _, hr⟩ | ⟨_, e, _, _, _, hr⟩
      · rw [hr]; exact hlkh
      · rw [hr]; exact hlkh
      · rw [hr]
        simp only
        split
        · exact hlkh
        · simp only [lookupRemove]
          split
          · rfl
          · exact hlkh
  refine ⟨{ (q1.pushAtb tb h c) with
      lookup := lookupOrInsert (q1.pushAtb tb h c).lookup h s }, ?_, hq1, hq1m, hq1s, ?_⟩
  · unfold pushRoom
    simp only [hpush]
    change (match (q1.pushAtb tb h c).queue.find? (fun e => e.1 = h) with
      | none => none
      | some e => _) = _
    rw [hq1]
    simp only [List.find?_cons, decide_true]
    have : lookupOrInsert (q1.pushAtb tb h c).lookup h s h = some s := by
      simp [lookupOrInsert, hlk1]
    change some (_, (lookupOrInsert (q1.pushAtb tb h c).lookup h s h).map _) = _
    rw [this]
    rfl
  · -- facts shared by all cases
    have lkNe : ∀ k, k ≠ h → lookupOrInsert (q1.pushAtb tb h c).lookup h s k
        = (q1.pushAtb tb h c).lookup k := by
      intro k hk; simp [lookupOrInsert, hk]
    have lkH : lookupOrInsert (q1.pushAtb tb h c).lookup h s h = some s := by
      simp [lookupOrInsert, hlk1]
    have hqne : ∀ e ∈ q.queue, e.1 ≠ h := fun e he heq =>
      hqk (List.mem_map.2 ⟨e, he, heq⟩)
    -- lookups of queue members survive
    have qsurv : ∀ e ∈ q.queue, (q1.pushAtb tb h c).lookup e.1 = q.lookup e.1 := by
      intro e he
      rcases hatb : q.atb with _ | ⟨n, l⟩
      · have : q1.pushAtb tb h c = q1 := by simp [PQ.pushAtb, q1, hatb]
        rw [this]
      · have hatb1 : q1.atb = some (n, l) := hatb
        rcases pushAtb_cases tb q1 h c hatb1 with ⟨_, hr⟩ | ⟨_, _, hr⟩ | ⟨_, e', _, _, _, hr⟩
        · rw [hr]
        · rw [hr]
        · rw [hr]
          simp only
          split
          · rfl
          · rename_i hk
            simp only [lookupRemove]
            split
            · rename_i heq
              exfalso; apply hk
              rw [hasKey_iff]
              exact List.mem_map.2 ⟨e, List.mem_cons_of_mem _ he, heq⟩
            · rfl
    have lkSub : ∀ k s', (q1.pushAtb tb h c).lookup k = some s' → q.lookup k = some s' := by
      intro k s' hk
      rcases hatb : q.atb with _ | ⟨n, l⟩
      · have : q1.pushAtb tb h c = q1 := by simp [PQ.pushAtb, q1, hatb]
        rw [this] at hk; exact hk
      · have hatb1 : q1.atb = some (n, l) := hatb
        rcases pushAtb_cases tb q1 h c hatb1 with ⟨_, hr⟩ | ⟨_, _, hr⟩ | ⟨_, e', _, _, _, hr⟩
        · rw [hr] at hk; exact hk
        · rw [hr] at hk; exact hk
        · rw [hr] at hk
          simp only at hk
          split at hk
          · exact hk
          · simp only [lookupRemove] at hk
            split at hk
            · simp at hk
            · exact hk
    have mainInv : ∀ n l, (q1.pushAtb tb h c).atb = some (n, l) →
        (∀ k, (lookupOrInsert (q1.pushAtb tb h c).lookup h s k).isSome →
          k ∈ ((h, c) :: q.queue).map Prod.fst ∨ k ∈ l.map Prod.fst) ∧
        (l.map Prod.fst).Nodup ∧ l.length = min n (acc.length + 1) ∧
        (l.length < n → ∀ a ∈ (⟨s, c, h⟩ :: acc : List (Entry S P)), a.hash ∈ l.map Prod.fst) ∧
        (∀ e ∈ l, ∃ s', lookupOrInsert (q1.pushAtb tb h c).lookup h s e.1 = some s' ∧
          (⟨s', e.2, e.1⟩ : Entry S P) ∈ (⟨s, c, h⟩ :: acc : List (Entry S P))) ∧
        (∀ a ∈ (⟨s, c, h⟩ :: acc : List (Entry S P)), a.hash ∉ l.map Prod.fst →
          ∀ e ∈ l, e.2 ≤ a.cost) := by
      intro n l' hl'
      rcases hatb : q.atb with _ | ⟨n0, l⟩
      · have : q1.pushAtb tb h c = q1 := by simp [PQ.pushAtb, q1, hatb]
        rw [this] at hl'
        simp only [q1, hatb] at hl'
        simp at hl'
      · have hatb1 : q1.atb = some (n0, l) := hatb
        have hlk0 : h ∉ l.map Prod.fst := by
          intro hh
          obtain ⟨e, he, rfl⟩ := List.mem_map.1 hh
          obtain ⟨s', hs', _⟩ := hi.alk n0 l hatb e he
          rw [hlkh] at hs'; simp at hs'
        have hrel := hi.rel n0 l hatb
        have hand := hi.and n0 l hatb
        have halen := hi.alen n0 l hatb
        have hafull := hi.afull n0 l hatb
        have halk := hi.alk n0 l hatb
        have habest := hi.abest n0 l hatb
        rcases pushAtb_cases tb q1 h c hatb1 with ⟨hne, hr⟩ | ⟨heq, hle, hr⟩ | ⟨heq, e, hel, hemax, hce, hr⟩
        · -- room in the best-N list
          rw [hr] at hl'
          have hd : dpqPush h c l = (h, c) :: l := by simp [dpqPush, dropKey_eq_self hlk0]
          simp only [hd, Option.some.injEq, Prod.mk.injEq] at hl'
          obtain ⟨rfl, rfl⟩ := hl'
          have hlt : l.length < n0 := by omega
          refine ⟨?_, ?_, ?_, ?_, ?_, ?_⟩
          · intro k hk
            by_cases hkh : k = h
            · left; simp [hkh]
            · rw [lkNe k hkh] at hk
              obtain ⟨s', hs'⟩ := Option.isSome_iff_exists.1 hk
              rcases hrel k (by rw [lkSub k s' hs']; rfl) with h1 | h1
              · left; exact List.mem_cons_of_mem _ h1
              · right; exact List.mem_cons_of_mem _ h1
          · simp only [List.map_cons, List.nodup_cons]; exact ⟨hlk0, hand⟩
          · simp only [List.length_cons]; omega
          · intro _ a ha
            rcases List.mem_cons.1 ha with rfl | ha
            · simp
            · exact List.mem_cons_of_mem _ (hafull hlt a ha)
          · intro a ha
            rcases List.mem_cons.1 ha with rfl | ha
            · exact ⟨s, lkH, List.mem_cons_self⟩
            · obtain ⟨s', hs', hm⟩ := halk a ha
              have hah : a.1 ≠ h := fun hh => hlk0 (List.mem_map.2 ⟨a, ha, hh⟩)
              refine ⟨s', ?_, List.mem_cons_of_mem _ hm⟩
              rw [lkNe _ hah, hr]; exact hs'
          · intro a ha hnot
            rcases List.mem_cons.1 ha with rfl | ha
            · simp at hnot
            · exact absurd (List.mem_cons_of_mem _ (hafull hlt a ha)) hnot
        · -- full and not better
          rw [hr] at hl'
          rw [hatb1] at hl'
          simp only [Option.some.injEq, Prod.mk.injEq] at hl'
          obtain ⟨rfl, rfl⟩ := hl'
          refine ⟨?_, hand, by omega, by omega, ?_, ?_⟩
          · intro k hk
            by_cases hkh : k = h
            · left; simp [hkh]
            · rw [lkNe k hkh] at hk
              obtain ⟨s', hs'⟩ := Option.isSome_iff_exists.1 hk
              rcases hrel k (by rw [lkSub k s' hs']; rfl) with h1 | h1
              · left; exact List.mem_cons_of_mem _ h1
              · right; exact h1
          · intro a ha
            obtain ⟨s', hs', hm⟩ := halk a ha
            have hah : a.1 ≠ h := fun hh => hlk0 (List.mem_map.2 ⟨a, ha, hh⟩)
            refine ⟨s', ?_, List.mem_cons_of_mem _ hm⟩
            rw [lkNe _ hah, hr]; exact hs'
          · intro a ha hnot e he
            rcases List.mem_cons.1 ha with rfl | ha
            · exact hle e he
            · exact habest a ha hnot e he
        · -- full and strictly better than the worst
          rw [hr] at hl'
          have hnk : h ∉ (dropKey e.1 l).map Prod.fst := by
            intro hh
            obtain ⟨a, ha, hah⟩ := List.mem_map.1 hh
            exact hlk0 (List.mem_map.2 ⟨a, (mem_dropKey.1 ha).1, hah⟩)
          have hd : dpqPush h c (dropKey e.1 l) = (h, c) :: dropKey e.1 l := by
            simp [dpqPush, dropKey_eq_self hnk]
          simp only [hd, Option.some.injEq, Prod.mk.injEq] at hl'
          obtain ⟨rfl, rfl⟩ := hl'
          have hdl := dropKey_length_of_mem hand hel
          refine ⟨?_, ?_, ?_, ?_, ?_, ?_⟩
          · intro k hk
            by_cases hkh : k = h
            · left; simp [hkh]
            · rw [lkNe k hkh] at hk
              obtain ⟨s', hs'⟩ := Option.isSome_iff_exists.1 hk
              rcases hrel k (by rw [lkSub k s' hs']; rfl) with h1 | h1
              · left; exact List.mem_cons_of_mem _ h1
              · obtain ⟨a, ha, rfl⟩ := List.mem_map.1 h1
                by_cases hae : a.1 = e.1
                · -- the dropped entry is only kept if it is still queued
                  rw [hr] at hs'
                  simp only at hs'
                  split at hs'
                  · rename_i hkq
                    left
                    rw [hae]
                    exact hasKey_iff.1 hkq
                  · simp [lookupRemove, hae] at hs'
                · right
                  exact List.mem_cons_of_mem _
                    (List.mem_map.2 ⟨a, mem_dropKey.2 ⟨ha, hae⟩, rfl⟩)
          · simp only [List.map_cons, List.nodup_cons]; exact ⟨hnk, dropKey_nodup hand⟩
          · simp only [List.length_cons]; omega
          · simp only [List.length_cons]; omega
          · intro a ha
            rcases List.mem_cons.1 ha with rfl | ha
            · exact ⟨s, lkH, List.mem_cons_self⟩
            · obtain ⟨ha1, ha2⟩ := mem_dropKey.1 ha
              obtain ⟨s', hs', hm⟩ := halk a ha1
              have hah : a.1 ≠ h := fun hh => hlk0 (List.mem_map.2 ⟨a, ha1, hh⟩)
              refine ⟨s', ?_, List.mem_cons_of_mem _ hm⟩
              rw [lkNe _ hah, hr]
              simp only
              split
              · exact hs'
              · simpa [lookupRemove, ha2] using hs'
          · intro a ha hnot x hx
            have hxe : x.2 ≤ e.2 := by
              rcases List.mem_cons.1 hx with rfl | hx
              · exact le_of_lt hce
              · exact hemax x (mem_dropKey.1 hx).1
            rcases List.mem_cons.1 ha with rfl | ha
            · simp at hnot
            · by_cases hal : a.hash ∈ l.map Prod.fst
              · -- then `a` is the dropped entry
                obtain ⟨y, hy, hya⟩ := List.mem_map.1 hal
                have hye : y.1 = e.1 := by
                  by_contra hye
                  apply hnot
                  rw [← hya]
                  exact List.mem_cons_of_mem _
                    (List.mem_map.2 ⟨y, mem_dropKey.2 ⟨hy, hye⟩, rfl⟩)
                have hyeq : y = e := key_unique hand hy hel hye
                subst hyeq
                obtain ⟨s', _, hm⟩ := halk y hy
                have : a = ⟨s', y.2, y.1⟩ := acc_unique hi.accnd ha hm hya.symm
                rw [this]; exact hxe
              · exact le_trans hxe (habest a ha hal e hel)
    constructor
    · rw [show ({ (q1.pushAtb tb h c) with lookup := lookupOrInsert (q1.pushAtb tb h c).lookup h s }
        : PQ S P).queue = (h, c) :: q.queue from hq1]
      simp only [List.map_cons, List.nodup_cons]
      exact ⟨hqk, hi.qnd⟩
    · show (q1.pushAtb tb h c).queue.length ≤ (q1.pushAtb tb h c).maxSize
      rw [hq1, hq1m]; simp only [List.length_cons]; omega
    · simp only [List.map_cons, List.nodup_cons]; exact ⟨hacc, hi.accnd⟩
    · intro k
      show k ∈ (q1.pushAtb tb h c).seen ↔ _
      rw [hq1s]
      simp only [List.mem_cons, List.map_cons, hi.seen]
    · intro e he
      have he' : e ∈ (h, c) :: q.queue := by rw [← hq1]; exact he
      show ∃ s', lookupOrInsert (q1.pushAtb tb h c).lookup h s e.1 = some s' ∧ _
      rcases List.mem_cons.1 he' with rfl | he'
      · exact ⟨s, lkH, List.mem_cons_self⟩
      · obtain ⟨s', hs', hm⟩ := hi.qlk e he'
        refine ⟨s', ?_, List.mem_cons_of_mem _ hm⟩
        rw [lkNe _ (hqne e he'), qsurv e he']; exact hs'
    · intro k s' hk
      have hk' : lookupOrInsert (q1.pushAtb tb h c).lookup h s k = some s' := hk
      by_cases hkh : k = h
      · subst hkh
        rw [lkH] at hk'
        injection hk' with hk'
        exact ⟨c, by rw [hk']; exact List.mem_cons_self⟩
      · rw [lkNe k hkh] at hk'
        obtain ⟨c', hc'⟩ := hi.lk k s' (lkSub k s' hk')
        exact ⟨c', List.mem_cons_of_mem _ hc'⟩
    · intro n l hl k hk
      have := (mainInv n l hl).1 k hk
      show k ∈ (q1.pushAtb tb h c).queue.map Prod.fst ∨ _
      rw [hq1]; exact this
    · intro n l hl; exact (mainInv n l hl).2.1
    · intro n l hl; simpa using (mainInv n l hl).2.2.1
    · intro n l hl; exact (mainInv n l hl).2.2.2.1
    · intro n l hl; exact (mainInv n l hl).2.2.2.2.1
    · intro n l hl; exact (mainInv n l hl).2.2.2.2.2

theorem takeState_seen (q : PQ S P) (e : Item P) (x : List Nat) :
    (PQ.takeState { q with seen := x } e).1 = { (PQ.takeState q e).1 with seen := x } := by
  have h : ({ q with seen := x } : PQ S P).notInAtb e.1 = q.notInAtb e.1 := rfl
  unfold PQ.takeState
  rw [h]
  by_cases hb : q.notInAtb e.1 = true <;> simp [hb]

theorem popMax_seen (tb : TieBreak P) (q : PQ S P) (x : List Nat) :
    (PQ.popMax tb { q with seen := x }).1 = { (q.popMax tb).1 with seen := x } := by
  unfold PQ.popMax
  simp only
  split
  · rfl
  · rename_i e _
    exact takeState_seen { q with queue := dropKey e.1 q.queue } e x

theorem popMax_seen_eq (tb : TieBreak P) (q : PQ S P) : (q.popMax tb).1.seen = q.seen := by
  unfold PQ.popMax
  split
  · rfl
  · unfold PQ.takeState; split <;> rfl

/-- `push_unchecked` is `check_accepted`, the deduplication, an eviction if full, and `pushRoom`. -/
theorem pushUnchecked_eq (tb : TieBreak P) (q : PQ S P) (s : S) (h : Nat) (c : P) :
    q.pushUnchecked tb s h c =
      match q.checkAccepted tb c with
      | none => none
      | some false => some (q, none)
      | some true =>
        if h ∈ q.seen then some (q, none)
        else pushRoom tb (if q.maxSize ≤ q.queue.length then (q.popMax tb).1 else q) s h c := by
  unfold PQ.pushUnchecked
  rcases hca : q.checkAccepted tb c with _ | b
  · rfl
  · cases b with
    | false => rfl
    | true =>
      by_cases hs : h ∈ q.seen
      · simp [hs]
      · simp only [hs, if_false]
        by_cases hf : q.maxSize ≤ q.queue.length
        · simp only [hf, if_true]
          have h1 := popMax_seen tb q (h :: q.seen)
          unfold pushRoom
          rw [h1]
          simp only [popMax_seen_eq]
          rfl
        · simp only [hf, if_false]
          rfl

/-- `check_accepted` never panics, and its meaning. -/
theorem checkAccepted_spec {q : PQ S P} {acc : List (Entry S P)} (hi : Inv q acc)
    (tb : TieBreak P) (c : P) :
    (q.checkAccepted tb c = some true ∧
      (q.maxSize ≠ 0 ∧ (q.queue.length < q.maxSize ∨ ∃ e ∈ q.queue, c < e.2))) ∨
    (q.checkAccepted tb c = some false ∧
      (q.maxSize = 0 ∨ (q.queue.length = q.maxSize ∧ ∀ e ∈ q.queue, e.2 ≤ c))) := by
  have hlen := hi.qlen
  unfold PQ.checkAccepted
  by_cases h0 : q.maxSize = 0
  · right; simp [h0]
  · simp only [h0, if_false]
    by_cases h1 : q.queue.length < q.maxSize
    · left; exact ⟨by simp [h1], h0, Or.inl h1⟩
    · simp only [h1, if_false]
      have hne : q.queue ≠ [] := by
        intro h; rw [h] at h1; simp at h1; omega
      obtain ⟨e, he, hm, hmax⟩ := tb.max_some q.queue hne
      rw [he]
      by_cases hc : c < e.2
      · left
        exact ⟨by simp [hc], h0, Or.inr ⟨e, hm, hc⟩⟩
      · right
        refine ⟨by simp [hc], Or.inr ⟨by omega, fun e' he' => le_trans (hmax e' he') (not_lt.1 hc)⟩⟩

/-- The full behaviour of `push_unchecked` in a reachable state. -/
theorem pushUnchecked_spec {q : PQ S P} {acc : List (Entry S P)} (hi : Inv q acc)
    (tb : TieBreak P) (s : S) (h : Nat) (c : P) :
    (q.pushUnchecked tb s h c = some (q, none) ∧
      (q.maxSize = 0 ∨ (q.queue.length = q.maxSize ∧ ∀ e ∈ q.queue, e.2 ≤ c) ∨
        h ∈ acc.map Entry.hash)) ∨
    (∃ q', q.pushUnchecked tb s h c = some (q', some ⟨s, c, h⟩) ∧
      Inv q' (⟨s, c, h⟩ :: acc) ∧ q'.maxSize = q.maxSize ∧ h ∉ acc.map Entry.hash ∧
      ((q.queue.length < q.maxSize ∧ q'.queue = (h, c) :: q.queue) ∨
       (q.maxSize ≠ 0 ∧ q.queue.length = q.maxSize ∧ ∃ e ∈ q.queue,
          (∀ e' ∈ q.queue, e'.2 ≤ e.2) ∧ c < e.2 ∧
          q'.queue = (h, c) :: dropKey e.1 q.queue))) := by
  have hlen := hi.qlen
  rw [pushUnchecked_eq]
  rcases checkAccepted_spec hi tb c with ⟨hca, h0, hroom⟩ | ⟨hca, hr⟩
  · rw [hca]
    simp only
    by_cases hs : h ∈ q.seen
    · left
      simp only [hs, if_true]
      exact ⟨trivial, Or.inr (Or.inr ((hi.seen h).1 hs))⟩
    · right
      simp only [hs, if_false]
      have hnacc : h ∉ acc.map Entry.hash := fun hh => hs ((hi.seen h).2 hh)
      by_cases hf : q.maxSize ≤ q.queue.length
      · simp only [hf, if_true]
        have hne : q.queue ≠ [] := by
          intro hh; rw [hh] at hf; simp at hf; omega
        obtain ⟨e, s', he, hmax, _, _, _, _, hq, hms, hsn, _, hi'⟩ := popMax_spec hi tb hne
        have hdl := dropKey_length_of_mem hi.qnd he
        obtain ⟨q', hp, hqq, hmm, _, hinv⟩ := pushRoom_spec hi' tb s h c
          (by rw [hq, hms]; omega) (by rw [hsn]; exact hs)
        refine ⟨q', hp, hinv, by rw [hmm, hms], hnacc, Or.inr ⟨h0, by omega, e, he, hmax, ?_, ?_⟩⟩
        · rcases hroom with hr | ⟨x, hx, hxc⟩
          · omega
          · exact lt_of_lt_of_le hxc (hmax x hx)
        · rw [hqq, hq]
      · simp only [hf, if_false]
        obtain ⟨q', hp, hqq, hmm, _, hinv⟩ := pushRoom_spec hi tb s h c (by omega) hs
        exact ⟨q', hp, hinv, hmm, hnacc, Or.inl ⟨by omega, hqq⟩⟩
  · left
    rw [hca]
    exact ⟨rfl, by rcases hr with h1 | h1; exacts [Or.inl h1, Or.inr (Or.inl h1)]⟩

/-- Every call preserves the invariant and does not panic. -/
theorem step_inv {q : PQ S P} {acc : List (Entry S P)} (hi : Inv q acc) (tb : TieBreak P)
    (op : Op S P) :
    ∃ q' r, step tb q op = some (q', r) ∧ q'.maxSize = q.maxSize ∧
      Inv q' (match op, r with | .push .., some e => e :: acc | _, _ => acc) := by
  cases op with
  | push s h c =>
    unfold step PQ.push
    cases h with
    | none => exact ⟨q, none, rfl, rfl, hi⟩
    | some h =>
      cases c with
      | none => exact ⟨q, none, rfl, rfl, hi⟩
      | some c =>
        rcases pushUnchecked_spec hi tb s h c with ⟨h1, _⟩ | ⟨q', h1, h2, h3, _⟩
        · exact ⟨q, none, h1, rfl, hi⟩
        · exact ⟨q', _, h1, h3, h2⟩
  | pop =>
    refine ⟨(q.pop tb).1, (q.pop tb).2, rfl, ?_, ?_⟩
    · by_cases h : q.queue = []
      · rw [pop_nil tb h]
      · obtain ⟨e, s, r⟩ := pop_spec hi tb h
        exact r.2.2.2.2.2.2.1
    · have := pop_inv hi tb
      cases (q.pop tb).2 <;> exact this
  | popMax =>
    refine ⟨(q.popMax tb).1, (q.popMax tb).2, rfl, ?_, ?_⟩
    · by_cases h : q.queue = []
      · rw [popMax_nil tb h]
      · obtain ⟨e, s, r⟩ := popMax_spec hi tb h
        exact r.2.2.2.2.2.2.2.1
    · have := popMax_inv hi tb
      cases (q.popMax tb).2 <;> exact this

theorem run_inv {q : PQ S P} {acc : List (Entry S P)} (hi : Inv q acc) (hist : History S P) :
    ∃ q' acc', run q acc hist = some (q', acc') ∧ Inv q' acc' ∧ q'.maxSize = q.maxSize ∧
      acc <:+ acc' := by
  induction hist generalizing q acc with
  | nil => exact ⟨q, acc, rfl, hi, rfl, List.suffix_refl _⟩
  | cons x rest ih =>
    obtain ⟨tb, op⟩ := x
    obtain ⟨q1, r, h1, h2, h3⟩ := step_inv hi tb op
    unfold run
    rw [h1]
    cases op with
    | push s h c =>
      cases r with
      | none =>
        obtain ⟨q', acc', ha, hb, hc, hd⟩ := ih h3
        exact ⟨q', acc', ha, hb, by rw [hc, h2], hd⟩
      | some e =>
        obtain ⟨q', acc', ha, hb, hc, hd⟩ := ih h3
        exact ⟨q', acc', ha, hb, by rw [hc, h2], (List.suffix_cons _ _).trans hd⟩
    | pop =>
      have h3' : Inv q1 acc := by cases r <;> exact h3
      obtain ⟨q', acc', ha, hb, hc, hd⟩ := ih h3'
      refine ⟨q', acc', ?_, hb, by rw [hc, h2], hd⟩
      cases r <;> exact ha
    | popMax =>
      have h3' : Inv q1 acc := by cases r <;> exact h3
      obtain ⟨q', acc', ha, hb, hc, hd⟩ := ih h3'
      refine ⟨q', acc', ?_, hb, by rw [hc, h2], hd⟩
      cases r <;> exact ha

theorem drain_spec {acc : List (Entry S P)} : ∀ (l : List (Item P)) (f : Nat → Option S),
    (l.map Prod.fst).Nodup →
    (∀ e ∈ l, ∃ s, f e.1 = some s ∧ (⟨s, e.2, e.1⟩ : Entry S P) ∈ acc) →
    ∃ es : List (Entry S P), drainStates f l = some (es.map Entry.state) ∧
      (∀ e ∈ es, e ∈ acc) ∧ es.map (fun e => (e.hash, e.cost)) = l := by
  intro l
  induction l with
  | nil => intro f _ _; exact ⟨[], rfl, by simp, rfl⟩
  | cons a t ih =>
    intro f hn hf
    simp only [List.map_cons, List.nodup_cons] at hn
    obtain ⟨s, hs, hm⟩ := hf a List.mem_cons_self
    obtain ⟨es, h1, h2, h3⟩ := ih (lookupRemove f a.1) hn.2 (by
      intro e he
      have hne : e.1 ≠ a.1 := fun hh => hn.1 (List.mem_map.2 ⟨e, he, hh⟩)
      simpa [lookupRemove, hne] using hf e (List.mem_cons_of_mem _ he))
    refine ⟨⟨s, a.2, a.1⟩ :: es, ?_, ?_, ?_⟩
    · simp [drainStates, hs, h1]
    · intro e he
      rcases List.mem_cons.1 he with rfl | he
      · exact hm
      · exact h2 e he
    · simp [h3]

theorem inv_atb_cap_run {q : PQ S P} : ∀ (tb : TieBreak P) (op : Op S P) q' r,
    step tb q op = some (q', r) → (q'.atb.map Prod.fst) = (q.atb.map Prod.fst) := by
  have hts : ∀ (q : PQ S P) e, (q.takeState e).1.atb = q.atb := by
    intro q e; unfold PQ.takeState; split <;> rfl
  have hpm : ∀ (tb : TieBreak P) (q : PQ S P), (q.popMax tb).1.atb = q.atb := by
    intro tb q; unfold PQ.popMax; split
    · rfl
    · rw [hts]
  have hpushAtb : ∀ (tb : TieBreak P) (q : PQ S P) h c,
      ((q.pushAtb tb h c).atb.map Prod.fst) = q.atb.map Prod.fst := by
    intro tb q h c
    rcases hq : q.atb with _ | ⟨n, l⟩
    · simp [PQ.pushAtb, hq]
    · rcases pushAtb_cases tb q h c hq with ⟨_, hr⟩ | ⟨_, _, hr⟩ | ⟨_, e, _, _, _, hr⟩ <;>
        rw [hr] <;> simp [hq]
  intro tb op q' r hst
  cases op with
  | push s h c =>
    simp only [step, PQ.push] at hst
    split at hst
    · rw [pushUnchecked_eq] at hst
      split at hst
      · simp at hst
      · simp only [Option.some.injEq, Prod.mk.injEq] at hst; rw [hst.1]
      · split at hst
        · simp only [Option.some.injEq, Prod.mk.injEq] at hst; rw [hst.1]
        · unfold pushRoom at hst
          simp only at hst
          split at hst
          · simp at hst
          · simp only [Option.some.injEq, Prod.mk.injEq] at hst
            rw [← hst.1]
            simp only
            rw [hpushAtb]
            simp only
            split
            · rw [hpm]
            · rfl
    · simp only [Option.some.injEq, Prod.mk.injEq] at hst; rw [hst.1]
  | pop =>
    simp only [step, Option.some.injEq] at hst
    have : q' = (q.pop tb).1 := by rw [hst]
    rw [this]
    unfold PQ.pop; split
    · rfl
    · rw [hts]
  | popMax =>
    simp only [step, Option.some.injEq] at hst
    have : q' = (q.popMax tb).1 := by rw [hst]
    rw [this, hpm]

theorem run_atb_cap {hist : History S P} : ∀ {q q' : PQ S P} {acc acc' : List (Entry S P)},
    run q acc hist = some (q', acc') → (q'.atb.map Prod.fst) = (q.atb.map Prod.fst) := by
  induction hist with
  | nil => intro q q' acc acc' h; simp only [run, Option.some.injEq, Prod.mk.injEq] at h; rw [h.1]
  | cons x rest ih =>
    intro q q' acc acc' h
    obtain ⟨tb, op⟩ := x
    unfold run at h
    split at h
    · simp at h
    · rename_i q1 r hst
      have h1 := inv_atb_cap_run tb op q1 r hst
      rw [← h1]
      split at h <;> exact ih h

end Tket.PQueue
