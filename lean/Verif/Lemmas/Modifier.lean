import Verif.Model.Modifier
import Mathlib.Data.List.Nodup
import Mathlib.Data.List.TakeWhile

/-!
# Invariants of the rewiring of ports
-/

namespace Tket.Modifier

/-- The quantum elements of a row. -/
def quantum (l : List Ty) : Nat := (l.filter Ty.isQ).length

/-- What is known during the rewiring: the ports mapped so far are those before the cursors. -/
structure Inv (dagger : Bool) (s : Sig) (a b n : Nat) (m : Map) (oi oo ni no : Nat) : Prop where
  oi_le : a ≤ oi
  oo_le : b ≤ oo
  ni_le : a + n ≤ ni
  no_le : b + n ≤ no
  key : ∀ p, p ∈ m.map Prod.fst ↔
    (p.dir = .inc ∧ a ≤ p.idx ∧ p.idx < oi) ∨ (p.dir = .out ∧ b ≤ p.idx ∧ p.idx < oo)
  keys : (m.map Prod.fst).Nodup
  val : ∀ p, p ∈ m.map Prod.snd ↔
    (p.dir = .inc ∧ a + n ≤ p.idx ∧ p.idx < ni) ∨ (p.dir = .out ∧ b + n ≤ p.idx ∧ p.idx < no)
  vals : (m.map Prod.snd).Nodup
  inc : ∀ e ∈ m, e.1.dir = .inc → ∃ t, s.input[e.1.idx - a]? = some t ∧
    e.2.dir = if dagger && t.isQ then .out else .inc
  out : ∀ e ∈ m, e.1.dir = .out → ∃ t, s.output[e.1.idx - b]? = some t ∧
    e.2.dir = if dagger && t.isQ then .inc else .out

variable {dagger : Bool} {s : Sig} {a b n : Nat}

theorem mapInsert_ok {m : Map} {old new : Port} (h : old ∉ m.map Prod.fst) :
    mapInsert m old new = .ok (m ++ [(old, new)]) := by
  have : m.any (fun e => decide (e.1 = old)) = false := by
    rw [List.any_eq_false]
    intro e he hd
    simp only [decide_eq_true_eq] at hd
    exact h (hd ▸ List.mem_map_of_mem he)
  simp [mapInsert, this]

/-- Adding one entry. -/
theorem Inv.add {m : Map} {oi oo ni no : Nat} (i : Inv dagger s a b n m oi oo ni no) (old new : Port)
    (oi' oo' ni' no' : Nat)
    (ho : (old = ⟨.inc, oi⟩ ∧ oi' = oi + 1 ∧ oo' = oo) ∨ (old = ⟨.out, oo⟩ ∧ oi' = oi ∧ oo' = oo + 1))
    (hn : (new = ⟨.inc, ni⟩ ∧ ni' = ni + 1 ∧ no' = no) ∨ (new = ⟨.out, no⟩ ∧ ni' = ni ∧ no' = no + 1))
    (ht : old.dir = .inc → ∃ t, s.input[oi - a]? = some t ∧ new.dir = if dagger && t.isQ then .out else .inc)
    (ht' : old.dir = .out → ∃ t, s.output[oo - b]? = some t ∧ new.dir = if dagger && t.isQ then .inc else .out) :
    mapInsert m old new = .ok (m ++ [(old, new)]) ∧
      Inv dagger s a b n (m ++ [(old, new)]) oi' oo' ni' no' := by
  have h1 := i.oi_le; have h2 := i.oo_le; have h3 := i.ni_le; have h4 := i.no_le
  have hk : old ∉ m.map Prod.fst := by
    rw [i.key]
    rcases ho with ⟨rfl, _, _⟩ | ⟨rfl, _, _⟩ <;> simp
  have hv : new ∉ m.map Prod.snd := by
    rw [i.val]
    rcases hn with ⟨rfl, _, _⟩ | ⟨rfl, _, _⟩ <;> simp
  refine ⟨mapInsert_ok hk, ?_⟩
  constructor
  · rcases ho with ⟨_, rfl, rfl⟩ | ⟨_, rfl, rfl⟩ <;> omega
  · rcases ho with ⟨_, rfl, rfl⟩ | ⟨_, rfl, rfl⟩ <;> omega
  · rcases hn with ⟨_, rfl, rfl⟩ | ⟨_, rfl, rfl⟩ <;> omega
  · rcases hn with ⟨_, rfl, rfl⟩ | ⟨_, rfl, rfl⟩ <;> omega
  · intro p
    obtain ⟨d, x⟩ := p
    rw [List.map_append, List.mem_append, i.key]
    rcases ho with ⟨rfl, rfl, rfl⟩ | ⟨rfl, rfl, rfl⟩ <;> cases d <;>
      simp only [List.map_cons, List.map_nil, List.mem_singleton, Port.mk.injEq, true_and, reduceCtorEq,
        false_and, or_false, false_or] <;> omega
  · rw [List.map_append, List.nodup_append]
    exact ⟨i.keys, by simp, fun x hx y hy => by
      simp only [List.map_cons, List.map_nil, List.mem_singleton] at hy
      rintro rfl; rw [hy] at hx; exact hk hx⟩
  · intro p
    obtain ⟨d, x⟩ := p
    rw [List.map_append, List.mem_append, i.val]
    rcases hn with ⟨rfl, rfl, rfl⟩ | ⟨rfl, rfl, rfl⟩ <;> cases d <;>
      simp only [List.map_cons, List.map_nil, List.mem_singleton, Port.mk.injEq, true_and, reduceCtorEq,
        false_and, or_false, false_or] <;> omega
  · rw [List.map_append, List.nodup_append]
    exact ⟨i.vals, by simp, fun x hx y hy => by
      simp only [List.map_cons, List.map_nil, List.mem_singleton] at hy
      rintro rfl; rw [hy] at hx; exact hv hx⟩
  · intro e he hd
    rcases List.mem_append.1 he with he | he
    · exact i.inc e he hd
    · simp only [List.mem_singleton] at he
      subst he
      rcases ho with ⟨rfl, _, _⟩ | ⟨rfl, _, _⟩
      · exact ht rfl
      · exact absurd hd (by simp)
  · intro e he hd
    rcases List.mem_append.1 he with he | he
    · exact i.out e he hd
    · simp only [List.mem_singleton] at he
      subst he
      rcases ho with ⟨rfl, _, _⟩ | ⟨rfl, _, _⟩
      · exact absurd hd (by simp)
      · exact ht' rfl

/-- A loop over the inputs. -/
theorem wire_in {p : Ty → Bool} {flip : Bool} (hp : ∀ t, p t = true → (dagger && t.isQ) = flip) :
    ∀ (ts : List Ty) (m : Map) (oi oo ni no : Nat), Inv dagger s a b n m oi oo ni no →
      s.input.drop (oi - a) = ts →
      ∃ m', wireWhile p ts ⟨.inc, oi⟩ (if flip then ⟨.out, no⟩ else ⟨.inc, ni⟩) m =
          .ok (ts.dropWhile p, ⟨.inc, oi + (ts.takeWhile p).length⟩,
            (if flip then ⟨.out, no + (ts.takeWhile p).length⟩ else ⟨.inc, ni + (ts.takeWhile p).length⟩), m') ∧
        Inv dagger s a b n m' (oi + (ts.takeWhile p).length) oo
          (if flip then ni else ni + (ts.takeWhile p).length)
          (if flip then no + (ts.takeWhile p).length else no) ∧
        s.input.drop (oi + (ts.takeWhile p).length - a) = ts.dropWhile p
  | [], m, oi, oo, ni, no, i, hd => ⟨m, by cases flip <;> simp [wireWhile], by cases flip <;> simpa using i, by
      simpa using hd⟩
  | t :: ts, m, oi, oo, ni, no, i, hd => by
    by_cases h : p t = true
    · have hf := hp t h
      have hget : s.input[oi - a]? = some t := by
        have := congrArg (·[0]?) hd
        simpa [List.getElem?_drop] using this
      have hle := i.oi_le
      have hd' : s.input.drop (oi + 1 - a) = ts := by
        have : oi + 1 - a = (oi - a) + 1 := by omega
        rw [this, ← List.tail_drop, hd]; rfl
      obtain ⟨e1, i1⟩ := i.add ⟨.inc, oi⟩ (if flip then ⟨.out, no⟩ else ⟨.inc, ni⟩) (oi + 1) oo
        (if flip then ni else ni + 1) (if flip then no + 1 else no) (Or.inl ⟨rfl, rfl, rfl⟩)
        (by cases flip <;> simp) (fun _ => ⟨t, hget, by rw [hf]; cases flip <;> rfl⟩) (by simp)
      obtain ⟨m', e2, i2, h2⟩ := wire_in hp ts _ _ _ _ _ i1 hd'
      refine ⟨m', ?_, ?_, ?_⟩
      · simp only [wireWhile, h, if_true, e1]
        cases flip
        · simp only [Port.next, List.takeWhile_cons, List.dropWhile_cons, h, if_true, List.length_cons,
            Bool.false_eq_true, if_false] at e2 ⊢
          rw [e2]; simp only [Nat.add_assoc, Nat.add_comm 1]
        · simp only [Port.next, List.takeWhile_cons, List.dropWhile_cons, h, if_true, List.length_cons] at e2 ⊢
          rw [e2]; simp only [Nat.add_assoc, Nat.add_comm 1]
      · cases flip
        · simp only [List.takeWhile_cons, h, if_true, List.length_cons, Bool.false_eq_true, if_false,
            Nat.add_assoc, Nat.add_comm 1] at i2 ⊢
          exact i2
        · simp only [List.takeWhile_cons, h, if_true, List.length_cons,
            Nat.add_assoc, Nat.add_comm 1] at i2 ⊢
          exact i2
      · simp only [List.takeWhile_cons, List.dropWhile_cons, h, if_true, List.length_cons] at h2 ⊢
        rw [← h2]; congr 1; omega
    · refine ⟨m, ?_, ?_, ?_⟩
      · cases flip <;> simp [wireWhile, h]
      · cases flip <;> simpa [h] using i
      · simpa [h] using hd

/-- A loop over the outputs. -/
theorem wire_out {p : Ty → Bool} {flip : Bool} (hp : ∀ t, p t = true → (dagger && t.isQ) = flip) :
    ∀ (ts : List Ty) (m : Map) (oi oo ni no : Nat), Inv dagger s a b n m oi oo ni no →
      s.output.drop (oo - b) = ts →
      ∃ m', wireWhile p ts ⟨.out, oo⟩ (if flip then ⟨.inc, ni⟩ else ⟨.out, no⟩) m =
          .ok (ts.dropWhile p, ⟨.out, oo + (ts.takeWhile p).length⟩,
            (if flip then ⟨.inc, ni + (ts.takeWhile p).length⟩ else ⟨.out, no + (ts.takeWhile p).length⟩), m') ∧
        Inv dagger s a b n m' oi (oo + (ts.takeWhile p).length)
          (if flip then ni + (ts.takeWhile p).length else ni)
          (if flip then no else no + (ts.takeWhile p).length) ∧
        s.output.drop (oo + (ts.takeWhile p).length - b) = ts.dropWhile p
  | [], m, oi, oo, ni, no, i, hd => ⟨m, by cases flip <;> simp [wireWhile], by cases flip <;> simpa using i, by
      simpa using hd⟩
  | t :: ts, m, oi, oo, ni, no, i, hd => by
    by_cases h : p t = true
    · have hf := hp t h
      have hget : s.output[oo - b]? = some t := by
        have := congrArg (·[0]?) hd
        simpa [List.getElem?_drop] using this
      have hle := i.oo_le
      have hd' : s.output.drop (oo + 1 - b) = ts := by
        have : oo + 1 - b = (oo - b) + 1 := by omega
        rw [this, ← List.tail_drop, hd]; rfl
      obtain ⟨e1, i1⟩ := i.add ⟨.out, oo⟩ (if flip then ⟨.inc, ni⟩ else ⟨.out, no⟩) oi (oo + 1)
        (if flip then ni + 1 else ni) (if flip then no else no + 1) (Or.inr ⟨rfl, rfl, rfl⟩)
        (by cases flip <;> simp) (by simp) (fun _ => ⟨t, hget, by rw [hf]; cases flip <;> rfl⟩)
      obtain ⟨m', e2, i2, h2⟩ := wire_out hp ts _ _ _ _ _ i1 hd'
      refine ⟨m', ?_, ?_, ?_⟩
      · simp only [wireWhile, h, if_true, e1]
        cases flip
        · simp only [Port.next, List.takeWhile_cons, List.dropWhile_cons, h, if_true, List.length_cons,
            Bool.false_eq_true, if_false] at e2 ⊢
          rw [e2]; simp only [Nat.add_assoc, Nat.add_comm 1]
        · simp only [Port.next, List.takeWhile_cons, List.dropWhile_cons, h, if_true, List.length_cons] at e2 ⊢
          rw [e2]; simp only [Nat.add_assoc, Nat.add_comm 1]
      · cases flip
        · simp only [List.takeWhile_cons, h, if_true, List.length_cons, Bool.false_eq_true, if_false,
            Nat.add_assoc, Nat.add_comm 1] at i2 ⊢
          exact i2
        · simp only [List.takeWhile_cons, h, if_true, List.length_cons,
            Nat.add_assoc, Nat.add_comm 1] at i2 ⊢
          exact i2
      · simp only [List.takeWhile_cons, List.dropWhile_cons, h, if_true, List.length_cons] at h2 ⊢
        rw [← h2]; congr 1; omega
    · refine ⟨m, ?_, ?_, ?_⟩
      · cases flip <;> simp [wireWhile, h]
      · cases flip <;> simpa [h] using i
      · simpa [h] using hd

/-- Classical prefix, then quantum prefix. -/
def run (l : List Ty) : List Ty × List Ty × List Ty :=
  let c := l.takeWhile (fun t => !t.isQ)
  let r := l.dropWhile (fun t => !t.isQ)
  (c, r.takeWhile Ty.isQ, r.dropWhile Ty.isQ)

theorem run_eq (l : List Ty) : (run l).1 ++ ((run l).2.1 ++ (run l).2.2) = l := by
  simp [run]

theorem run_short (l : List Ty) (h : l ≠ []) : (run l).2.2.length < l.length := by
  have h1 := congrArg List.length (run_eq l)
  simp only [List.length_append] at h1
  have : 0 < (run l).1.length + (run l).2.1.length := by
    obtain ⟨t, ts, rfl⟩ := List.exists_cons_of_ne_nil h
    cases hq : t.isQ <;> (simp [run, hq]; try omega)
  omega

/-- One iteration of the outer loop. -/
theorem wireLoop_step {f : Nat} {ins outs : List Ty} {m : Map} {oi oo ni no : Nat}
    (i : Inv dagger s a b n m oi oo ni no) (hi : s.input.drop (oi - a) = ins) (ho : s.output.drop (oo - b) = outs) :
    ∃ m' ni' no', ni' = ni + (run ins).1.length + (if dagger then (run outs).2.1.length else (run ins).2.1.length) ∧
      no' = no + (run outs).1.length + (if dagger then (run ins).2.1.length else (run outs).2.1.length) ∧
      Inv dagger s a b n m' (oi + (run ins).1.length + (run ins).2.1.length)
        (oo + (run outs).1.length + (run outs).2.1.length) ni' no' ∧
      s.input.drop (oi + (run ins).1.length + (run ins).2.1.length - a) = (run ins).2.2 ∧
      s.output.drop (oo + (run outs).1.length + (run outs).2.1.length - b) = (run outs).2.2 ∧
      wireLoop dagger (f + 1) ins outs ⟨.inc, oi⟩ ⟨.out, oo⟩ ⟨.inc, ni⟩ ⟨.out, no⟩ m =
        if (run ins).2.2.isEmpty && (run outs).2.2.isEmpty then .ok m' else
          wireLoop dagger f (run ins).2.2 (run outs).2.2 ⟨.inc, oi + (run ins).1.length + (run ins).2.1.length⟩
            ⟨.out, oo + (run outs).1.length + (run outs).2.1.length⟩ ⟨.inc, ni'⟩ ⟨.out, no'⟩ m' := by
  have hc : ∀ t : Ty, (!t.isQ) = true → (dagger && t.isQ) = false := by
    intro t ht; cases dagger <;> simp_all
  have hq : ∀ t : Ty, t.isQ = true → (dagger && t.isQ) = dagger := by
    intro t ht; simp [ht]
  obtain ⟨m1, e1, i1, h1⟩ := wire_in (p := fun t => !t.isQ) hc ins m oi oo ni no i hi
  simp only [Bool.false_eq_true, if_false] at e1 i1
  obtain ⟨m2, e2, i2, h2⟩ := wire_out (p := fun t => !t.isQ) hc outs m1 _ _ _ _ i1 ho
  simp only [Bool.false_eq_true, if_false] at e2 i2
  obtain ⟨m3, e3, i3, h3⟩ := wire_in (p := Ty.isQ) hq _ m2 _ _ _ _ i2 h1
  obtain ⟨m4, e4, i4, h4⟩ := wire_out (p := Ty.isQ) hq _ m3 _ _ _ _ i3 h2
  refine ⟨m4, _, _, rfl, rfl, ?_, h3, h4, ?_⟩
  · cases dagger <;> simpa [run] using i4
  · cases dagger <;> (
      simp only [Bool.false_eq_true, if_false, if_true] at e3 e4
      simp only [wireLoop, e1, e2, Bool.false_eq_true, if_false, if_true, e3, e4]
      rfl)

theorem mem_takeWhile {α : Type} {p : α → Bool} {x : α} : ∀ {l : List α}, x ∈ l.takeWhile p → p x = true
  | [], h => by simp at h
  | y :: l, h => by
    rw [List.takeWhile_cons] at h
    split at h
    · next hy =>
      rcases List.mem_cons.1 h with rfl | h
      · exact hy
      · exact mem_takeWhile h
    · simp at h

theorem quantum_run (l : List Ty) : quantum l = (run l).2.1.length + quantum (run l).2.2 := by
  have h1 : ∀ l : List Ty, (l.takeWhile (fun t => !t.isQ)).filter Ty.isQ = [] := by
    intro l; rw [List.filter_eq_nil_iff]; intro t ht
    have := mem_takeWhile ht; simpa using this
  have h2 : ∀ l : List Ty, (l.takeWhile Ty.isQ).filter Ty.isQ = l.takeWhile Ty.isQ := by
    intro l; rw [List.filter_eq_self]; intro t ht
    exact mem_takeWhile ht
  have h := run_eq l
  conv_lhs => rw [← h]
  simp only [quantum, List.filter_append, List.length_append]
  rw [show (run l).1 = l.takeWhile (fun t => !t.isQ) from rfl, h1,
    show (run l).2.1 = (l.dropWhile (fun t => !t.isQ)).takeWhile Ty.isQ from rfl, h2]
  simp

theorem length_run (l : List Ty) : l.length = (run l).1.length + (run l).2.1.length + (run l).2.2.length := by
  have := congrArg List.length (run_eq l)
  simp only [List.length_append] at this
  omega

/-- The whole loop. -/
theorem wireLoop_ok : ∀ (f : Nat) (ins outs : List Ty) (m : Map) (oi oo ni no : Nat),
    ins.length + outs.length < f → Inv dagger s a b n m oi oo ni no → s.input.drop (oi - a) = ins →
    s.output.drop (oo - b) = outs →
    ∃ m', wireLoop dagger f ins outs ⟨.inc, oi⟩ ⟨.out, oo⟩ ⟨.inc, ni⟩ ⟨.out, no⟩ m = .ok m' ∧
      Inv dagger s a b n m' (oi + ins.length) (oo + outs.length)
        (ni + (ins.length - quantum ins) + (if dagger then quantum outs else quantum ins))
        (no + (outs.length - quantum outs) + (if dagger then quantum ins else quantum outs))
  | 0, _, _, _, _, _, _, _, h, _, _, _ => absurd h (by omega)
  | f + 1, ins, outs, m, oi, oo, ni, no, h, i, hi, ho => by
    obtain ⟨m', ni', no', hni, hno, i', hi', ho', e⟩ := wireLoop_step (f := f) i hi ho
    have q1 := quantum_run ins
    have q2 := quantum_run outs
    have l1 := length_run ins
    have l2 := length_run outs
    have qle : ∀ l : List Ty, quantum l ≤ l.length := fun l => List.length_filter_le _ _
    have b1 := qle (run ins).2.2
    have b2 := qle (run outs).2.2
    by_cases hz : ((run ins).2.2.isEmpty && (run outs).2.2.isEmpty) = true
    · refine ⟨m', by rw [e, if_pos hz], ?_⟩
      simp only [Bool.and_eq_true, List.isEmpty_iff] at hz
      rw [hz.1] at q1 l1
      rw [hz.2] at q2 l2
      simp only [quantum, List.filter_nil, List.length_nil] at q1 q2 l1 l2
      have e1 : oi + ins.length = oi + (run ins).1.length + (run ins).2.1.length := by omega
      have e2 : oo + outs.length = oo + (run outs).1.length + (run outs).2.1.length := by omega
      have e3 : ni + (ins.length - quantum ins) + (if dagger then quantum outs else quantum ins) = ni' := by
        rw [hni]; simp only [quantum]; cases dagger <;> simp <;> omega
      have e4 : no + (outs.length - quantum outs) + (if dagger then quantum ins else quantum outs) = no' := by
        rw [hno]; simp only [quantum]; cases dagger <;> simp <;> omega
      rw [e1, e2, e3, e4]; exact i'
    · have hlt : (run ins).2.2.length + (run outs).2.2.length < f := by
        by_cases h0 : ins = []
        · by_cases h1 : outs = []
          · subst h0 h1; exact absurd rfl hz
          · have := run_short outs h1
            omega
        · have := run_short ins h0
          omega
      obtain ⟨m'', e'', i''⟩ := wireLoop_ok f _ _ m' _ _ ni' no' hlt i' hi' ho'
      refine ⟨m'', by rw [e, if_neg hz]; exact e'', ?_⟩
      have e1 : oi + ins.length = oi + (run ins).1.length + (run ins).2.1.length + (run ins).2.2.length := by omega
      have e2 : oo + outs.length = oo + (run outs).1.length + (run outs).2.1.length + (run outs).2.2.length := by
        omega
      have e3 : ni + (ins.length - quantum ins) + (if dagger then quantum outs else quantum ins) =
          ni' + ((run ins).2.2.length - quantum (run ins).2.2) +
            (if dagger then quantum (run outs).2.2 else quantum (run ins).2.2) := by
        rw [hni]; cases dagger <;> simp <;> omega
      have e4 : no + (outs.length - quantum outs) + (if dagger then quantum ins else quantum outs) =
          no' + ((run outs).2.2.length - quantum (run outs).2.2) +
            (if dagger then quantum (run ins).2.2 else quantum (run outs).2.2) := by
        rw [hno]; cases dagger <;> simp <;> omega
      rw [e1, e2, e3, e4]; exact i''

theorem Inv.init (dagger : Bool) (s : Sig) (a b n : Nat) : Inv dagger s a b n [] a b (a + n) (b + n) where
  oi_le := Nat.le_refl _
  oo_le := Nat.le_refl _
  ni_le := Nat.le_refl _
  no_le := Nat.le_refl _
  key p := by simp only [List.map_nil, List.not_mem_nil, false_iff]; omega
  keys := by simp
  val p := by simp only [List.map_nil, List.not_mem_nil, false_iff]; omega
  vals := by simp
  inc := by simp
  out := by simp

theorem wireInout_inv (dagger : Bool) (s : Sig) (a b n : Nat) :
    ∃ m, wireInout dagger s a b n = .ok m ∧ Inv dagger s a b n m (a + s.input.length) (b + s.output.length)
      (a + n + (s.input.length - quantum s.input) + (if dagger then quantum s.output else quantum s.input))
      (b + n + (s.output.length - quantum s.output) + (if dagger then quantum s.input else quantum s.output)) :=
  wireLoop_ok _ _ _ [] _ _ _ _ (by omega) (Inv.init dagger s a b n) (by simp) (by simp)

/-! ## Positions -/

/-- The offset of the ports in a direction. -/
def off (a b : Nat) : Dir → Nat
  | .inc => a
  | .out => b

/-- The two ports are at the same position, controls aside. -/
def Aligned (a b n : Nat) (old new : Port) : Prop := new.idx + off a b old.dir = old.idx + n + off a b new.dir

/-- All entries are aligned. -/
def Straight (a b n : Nat) (m : Map) : Prop := ∀ e ∈ m, Aligned a b n e.1 e.2

theorem Aligned.next {old new : Port} (h : Aligned a b n old new) : Aligned a b n old.next new.next := by
  unfold Aligned Port.next at *
  dsimp only
  omega

theorem wireWhile_straight {p : Ty → Bool} : ∀ (ts : List Ty) (old new : Port) (m : Map) r,
    wireWhile p ts old new m = .ok r → Aligned a b n old new ∨ ts.takeWhile p = [] → Straight a b n m →
    Straight a b n r.2.2.2
  | [], old, new, m, r, e, _, hm => by
    simp only [wireWhile, Except.ok.injEq] at e
    rw [← e]; exact hm
  | t :: ts, old, new, m, r, e, h, hm => by
    simp only [wireWhile] at e
    split at e
    · next hp =>
      have h' : Aligned a b n old new := by
        rcases h with h | h
        · exact h
        · simp [hp] at h
      unfold mapInsert at e
      by_cases hd : (m.any fun e => decide (e.1 = old)) = true
      · rw [if_pos hd] at e; cases e
      · rw [if_neg hd] at e
        refine wireWhile_straight ts _ _ _ r e (Or.inl h'.next) ?_
        intro x hx
        rcases List.mem_append.1 hx with hx | hx
        · exact hm x hx
        · rw [List.mem_singleton] at hx; rw [hx]; exact h'
    · simp only [Except.ok.injEq] at e
      rw [← e]; exact hm

/-- One iteration with the positions. -/
theorem wireLoop_step' {f : Nat} {ins outs : List Ty} {m : Map} {oi oo : Nat}
    (i : Inv dagger s a b n m oi oo (oi + n) (oo + n)) (hi : s.input.drop (oi - a) = ins)
    (ho : s.output.drop (oo - b) = outs) (hm : Straight a b n m)
    (hal : dagger = true → (run ins).2.1 = [] ∧ (run outs).2.1 = [] ∨
      (run ins).1.length = (run outs).1.length ∧ (run ins).2.1.length = (run outs).2.1.length ∧ oi + b = oo + a) :
    ∃ m' oi' oo', oi' = oi + (run ins).1.length + (run ins).2.1.length ∧
      oo' = oo + (run outs).1.length + (run outs).2.1.length ∧
      Inv dagger s a b n m' oi' oo' (oi' + n) (oo' + n) ∧ Straight a b n m' ∧
      s.input.drop (oi' - a) = (run ins).2.2 ∧ s.output.drop (oo' - b) = (run outs).2.2 ∧
      wireLoop dagger (f + 1) ins outs ⟨.inc, oi⟩ ⟨.out, oo⟩ ⟨.inc, oi + n⟩ ⟨.out, oo + n⟩ m =
        if (run ins).2.2.isEmpty && (run outs).2.2.isEmpty then .ok m' else
          wireLoop dagger f (run ins).2.2 (run outs).2.2 ⟨.inc, oi'⟩ ⟨.out, oo'⟩ ⟨.inc, oi' + n⟩ ⟨.out, oo' + n⟩ m' := by
  have hc : ∀ t : Ty, (!t.isQ) = true → (dagger && t.isQ) = false := by
    intro t ht; cases dagger <;> simp_all
  have hq : ∀ t : Ty, t.isQ = true → (dagger && t.isQ) = dagger := by
    intro t ht; simp [ht]
  obtain ⟨m1, e1, i1, h1⟩ := wire_in (p := fun t => !t.isQ) hc ins m oi oo _ _ i hi
  simp only [Bool.false_eq_true, if_false] at e1 i1
  have s1 := wireWhile_straight (a := a) (b := b) (n := n) _ _ _ _ _ e1
    (Or.inl (by simp only [Aligned, off])) hm
  obtain ⟨m2, e2, i2, h2⟩ := wire_out (p := fun t => !t.isQ) hc outs m1 _ _ _ _ i1 ho
  simp only [Bool.false_eq_true, if_false] at e2 i2
  have s2 := wireWhile_straight (a := a) (b := b) (n := n) _ _ _ _ _ e2
    (Or.inl (by simp only [Aligned, off])) s1
  obtain ⟨m3, e3, i3, h3⟩ := wire_in (p := Ty.isQ) hq _ m2 _ _ _ _ i2 h1
  have s3 := wireWhile_straight (a := a) (b := b) (n := n) _ _ _ _ _ e3 (by
    cases dagger
    · left; simp only [Aligned, off, Bool.false_eq_true, if_false]; omega
    · rcases hal rfl with ⟨h, _⟩ | ⟨h, _, h'⟩
      · right; exact h
      · left; simp only [Aligned, off, if_true]
        simp only [run] at h
        omega) s2
  obtain ⟨m4, e4, i4, h4⟩ := wire_out (p := Ty.isQ) hq _ m3 _ _ _ _ i3 h2
  have s4 := wireWhile_straight (a := a) (b := b) (n := n) _ _ _ _ _ e4 (by
    cases dagger
    · left; simp only [Aligned, off, Bool.false_eq_true, if_false]; omega
    · rcases hal rfl with ⟨_, h⟩ | ⟨h, _, h'⟩
      · right; exact h
      · left; simp only [Aligned, off, if_true]
        simp only [run] at h
        omega) s3
  have n1 : oi + n + (run ins).1.length + (if dagger then (run outs).2.1.length else (run ins).2.1.length) =
      oi + (run ins).1.length + (run ins).2.1.length + n := by
    cases dagger
    · simp only [Bool.false_eq_true, if_false]; omega
    · rcases hal rfl with ⟨h, h'⟩ | ⟨h, h', _⟩
      · simp only [h, h', if_true, List.length_nil]; omega
      · simp only [if_true]; omega
  have n2 : oo + n + (run outs).1.length + (if dagger then (run ins).2.1.length else (run outs).2.1.length) =
      oo + (run outs).1.length + (run outs).2.1.length + n := by
    cases dagger
    · simp only [Bool.false_eq_true, if_false]; omega
    · rcases hal rfl with ⟨h, h'⟩ | ⟨h, h', _⟩
      · simp only [h, h', if_true, List.length_nil]; omega
      · simp only [if_true]; omega
  refine ⟨m4, _, _, rfl, rfl, ?_, s4, h3, h4, ?_⟩
  · rw [← n1, ← n2]; cases dagger <;> simpa [run] using i4
  · rw [← n1, ← n2]
    cases dagger <;> (
      simp only [Bool.false_eq_true, if_false, if_true] at e3 e4
      simp only [wireLoop, e1, e2, Bool.false_eq_true, if_false, if_true, e3, e4]
      rfl)

/-- The whole loop without dagger. -/
theorem wireLoop_plain : ∀ (f : Nat) (ins outs : List Ty) (m : Map) (oi oo : Nat),
    ins.length + outs.length < f → Inv false s a b n m oi oo (oi + n) (oo + n) → s.input.drop (oi - a) = ins →
    s.output.drop (oo - b) = outs → Straight a b n m →
    ∃ m', wireLoop false f ins outs ⟨.inc, oi⟩ ⟨.out, oo⟩ ⟨.inc, oi + n⟩ ⟨.out, oo + n⟩ m = .ok m' ∧
      Straight a b n m'
  | 0, _, _, _, _, _, h, _, _, _, _ => absurd h (by omega)
  | f + 1, ins, outs, m, oi, oo, h, i, hi, ho, hm => by
    obtain ⟨m', oi', oo', _, _, i', s', hi', ho', e⟩ := wireLoop_step' (f := f) i hi ho hm (by simp)
    have l1 := length_run ins
    have l2 := length_run outs
    by_cases hz : ((run ins).2.2.isEmpty && (run outs).2.2.isEmpty) = true
    · exact ⟨m', by rw [e, if_pos hz], s'⟩
    · have hlt : (run ins).2.2.length + (run outs).2.2.length < f := by
        by_cases h0 : ins = []
        · by_cases h1 : outs = []
          · subst h0 h1; exact absurd rfl hz
          · have := run_short outs h1
            omega
        · have := run_short ins h0
          omega
      obtain ⟨m'', e'', s''⟩ := wireLoop_plain f _ _ m' _ _ hlt i' hi' ho' s'
      exact ⟨m'', by rw [e, if_neg hz]; exact e'', s''⟩

theorem run_classical {l : List Ty} (h : ∀ t ∈ l, t.isQ = false) : run l = (l, [], []) := by
  have h1 : l.takeWhile (fun t => !t.isQ) = l := List.takeWhile_eq_self_iff.2 (by simpa using h)
  have h2 : l.dropWhile (fun t => !t.isQ) = [] := List.dropWhile_eq_nil_iff.2 (by simpa using h)
  simp [run, h1, h2]

theorem run_append {l c : List Ty} (h : ¬ ∀ t ∈ l, t.isQ = false) (hc : ∀ t ∈ c, t.isQ = false) :
    run (l ++ c) = ((run l).1, (run l).2.1, (run l).2.2 ++ c) := by
  have h1 : ∀ l : List Ty, (¬ ∀ t ∈ l, t.isQ = false) →
      (l ++ c).takeWhile (fun t => !t.isQ) = l.takeWhile (fun t => !t.isQ) ∧
      (l ++ c).dropWhile (fun t => !t.isQ) = l.dropWhile (fun t => !t.isQ) ++ c := by
    intro l
    induction l with
    | nil => simp
    | cons t l ih =>
      intro h
      cases ht : t.isQ
      · have := ih (by simpa [ht] using h)
        simp [ht, this]
      · simp [ht]
  have h2 : ∀ l : List Ty, (l ++ c).takeWhile Ty.isQ = l.takeWhile Ty.isQ ∧
      (l ++ c).dropWhile Ty.isQ = l.dropWhile Ty.isQ ++ c := by
    intro l
    induction l with
    | nil =>
      cases c with
      | nil => simp
      | cons x c => simp [hc x (by simp)]
    | cons t l ih =>
      cases ht : t.isQ <;> simp [ht, ih]
  simp only [run, h1 l h, h2]

/-- The whole loop with dagger on a row and its copy, followed by classical values. -/
theorem wireLoop_dagger {C D : List Ty} (hC : ∀ t ∈ C, t.isQ = false) (hD : ∀ t ∈ D, t.isQ = false) :
    ∀ (f : Nat) (R : List Ty) (m : Map) (oi oo : Nat),
    (R ++ C).length + (R ++ D).length < f → Inv true s a b n m oi oo (oi + n) (oo + n) →
    s.input.drop (oi - a) = R ++ C → s.output.drop (oo - b) = R ++ D → oi + b = oo + a → Straight a b n m →
    ∃ m', wireLoop true f (R ++ C) (R ++ D) ⟨.inc, oi⟩ ⟨.out, oo⟩ ⟨.inc, oi + n⟩ ⟨.out, oo + n⟩ m = .ok m' ∧
      Straight a b n m'
  | 0, _, _, _, _, h, _, _, _, _, _ => absurd h (by omega)
  | f + 1, R, m, oi, oo, h, i, hi, ho, hoo, hm => by
    by_cases hR : ∀ t ∈ R, t.isQ = false
    · have r1 : run (R ++ C) = (R ++ C, [], []) := run_classical (by
        intro t ht; rcases List.mem_append.1 ht with ht | ht
        · exact hR t ht
        · exact hC t ht)
      have r2 : run (R ++ D) = (R ++ D, [], []) := run_classical (by
        intro t ht; rcases List.mem_append.1 ht with ht | ht
        · exact hR t ht
        · exact hD t ht)
      obtain ⟨m', oi', oo', _, _, i', s', hi', ho', e⟩ := wireLoop_step' (f := f) i hi ho hm (by simp [r1, r2])
      exact ⟨m', by rw [e]; simp [r1, r2], s'⟩
    · have r1 := run_append hR hC
      have r2 := run_append hR hD
      obtain ⟨m', oi', oo', eo, eo', i', s', hi', ho', e⟩ := wireLoop_step' (f := f) i hi ho hm
        (fun _ => Or.inr ⟨by rw [r1, r2], by rw [r1, r2], hoo⟩)
      by_cases hz : ((run (R ++ C)).2.2.isEmpty && (run (R ++ D)).2.2.isEmpty) = true
      · exact ⟨m', by rw [e, if_pos hz], s'⟩
      · have hne : R ≠ [] := by rintro rfl; simp at hR
        have hlt := run_short R hne
        rw [r1] at hi' e eo
        rw [r2] at ho' e eo'
        rw [r1, r2] at hz
        obtain ⟨m'', e'', s''⟩ := wireLoop_dagger hC hD f (run R).2.2 m' oi' oo'
          (by simp only [List.length_append] at h ⊢; omega) i' hi' ho'
          (by dsimp only at eo eo'; omega) s'
        exact ⟨m'', by rw [e, if_neg hz]; exact e'', s''⟩

end Tket.Modifier
