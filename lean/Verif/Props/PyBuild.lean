import Verif.Lemmas.PyBuildLinear

/-!
# C92: circuits from commands in Python
-/

namespace Verif.PyBuild

variable {L : Type}

/-! ### Examples -/

def h (q : Int) : Com String := ⟨"H", [.qubit], [.idx q]⟩
def cx (a b : Int) : Com String := ⟨"CX", [.qubit, .qubit], [.idx a, .idx b]⟩
def measure (q : Int) : Com String := ⟨"Measure", [.qubit, .bool], [.idx q]⟩
def qalloc : Com String := ⟨"QAlloc", [.qubit], []⟩
def qfree (q : Int) : Com String := ⟨"QFree", [], [.idx q]⟩

def demo : List (Com String) := [h 0, cx 0 2, measure 2, h 2]

theorem demo_indexed : ∀ c ∈ demo, Indexed c := by
  intro c hc
  simp only [demo, List.mem_cons, List.not_mem_nil, or_false] at hc
  rcases hc with rfl | rfl | rfl | rfl <;> intro a ha <;>
    simp only [h, cx, measure, List.mem_cons, List.not_mem_nil, or_false] at ha <;>
    first
    | exact ⟨_, ha⟩
    | (rcases ha with ha | ha <;> exact ⟨_, ha⟩)

/-! ### When it works -/

/-- Commands given by indices become a circuit exactly if every command has an index, has at least as
many outputs as indices, and refers to a qubit that exists (a negative index counts from the end). -/
theorem C92_succeeds_iff (cs : List (Com L)) (hi : ∀ c ∈ cs, Indexed c) :
    (∃ r, fromComs cs = .ok r) ↔
      ∀ c ∈ cs, c.args ≠ [] ∧ c.args.length ≤ c.outs.length ∧
        ∀ i, Arg.idx i ∈ c.args → ∃ c' ∈ cs, ∃ j, Arg.idx j ∈ c'.args ∧ -(j + 1) ≤ i := by
  constructor
  · rintro ⟨r, h⟩ c hc
    obtain ⟨m, st, h1, h2, h3, _⟩ := fromComs_ok h
    obtain ⟨e1, e2, e3⟩ := countQubits_ok h1
    have hne : ∀ c ∈ cs, c.args ≠ [] := fun c hc => (ints_ne (hi c hc)).1 (e2 c hc).1
    obtain ⟨_, e5, _⟩ := extend_run (wf_init _) (live_init _) (holds_init _) hi h2 h3 hne
    refine ⟨hne c hc, e5 c hc, ?_⟩
    intro i h4
    obtain ⟨rs, h5⟩ := extend_regs (wf_init _) hi h2 c hc
    have h6 : ∀ (as : List Arg) (rs : List Nat), List.Forall₂ (Is m.toNat) as rs →
        Arg.idx i ∈ as → -m ≤ i ∧ 0 < m := by
      intro as rs h
      induction h with
      | nil => simp
      | @cons a r as rs g1 _ ih =>
        intro hm
        rcases List.mem_cons.1 hm with rfl | hm
        · obtain ⟨g2, g3⟩ := g1
          simp only [Arg.idx.injEq] at g3
          omega
        · exact ih hm
    obtain ⟨h7, h8⟩ := h6 _ _ h5 h4
    rcases e3 with e3 | ⟨c', g1, g2⟩
    · omega
    · exact ⟨c', g1, m - 1, mem_ints.1 g2, by omega⟩
  · intro h
    obtain ⟨m, h1⟩ := countQubits_exists (n := 0) (cs := cs)
      fun c hc => (ints_ne (hi c hc)).2 (h c hc).1
    obtain ⟨e1, e2, e3⟩ := countQubits_ok h1
    obtain ⟨st, h2, h3⟩ := extend_ok (st := (withNqb m.toNat : St L)) (cs := cs) (wf_init _) (live_init _) (by
      intro c hc
      obtain ⟨_, g2, g3⟩ := h c hc
      refine ⟨g2, ?_⟩
      intro a ha
      obtain ⟨i, rfl⟩ := hi c hc a ha
      refine ⟨i, rfl, ?_, ?_⟩
      · obtain ⟨c', g4, j, g5, g6⟩ := g3 i ha
        have := (e2 c' g4).2 j (mem_ints.2 g5)
        simp only [withNqb]; omega
      · have := (e2 c hc).2 i (mem_ints.2 ha)
        simp only [withNqb]; omega)
    refine ⟨⟨st.qubits, st.nodes, st.tracked⟩, ?_⟩
    unfold fromComs
    simp only [bind, Except.bind, h1, h2]
    exact setOutputs_iff.2 ⟨h3, rfl⟩

example : ∃ r, fromComs demo = .ok r := by
  rw [C92_succeeds_iff demo demo_indexed]
  intro c hc
  simp only [demo, List.mem_cons, List.not_mem_nil, or_false] at hc
  rcases hc with rfl | rfl | rfl | rfl <;>
    refine ⟨by simp [h, cx, measure], by simp [h, cx, measure], ?_⟩ <;>
    · intro i hi
      refine ⟨cx 0 2, by simp [demo], 2, by simp [cx], ?_⟩
      simp [h, cx, measure] at hi
      omega

/-- The circuit has as many qubits as the largest index requires, and it does what the commands do, one
after the other, on registers with these numbers. -/
theorem C92_meaning (cs : List (Com L)) (hi : ∀ c ∈ cs, Indexed c) (r : Circ L)
    (h : fromComs cs = .ok r) :
    (∀ c ∈ cs, ∀ i, Arg.idx i ∈ c.args → i < r.qubits) ∧
    (r.qubits = 0 ∨ ∃ c ∈ cs, Arg.idx ((r.qubits : Int) - 1) ∈ c.args) ∧
    ∃ gs, List.Forall₂ (Denotes r.qubits) cs gs ∧ observe r = meaning r.qubits gs := by
  obtain ⟨m, st, h1, h2, h3, rfl⟩ := fromComs_ok h
  obtain ⟨e1, e2, e3⟩ := countQubits_ok h1
  have hne : ∀ c ∈ cs, c.args ≠ [] := fun c hc => (ints_ne (hi c hc)).1 (e2 c hc).1
  obtain ⟨f1, _, gs, f2, f3, f4⟩ :=
    extend_run (wf_init _) (live_init _) (holds_init _) hi h2 h3 hne
  have hq : st.qubits = m.toNat := f1
  refine ⟨?_, ?_, gs, ?_, ?_⟩
  · intro c hc i hm
    have := (e2 c hc).2 i (mem_ints.2 hm)
    simp only [hq]; omega
  · rcases e3 with e3 | ⟨c, g1, g2⟩
    · left; simp only [hq]; omega
    · by_cases h0 : m = 0
      · left; simp only [hq]; omega
      · right
        refine ⟨c, g1, ?_⟩
        have : ((m.toNat : Int) - 1) = m - 1 := by omega
        simp only [hq, this]; exact mem_ints.1 g2
  · rw [hq]; exact f2
  · unfold observe meaning
    have f3' : received st.qubits st.nodes = (run 0 gs ((List.range m.toNat).map .inp)).1 := by
      rw [hq]; simpa [withNqb, received] using f3
    have f4' : st.tracked.map (eval st.qubits st.nodes) = (run 0 gs ((List.range m.toNat).map .inp)).2 := by
      simpa [withNqb, Holds] using f4
    show (received st.qubits st.nodes, st.tracked.map (eval st.qubits st.nodes)) =
      run 0 gs ((List.range st.qubits).map .inp)
    rw [f3', f4', hq]

/-- The identity circuit returns its inputs. -/
theorem C92_identity (n : Nat) : ∃ r : Circ L, idCirc n = .ok r ∧ r.qubits = n ∧
    observe r = ([], (List.range n).map .inp) :=
  ⟨_, setOutputs_iff.2 ⟨live_init n, rfl⟩, rfl, by
    have := holds_init (L := L) n
    unfold Holds at this
    simpa [observe, received, withNqb] using this⟩

/-- If operations return the qubits they are applied to first, and no command names a qubit twice, every
qubit wire of the circuit is used exactly once and the circuit returns only qubits. -/
theorem C92_linear_partial (cs : List (Com L)) (hi : ∀ c ∈ cs, Indexed c) (hk : ∀ c ∈ cs, Keeps c)
    (hp : ∀ c ∈ cs, ∀ i, Arg.idx i ∈ c.args → 0 ≤ i) (hd : ∀ c ∈ cs, c.args.Nodup)
    (r : Circ L) (h : fromComs cs = .ok r) :
    (∀ w, wireTy r.qubits r.nodes w = some .qubit → uses r w = 1) ∧
    r.outs.length = r.qubits ∧ ∀ w ∈ r.outs, wireTy r.qubits r.nodes w = some .qubit := by
  obtain ⟨m, st, h1, h2, h3, rfl⟩ := fromComs_ok h
  have hdis : ∀ c ∈ cs, ∀ rs, List.Forall₂ (Is m.toNat) c.args rs → rs.Nodup := by
    intro c hc rs hrs
    have hp' := hp c hc
    have hd' := hd c hc
    generalize c.args = as at hrs hp' hd'
    have hmap : as = rs.map fun (r : Nat) => Arg.idx (r : Int) := by
      clear hd'
      induction hrs with
      | nil => rfl
      | @cons a r as rs g1 _ ih =>
        obtain ⟨g2, g3⟩ := g1
        rw [List.map_cons, ← ih fun i hm => hp' i (by simp [hm])]
        rcases g3 with rfl | rfl
        · rfl
        · have := hp' _ (List.mem_cons_self); omega
    rw [hmap] at hd'
    exact List.Nodup.of_map _ hd'
  obtain ⟨f1, f2, f3⟩ := extend_lin (wf_init _) (lin_init _) hi hk hdis h2
  refine ⟨?_, f3.1, f1.tr⟩
  intro w hw
  unfold uses
  rw [List.count_append]
  exact f1.once w hw

theorem demo_keeps : ∀ c ∈ demo, Keeps c := by
  intro c hc k
  simp only [demo, List.mem_cons, List.not_mem_nil, or_false] at hc
  rcases hc with rfl | rfl | rfl | rfl <;> rcases k with _ | _ | k <;> simp [h, cx, measure]

example (r : Circ String) (e : fromComs demo = .ok r) :
    ∀ w, wireTy r.qubits r.nodes w = some .qubit → uses r w = 1 :=
  (C92_linear_partial demo demo_indexed demo_keeps (by
    intro c hc i hm
    simp only [demo, List.mem_cons, List.not_mem_nil, or_false] at hc
    rcases hc with rfl | rfl | rfl | rfl <;> simp [h, cx, measure] at hm <;> omega) (by
    intro c hc
    simp only [demo, List.mem_cons, List.not_mem_nil, or_false] at hc
    rcases hc with rfl | rfl | rfl | rfl <;> decide) r e).1

/-! ### What goes wrong -/

/-- A command without an index, like an allocation, cannot occur anywhere. -/
theorem C92_no_index_fails (cs : List (Com L)) (c : Com L) (hc : c ∈ cs) (h : ints c = []) :
    fromComs cs = .error .valueError := by
  have key : ∀ (n : Int) (cs : List (Com L)), c ∈ cs → countQubits n cs = .error .valueError := by
    intro n cs
    induction cs generalizing n with
    | nil => simp
    | cons d cs ih =>
      intro hm
      rw [countQubits]
      cases h1 : ints d with
      | nil => rfl
      | cons i is =>
        rcases List.mem_cons.1 hm with rfl | hm
        · rw [h] at h1; cases h1
        · exact ih _ hm
  unfold fromComs
  simp only [bind, Except.bind, key 0 cs hc]

example : fromComs [h 0, qalloc] = .error .valueError := C92_no_index_fails _ qalloc (by simp) rfl

/-- A qubit cannot be freed. -/
theorem C92_free_fails (cs : List (Com L)) (hi : ∀ c ∈ cs, Indexed c) (c : Com L) (hc : c ∈ cs)
    (h : c.outs.length < c.args.length) : ¬ ∃ r, fromComs cs = .ok r := by
  rw [C92_succeeds_iff cs hi]
  intro hall
  have := (hall c hc).2.1
  omega

example : fromComs [h 0, qfree 0] = .error .noPort := rfl

/-- A command that names a qubit twice is accepted: the qubit is used twice and one result is lost. The
documentation of `finish` says that the circuit is validated. -/
theorem C92_same_qubit_accepted :
    ∃ r, fromComs [cx 0 0] = .ok r ∧ wireTy r.qubits r.nodes ⟨0, 0⟩ = some .qubit ∧
      uses r ⟨0, 0⟩ = 2 ∧ wireTy r.qubits r.nodes ⟨1, 0⟩ = some .qubit ∧ uses r ⟨1, 0⟩ = 0 :=
  ⟨_, rfl, rfl, by decide, rfl, by decide⟩

/-- A negative index means another qubit, depending on the other commands. -/
theorem C92_negative_index (n : Nat) : ∃ r, fromComs [h (n : Int), h (-1)] = .ok r ∧ r.qubits = n + 1 ∧
    observe r = meaning (n + 1) [⟨"H", [n]⟩, ⟨"H", [n]⟩] := by
  have hi : ∀ c ∈ [h (n : Int), h (-1)], Indexed c := by
    intro c hc a ha
    simp only [List.mem_cons, List.not_mem_nil, or_false] at hc
    rcases hc with rfl | rfl <;> simp only [h, List.mem_cons, List.not_mem_nil, or_false] at ha <;>
      exact ⟨_, ha⟩
  have hok := (C92_succeeds_iff _ hi).2 (by
    intro c hc
    simp only [List.mem_cons, List.not_mem_nil, or_false] at hc
    rcases hc with rfl | rfl <;>
      refine ⟨by simp [h], by simp [h], ?_⟩ <;>
      · intro i hm
        refine ⟨h n, by simp, n, by simp [h], ?_⟩
        simp [h] at hm
        omega)
  obtain ⟨r, e⟩ := hok
  obtain ⟨e1, e2, gs, e3, e4⟩ := C92_meaning _ hi r e
  have hq : r.qubits = n + 1 := by
    have h1 := e1 (h n) (by simp) n (by simp [h])
    rcases e2 with e2 | ⟨c, hc, e2⟩
    · omega
    · simp only [List.mem_cons, List.not_mem_nil, or_false] at hc
      rcases hc with rfl | rfl <;> simp [h] at e2 <;> omega
  refine ⟨r, e, hq, ?_⟩
  rw [e4, hq]
  rw [hq] at e3
  have : gs = [⟨"H", [n]⟩, ⟨"H", [n]⟩] := by
    cases e3 with
    | cons g1 e3 => cases e3 with
      | cons g2 e3 => cases e3 with
        | nil =>
          rename_i a b
          obtain ⟨a1, a2⟩ := a
          obtain ⟨b1, b2⟩ := b
          obtain ⟨g1, g1'⟩ := g1
          obtain ⟨g2, g2'⟩ := g2
          simp only [h] at g1 g1' g2 g2'
          subst g1 g2
          cases g1' with
          | cons k1 k2 => cases k2 with
            | nil => cases g2' with
              | cons l1 l2 => cases l2 with
                | nil =>
                  simp only [Arg.idx.injEq] at k1 l1
                  rename_i x y
                  have ka : x = n := by omega
                  have la : y = n := by omega
                  rw [ka, la]
  rw [this]

/-- A builder can be finished once. -/
theorem C92_finish_once (root root' : Root) (a b : String) (h : finishPackage root a = .ok root') :
    finishPackage root' b = .error .assertion := by
  cases root with
  | dfg => cases h; rfl
  | func s => cases h

end Verif.PyBuild
