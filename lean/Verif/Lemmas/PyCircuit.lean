import Verif.Model.PyCircuit

/-! Lemmas on the memory of Python programs. -/
namespace Tket.PyCircuit

variable {C T R N : Type} (E : Env C T R N)

theorem circ_eq_some {st : State C T N} {a : Nat} {c : C} : st.circ a = some c ↔ st.heap[a]? = some (.tk2 c) := by
  unfold State.circ
  split
  · next h => simp [h]
  · next h => simp only [reduceCtorEq, false_iff]; intro h'; exact h _ h'

theorem alloc_heap (st : State C T N) (o : Obj C T N) {a : Nat} {x : Obj C T N} (h : st.heap[a]? = some x) :
    (alloc st o).1.heap[a]? = some x := by
  have hl : a < st.heap.length := (List.getElem?_eq_some_iff.1 h).1
  simp only [alloc]
  rw [List.getElem?_append_left hl, h]

theorem alloc_new (st : State C T N) (o : Obj C T N) : (alloc st o).1.heap[st.heap.length]? = some o := by
  simp [alloc]

/-- A statement other than a rewrite of the object leaves it as it is. -/
theorem step_keep {st : State C T N} {a : Nat} {x : Obj C T N} (h : st.heap[a]? = some x) (cmd : Cmd R)
    (hc : ∀ r, cmd ≠ .apply a r) : (step E st cmd).1.heap[a]? = some x := by
  cases cmd with
  | apply b r =>
    have hb : b ≠ a := fun e => hc r (e ▸ rfl)
    simp only [step]
    split
    · split <;> simp only [List.getElem?_set_ne hb, h]
    · exact h
  | new b =>
    simp only [step]
    split
    · exact alloc_heap _ _ h
    · split
      · exact alloc_heap _ _ h
      · exact h
    · exact h
  | copy b => simp only [step]; split <;> first | exact alloc_heap _ _ h | exact h
  | deepcopy b => simp only [step]; split <;> first | exact alloc_heap _ _ h | exact h
  | toTket1 b =>
    simp only [step]
    split
    · split
      · exact h
      · split
        · exact h
        · exact alloc_heap _ _ h
    · exact h
  | inputNode b => simp only [step]; split <;> first | exact alloc_heap _ _ h | exact h
  | outputNode b => simp only [step]; split <;> first | exact alloc_heap _ _ h | exact h
  | hash b => simp only [step]; split <;> exact h
  | eq b d => exact h
  | add s b =>
    simp only [step]
    split
    · exact h
    · split <;> exact h
  | mem s b => simp only [step]; split <;> exact h

theorem run_keep {a : Nat} {x : Obj C T N} (cmds : List (Cmd R)) :
    ∀ {st : State C T N}, st.heap[a]? = some x → (∀ r, Cmd.apply a r ∉ cmds) →
      (run E st cmds).heap[a]? = some x := by
  induction cmds with
  | nil => intro st h _; exact h
  | cons c cs ih =>
    intro st h hc
    refine ih (step_keep E h c fun r e => hc r (e ▸ List.mem_cons_self)) fun r hr => hc r (List.mem_cons_of_mem _ hr)

/-- A circuit object stays a circuit object. -/
theorem step_tk2 {st : State C T N} {a : Nat} {c : C} (h : st.heap[a]? = some (.tk2 c)) (cmd : Cmd R) :
    ∃ c', (step E st cmd).1.heap[a]? = some (.tk2 c') := by
  by_cases hc : ∃ r, cmd = .apply a r
  · obtain ⟨r, rfl⟩ := hc
    have hl : a < st.heap.length := (List.getElem?_eq_some_iff.1 h).1
    simp only [step, h]
    split <;> exact ⟨_, List.getElem?_set_self hl⟩
  · exact ⟨c, step_keep E h cmd fun r e => hc ⟨r, e⟩⟩

theorem run_tk2 {a : Nat} (cmds : List (Cmd R)) :
    ∀ {st : State C T N} {c : C}, st.heap[a]? = some (.tk2 c) → ∃ c', (run E st cmds).heap[a]? = some (.tk2 c') := by
  induction cmds with
  | nil => intro st c h; exact ⟨c, h⟩
  | cons cmd cs ih =>
    intro st c h
    obtain ⟨c', h'⟩ := step_tk2 E h cmd
    exact ih h'

/-- Only `add` changes a set. -/
theorem step_sets (st : State C T N) (cmd : Cmd R) {s a : Nat} (hc : cmd ≠ .add s a) (i : Int) :
    (i, a) ∈ (step E st cmd).1.sets s ↔ (i, a) ∈ st.sets s := by
  cases cmd with
  | add t b =>
    simp only [step]
    split
    · rfl
    · split
      · rfl
      · by_cases ht : s = t
        · subst ht
          have hb : a ≠ b := fun e => hc (e ▸ rfl)
          simp [hb]
        · simp [ht]
  | new b => simp only [step]; (repeat' split) <;> rfl
  | copy b => simp only [step]; split <;> rfl
  | deepcopy b => simp only [step]; split <;> rfl
  | apply b r => simp only [step]; (repeat' split) <;> rfl
  | toTket1 b => simp only [step]; (repeat' split) <;> rfl
  | inputNode b => simp only [step]; split <;> rfl
  | outputNode b => simp only [step]; split <;> rfl
  | hash b => simp only [step]; split <;> rfl
  | eq b d => rfl
  | mem t b => simp only [step]; split <;> rfl

theorem run_sets {s a : Nat} (cmds : List (Cmd R)) (i : Int) :
    ∀ {st : State C T N}, Cmd.add s a ∉ cmds → ((i, a) ∈ (run E st cmds).sets s ↔ (i, a) ∈ st.sets s) := by
  induction cmds with
  | nil => intro st _; rfl
  | cons c cs ih =>
    intro st hc
    exact (ih fun h => hc (List.mem_cons_of_mem _ h)).trans
      (step_sets E st c (fun e => hc (e ▸ List.mem_cons_self)) i)

/-- Lookup of a circuit object finds its own entry only. -/
theorem inSet_tk2 {h : List (Obj C T N)} {a : Nat} {c : C} (ha : h[a]? = some (.tk2 c)) (s : List (Int × Nat))
    (i : Int) : inSet E h s i a = true ↔ (i, a) ∈ s := by
  have heq : ∀ b, pyEq E h b a = (b == a) := by
    intro b
    simp only [pyEq, ha]
    split <;> simp_all
  simp only [inSet, List.any_eq_true, heq, Bool.or_self, Bool.and_eq_true, beq_iff_eq]
  constructor
  · rintro ⟨⟨j, b⟩, hm, h1, h2⟩; simp only at h1 h2; subst h1; subst h2; exact hm
  · intro hm; exact ⟨_, hm, rfl, rfl⟩

end Tket.PyCircuit
