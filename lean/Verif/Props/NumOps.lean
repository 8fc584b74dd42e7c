import Verif.Model.NumOps

/-!
# C84: counting operations
-/

namespace Tket.NumOps

theorem counts_eq (k : Kind) : k.counts = k.isOp := by
  cases k with
  | other => rfl
  | ext i => cases i <;> rfl
  | unknown i => cases i <;> rfl

/-- Operations on a stack. -/
def stackOps (l : List Forest) : Nat := (l.map Forest.ops).sum

/-- Nodes on a stack, each entry counting once more. -/
def stackSize (l : List Forest) : Nat := (l.map fun f => f.size + 1).sum

theorem visit_spec : ∀ (f : Forest) (n : Nat) (stack : List Forest), f.Valid → (∀ g ∈ stack, g.Valid) →
    (visit f n stack).1 + stackOps (visit f n stack).2 = n + f.ops + stackOps stack ∧
      stackSize (visit f n stack).2 ≤ f.size + stackSize stack ∧ ∀ g ∈ (visit f n stack).2, g.Valid
  | .nil, n, stack, _, hs => by simp [visit, Forest.ops, Forest.size]; exact hs
  | .node k c r, n, stack, hv, hs => by
    obtain ⟨h1, h2, h3⟩ := hv
    simp only [visit, Forest.ops, Forest.size, counts_eq]
    by_cases h : k.isOp = true
    · rw [if_pos h, if_pos h, h1 h]
      obtain ⟨a, b, d⟩ := visit_spec r (n + 1) stack h3 hs
      simp only [Forest.ops, Forest.size]
      exact ⟨by omega, by omega, d⟩
    · rw [if_neg h, if_neg h]
      obtain ⟨a, b, d⟩ := visit_spec r n (c :: stack) h3 (by
        intro g hg
        rcases List.mem_cons.1 hg with rfl | hg
        · exact h2
        · exact hs g hg)
      simp only [stackOps, stackSize, List.map_cons, List.sum_cons] at a b ⊢
      exact ⟨by omega, by omega, d⟩

theorem loop_spec : ∀ (fuel n : Nat) (stack : List Forest), stackSize stack ≤ fuel → (∀ g ∈ stack, g.Valid) →
    loop fuel n stack = some (n + stackOps stack)
  | fuel, n, [], _, _ => by cases fuel <;> simp [loop, stackOps]
  | 0, n, f :: stack, h, _ => by simp [stackSize] at h
  | fuel + 1, n, f :: stack, h, hv => by
    rw [List.forall_mem_cons] at hv
    obtain ⟨a, b, d⟩ := visit_spec f n stack hv.1 hv.2
    rw [loop, loop_spec fuel _ _ _ d]
    · simp only [stackOps, List.map_cons, List.sum_cons] at a ⊢
      rw [a]
      congr 1
      omega
    · simp only [stackSize, List.map_cons, List.sum_cons] at h b ⊢
      omega

/-- C84: the number is that of all operations of the program, each counted once. -/
theorem C84_counts_program (module : Forest) (h : module.Valid) : numOperations module = some module.ops := by
  rw [numOperations, loop_spec]
  · simp [stackOps]
  · simp [stackSize]
  · simpa using h

theorem ops_append (f g : Forest) : (f.append g).ops = f.ops + g.ops := by
  induction f with
  | nil => simp [Forest.append, Forest.ops]
  | node k c r _ ih => simp only [Forest.append, Forest.ops, ih]; omega

theorem valid_append (f g : Forest) (hf : f.Valid) (hg : g.Valid) : (f.append g).Valid := by
  induction f with
  | nil => exact hg
  | node k c r _ ih => exact ⟨hf.1, hf.2.1, ih hf.2.2⟩

/-- C84 fails of the code: a function `f` of a program is said to have its operations and those of all other
functions; the number is right exactly if the others have no operations. -/
theorem C84_function_iff (before f after : Forest) (hb : before.Valid) (hf : f.Valid) (ha : after.Valid) :
    numOperations (before.append (.node .other f after)) = some f.ops ↔ before.ops = 0 ∧ after.ops = 0 := by
  have hv : (Forest.node .other f after).Valid := ⟨by simp [Kind.isOp], hf, ha⟩
  rw [C84_counts_program _ (valid_append _ _ hb hv), ops_append]
  have e : Kind.isOp .other = false := rfl
  simp only [Forest.ops, e, Bool.false_eq_true, if_false, Option.some.injEq]
  omega

/-- The operations at the top level of a region. -/
def Forest.topOps : Forest → Nat
  | .nil => 0
  | .node k _ r => (if k.isOp then 1 else 0) + r.topOps

/-- No operation of an extension that is not loaded. -/
def Forest.Known : Forest → Prop
  | .nil => True
  | .node k _ r => (∀ i, k ≠ .unknown i) ∧ r.Known

/-- C84: `operations` lists the operations at the top level of the region and never more. -/
theorem C84_operations (b : Bool) (f : Forest) :
    operations b f ≤ f.topOps ∧ f.topOps ≤ f.ops ∧ (f.Known ∨ b = true → operations b f = f.topOps) := by
  induction f with
  | nil => simp [operations, Forest.topOps, Forest.ops]
  | node k c r _ ih =>
    obtain ⟨h1, h2, h3⟩ := ih
    simp only [operations, Forest.ops, Forest.topOps]
    refine ⟨?_, by omega, ?_⟩
    · cases k with
      | ext i => cases i <;> simp [Kind.isOp, h1]
      | unknown i => cases i <;> cases b <;> simp [Kind.isOp, h1] <;> omega
      | other => simp [Kind.isOp, h1]
    · intro h
      have h4 : operations b r = r.topOps := h3 (h.imp (fun h => h.2) id)
      cases k with
      | ext i => cases i <;> simp [Kind.isOp, h4]
      | unknown i =>
        rcases h with h | rfl
        · exact absurd rfl (h.1 i)
        · cases i <;> simp [Kind.isOp, h4]
      | other => simp [Kind.isOp, h4]

/-- A gate, a tuple operation and a nested region with a gate. -/
def body : Forest := .node (.ext false) .nil (.node (.ext true) .nil (.node .other (.node (.ext false) .nil .nil) .nil))

/-- C84 fails of the code: two functions with this body. -/
theorem C84_two_functions_wrong :
    numOperations (.node .other body (.node .other body .nil)) = some 4 ∧ body.ops = 2 := ⟨rfl, rfl⟩

example : (Forest.node .other body .nil).Valid := by simp [Forest.Valid, body, Kind.isOp]

example : numOperations (.node .other body .nil) = some 2 := rfl

example : operations true body = 1 ∧ body.topOps = 1 ∧ body.Known := ⟨rfl, rfl, by simp [body, Forest.Known]⟩

end Tket.NumOps
