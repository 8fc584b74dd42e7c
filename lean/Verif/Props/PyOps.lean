import Verif.Model.PyOpsSpec

/-
Property C100: operations as Python objects.
-/
namespace Tket.PyOps

deriving instance DecidableEq for Except

theorem mem_rsOps (o : TketOp) : o ∈ rsOps := by cases o <;> decide
theorem mem_pyOps (p : PyOp) : p ∈ pyOps := by cases p <;> decide
theorem mem_rsPaulis (o : Pauli) : o ∈ rsPaulis := by cases o <;> decide
theorem mem_pyPaulis (p : PyPauli) : p ∈ pyPaulis := by cases p <;> decide

theorem rsName_inj {a b : TketOp} (h : rsName a = rsName b) : a = b := by
  have key : ∀ a ∈ rsOps, ∀ b ∈ rsOps, rsName a = rsName b → a = b := by decide +kernel
  exact key a (mem_rsOps a) b (mem_rsOps b) h

theorem name_eq (p : PyOp) : p.name = rsName p.Means := by cases p <;> rfl
theorem pauliName_eq (p : PyPauli) : p.name = rsPauliName p.Means := by cases p <;> rfl

theorem Means_inj {p q : PyOp} (h : p.Means = q.Means) : p = q := by cases p <;> cases q <;> first | rfl | cases h
theorem Means_surj (o : TketOp) : ∃ p : PyOp, p.Means = o := by
  cases o
  all_goals first
    | exact ⟨.H, rfl⟩ | exact ⟨.CX, rfl⟩ | exact ⟨.CY, rfl⟩ | exact ⟨.CZ, rfl⟩ | exact ⟨.CRz, rfl⟩ | exact ⟨.T, rfl⟩
    | exact ⟨.Tdg, rfl⟩ | exact ⟨.S, rfl⟩ | exact ⟨.Sdg, rfl⟩ | exact ⟨.X, rfl⟩ | exact ⟨.Y, rfl⟩ | exact ⟨.Z, rfl⟩
    | exact ⟨.Rx, rfl⟩ | exact ⟨.Ry, rfl⟩ | exact ⟨.Rz, rfl⟩ | exact ⟨.Toffoli, rfl⟩ | exact ⟨.Measure, rfl⟩
    | exact ⟨.MeasureFree, rfl⟩ | exact ⟨.QAlloc, rfl⟩ | exact ⟨.TryQAlloc, rfl⟩ | exact ⟨.QFree, rfl⟩
    | exact ⟨.Reset, rfl⟩ | exact ⟨.V, rfl⟩ | exact ⟨.Vdg, rfl⟩

theorem rsPauliName_inj {a b : Pauli} (h : rsPauliName a = rsPauliName b) : a = b := by
  have key : ∀ a ∈ rsPaulis, ∀ b ∈ rsPaulis, rsPauliName a = rsPauliName b → a = b := by decide +kernel
  exact key a (mem_rsPaulis a) b (mem_rsPaulis b) h

theorem pauliMeans_inj {p q : PyPauli} (h : p.Means = q.Means) : p = q := by
  cases p <;> cases q <;> first | rfl | cases h

theorem pauliMeans_surj (o : Pauli) : ∃ p : PyPauli, p.Means = o := by
  cases o
  all_goals first | exact ⟨.I, rfl⟩ | exact ⟨.X, rfl⟩ | exact ⟨.Y, rfl⟩ | exact ⟨.Z, rfl⟩

theorem find_unique {α : Type} {l : List α} {f : α → String} {s : String} (hf : ∀ a b, f a = f b → a = b) {x : α}
    (hx : x ∈ l) (h : f x = s) : l.find? (fun a => f a = s) = some x := by
  cases hfind : l.find? (fun a => f a = s) with
  | none =>
    rw [List.find?_eq_none] at hfind
    exact absurd h (by simpa using hfind x hx)
  | some y =>
    have := List.find?_some hfind
    rw [hf y x ((of_decide_eq_true this).trans h.symm)]

/-- An operation is created from a string exactly if the string is its name. -/
theorem C100_new (s : String) (o : TketOp) : newOp s = .ok o ↔ s = rsName o := by
  constructor
  · intro h
    unfold newOp at h
    split at h
    · next o' hf =>
      cases h
      have := List.find?_some hf
      exact (by simpa using this : _ = s).symm
    · cases h
  · rintro rfl
    unfold newOp
    rw [find_unique (fun a b => rsName_inj) (mem_rsOps o) rfl]

/-- Matrices likewise. -/
theorem C100_new_pauli (s : String) (o : Pauli) : newPauli s = .ok o ↔ s = rsPauliName o := by
  constructor
  · intro h
    unfold newPauli at h
    split at h
    · next o' hf =>
      cases h
      have := List.find?_some hf
      exact (by simpa using this : _ = s).symm
    · cases h
  · rintro rfl
    unfold newPauli
    rw [find_unique (fun a b => rsPauliName_inj) (mem_rsPaulis o) rfl]

/-- The two enumerations of operations correspond one to one, and conversions never fail. -/
theorem C100_convert (p : PyOp) (o : TketOp) :
    p.toRs = .ok p.Means ∧ (PyOp.fromRs o = .ok p ↔ o = p.Means) ∧ ∃ q, PyOp.fromRs o = .ok q := by
  have hfrom : ∀ q : PyOp, PyOp.fromRs q.Means = .ok q := by
    intro q
    unfold PyOp.fromRs
    rw [find_unique (f := PyOp.name) (x := q) ?_ (mem_pyOps q) (name_eq q)]
    intro a b hab
    rw [name_eq, name_eq] at hab
    exact Means_inj (rsName_inj hab)
  refine ⟨(C100_new _ _).mpr (name_eq p), ⟨fun h => ?_, fun h => h ▸ hfrom p⟩, ?_⟩
  · obtain ⟨q, rfl⟩ := Means_surj o
    rw [hfrom] at h
    cases h
    rfl
  · obtain ⟨q, rfl⟩ := Means_surj o
    exact ⟨q, hfrom q⟩

/-- The two enumerations of matrices correspond one to one, and conversions never fail. -/
theorem C100_convert_pauli (p : PyPauli) (o : Pauli) :
    p.toRs = .ok p.Means ∧ (PyPauli.fromRs o = .ok p ↔ o = p.Means) ∧ ∃ q, PyPauli.fromRs o = .ok q := by
  have hfrom : ∀ q : PyPauli, PyPauli.fromRs q.Means = .ok q := by
    intro q
    unfold PyPauli.fromRs
    rw [find_unique (f := PyPauli.name) (x := q) ?_ (mem_pyPaulis q) (pauliName_eq q)]
    intro a b hab
    rw [pauliName_eq, pauliName_eq] at hab
    exact pauliMeans_inj (rsPauliName_inj hab)
  refine ⟨(C100_new_pauli _ _).mpr (pauliName_eq p), ⟨fun h => ?_, fun h => h ▸ hfrom p⟩, ?_⟩
  · obtain ⟨q, rfl⟩ := pauliMeans_surj o
    rw [hfrom] at h
    cases h
    rfl
  · obtain ⟨q, rfl⟩ := pauliMeans_surj o
    exact ⟨q, hfrom q⟩

/-- Iterating over either class gives each operation once. -/
theorem C100_values : rsOps.Nodup ∧ (∀ o, o ∈ rsOps) ∧ pyOps.Nodup ∧ (∀ p, p ∈ pyOps) ∧ rsPaulis.Nodup ∧
    (∀ o, o ∈ rsPaulis) ∧ pyPaulis.Nodup ∧ ∀ p, p ∈ pyPaulis :=
  ⟨by decide, mem_rsOps, by decide, mem_pyOps, by decide, mem_rsPaulis, by decide, mem_pyPaulis⟩

theorem fromRs_means (p : PyOp) : PyOp.fromRs p.Means = .ok p := ((C100_convert p p.Means).2.1).mpr rfl
theorem pauliFromRs_means (p : PyPauli) : PyPauli.fromRs p.Means = .ok p := ((C100_convert_pauli p p.Means).2.1).mpr rfl

theorem method_op_rsOp (p : PyOp) (o : TketOp) : method (.op p) (.rsOp o) = .is (decide (p.Means = o)) := by
  obtain ⟨q, rfl⟩ := Means_surj o
  simp only [method, fromRs_means]
  congr 1
  rw [decide_eq_decide, name_eq, name_eq]
  exact ⟨fun h => rsName_inj h, fun h => by rw [h]⟩

theorem method_op_op (p q : PyOp) : method (.op p) (.op q) = .is (decide (p = q)) := by
  simp only [method]
  congr 1
  rw [decide_eq_decide, name_eq, name_eq]
  exact ⟨fun h => Means_inj (rsName_inj h), fun h => by rw [h]⟩

theorem method_pauli_rsPauli (p : PyPauli) (o : Pauli) :
    method (.pauli p) (.rsPauli o) = .is (decide (p.Means = o)) := by
  obtain ⟨q, rfl⟩ := pauliMeans_surj o
  simp only [method, pauliFromRs_means]
  congr 1
  rw [decide_eq_decide, pauliName_eq, pauliName_eq]
  exact ⟨fun h => rsPauliName_inj h, fun h => by rw [h]⟩

theorem method_pauli_pauli (p q : PyPauli) : method (.pauli p) (.pauli q) = .is (decide (p = q)) := by
  simp only [method]
  congr 1
  rw [decide_eq_decide, pauliName_eq, pauliName_eq]
  exact ⟨fun h => pauliMeans_inj (rsPauliName_inj h), fun h => by rw [h]⟩

/-- Operations of either class, in either order, are equal exactly if they stand for the same operation. -/
theorem C100_equal (a b : Obj) (o o' : TketOp) (ha : a.Op = some o) (hb : b.Op = some o') :
    eq a b = .ok (decide (o = o')) := by
  cases a <;> cases ha <;> cases b <;> cases hb
  · next p q =>
    rw [eq, method_op_op]
    simp only
    congr 1
    rw [decide_eq_decide]
    exact ⟨fun h => by rw [h], Means_inj⟩
  · rw [eq, method_op_rsOp]
  · next q =>
    have : method (.rsOp o) (.op q) = .notImplemented := rfl
    rw [eq, this, method_op_rsOp]
    simp only
    congr 1
    rw [decide_eq_decide]
    exact eq_comm
  · rfl

/-- What each comparison gives. -/
def table : Obj → Obj → Bool
  | .op p, .op q => decide (p = q)
  | .op p, .rsOp o => decide (p.Means = o)
  | .op p, .str s => decide (rsName p.Means = s)
  | .rsOp o, .op p => decide (p.Means = o)
  | .rsOp o, .rsOp o' => decide (o = o')
  | .pauli p, .pauli q => decide (p = q)
  | .pauli p, .rsPauli o => decide (p.Means = o)
  | .pauli p, .str s => decide (rsPauliName p.Means = s)
  | .rsPauli o, .rsPauli o' => decide (o = o')
  | .str s, .op p => decide (rsName p.Means = s)
  | .str s, .pauli p => decide (rsPauliName p.Means = s)
  | .str s, .str t => decide (s = t)
  | .other n, .other m => decide (n = m)
  | _, _ => false

theorem eq_table (a b : Obj) : eq a b = .ok (table a b) := by
  cases a <;> cases b
  case op.op => rw [eq, method_op_op]; rfl
  case op.rsOp => rw [eq, method_op_rsOp]; rfl
  case rsOp.op o q =>
    have : method (.rsOp o) (.op q) = .notImplemented := rfl
    rw [eq, this, method_op_rsOp]
    rfl
  case pauli.pauli => rw [eq, method_pauli_pauli]; rfl
  case pauli.rsPauli => rw [eq, method_pauli_rsPauli]; rfl
  case op.str p s => simp [eq, method, table, name_eq]
  case str.op s p => simp [eq, method, table, name_eq]
  case pauli.str p s => simp [eq, method, table, pauliName_eq]
  case str.pauli s p => simp [eq, method, table, pauliName_eq]
  case other.other n m =>
    by_cases h : n = m
    · simp [eq, method, table, h]
    · simp [eq, method, table, h, Ne.symm h]
  all_goals rfl

/-- Comparison never raises an exception, and every object is equal to itself. -/
theorem C100_defined (a b : Obj) : (∃ r, eq a b = .ok r) ∧ eq a a = .ok true := by
  refine ⟨⟨_, eq_table a b⟩, ?_⟩
  rw [eq_table]
  cases a <;> simp [table]

/-- Comparison depends on the order exactly for a matrix of the class of Rust and the same matrix of the class of
Python. -/
theorem C100_symmetric_iff (a b : Obj) : eq a b ≠ eq b a ↔
    ∃ p : PyPauli, (a = .pauli p ∧ b = .rsPauli p.Means) ∨ (a = .rsPauli p.Means ∧ b = .pauli p) := by
  rw [eq_table, eq_table]
  constructor
  · intro h
    have h : table a b ≠ table b a := fun he => h (by rw [he])
    cases a <;> cases b <;> simp [table, eq_comm] at h ⊢
    · exact h
    · exact h
  · rintro ⟨p, ⟨rfl, rfl⟩ | ⟨rfl, rfl⟩⟩ <;> simp [table]

/-- Comparison is transitive for operations of both classes, matrices of the class of Python, and other objects; with
strings it is not. -/
theorem C100_transitive_partial (a b c : Obj) (hs : ∀ x ∈ [a, b, c], (∀ s, x ≠ .str s) ∧ ∀ o, x ≠ .rsPauli o)
    (hab : eq a b = .ok true) (hbc : eq b c = .ok true) : eq a c = .ok true := by
  rw [eq_table] at hab hbc ⊢
  simp only [Except.ok.injEq] at hab hbc ⊢
  simp only [List.mem_cons, List.not_mem_nil, or_false, forall_eq_or_imp, forall_eq] at hs
  obtain ⟨ha, hb, hc⟩ := hs
  cases a <;> cases b <;> simp [table] at hab <;> cases c <;> simp [table] at hbc <;> simp_all [table]
  all_goals first
    | exact Means_inj (by simp_all)
    | exact absurd rfl ‹_›

/-- The operation for a circuit: the name with and without the extension. -/
theorem C100_custom (p q : PyOp) : p.toCustom = .ok (custom p.Means) ∧ (p.toCustom = q.toCustom ↔ p = q) ∧
    (custom p.Means).getName = p.name ∧ qualifiedName p.Means = (custom p.Means).extension ++ "." ++ p.name := by
  have h1 : ∀ p : PyOp, p.toCustom = .ok (custom p.Means) := by
    intro p
    rw [PyOp.toCustom, (C100_convert p .H).1]
  refine ⟨h1 p, ⟨fun h => ?_, fun h => by rw [h]⟩, (name_eq p).symm, ?_⟩
  · rw [h1, h1] at h
    simp only [Except.ok.injEq, custom, Custom.mk.injEq, true_and] at h
    exact Means_inj (rsName_inj h)
  · rw [name_eq]
    cases p <;> decide +kernel

/-! ### Findings -/

/-- `op == Pauli.X` is false for `op` the matrix X of the class of Rust, and `Pauli.X == op` is true. -/
theorem C100_pauli_order : eq (.rsPauli .X) (.pauli .X) = .ok false ∧ eq (.pauli .X) (.rsPauli .X) = .ok true := by
  decide +kernel

/-- `TketOp.X == "X"` and `"X" == Pauli.X`, but `TketOp.X != Pauli.X`. -/
theorem C100_not_transitive : eq (.op .X) (.str "X") = .ok true ∧ eq (.str "X") (.pauli .X) = .ok true ∧
    eq (.op .X) (.pauli .X) = .ok false := by
  decide +kernel

/-- Operations of Python are equal to their names, operations of Rust, as given to cost functions, never. -/
theorem C100_name_ignored (p : PyOp) (s : String) :
    eq (.op p) (.str p.name) = .ok true ∧ eq (.rsOp p.Means) (.op p) = .ok true ∧
      eq (.rsOp p.Means) (.str s) = .ok false := by
  refine ⟨?_, ?_, ?_⟩ <;> rw [eq_table] <;> simp [table, name_eq]

/-- `Pauli.to_custom` always raises an exception. -/
theorem C100_pauli_custom (p : PyPauli) : p.toCustom = .error .type := rfl

/-- Operations and matrices can not be put into sets or be keys. -/
theorem C100_no_hash (a : Obj) : hashable a = false ↔ (∀ s, a ≠ .str s) ∧ ∀ n, a ≠ .other n := by
  cases a <;> simp [hashable, defines]

/-- The two classes are not in the same order. -/
theorem C100_order_differs : pyOps.map PyOp.Means ≠ rsOps := by decide

/-! ### Examples -/

example : newOp "CX" = .ok .CX ∧ newOp "cx" = .error .value ∧ newPauli "W" = .error .value := by decide +kernel

example : eq (.rsOp .CX) (.op .CX) = .ok true ∧ eq (.rsOp .CX) (.op .CZ) = .ok false ∧
    eq (.op .CX) (.other 3) = .ok false ∧ eq (.str "CX") (.op .CX) = .ok true := by decide +kernel

example : eq (.op .Rz) (.rsOp .Rz) = .ok true :=
  C100_transitive_partial (.op .Rz) (.op .Rz) (.rsOp .Rz) (by simp) (by decide +kernel) (by decide +kernel)

end Tket.PyOps
