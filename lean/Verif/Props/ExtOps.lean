import Verif.Model.ExtOpsSpec

/-
Property C67: operations of the extensions are stored without loss.
-/
namespace Verif.ExtOps

open Verif.Results (Def SArgs Args ROp Str)

/-! ### Rows -/

theorem elems_map (r : List Elem) : elems (r.map .elem) = some r := by
  induction r with
  | nil => rfl
  | cons e r ih => simp [elems, ih]

theorem toRow_ofRow (r : List Elem) : toRow (ofRow r) = some r := elems_map r

theorem closedRow_map (r : List Nat) : closedRow (r.map .ty) = some r := by
  induction r with
  | nil => rfl
  | cons e r ih => simp [closedRow, ih]

theorem toRow_ofTypes (r : List Nat) : toRow (ofTypes r) = some (r.map .ty) := toRow_ofRow _

theorem elems_inv : ∀ {l : List LElem} {r : List Elem}, elems l = some r → l = r.map .elem
  | [], r, h => by simp [elems] at h; subst h; rfl
  | .elem e :: l, r, h => by
    rw [elems] at h
    cases h' : elems l with
    | none => rw [h'] at h; simp at h
    | some r' =>
      rw [h'] at h
      simp only [Option.map_some, Option.some.injEq] at h
      subst h
      rw [elems_inv h']
      rfl
  | .other :: l, r, h => by simp [elems] at h

theorem toRow_inv {a : TArg} {r : List Elem} (h : toRow a = some r) : a = ofRow r := by
  cases a with
  | list l => rw [ofRow, elems_inv h]
  | _ => simp [toRow] at h

theorem closedRow_inv : ∀ {es : List Elem} {r : List Nat}, closedRow es = some r → es = r.map .ty
  | [], r, h => by simp [closedRow] at h; subst h; rfl
  | .ty t :: es, r, h => by
    rw [closedRow] at h
    cases h' : closedRow es with
    | none => rw [h'] at h; simp at h
    | some r' =>
      rw [h'] at h
      simp only [Option.map_some, Option.some.injEq] at h
      subst h
      rw [closedRow_inv h']
      rfl
  | .rowVar i :: es, r, h => by simp [closedRow] at h

/-! ### Names -/

theorem rFind (d : Def) : rAll.find? (fun d' => decide (rName d' = rName d)) = some d := by
  cases d <;> decide +kernel

theorem fFind (d : FDef) : fAll.find? (fun d' => decide (fName d' = fName d)) = some d := by
  cases d <;> decide +kernel

theorem cFind (d : CDef) : cAll.find? (fun d' => decide (cName d' = cName d)) = some d := by
  cases d <;> decide +kernel

/-! ### Property theorems -/

/-- Operations that report results come back from storage as they were. -/
theorem C67_result_stored (op : ROp) (hwf : op.wf) (hb : byteWidth op) :
    rFrom (rTo op) = some op := by
  rw [rFrom, if_pos (show (rTo op).ext = .result from rfl)]
  change (rAll.find? (fun d' => decide (rName d' = rName op.op))).bind _ = _
  rw [rFind]
  obtain ⟨tag, d, args⟩ := op
  cases args with
  | simple s =>
    cases s with
    | basic => cases d <;> first | rfl | exact hwf.elim
    | int w =>
      have hw : w % 256 = w := Nat.mod_eq_of_lt hb
      cases d <;> first | exact hwf.elim | simp [rTo, rInst, rArgs, inst2, hw]
  | array s n =>
    cases s with
    | basic => cases d <;> first | rfl | exact hwf.elim
    | int w =>
      have hw : w % 256 = w := Nat.mod_eq_of_lt hb
      cases d <;> first
        | exact hwf.elim
        | simp [rTo, rInst, rArgs, inst3, inst2, simpleOp, arrayOp, arrayType, hw]

/-- A stored operation whose arguments fit the declared parameters is loaded, as the operation of
that name with these arguments. -/
theorem C67_result_loaded (d : Def) (as : List TArg) (h : fit (rParams d) as = true) :
    ∃ op, rFrom ⟨.result, rName d, as⟩ = some op ∧ op.wf ∧ rTo op = ⟨.result, rName d, as⟩ := by
  have key : ∀ op, rInst d as = some op → rFrom ⟨.result, rName d, as⟩ = some op := by
    intro op h
    simp only [rFrom, if_true]
    rw [rFind]
    exact h
  have one : ∀ {p : Param}, fit [p] as = true → ∃ a, as = [a] ∧ p.fits a = true := by
    intro p h
    match as, h with
    | [a], h => exact ⟨a, rfl, by simpa [fit] using h⟩
    | [], h => simp [fit] at h
    | _ :: _ :: _, h => simp [fit] at h
  have two : ∀ {p q : Param}, fit [p, q] as = true →
      ∃ a b, as = [a, b] ∧ p.fits a = true ∧ q.fits b = true := by
    intro p q h
    match as, h with
    | [a, b], h => exact ⟨a, b, rfl, by simpa [fit] using h⟩
    | [], h => simp [fit] at h
    | [_], h => simp [fit] at h
    | _ :: _ :: _ :: _, h => simp [fit] at h
  have three : ∀ {p q r : Param}, fit [p, q, r] as = true →
      ∃ a b c, as = [a, b, c] ∧ p.fits a = true ∧ q.fits b = true ∧ r.fits c = true := by
    intro p q r h
    match as, h with
    | [a, b, c], h => exact ⟨a, b, c, rfl, by simpa [fit, and_assoc] using h⟩
    | [], h => simp [fit] at h
    | [_], h => simp [fit] at h
    | [_, _], h => simp [fit] at h
    | _ :: _ :: _ :: _ :: _, h => simp [fit] at h
  have hs : ∀ {a : TArg}, Param.str.fits a = true → ∃ s, a = .str s := by
    intro a h
    cases a <;> simp [Param.fits] at h
    exact ⟨_, rfl⟩
  have hn : ∀ {a : TArg} {b : Option Nat}, (Param.nat b).fits a = true →
      ∃ n, a = .nat n ∧ ∀ k, b = some k → n < k := by
    intro a b h
    cases b with
    | none =>
      cases a <;> simp [Param.fits] at h
      exact ⟨_, rfl, fun k hk => by simp at hk⟩
    | some k =>
      cases a <;> simp [Param.fits] at h
      exact ⟨_, rfl, fun k' hk => by simp at hk; omega⟩
  cases d with
  | bool | f64 =>
    obtain ⟨a, rfl, ha⟩ := one h
    obtain ⟨s, rfl⟩ := hs ha
    exact ⟨_, key _ rfl, trivial, rfl⟩
  | int | uint =>
    obtain ⟨a, b, rfl, ha, hb⟩ := two h
    obtain ⟨s, rfl⟩ := hs ha
    obtain ⟨n, rfl, hn'⟩ := hn hb
    have : n % 256 = n := Nat.mod_eq_of_lt (by have := hn' 7 rfl; omega)
    refine ⟨_, key _ rfl, trivial, ?_⟩
    simp [rTo, rArgs, this]
  | arrBool | arrF64 =>
    obtain ⟨a, b, rfl, ha, hb⟩ := two h
    obtain ⟨s, rfl⟩ := hs ha
    obtain ⟨n, rfl, _⟩ := hn hb
    exact ⟨_, key _ rfl, trivial, rfl⟩
  | arrInt | arrUInt =>
    obtain ⟨a, b, c, rfl, ha, hb, hc⟩ := three h
    obtain ⟨s, rfl⟩ := hs ha
    obtain ⟨n, rfl, _⟩ := hn hb
    obtain ⟨m, rfl, hm⟩ := hn hc
    have : m % 256 = m := Nat.mod_eq_of_lt (by have := hm 7 rfl; omega)
    refine ⟨_, key _ rfl, trivial, ?_⟩
    simp [rTo, rArgs, arrayOp, arrayType, this]

/-- Arguments that do not fit the parameters are not always refused: with one more number
`result_bool` is loaded as the operation for arrays, and with one more number
`result_array_bool` is loaded without it; widths are cut to a byte. -/
theorem C67_misfit_loaded :
    rFrom ⟨.result, "result_bool", [.str ['a'], .nat 5]⟩ = some ⟨['a'], .arrBool, .array .basic 5⟩ ∧
    rFrom ⟨.result, "result_array_bool", [.str ['a'], .nat 5, .nat 6]⟩ =
      some ⟨['a'], .arrBool, .array .basic 5⟩ ∧
    rFrom ⟨.result, "result_int", [.str ['a'], .nat 262]⟩ =
      some ⟨['a'], .int, .simple (.int 6)⟩ := by
  decide +kernel

/-- With its arguments in place of the variables, the declared signature of a result operation has
the type of the values that it reports. -/
theorem C67_result_signature (op : ROp) (hwf : op.wf) :
    (rArgTy op.op).subst (rArgs op) = reports op := by
  obtain ⟨tag, d, args⟩ := op
  cases args with
  | simple s => cases s <;> cases d <;> first | rfl | exact hwf.elim
  | array s n => cases s <;> cases d <;> first | rfl | exact hwf.elim

/-- Changing a result operation to arrays of another size keeps the tag and the type of the
elements. -/
theorem C67_array_op (op : ROp) (n : Nat) (hwf : op.wf) :
    (arrayOp op n).wf ∧ (arrayOp op n).tag = op.tag ∧
      ∃ t, reports (arrayOp op n) = some (.array n t) ∧
        (reports op = some t ∨ ∃ k, reports op = some (.array k t)) := by
  obtain ⟨tag, d, args⟩ := op
  cases args with
  | simple s =>
    cases s <;> cases d <;> first
      | exact hwf.elim
      | exact ⟨trivial, rfl, _, rfl, Or.inl rfl⟩
  | array s k =>
    cases s <;> cases d <;> first
      | exact hwf.elim
      | exact ⟨trivial, rfl, _, rfl, Or.inr ⟨_, rfl⟩⟩

/-- Operations on futures and state results come back from storage as they were, and nothing else
is loaded as one of them. -/
theorem C67_future_stored (op : FOp) (e : ExtOp) : fFrom e = some op ↔ e = fTo op := by
  constructor
  · intro h
    obtain ⟨x, n, as⟩ := e
    simp only [fFrom] at h
    by_cases hx : x = .futures
    · rw [if_pos hx] at h
      cases hf : fAll.find? (fun d => decide (fName d = n)) with
      | none => rw [hf] at h; simp at h
      | some d =>
        rw [hf] at h
        simp only [Option.bind_some] at h
        have hn := List.find?_some hf
        simp only [decide_eq_true_eq] at hn
        match as, h with
        | [.ty t], h =>
          simp only [fInst, Option.some.injEq] at h
          subst h
          simp [fTo, hx, hn]
    · rw [if_neg hx] at h; simp at h
  · rintro rfl
    rw [fFrom, if_pos (show (fTo op).ext = .futures from rfl)]
    change (fAll.find? (fun d' => decide (fName d' = fName op.op))).bind _ = _
    rw [fFind]
    rfl

/-- With its argument in place of the variable, reading a future of a type gives a value of it,
copying gives two such futures, and freeing gives nothing. -/
theorem C67_future_signature (t : Nat) :
    (fSig .read).subst (fTo ⟨.read, t⟩).args = some ([.fut t], [.ty t]) ∧
    (fSig .dup).subst (fTo ⟨.dup, t⟩).args = some ([.fut t], [.fut t, .fut t]) ∧
    (fSig .free).subst (fTo ⟨.free, t⟩).args = some ([.fut t], []) :=
  ⟨rfl, rfl, rfl⟩

/-- See `C67_future_stored`. -/
theorem C67_state_stored (op : SOp) (e : ExtOp) : sFrom e = some op ↔ e = sTo op := by
  constructor
  · intro h
    obtain ⟨x, n, as⟩ := e
    simp only [sFrom] at h
    by_cases hx : x = .debug ∧ n = "StateResult"
    · rw [if_pos hx] at h
      match as, h with
      | [.str t, .nat k], h =>
        simp only [Option.some.injEq] at h
        subst h
        simp [sTo, hx.1, hx.2]
    · rw [if_neg hx] at h; simp at h
  · rintro rfl
    simp [sFrom, sTo]

/-- Operations of classical computing come back from storage as they were, and nothing else, in
particular no operation of the other extension, is loaded as one of them. -/
theorem C67_compute_stored (x : Ext) (op : COp) (e : ExtOp) :
    cFrom x e = some op ↔ e = cTo x op := by
  constructor
  · intro h
    obtain ⟨y, n, as⟩ := e
    simp only [cFrom] at h
    by_cases hx : y = x
    · rw [if_pos hx] at h
      cases hf : cAll.find? (fun d => decide (cName d = n)) with
      | none => rw [hf] at h; simp at h
      | some d =>
        rw [hf] at h
        simp only [Option.bind_some] at h
        have hn := List.find?_some hf
        simp only [decide_eq_true_eq] at hn
        subst hx hn
        match d, as, h with
        | .getContext, [], h => simp [cInst] at h; subst h; rfl
        | .disposeContext, [], h => simp [cInst] at h; subst h; rfl
        | .lookupById, [.nat id, i, o], h =>
          simp only [cInst, Option.bind_eq_some_iff, Option.map_eq_some_iff] at h
          obtain ⟨i', hi, o', ho, rfl⟩ := h
          rw [toRow_inv hi, toRow_inv ho]
          rfl
        | .lookupByName, [.str id, i, o], h =>
          simp only [cInst, Option.bind_eq_some_iff, Option.map_eq_some_iff] at h
          obtain ⟨i', hi, o', ho, rfl⟩ := h
          rw [toRow_inv hi, toRow_inv ho]
          rfl
        | .call, [i, o], h =>
          simp only [cInst, Option.bind_eq_some_iff, Option.map_eq_some_iff] at h
          obtain ⟨i', ⟨i2, hi, hi2⟩, o', ⟨o2, ho, ho2⟩, rfl⟩ := h
          rw [toRow_inv hi, toRow_inv ho, closedRow_inv hi2, closedRow_inv ho2]
          rfl
        | .readResult, [o], h =>
          simp only [cInst, Option.bind_eq_some_iff, Option.map_eq_some_iff] at h
          obtain ⟨o', ⟨o2, ho, ho2⟩, rfl⟩ := h
          rw [toRow_inv ho, closedRow_inv ho2]
          rfl
    · rw [if_neg hx] at h; simp at h
  · rintro rfl
    rw [cFrom, if_pos (show (cTo x op).ext = x from rfl)]
    change (cAll.find? (fun d' => decide (cName d' = cName (cDef op)))).bind _ = _
    rw [cFind]
    cases op <;> simp [cTo, cDef, cInst, cArgs, toRow_ofRow, toRow_ofTypes, closedRow_map]

/-- With its arguments in place of the variables, the declared signature of an operation of
classical computing is the described one: what a lookup gives is what a call takes, what a call gives
is what reading takes. -/
theorem C67_compute_signature (op : COp) :
    substRow (cArgs op) (cSig (cDef op)).1 = some op.signature.1 ∧
    substRow (cArgs op) (cSig (cDef op)).2 = some op.signature.2 := by
  cases op <;> simp [cDef, cSig, cArgs, substRow, CPat.subst, rowAt, toRow_ofRow, toRow_ofTypes,
    COp.signature]

/-- Types of classical computing come back from storage as they were; another extension's types are
not taken for them. -/
theorem C67_type_stored (x y : Ext) (t : CTy) :
    tyFrom y (tyTo x t) = if x = y then some t else none := by
  by_cases h : x = y
  · subst h
    cases t <;> simp [tyTo, tyFrom, toRow_ofRow]
  · cases t <;> simp [tyTo, tyFrom, h]

/-! ### Examples -/

example : ROp.wf ⟨['a'], .arrInt, .array (.int 6) 3⟩ ∧
    byteWidth ⟨['a'], .arrInt, .array (.int 6) 3⟩ ∧
    rTo ⟨['a'], .arrInt, .array (.int 6) 3⟩ =
      ⟨.result, "result_array_int", [.str ['a'], .nat 3, .nat 6]⟩ :=
  ⟨trivial, (by decide : 6 < 256), rfl⟩

example : fit (rParams .arrInt) [.str ['a'], .nat 3, .nat 6] = true := by decide

example : cTo .wasm (.call [1, 2] [3]) = ⟨.wasm, "call",
    [.list [.elem (.ty 1), .elem (.ty 2)], .list [.elem (.ty 3)]]⟩ := rfl

/-- A call with a row variable is not loaded. -/
example : cFrom .wasm ⟨.wasm, "call", [.list [.elem (.rowVar 0)], .list []]⟩ = none := by
  decide +kernel

end Verif.ExtOps
