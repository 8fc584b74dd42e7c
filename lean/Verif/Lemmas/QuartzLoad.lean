import Verif.Lemmas.Quartz
import Mathlib.Data.List.Nodup
import Mathlib.Data.List.Count

namespace Verif.Quartz

open Tket

set_option linter.unusedSectionVars false

variable {R : Type} [Add R]

/-- The type of a value. -/
def Val.ty : Val R → Ty
  | .label _ => .qubit
  | .angle _ => .rot

/-- The qubits of the list get the outputs `k, k + 1, …` of the node `n`. -/
def setAll (n : Nat) : Nat → List Nat → List (Option Wire) → List (Option Wire)
  | _, [], ws => ws
  | k, i :: is, ws => setAll n (k + 1) is (ws.set i (some (.out n k)))

theorem drop_wires (as : List Wire) (ws : List (Option Wire)) : (as.map CUnit.wire).foldl drop ws = ws := by
  induction as with
  | nil => rfl
  | cons a as ih => exact ih

theorem assign_linear (n : Nat) (as : List Wire) : ∀ (is : List Nat) (k : Nat) (ws : List (Option Wire)),
    assign n k is.length (is.map CUnit.linear ++ as.map CUnit.wire) ws = (setAll n k is ws, [])
  | [], k, ws => by
    simp only [List.map_nil, List.nil_append, List.length_nil]
    unfold assign setAll
    rw [drop_wires]
  | i :: is, k, ws => by
    simp only [List.map_cons, List.cons_append, List.length_cons]
    unfold assign setAll
    exact assign_linear n as is (k + 1) _

theorem setAll_length (n : Nat) : ∀ (is : List Nat) (k : Nat) (ws : List (Option Wire)), (setAll n k is ws).length = ws.length
  | [], _, _ => rfl
  | i :: is, k, ws => by unfold setAll; rw [setAll_length n is]; simp

/-- No unit loses its wire. -/
theorem setAll_some (n : Nat) : ∀ (is : List Nat) (k : Nat) (ws : List (Option Wire)), none ∉ ws → none ∉ setAll n k is ws
  | [], _, _, h => h
  | i :: is, k, ws, h => by
    unfold setAll
    apply setAll_some n is
    intro hm
    rcases List.mem_or_eq_of_mem_set hm with h' | h'
    · exact h h'
    · cases h'

/-- The wires that were used are not there any more. -/
theorem setAll_count_old (n : Nat) (w : Wire) (hw : ∀ k, w ≠ .out n k) : ∀ (is : List Nat) (k : Nat) (ws : List (Option Wire)),
    is.Nodup → (∀ i ∈ is, i < ws.length) →
    (setAll n k is ws).count (some w) + (is.map (fun i => ws[i]?.join)).count (some w) = ws.count (some w)
  | [], _, _, _, _ => by simp [setAll]
  | i :: is, k, ws, hnd, hlt => by
    have hi : i < ws.length := hlt i List.mem_cons_self
    obtain ⟨h1, h2⟩ := List.nodup_cons.mp hnd
    have ih := setAll_count_old n w hw is (k + 1) (ws.set i (some (.out n k))) h2
      (fun j hj => by rw [List.length_set]; exact hlt j (List.mem_cons_of_mem _ hj))
    have e : is.map (fun j => (ws.set i (some (.out n k)))[j]?.join) = is.map (fun j => ws[j]?.join) := by
      apply List.map_congr_left
      intro j hj
      rw [List.getElem?_set_ne]
      rintro rfl
      exact h1 hj
    rw [e, List.count_set hi] at ih
    have hne : ((some (Wire.out n k) : Option Wire) == some w) = false := by
      rw [beq_eq_false_iff_ne]
      intro he
      exact hw k (Option.some.inj he).symm
    rw [hne] at ih
    unfold setAll
    rw [List.map_cons, List.count_cons, List.getElem?_eq_getElem hi]
    simp only [Option.join_some]
    have hpos : (if ws[i] == some w then 1 else 0) ≤ ws.count (some w) := by
      split
      · rename_i hb
        rw [beq_iff_eq] at hb
        exact List.count_pos_iff.mpr (hb ▸ List.getElem_mem hi)
      · exact Nat.zero_le _
    simp only [Bool.false_eq_true, if_false] at ih
    omega

/-- The new wires. -/
theorem setAll_count_new (n j : Nat) : ∀ (is : List Nat) (k : Nat) (ws : List (Option Wire)),
    is.Nodup → (∀ i ∈ is, i < ws.length) → (∀ i ∈ is, ws[i]? ≠ some (some (.out n j))) →
    (setAll n k is ws).count (some (.out n j)) = ws.count (some (.out n j)) + if k ≤ j ∧ j < k + is.length then 1 else 0
  | [], _, _, _, _, _ => by
    simp only [setAll, List.length_nil]
    rw [if_neg (by omega)]
    rfl
  | i :: is, k, ws, hnd, hlt, hne => by
    have hi : i < ws.length := hlt i List.mem_cons_self
    obtain ⟨h1, h2⟩ := List.nodup_cons.mp hnd
    unfold setAll
    rw [setAll_count_new n j is (k + 1) _ h2 (fun j hj => by rw [List.length_set]; exact hlt j (List.mem_cons_of_mem _ hj))
      (fun a ha => by
        rw [List.getElem?_set_ne (show i ≠ a from fun e => h1 (e ▸ ha))]
        exact hne a (List.mem_cons_of_mem _ ha)), List.count_set hi]
    have hb : (ws[i] == some (Wire.out n j)) = false := by
      rw [beq_eq_false_iff_ne]
      intro he
      have := hne i List.mem_cons_self
      rw [List.getElem?_eq_getElem hi] at this
      exact this (congrArg some he)
    rw [hb]
    simp only [Bool.false_eq_true, if_false, List.length_cons, Nat.sub_zero]
    by_cases hkj : k = j
    · subst hkj
      rw [if_pos (by simp), if_neg (by omega), if_pos (by omega)]
    · rw [if_neg (by simpa using hkj)]
      by_cases h : k + 1 ≤ j ∧ j < k + 1 + is.length
      · rw [if_pos h, if_pos (by omega)]
      · rw [if_neg h, if_neg (by omega)]

/-! ### Types -/

theorem wireTy_append {a b : Nat} {ns : List (GOp × List Wire)} {e : GOp × List Wire} {w : Wire} {t : Ty}
    (h : wireTy a b ns w = some t) : wireTy a b (ns ++ [e]) w = some t := by
  cases w with
  | inp i => exact h
  | out n k =>
    simp only [wireTy, Option.bind_eq_some_iff] at h ⊢
    obtain ⟨x, h1, h2⟩ := h
    exact ⟨x, by rw [List.getElem?_append_left (List.getElem?_eq_some_iff.mp h1).1]; exact h1, h2⟩

theorem wireTy_new {a b : Nat} {ns : List (GOp × List Wire)} {e : GOp × List Wire} {w : Wire} {t : Ty}
    (h : wireTy a b (ns ++ [e]) w = some t) : wireTy a b ns w = some t ∨ ∃ k : Nat, w = .out ns.length k ∧ e.1.outs[k]? = some t := by
  cases w with
  | inp i => exact .inl h
  | out n k =>
    simp only [wireTy, Option.bind_eq_some_iff] at h ⊢
    obtain ⟨x, h1, h2⟩ := h
    by_cases hn : n < ns.length
    · rw [List.getElem?_append_left hn] at h1
      exact .inl ⟨x, h1, h2⟩
    · have : n = ns.length := by
        have := (List.getElem?_eq_some_iff.mp h1).1
        simp at this
        omega
      subst this
      simp at h1
      subst h1
      exact .inr ⟨k, rfl, h2⟩

theorem wireTy_fresh (a b : Nat) (ns : List (GOp × List Wire)) (k : Nat) : wireTy a b ns (.out ns.length k) = none := by
  simp [wireTy]

/-- The state of the loader, the circuit of the file and the graph so far agree. -/
structure Inv (d : Data) (θ : Nat → R) (st : St) (qs : QSt R) (gs : GSt R) : Prop extends Inv1 d θ st gs where
  acts : gs.acts = qs.acts
  full : none ∉ st.wires
  labels : ∀ x l, qs.env x = some (.label l) → x = .q l ∧ l < d.nQb ∧ st.units x = some (.linear l)
  angles : ∀ x a, qs.env x = some (.angle a) → ∃ w, st.units x = some (.wire w) ∧ gs.env w = some (.angle a)
  home : ∀ i < d.nQb, qs.env (.q i) = some (.label i)
  ty : ∀ w v, gs.env w = some v → wireTy d.nQb d.nParam st.nodes w = some v.ty
  typed : ∀ e ∈ st.nodes, e.2.map (wireTy d.nQb d.nParam st.nodes) = e.1.ins.map some
  once : ∀ w, wireTy d.nQb d.nParam st.nodes w = some .qubit →
    (st.nodes.flatMap (·.2)).count w + st.wires.count (Option.some w) = 1

theorem Inv.init (d : Data) (θ : Nat → R) : Inv d θ (init d) (qInit d θ) (gInit d.nQb d.nParam θ) where
  toInv1 := Inv1.init d θ
  acts := rfl
  full := by simp [Quartz.init]
  labels x l h := by
    cases x with
    | q i =>
      simp only [qInit] at h
      split at h
      · rename_i hi
        cases h
        exact ⟨rfl, hi, by simp [Quartz.init, hi]⟩
      · cases h
    | p i => simp only [qInit] at h; split at h <;> cases h
    | other s => cases h
  angles x a h := by
    cases x with
    | q i => simp only [qInit] at h; split at h <;> cases h
    | p i =>
      simp only [qInit] at h
      split at h
      · rename_i hi
        cases h
        refine ⟨.inp (d.nQb + i), by simp [Quartz.init, hi], ?_⟩
        simp [gInit, hi]
      · cases h
    | other s => cases h
  home i hi := by simp [qInit, hi]
  ty w v h := by
    cases w with
    | inp i =>
      simp only [gInit] at h
      split at h
      · rename_i hi
        cases h
        simp [wireTy, hi, Val.ty]
      · rename_i hi
        split at h
        · rename_i hj
          cases h
          simp [wireTy, hi, hj, Val.ty]
        · cases h
    | out n k => cases h
  typed e he := by cases he
  once w h := by
    cases w with
    | inp i =>
      have hi : i < d.nQb := by
        simp only [wireTy] at h
        split at h
        · assumption
        · split at h <;> cases h
      have : ((List.range d.nQb).map (fun i => Option.some (Wire.inp i))).Nodup := by
        refine List.Nodup.map ?_ List.nodup_range
        intro a b e
        cases e
        rfl
      simp only [Quartz.init, List.flatMap_nil, List.count_nil, Nat.zero_add]
      exact List.count_eq_one_of_mem this (List.mem_map.mpr ⟨i, List.mem_range.mpr hi, rfl⟩)
    | out n k => simp [wireTy, Quartz.init] at h

/-- The inputs of a command are found by the loader. -/
theorem Inv.inputs {d : Data} {θ : Nat → R} {st : St} {qs : QSt R} {gs : GSt R} (hi : Inv d θ st qs gs) :
    ∀ {xs : List Name} {vs : List (Val R)}, xs.mapM qs.env = .some vs →
      ∃ us ins, xs.mapM st.units = .some us ∧ us.mapM (resolve st.wires) = .some ins ∧ ins.mapM gs.env = .some vs ∧
        ins.map (wireTy d.nQb d.nParam st.nodes) = vs.map (fun v => .some v.ty) := by
  intro xs
  induction xs with
  | nil =>
    intro vs h
    cases h
    exact ⟨[], [], rfl, rfl, rfl, rfl⟩
  | cons x xs ih =>
    intro vs h
    obtain ⟨v, vs', h1, h2, rfl⟩ := mapM_cons'.mp h
    obtain ⟨us, ins, i1, i2, i3, i4⟩ := ih h2
    cases v with
    | label l =>
      obtain ⟨-, hl, hu⟩ := hi.labels x l h1
      have hlt : l < st.wires.length := by rw [hi.len]; exact hl
      cases hw : st.wires[l] with
      | none => exact absurd (hw ▸ List.getElem_mem hlt) hi.full
      | some w =>
        have hw' : st.wires[l]? = .some (.some w) := by rw [List.getElem?_eq_getElem hlt, hw]
        refine ⟨.linear l :: us, w :: ins, mapM_cons'.mpr ⟨_, _, hu, i1, rfl⟩, mapM_cons'.mpr ⟨_, _, ?_, i2, rfl⟩,
          mapM_cons'.mpr ⟨_, _, hi.wires l w hw', i3, rfl⟩, ?_⟩
        · simp [resolve, hw']
        · rw [List.map_cons, List.map_cons, i4, hi.ty w _ (hi.wires l w hw')]
    | angle a =>
      obtain ⟨w, hu, he⟩ := hi.angles x a h1
      refine ⟨.wire w :: us, w :: ins, mapM_cons'.mpr ⟨_, _, hu, i1, rfl⟩, mapM_cons'.mpr ⟨_, _, rfl, i2, rfl⟩,
        mapM_cons'.mpr ⟨_, _, he, i3, rfl⟩, ?_⟩
      rw [List.map_cons, List.map_cons, i4, hi.ty w _ he]

theorem Inv.inputs_append {d : Data} {θ : Nat → R} {st : St} {qs : QSt R} {gs : GSt R} (hi : Inv d θ st qs gs) {as : List R} :
    ∀ {ls : List Nat} {xs : List Name} {us : List CUnit}, xs.mapM qs.env = .some (ls.map .label ++ as.map .angle) → xs.mapM st.units = .some us →
      xs.take ls.length = ls.map .q ∧ (∀ l ∈ ls, l < d.nQb) ∧ ∃ ws : List Wire, us = ls.map .linear ++ ws.map .wire
  | [], xs, us, h, hu => by
    refine ⟨by simp, by simp, ?_⟩
    induction xs generalizing as us with
    | nil => cases hu; exact ⟨[], rfl⟩
    | cons x xs ih =>
      obtain ⟨v, vs', h1, h2, e⟩ := mapM_cons'.mp h
      obtain ⟨u, us', u1, u2, rfl⟩ := mapM_cons'.mp hu
      cases as with
      | nil => cases e
      | cons a as =>
        simp only [List.map_nil, List.nil_append, List.map_cons, List.cons.injEq] at e
        obtain ⟨rfl, e⟩ := e
        obtain ⟨w, hw, -⟩ := hi.angles x a h1
        rw [hw] at u1
        cases u1
        obtain ⟨ws, ew⟩ := ih (as := as) _ (by rw [h2, ← e]; rfl) u2
        exact ⟨w :: ws, by rw [ew]; rfl⟩
  | l :: ls, xs, us, h, hu => by
    cases xs with
    | nil => cases h
    | cons x xs =>
      obtain ⟨v, vs', h1, h2, e⟩ := mapM_cons'.mp h
      obtain ⟨u, us', u1, u2, rfl⟩ := mapM_cons'.mp hu
      simp only [List.map_cons, List.cons_append, List.cons.injEq] at e
      obtain ⟨rfl, e⟩ := e
      obtain ⟨hx, hl, hu'⟩ := hi.labels x l h1
      rw [hu'] at u1
      cases u1
      obtain ⟨i1, i2, ws, i3⟩ := hi.inputs_append (as := as) (ls := ls) (by rw [h2, ← e]) u2
      refine ⟨by simp [i1, hx], ?_, ws, by rw [i3]; rfl⟩
      intro l' hl'
      rcases List.mem_cons.mp hl' with rfl | h
      · exact hl
      · exact i2 l' h

/-! ### Names -/

/-- Qubits that keep their names. -/
theorem define_back {env : Name → Option (Val R)} : ∀ {xs : List Name} {vs : List (Val R)} {f : Name → Option (Val R)},
    xs.mapM env = some vs → xs.Nodup → (∀ y ∈ xs, f y = none) → (∀ y, y ∉ xs → f y = env y) →
    (xs.zip vs).foldlM define f = some env
  | [], vs, f, h, _, _, hf => by
    have : f = env := funext (fun y => hf y List.not_mem_nil)
    rw [this]
    rfl
  | x :: xs, vs, f, h, hnd, h0, hf => by
    obtain ⟨v, vs', h1, h2, rfl⟩ := mapM_cons'.mp h
    obtain ⟨n1, n2⟩ := List.nodup_cons.mp hnd
    rw [List.zip_cons_cons, List.foldlM_cons]
    have : define f (x, v) = some (insert f x v) := by
      simp only [define, h0 x List.mem_cons_self]
    rw [this]
    refine define_back (f := insert f x v) h2 n2 (fun y hy => ?_) (fun y hy => ?_)
    · simp only [insert]
      rw [if_neg (by rintro rfl; exact n1 hy)]
      exact h0 y (List.mem_cons_of_mem _ hy)
    · simp only [insert]
      split
      · rename_i e
        rw [e, h1]
      · rename_i e
        exact hf y (by simp [e, hy])

theorem mapM_take {α β : Type} {f : α → Option β} {xs : List α} {r : List β} (h : xs.mapM f = some r) (n : Nat) :
    (xs.take n).mapM f = some (r.take n) := by
  apply mapM_of_get
  · simp [mapM_length h]
  · intro k
    by_cases hk : k < n
    · rw [List.getElem?_take_of_lt hk, List.getElem?_take_of_lt hk]
      exact mapM_get h k
    · rw [List.getElem?_eq_none (by simp; omega), List.getElem?_eq_none (l := xs.take n) (by simp; omega)]
      rfl

/-! ### Commands -/

theorem cmdStep_some {s s' : QSt R} {c : Cmd} (h : cmdStep s c = some s') :
    ∃ op vs r env, quartzNames.lookup c.op = some op ∧ c.inputs.mapM s.env = some vs ∧ apply op vs = some r ∧
      c.outputs.length = r.2.length ∧ (c.outputs.zip r.2).foldlM define (consume s.env c.inputs) = some env ∧
      s' = ⟨env, s.acts ++ r.1⟩ := by
  unfold cmdStep at h
  simp only [Option.bind_eq_bind, Option.bind_eq_some_iff] at h
  obtain ⟨op, h1, vs, h2, r, h3, h4⟩ := h
  by_cases hc : c.outputs.length = r.2.length
  · rw [if_pos hc] at h4
    simp only [Option.bind_eq_some_iff] at h4
    obtain ⟨env, h5, h6⟩ := h4
    exact ⟨op, vs, r, env, h1, h2, h3, hc, h5, (Option.some.inj h6).symm⟩
  · rw [if_neg hc] at h4
    cases h4

/-- The inputs of an operation have the types of its signature. -/
theorem apply_ins {op : GOp} {vs : List (Val R)} {r : List (Act R) × List (Val R)} (h : apply op vs = some r) :
    vs.map Val.ty = op.ins ∧ r.2.map Val.ty = op.outs := by
  cases op with
  | gate g =>
    obtain ⟨qs, as, rfl, -, hq, ha, rfl⟩ := apply_gate h
    have e1 : ∀ l : List Nat, (l.map (Val.label (R := R))).map Val.ty = List.replicate l.length .qubit := by
      intro l
      induction l with
      | nil => rfl
      | cons a l ih => simp only [List.map_cons, ih, List.length_cons, List.replicate_succ]; rfl
    refine ⟨?_, by simp only [e1, GOp.outs, hq]⟩
    simp only [List.map_append, e1, GOp.ins, hq]
    congr 1
    split at ha
    · obtain ⟨a, rfl⟩ := List.length_eq_one_iff.mp ha
      rw [if_pos (by assumption)]
      rfl
    · rw [List.length_eq_zero_iff.mp ha, if_neg (by assumption)]
      rfl
  | radd =>
    obtain ⟨a, b, rfl, rfl⟩ := apply_radd h
    exact ⟨rfl, rfl⟩

theorem setOuts_ty {d : Data} {θ : Nat → R} {st : St} {qs : QSt R} {gs : GSt R} (hi : Inv d θ st qs gs) {op : GOp} {ins : List Wire}
    {vs : List (Val R)} {r : List (Act R) × List (Val R)} (h : apply op vs = .some r) (w : Wire) (v : Val R)
    (hw : setOuts gs.env gs.n r.2 w = .some v) : wireTy d.nQb d.nParam (st.nodes ++ [(op, ins)]) w = .some v.ty := by
  cases w with
  | inp i => exact hi.ty (.inp i) v hw
  | out m k =>
    by_cases e : m = gs.n
    · simp only [setOuts, if_pos e] at hw
      rw [e, hi.n]
      simp only [wireTy, List.getElem?_append_right (Nat.le_refl _), Nat.sub_self, List.getElem?_cons_zero, Option.bind_some]
      rw [← (apply_ins h).2, List.getElem?_map, hw]
      rfl
    · simp only [setOuts, if_neg e] at hw
      exact wireTy_append (hi.ty _ _ hw)

/-- A command of a circuit that keeps the names of its qubits. -/
theorem Inv.step {d : Data} {θ : Nat → R} {st : St} {qs qs' : QSt R} {gs : GSt R} {c : Cmd} (hi : Inv d θ st qs gs)
    (hk : ∀ g, quartzNames.lookup c.op = .some (.gate g) → c.outputs = c.inputs.take g.qubits) (hq : cmdStep qs c = .some qs') :
    ∃ st' gs', Quartz.step st c = .some st' ∧ Inv d θ st' qs' gs' := by
  obtain ⟨op, vs, r, env, h1, h2, h3, h4, h5, rfl⟩ := cmdStep_some hq
  obtain ⟨us, ins, i1, i2, i3, i4⟩ := hi.inputs h2
  have hnode : nodeStep gs (op, ins) = .some ⟨gs.n + 1, setOuts gs.env gs.n r.2, gs.acts ++ r.1⟩ := by
    unfold nodeStep
    simp only [i3, h3, Option.bind_eq_bind, Option.bind_some]
  have hrun : (st.nodes ++ [(op, ins)]).foldlM nodeStep (gInit d.nQb d.nParam θ) =
      .some ⟨gs.n + 1, setOuts gs.env gs.n r.2, gs.acts ++ r.1⟩ := by
    rw [List.foldlM_append, hi.run]
    simpa using hnode
  have hs : ∃ st', Quartz.step st c = .some st' := by
    unfold Quartz.step append
    rw [mapOp_eq, h1]
    simp [i1, i2]
  obtain ⟨st', hs⟩ := hs
  have hi1 : Inv1 d θ st' ⟨gs.n + 1, setOuts gs.env gs.n r.2, gs.acts ++ r.1⟩ := by
    refine hi.toInv1.step hs ?_
    obtain ⟨op', us', ins', e1, e2, e3, rfl⟩ := step_some hs
    rw [mapOp_eq, h1] at e1
    cases e1
    rw [i1] at e2
    cases e2
    rw [i2] at e3
    cases e3
    exact hrun
  refine ⟨st', ⟨gs.n + 1, setOuts gs.env gs.n r.2, gs.acts ++ r.1⟩, hs, ?_⟩
  obtain ⟨op', us', ins', e1, e2, e3, hst⟩ := step_some hs
  rw [mapOp_eq, h1] at e1
  cases e1
  rw [i1] at e2
  cases e2
  rw [i2] at e3
  cases e3
  have htyped : ∀ e ∈ st.nodes ++ [(op, ins)], e.2.map (wireTy d.nQb d.nParam (st.nodes ++ [(op, ins)])) = e.1.ins.map Option.some := by
    have hmono : ∀ (ws : List Wire) (ts : List Ty), ws.map (wireTy d.nQb d.nParam st.nodes) = ts.map Option.some →
        ws.map (wireTy d.nQb d.nParam (st.nodes ++ [(op, ins)])) = ts.map Option.some := by
      intro ws
      induction ws with
      | nil => intro ts h; exact h
      | cons w ws ih =>
        intro ts h
        cases ts with
        | nil => cases h
        | cons t ts =>
          simp only [List.map_cons, List.cons.injEq] at h ⊢
          exact ⟨wireTy_append h.1, ih ts h.2⟩
    intro e he
    rcases List.mem_append.mp he with he | he
    · exact hmono _ _ (hi.typed e he)
    · rw [List.mem_singleton.mp he]
      refine hmono _ _ ?_
      simp only
      rw [i4, ← (apply_ins h3).1, List.map_map]
      rfl
  -- wires that do not exist are not used
  have hused : ∀ w, wireTy d.nQb d.nParam st.nodes w = none → (st.nodes.flatMap (·.2)).count w = 0 := by
    intro w hw
    rw [List.count_eq_zero]
    intro hm
    obtain ⟨e, he, hwe⟩ := List.mem_flatMap.mp hm
    have : wireTy d.nQb d.nParam st.nodes w ∈ e.1.ins.map Option.some := by
      rw [← hi.typed e he]
      exact List.mem_map.mpr ⟨w, hwe, rfl⟩
    rw [hw] at this
    obtain ⟨t, -, h⟩ := List.mem_map.mp this
    cases h
  have hheld : ∀ w, wireTy d.nQb d.nParam st.nodes w = none → st.wires.count (Option.some w) = 0 := by
    intro w hw
    rw [List.count_eq_zero]
    intro hm
    obtain ⟨i, hlt, e⟩ := List.getElem_of_mem hm
    have := hi.ty w _ (hi.wires i w (by rw [List.getElem?_eq_getElem hlt, e]))
    rw [hw] at this
    cases this
  have hins : ∀ w, wireTy d.nQb d.nParam st.nodes w = none → ins.count w = 0 := by
    intro w hw
    rw [List.count_eq_zero]
    intro hm
    have : wireTy d.nQb d.nParam st.nodes w ∈ vs.map (fun v => Option.some v.ty) := by
      rw [← i4]
      exact List.mem_map.mpr ⟨w, hm, rfl⟩
    rw [hw] at this
    obtain ⟨t, -, h⟩ := List.mem_map.mp this
    cases h
  cases op with
  | gate g =>
    obtain ⟨ls, as, rfl, hnd, hlen, has, rfl⟩ := apply_gate h3
    obtain ⟨n1, n2, ws, rfl⟩ := hi.inputs_append h2 i1
    have ho : c.outputs = ls.map .q := by rw [hk g h1, ← hlen, n1]
    have hassign : assign st.nodes.length 0 (GOp.gate g).outs.length (ls.map .linear ++ ws.map .wire) st.wires =
        (setAll st.nodes.length 0 ls st.wires, []) := by
      have : (GOp.gate g).outs.length = ls.length := by simp [GOp.outs, hlen]
      rw [this]
      exact assign_linear _ ws ls 0 st.wires
    rw [hassign] at hst
    simp only [List.zip_nil_right, List.foldl_nil] at hst
    have hnames : (ls.map Name.q).Nodup := hnd.map (fun a b e => by cases e; rfl)
    have henv : env = qs.env := by
      have hback : (c.outputs.zip (ls.map Val.label)).foldlM define (consume qs.env c.inputs) = .some qs.env := by
        rw [ho]
        have hm : (ls.map Name.q).mapM qs.env = .some (ls.map Val.label) := by
          have := mapM_take h2 ls.length
          rw [n1] at this
          simpa using this
        refine define_back hm hnames (fun y hy => ?_) (fun y hy => ?_)
        · obtain ⟨l, hl, rfl⟩ := List.mem_map.mp hy
          have he := hi.home l (n2 l hl)
          have hin : Name.q l ∈ c.inputs := by
            rw [← n1] at hy
            exact List.mem_of_mem_take hy
          simp only [consume, he, if_pos hin]
        · unfold consume
          split
          · rename_i l he
            rw [if_neg, he]
            intro hin
            obtain ⟨rfl, -, -⟩ := hi.labels y l he
            apply hy
            -- the inputs that hold qubits come first
            obtain ⟨j, hj, ej⟩ := List.getElem_of_mem hin
            have hv := mapM_get h2 j
            rw [List.getElem?_eq_getElem hj, ej, Option.bind_some, he] at hv
            by_cases hlt : j < ls.length
            · rw [← n1]
              have : (c.inputs.take ls.length)[j]? = .some (Name.q l) := by
                rw [List.getElem?_take_of_lt hlt, List.getElem?_eq_getElem hj, ej]
              exact List.mem_of_getElem? this
            · rw [List.getElem?_append_right (by simpa using hlt), List.getElem?_map] at hv
              simp at hv
          · rfl
      rw [hback] at h5
      exact (Option.some.inj h5).symm
    subst henv
    subst hst
    have hins_q : ∀ w, wireTy d.nQb d.nParam st.nodes w = .some .qubit →
        ins.count w = (ls.map (fun i => st.wires[i]?.join)).count (Option.some w) := by
      intro w hw
      -- the first inputs are the wires of the qubits, the others are angles
      have hsplit : ins.map Option.some = ls.map (fun i => st.wires[i]?.join) ++ ws.map Option.some := by
        have aux : ∀ (us : List CUnit) (xs : List Wire), us.mapM (resolve st.wires) = .some xs → xs.map Option.some = us.map (resolve st.wires) := by
          intro us
          induction us with
          | nil => intro xs h; cases h; rfl
          | cons u us ih =>
            intro xs h
            obtain ⟨y, ys, a1, a2, rfl⟩ := mapM_cons'.mp h
            simp only [List.map_cons, a1, ih ys a2]
        rw [aux _ _ i2, List.map_append, List.map_map, List.map_map]
        rfl
      have hc : ins.count w = (ins.map Option.some).count (Option.some w) :=
        (List.count_map_of_injective ins Option.some (fun a b e => Option.some.inj e) w).symm
      rw [hc, hsplit, List.count_append]
      have : (ws.map Option.some).count (Option.some w) = 0 := by
        rw [List.count_eq_zero]
        intro hm
        obtain ⟨w', hw', e⟩ := List.mem_map.mp hm
        cases e
        -- a wire of an angle
        have hl : ins.drop ls.length = ws := by
          have := congrArg (List.drop ls.length) hsplit
          rw [← List.map_drop] at this
          rw [List.drop_left' (by simp)] at this
          exact List.map_injective_iff.mpr (fun a b e => Option.some.inj e) this
        have ht := congrArg (List.drop ls.length) i4
        rw [← List.map_drop, hl, List.map_append, List.drop_left' (by simp)] at ht
        have : wireTy d.nQb d.nParam st.nodes w ∈ List.map (fun v => Option.some (Val.ty v)) (as.map (Val.angle (R := R))) := by
          rw [← ht]
          exact List.mem_map.mpr ⟨w, hw', rfl⟩
        rw [hw, List.map_map] at this
        obtain ⟨a, -, e⟩ := List.mem_map.mp this
        cases e
      omega
    refine ⟨hi1, by simp [hi.acts], setAll_some _ _ _ _ hi.full, hi.labels, ?_, hi.home, ?_, htyped, ?_⟩
    · intro x a hx
      obtain ⟨w, hw1, hw2⟩ := hi.angles x a hx
      exact ⟨w, hw1, setOuts_old hi.fresh hw2 _⟩
    · exact fun w v hw => setOuts_ty hi h3 w v hw
    · intro w hw
      simp only [List.flatMap_append, List.flatMap_cons, List.flatMap_nil, List.append_nil, List.count_append]
      have hlt : ∀ i ∈ ls, i < st.wires.length := fun i hl => by rw [hi.len]; exact n2 i hl
      rcases wireTy_new hw with hw | ⟨k, rfl, ht⟩
      · have hne : ∀ k, w ≠ .out st.nodes.length k := by
          rintro k rfl
          rw [wireTy_fresh] at hw
          cases hw
        have a1 := hi.once w hw
        have a2 := setAll_count_old st.nodes.length w hne ls 0 st.wires hnd hlt
        rw [hins_q w hw]
        omega
      · have hz := wireTy_fresh d.nQb d.nParam st.nodes k
        rw [hused _ hz, hins _ hz, setAll_count_new st.nodes.length k ls 0 st.wires hnd hlt, hheld _ hz]
        · have hk : k < ls.length := by
            have := (List.getElem?_eq_some_iff.mp ht).1
            simpa [GOp.outs, hlen] using this
          rw [if_pos ⟨Nat.zero_le _, by omega⟩]
        · intro i hl he
          have := hi.ty _ _ (hi.wires i _ he)
          rw [hz] at this
          cases this
  | radd =>
    obtain ⟨a, b, rfl, rfl⟩ := apply_radd h3
    obtain ⟨-, -, ws, hws⟩ := hi.inputs_append (ls := []) (as := [a, b]) h2 i1
    simp only [List.map_nil, List.nil_append] at hws
    subst hws
    obtain ⟨o, ho⟩ := List.length_eq_one_iff.mp h4
    have hwlen : ws.length = 2 := by
      have a1 := mapM_length i1
      have a2 := mapM_length h2
      simp at a1 a2
      omega
    have hassign : assign st.nodes.length 0 GOp.radd.outs.length (ws.map .wire) st.wires = (st.wires, [.out st.nodes.length 0]) := by
      match ws, hwlen with
      | [w1, w2], _ => rfl
    rw [hassign, ho] at hst
    simp only [List.zip_cons_cons, List.zip_nil_right, List.foldl_cons, List.foldl_nil] at hst
    have hcons : consume qs.env c.inputs = qs.env := by
      funext y
      unfold consume
      split
      · rename_i l he
        rw [if_neg, he]
        intro hin
        obtain ⟨j, hj, ej⟩ := List.getElem_of_mem hin
        have hv := mapM_get h2 j
        rw [List.getElem?_eq_getElem hj, ej, Option.bind_some, he] at hv
        match j with
        | 0 => cases hv
        | 1 => cases hv
        | j + 2 => simp at hv
      · rfl
    rw [ho, hcons] at h5
    simp only [List.zip_cons_cons, List.zip_nil_right, List.foldlM_cons, List.foldlM_nil] at h5
    have hlive : ∀ l, qs.env o ≠ .some (.label l) := by
      intro l he
      simp [define, he] at h5
    have henv : env = insert qs.env o (.angle (a + b)) := by
      cases he : qs.env o with
      | none => simpa [define, he, eq_comm] using h5
      | some v =>
        cases v with
        | label l => exact absurd he (hlive l)
        | angle x => simpa [define, he, eq_comm] using h5
    subst henv
    subst hst
    refine ⟨hi1, by simp [hi.acts], hi.full, ?_, ?_, ?_, ?_, htyped, ?_⟩
    · intro x l hx
      simp only [insert] at hx ⊢
      split at hx
      · cases hx
      · rename_i hne
        rw [if_neg hne]
        exact hi.labels x l hx
    · intro x v hx
      simp only [insert] at hx ⊢
      split at hx
      · rename_i e
        rw [if_pos e]
        refine ⟨_, rfl, ?_⟩
        simp only [setOuts, hi.n, if_true]
        cases hx
        rfl
      · rename_i hne
        rw [if_neg hne]
        obtain ⟨w, hw1, hw2⟩ := hi.angles x v hx
        exact ⟨w, hw1, setOuts_old hi.fresh hw2 _⟩
    · intro i hlt
      simp only [insert]
      rw [if_neg]
      · exact hi.home i hlt
      · rintro rfl
        exact hlive i (hi.home i hlt)
    · exact fun w v hw => setOuts_ty hi h3 w v hw
    · intro w hw
      simp only [List.flatMap_append, List.flatMap_cons, List.flatMap_nil, List.append_nil, List.count_append]
      rcases wireTy_new hw with hw | ⟨k, rfl, ht⟩
      · have : ins.count w = 0 := by
          rw [List.count_eq_zero]
          intro hm
          have : wireTy d.nQb d.nParam st.nodes w ∈ List.map (fun v => Option.some (Val.ty v)) [Val.angle a, Val.angle b] := by
            rw [← i4]
            exact List.mem_map.mpr ⟨w, hm, rfl⟩
          rw [hw] at this
          simp [Val.ty] at this
        have := hi.once w hw
        omega
      · match k with
        | 0 => cases ht
        | k + 1 => cases ht

theorem Inv.all {d : Data} {θ : Nat → R} : ∀ (cs : List Cmd) {st : St} {qs qs' : QSt R} {gs : GSt R}, Inv d θ st qs gs →
    (∀ c ∈ cs, ∀ g, quartzNames.lookup c.op = .some (.gate g) → c.outputs = c.inputs.take g.qubits) →
    cs.foldlM cmdStep qs = .some qs' → ∃ st' gs', cs.foldlM Quartz.step st = .some st' ∧ Inv d θ st' qs' gs'
  | [], st, qs, qs', gs, hi, _, h => by
    cases h
    exact ⟨st, gs, rfl, hi⟩
  | c :: cs, st, qs, qs', gs, hi, hk, h => by
    rw [List.foldlM_cons] at h
    simp only [Option.bind_eq_bind, Option.bind_eq_some_iff] at h
    obtain ⟨q1, h1, h2⟩ := h
    obtain ⟨st1, gs1, h3, h4⟩ := hi.step (hk c List.mem_cons_self) h1
    obtain ⟨st', gs', h5, h6⟩ := h4.all cs (fun c' hc' => hk c' (List.mem_cons_of_mem _ hc')) h2
    refine ⟨st', gs', ?_, h6⟩
    rw [List.foldlM_cons, h3]
    exact h5

theorem mem_qubitWires {g : Graph} {w : Wire} (h : w ∈ g.qubitWires) : wireTy g.nQb g.nParam g.nodes w = some .qubit := by
  unfold Graph.qubitWires at h
  rcases List.mem_append.mp h with h | h
  · obtain ⟨i, hi, rfl⟩ := List.mem_map.mp h
    simp [wireTy, List.mem_range.mp hi]
  · obtain ⟨n, hn, h⟩ := List.mem_flatMap.mp h
    split at h
    · rename_i e he
      obtain ⟨k, hk, h⟩ := List.mem_filterMap.mp h
      split at h
      · rename_i ht
        cases h
        simp only [wireTy, he, Option.bind_some]
        exact ht
      · cases h
    · cases h

/-- Where all wires are there. -/
theorem filterMap_full {ws : List (Option Wire)} (h : none ∉ ws) : (ws.filterMap id).map Option.some = ws := by
  induction ws with
  | nil => rfl
  | cons w ws ih =>
    cases w with
    | none => simp at h
    | some w =>
      have e : (some w :: ws).filterMap id = w :: ws.filterMap id := rfl
      rw [e, List.map_cons, ih (fun hm => h (List.mem_cons_of_mem _ hm))]

theorem filterMap_get {ws : List (Option Wire)} (h : none ∉ ws) {k : Nat} {w : Wire} (hk : (ws.filterMap id)[k]? = some w) :
    ws[k]? = some (some w) := by
  have e := filterMap_full h
  rw [← e, List.getElem?_map, hk]
  rfl

/-- The labels at the end. -/
theorem Inv1.outs {d : Data} {θ : Nat → R} {st : St} {gs : GSt R} (hi : Inv1 d θ st gs) (h : none ∉ st.wires) :
    (st.wires.filterMap id).mapM gs.env = some ((List.range d.nQb).map .label) := by
  have hl : (st.wires.filterMap id).length = d.nQb := by
    rw [← hi.len]
    have := congrArg List.length (filterMap_full h)
    simpa using this
  apply mapM_of_get
  · rw [hl]
    simp
  · intro k
    by_cases hk : k < d.nQb
    · have hk' : k < (st.wires.filterMap id).length := by rw [hl]; exact hk
      rw [List.getElem?_eq_getElem hk']
      have := hi.wires k _ (filterMap_get h (List.getElem?_eq_getElem hk'))
      rw [Option.bind_some, this]
      simp [hk]
    · rw [List.getElem?_eq_none (l := st.wires.filterMap id) (by rw [hl]; omega), List.getElem?_eq_none (by simp; omega)]
      rfl

theorem mapM_label (ls : List Nat) : (ls.map (Val.label (R := R))).mapM Val.label? = some ls := by
  induction ls with
  | nil => rfl
  | cons l ls ih => exact mapM_cons'.mpr ⟨l, ls, rfl, ih, rfl⟩

end Verif.Quartz
