import Verif.Model.QuartzSpec
import Mathlib.Data.List.Induction

namespace Verif.Quartz

open Tket

set_option linter.unusedSectionVars false

variable {R : Type} [Add R]

/-! ### Lists -/

theorem mapM_nil' {α β : Type} (f : α → Option β) : [].mapM f = some [] := rfl

theorem mapM_cons' {α β : Type} {f : α → Option β} {x : α} {xs : List α} {r : List β} :
    (x :: xs).mapM f = some r ↔ ∃ y ys, f x = some y ∧ xs.mapM f = some ys ∧ r = y :: ys := by
  rw [List.mapM_cons]
  cases h : f x with
  | none => simp
  | some y =>
    cases h2 : xs.mapM f with
    | none => simp
    | some ys => simp [eq_comm]

theorem mapM_length {α β : Type} {f : α → Option β} : ∀ {xs : List α} {r : List β}, xs.mapM f = some r → r.length = xs.length
  | [], r, h => by cases h; rfl
  | x :: xs, r, h => by
    obtain ⟨y, ys, _, h2, rfl⟩ := mapM_cons'.mp h
    simp [mapM_length h2]

theorem mapM_get {α β : Type} {f : α → Option β} : ∀ {xs : List α} {r : List β}, xs.mapM f = some r → ∀ k : Nat, r[k]? = xs[k]?.bind f
  | [], r, h, k => by cases h; rfl
  | x :: xs, r, h, k => by
    obtain ⟨y, ys, h1, h2, rfl⟩ := mapM_cons'.mp h
    cases k with
    | zero => simp [h1]
    | succ k => simpa using mapM_get h2 k

theorem mapM_of_get {α β : Type} {f : α → Option β} : ∀ {xs : List α} {r : List β}, r.length = xs.length → (∀ k : Nat, r[k]? = xs[k]?.bind f) →
    xs.mapM f = some r
  | [], r, h, _ => by rw [List.length_eq_zero_iff.mp h]; rfl
  | x :: xs, r, h, hk => by
    cases r with
    | nil => simp at h
    | cons y ys =>
      refine mapM_cons'.mpr ⟨y, ys, ?_, mapM_of_get (by simpa using h) (fun k => by simpa using hk (k + 1)), rfl⟩
      simpa using (hk 0).symm

theorem count_filterMap_id {α : Type} [DecidableEq α] (w : α) : ∀ l : List (Option α), (l.filterMap id).count w = l.count (some w)
  | [] => rfl
  | none :: l => by simp [count_filterMap_id w l]
  | some x :: l => by simp [count_filterMap_id w l, List.count_cons]

/-! ### Operations -/

theorem mapOp_eq (s : String) : mapOp s = quartzNames.lookup s := by
  unfold mapOp
  split
  all_goals first
    | rfl
    | (rename_i a1 a2 a3 a4 a5 a6 a7 a8 a9 a10 a11 a12 a13
       simp only [quartzNames, List.lookup, beq_eq_false_iff_ne.mpr a1, beq_eq_false_iff_ne.mpr a2, beq_eq_false_iff_ne.mpr a3,
         beq_eq_false_iff_ne.mpr a4, beq_eq_false_iff_ne.mpr a5, beq_eq_false_iff_ne.mpr a6, beq_eq_false_iff_ne.mpr a7,
         beq_eq_false_iff_ne.mpr a8, beq_eq_false_iff_ne.mpr a9, beq_eq_false_iff_ne.mpr a10, beq_eq_false_iff_ne.mpr a11,
         beq_eq_false_iff_ne.mpr a12, beq_eq_false_iff_ne.mpr a13])

theorem labels_of {vs : List (Val R)} {ls : List Nat} (h : vs.mapM Val.label? = some ls) : vs = ls.map .label := by
  induction vs generalizing ls with
  | nil => cases h; rfl
  | cons v vs ih =>
    obtain ⟨y, ys, h1, h2, rfl⟩ := mapM_cons'.mp h
    rw [ih h2]
    cases v with
    | label l => cases h1; rfl
    | angle a => cases h1

theorem angles_of {vs : List (Val R)} {as : List R} (h : vs.mapM Val.angle? = some as) : vs = as.map .angle := by
  induction vs generalizing as with
  | nil => cases h; rfl
  | cons v vs ih =>
    obtain ⟨y, ys, h1, h2, rfl⟩ := mapM_cons'.mp h
    rw [ih h2]
    cases v with
    | label l => cases h1
    | angle a => cases h1; rfl

theorem apply_gate {g : TketOp} {vs : List (Val R)} {r : List (Act R) × List (Val R)} (h : apply (.gate g) vs = some r) :
    ∃ qs as, vs = qs.map .label ++ as.map .angle ∧ qs.Nodup ∧ qs.length = g.qubits ∧
      as.length = (if g = .Rz then 1 else 0) ∧ r = ([⟨g, qs, as⟩], qs.map .label) := by
  unfold apply at h
  simp only [Option.bind_eq_bind, Option.bind_eq_some_iff] at h
  obtain ⟨qs, h1, as, h2, h3⟩ := h
  by_cases hc : qs.Nodup ∧ qs.length = g.qubits ∧ as.length = (if g = .Rz then 1 else 0)
  · rw [if_pos hc] at h3
    refine ⟨qs, as, ?_, hc.1, hc.2.1, hc.2.2, (Option.some.inj h3).symm⟩
    rw [← labels_of h1, ← angles_of h2, List.take_append_drop]
  · rw [if_neg hc] at h3
    cases h3

theorem apply_radd {vs : List (Val R)} {r : List (Act R) × List (Val R)} (h : apply .radd vs = some r) :
    ∃ a b, vs = [.angle a, .angle b] ∧ r = ([], [.angle (a + b)]) := by
  unfold apply at h
  simp only at h
  split at h
  · exact ⟨_, _, rfl, (Option.some.inj h).symm⟩
  · cases h

theorem apply_keep {op : GOp} {vs : List (Val R)} {r : List (Act R) × List (Val R)} (h : apply op vs = some r) {k l : Nat}
    (hk : vs[k]? = some (.label l)) (hlt : k < op.outs.length) : r.2[k]? = some (.label l) := by
  cases op with
  | gate g =>
    obtain ⟨qs, as, rfl, -, hq, -, rfl⟩ := apply_gate h
    have : k < (qs.map (Val.label (R := R))).length := by simpa [GOp.outs, hq] using hlt
    rwa [List.getElem?_append_left this] at hk
  | radd =>
    obtain ⟨a, b, rfl, rfl⟩ := apply_radd h
    have : k = 0 := by simpa [GOp.outs] using hlt
    subst this
    simp at hk

/-! ### The wires of the qubits -/

theorem assign_inv {env : Wire → Option (Val R)} {n : Nat} : ∀ (m k : Nat) (us : List CUnit) (ws : List (Option Wire)),
    (∀ i w, ws[i]? = some (some w) → env w = some (.label i)) →
    (∀ j i : Nat, us[j]? = some (.linear i) → j < m → env (.out n (k + j)) = some (.label i)) →
    ∀ i w, (assign n k m us ws).1[i]? = some (some w) → env w = some (.label i)
  | 0, k, us, ws, hw, _ => by
    unfold assign
    simp only
    induction us generalizing ws with
    | nil => exact hw
    | cons u us ih =>
      refine ih _ ?_ (fun _ _ _ h => absurd h (Nat.not_lt_zero _))
      cases u with
      | wire w => exact hw
      | linear i =>
        intro j w h
        simp only [drop, List.getElem?_set] at h
        split at h
        · split at h
          · cases h
          · cases h
        · exact hw j w h
  | m + 1, k, [], ws, hw, hu => by
    unfold assign
    exact assign_inv m (k + 1) [] ws hw (fun j i h => by simp at h)
  | m + 1, k, .linear i :: us, ws, hw, hu => by
    unfold assign
    refine assign_inv m (k + 1) us _ ?_ (fun j i' h hj => ?_)
    · intro j w h
      simp only [List.getElem?_set] at h
      split at h
      · rename_i e
        split at h
        · cases h
          subst e
          exact hu 0 i rfl (Nat.succ_pos _)
        · cases h
      · exact hw j w h
    · have := hu (j + 1) i' (by simpa using h) (by omega)
      rwa [show k + (j + 1) = k + 1 + j by omega] at this
  | m + 1, k, .wire w :: us, ws, hw, hu => by
    unfold assign
    refine assign_inv m (k + 1) us ws hw (fun j i' h hj => ?_)
    have := hu (j + 1) i' (by simpa using h) (by omega)
    rwa [show k + (j + 1) = k + 1 + j by omega] at this

theorem drop_length (us : List CUnit) (ws : List (Option Wire)) : (us.foldl drop ws).length = ws.length := by
  induction us generalizing ws with
  | nil => rfl
  | cons u us ih => rw [List.foldl_cons, ih]; cases u <;> simp [drop]

theorem assign_length (n : Nat) : ∀ (m k : Nat) (us : List CUnit) (ws : List (Option Wire)), (assign n k m us ws).1.length = ws.length
  | 0, k, us, ws => by unfold assign; exact drop_length us ws
  | m + 1, k, [], ws => by unfold assign; exact assign_length n m (k + 1) [] ws
  | m + 1, k, .linear i :: us, ws => by unfold assign; rw [assign_length n m (k + 1) us]; simp
  | m + 1, k, .wire w :: us, ws => by unfold assign; exact assign_length n m (k + 1) us ws

/-- The wires of the qubits hold them. -/
structure Inv1 (d : Data) (θ : Nat → R) (st : St) (gs : GSt R) : Prop where
  run : st.nodes.foldlM nodeStep (gInit d.nQb d.nParam θ) = some gs
  n : gs.n = st.nodes.length
  fresh : ∀ m k, gs.n ≤ m → gs.env (.out m k) = none
  len : st.wires.length = d.nQb
  wires : ∀ i w, st.wires[i]? = some (some w) → gs.env w = some (.label i)

theorem Inv1.init (d : Data) (θ : Nat → R) : Inv1 d θ (init d) (gInit d.nQb d.nParam θ) where
  run := rfl
  n := rfl
  fresh _ _ _ := rfl
  len := by simp [Quartz.init]
  wires i w h := by
    simp only [Quartz.init, List.getElem?_map, Option.map_eq_some_iff] at h
    obtain ⟨j, hj, e⟩ := h
    cases e
    obtain ⟨hlt, rfl⟩ := List.getElem?_eq_some_iff.mp hj
    rw [List.length_range] at hlt
    simp [gInit, hlt]

theorem step_some {st st' : St} {c : Cmd} (h : step st c = some st') :
    ∃ op us ins, mapOp c.op = some op ∧ c.inputs.mapM st.units = some us ∧ us.mapM (resolve st.wires) = some ins ∧
      st' = ⟨(c.outputs.zip (assign st.nodes.length 0 op.outs.length us st.wires).2).foldl (fun f e => insert f e.1 (.wire e.2)) st.units,
        (assign st.nodes.length 0 op.outs.length us st.wires).1, st.nodes ++ [(op, ins)]⟩ := by
  unfold step append at h
  simp only [Option.bind_eq_bind, Option.bind_eq_some_iff] at h
  obtain ⟨op, h1, us, h2, r, ⟨ins, h3, h4⟩, h5⟩ := h
  cases h4
  exact ⟨op, us, ins, h1, h2, h3, (Option.some.inj h5).symm⟩

theorem setOuts_old {gs : GSt R} (hf : ∀ m k, gs.n ≤ m → gs.env (.out m k) = none) {w : Wire} {v : Val R} (h : gs.env w = some v)
    (vs : List (Val R)) : setOuts gs.env gs.n vs w = some v := by
  cases w with
  | inp i => exact h
  | out m k =>
    by_cases e : m = gs.n
    · rw [hf m k (by omega)] at h
      cases h
    · simp only [setOuts, if_neg e]
      exact h

theorem Inv1.step {d : Data} {θ : Nat → R} {st st' : St} {gs gs' : GSt R} {c : Cmd} (hi : Inv1 d θ st gs) (hs : step st c = some st')
    (hr : st'.nodes.foldlM nodeStep (gInit d.nQb d.nParam θ) = some gs') : Inv1 d θ st' gs' := by
  obtain ⟨op, us, ins, h1, h2, h3, rfl⟩ := step_some hs
  have hn : nodeStep gs (op, ins) = some gs' := by
    rw [List.foldlM_append, hi.run] at hr
    simpa using hr
  unfold nodeStep at hn
  simp only [Option.bind_eq_bind, Option.bind_eq_some_iff] at hn
  obtain ⟨vs, h4, r, h5, h6⟩ := hn
  cases h6
  refine ⟨hr, by simp [hi.n], fun m k hm => ?_, ?_, ?_⟩
  · simp only at hm ⊢
    simp only [setOuts, if_neg (show m ≠ gs.n by omega)]
    exact hi.fresh m k (by omega)
  · simp only
    rw [assign_length]
    exact hi.len
  · simp only
    rw [hi.n]
    apply assign_inv
    · intro i w hw
      rw [← hi.n]
      exact setOuts_old hi.fresh (hi.wires i w hw) _
    · intro j i hj hlt
      have hv : vs[j]? = some (.label i) := by
        rw [mapM_get h4, mapM_get h3, hj]
        simp only [Option.bind_some, resolve]
        have : ((us[j]?).bind (resolve st.wires)) = ins[j]? := (mapM_get h3 j).symm
        rw [hj] at this
        simp only [Option.bind_some, resolve] at this
        cases hw : st.wires[i]? with
        | none =>
          rw [hw] at this
          have hl := mapM_length h3
          have : j < ins.length := by rw [hl]; exact (List.getElem?_eq_some_iff.mp hj).1
          rw [List.getElem?_eq_getElem this] at *
          simp_all
        | some o =>
          cases o with
          | none =>
            rw [hw] at this
            have hl := mapM_length h3
            have : j < ins.length := by rw [hl]; exact (List.getElem?_eq_some_iff.mp hj).1
            rw [List.getElem?_eq_getElem this] at *
            simp_all
          | some w => simpa using hi.wires i w hw
      simp only [setOuts, Nat.zero_add, if_true]
      exact apply_keep h5 hv hlt

theorem Inv1.all {d : Data} {θ : Nat → R} (cs : List Cmd) : ∀ {st : St} {gs : GSt R}, cs.foldlM Quartz.step (Quartz.init d) = some st →
    st.nodes.foldlM nodeStep (gInit d.nQb d.nParam θ) = some gs → Inv1 d θ st gs := by
  induction cs using List.reverseRecOn with
  | nil =>
    intro st gs h hr
    cases h
    cases hr
    exact Inv1.init d θ
  | append_singleton cs c ih =>
    intro st gs h hr
    rw [List.foldlM_append] at h
    simp only [Option.bind_eq_bind, Option.bind_eq_some_iff] at h
    obtain ⟨st0, h1, h2⟩ := h
    have h2 : Quartz.step st0 c = some st := by simpa using h2
    obtain ⟨op, us, ins, -, -, -, e⟩ := step_some h2
    have hr' := hr
    rw [e] at hr'
    simp only [List.foldlM_append, Option.bind_eq_bind, Option.bind_eq_some_iff] at hr'
    obtain ⟨gs0, h3, -⟩ := hr'
    exact (ih h1 h3).step h2 hr

end Verif.Quartz
