import Verif.Lemmas.ControlCircuit

/-!
# Properties of the resolution of control and dagger modifiers on gates
-/

noncomputable section

namespace Tket.ControlSynth

open Tket.Quantum Complex

set_option linter.unusedSectionVars false

variable {Q : Type} [DecidableEq Q]

/-- C39: on distinct lines, with any number of controls, daggered or not, and with any angle, resolving a
gate succeeds, returns the lines of the gate in order, restores the controls, and emits gates that together
are exactly the controlled gate or controlled inverse. Missing (false): `CZ` with a control, `Z` with two,
the order of the outputs of `Toffoli` with a control. -/
theorem C39_controlled_gate_partial (cs qs : List Q) (dagger : Bool) (op : TketOp) (θ : ℝ)
    (out : List (Node Q)) (hd : (cs ++ qs).Nodup) (hl : qs.length = op.qubits)
    (hs : Supported cs.length op) :
    ∃ N, ∀ fuel ≥ N, ∃ gates U W V,
      modify fuel op qs θ (top cs dagger out) = .ok (qs, top cs dagger (out ++ gates)) ∧
      gateSem op θ qs = some U ∧ Daggered dagger U W ∧ den gates = some V ∧ IsControlled cs W V := by
  refine ⟨10 * (cs.length + 2) + 9, fun fuel hf => ?_⟩
  obtain ⟨U, W, h1, h2, gs, h3, h4⟩ := run_op (f := fuel) (s := top cs dagger out) (θ := θ)
    ⟨rfl, by simpa [top] using hd⟩ hl hs (by simp only [top]; omega)
  exact ⟨gs, U, W, _, h3, h1, h2, h4, isControlled_ctrls cs W⟩

/-- C39: the same when dirty qubits are borrowed: they are returned unchanged, and nothing acts on them. -/
theorem C39_borrowed_qubits_restored (cs qs anc : List Q) (dagger : Bool) (op : TketOp) (θ : ℝ)
    (out : List (Node Q)) (hd : (cs ++ qs ++ anc).Nodup) (hl : qs.length = op.qubits)
    (hs : Supported cs.length op) :
    ∃ N, ∀ fuel ≥ N, ∃ gates U W V,
      modify fuel op qs θ ⟨cs.length, dagger, cs, anc, out⟩ =
        .ok (qs, ⟨cs.length, dagger, cs, anc, out ++ gates⟩) ∧
      gateSem op θ qs = some U ∧ Daggered dagger U W ∧ den gates = some V ∧ IsControlled cs W V ∧
      (∀ a ∈ anc, Commute (X a) V ∧ Commute (Z a) V) := by
  refine ⟨10 * (cs.length + 2) + 9, fun fuel hf => ?_⟩
  obtain ⟨U, W, h1, h2, gs, h3, h4⟩ := run_op (f := fuel) (s := ⟨cs.length, dagger, cs, anc, out⟩) (θ := θ)
    ⟨rfl, hd⟩ hl hs hf
  refine ⟨gs, U, W, _, h3, h1, h2, h4, isControlled_ctrls cs W, fun a ha => ?_⟩
  rw [List.nodup_append] at hd
  have hq : ∀ q ∈ ({a} : Set Q), q ∉ {q | q ∈ qs} := fun q hq hm => by
    rw [Set.mem_singleton_iff] at hq; subst hq
    exact hd.2.2 q (by simpa using Or.inr hm) q ha rfl
  have hc : ∀ q ∈ ({a} : Set Q), q ∉ {q | q ∈ cs} := fun q hq hm => by
    rw [Set.mem_singleton_iff] at hq; subst hq
    exact hd.2.2 q (by simpa using Or.inl hm) q ha rfl
  have hU := gateSem_local h1
  have key : ∀ A : Op Q, A ∈ local' ({a} : Set Q) → Commute A (ctrls cs W) := by
    intro A hA
    have hAU : Commute A U := local_commute hq hA hU
    have hAW : Commute A W := by
      unfold Daggered at h2
      split at h2
      · show A * W = W * A
        calc A * W = (W * U) * A * W := by rw [h2.2, one_mul]
          _ = W * (U * A) * W := by simp only [mul_assoc]
          _ = W * (A * U) * W := by rw [hAU.eq]
          _ = W * A * (U * W) := by simp only [mul_assoc]
          _ = W * A := by rw [h2.1, mul_one]
      · rw [h2]; exact hAU
    have hP : Commute A (PC cs) := by
      unfold PC
      refine Commute.list_prod_right _ _ (fun B hB => ?_)
      obtain ⟨c, hc', rfl⟩ := List.mem_map.1 hB
      exact local_commute hc hA (P1_mem_of (Z_mem hc'))
    rw [ctrls_eq]
    exact (Commute.one_right _).add_right (hP.mul_right (hAW.sub_right (Commute.one_right _)))
  exact ⟨key _ (X_mem rfl), key _ (Z_mem rfl)⟩

/-- C39: a global phase becomes a controlled phase, exactly. -/
theorem C39_controlled_phase (cs : List Q) (dagger : Bool) (θ : ℝ) (out : List (Node Q)) (hd : cs.Nodup) :
    ∃ N, ∀ fuel ≥ N, ∃ gates V,
      phase fuel θ (top cs dagger out) = .ok (top cs dagger (out ++ gates)) ∧ den gates = some V ∧
        IsControlled cs (exp (I * (Real.pi * (if dagger then -θ else θ : ℝ))) • 1) V := by
  refine ⟨10 * (cs.length + 2) + 9, fun fuel hf => ?_⟩
  obtain ⟨gs, e, hg⟩ := (good (Q := Q) fuel).phase (top cs dagger out) θ ⟨rfl, by simpa [top] using hd⟩
    (by simp only [top]; omega)
  exact ⟨gs, _, e, hg, isControlled_ctrls _ _⟩

/-- C39: an operation that is not a gate cannot be controlled or daggered, and this is reported. -/
theorem C39_not_a_gate (cs qs anc : List Q) (dagger : Bool) (op : TketOp) (θ : ℝ) (out : List (Node Q))
    (hq : op.isQuantum = false) (fuel : Nat) :
    modify (fuel + 1) op qs θ ⟨cs.length, dagger, cs, anc, out⟩ =
      if cs = [] ∧ dagger = false then .ok (qs, ⟨0, false, [], anc, out ++ [.gate op qs 0]⟩)
      else .error .unresolvable := by
  split
  · rename_i h
    obtain ⟨rfl, rfl⟩ := h
    cases op <;> simp only [TketOp.isQuantum, Bool.true_eq_false] at hq <;>
      (unfold modify; simp [direct, directRot]
       match qs with
       | [] => simp [St.emit]
       | [t] => simp [St.emit, rotAngle]
       | _ :: _ :: _ => simp [St.emit])
  · rename_i h
    unfold modify
    simp only
    rw [if_pos]
    refine ⟨?_, hq⟩
    cases cs with
    | nil => right; simpa using h
    | cons => left; simp

theorem rz_pi_ne (e : ℝ) (he : e = 1 ∨ e = -1) : exp (-(I * ((Real.pi * e : ℂ) / 2))) ≠ 1 := by
  rcases he with rfl | rfl
  · have : -(I * ((Real.pi * ((1 : ℝ) : ℂ)) / 2)) = -(I * (Real.pi / 2)) := by push_cast; ring
    rw [this, Complex.exp_neg, exp_half]
    intro h
    have := congrArg Complex.im h
    simp at this
  · have : -(I * ((Real.pi * ((-1 : ℝ) : ℂ)) / 2)) = I * (Real.pi / 2) := by push_cast; ring
    rw [this, exp_half]
    intro h
    have := congrArg Complex.im h
    simp at this

theorem czz_ne {cs : List Q} {t : Q} (hcs : cs ≠ []) (ht : t ∉ cs) (e : ℝ) (he : e = 1 ∨ e = -1) (k : ℂ) :
    ctrls cs (Rz (Real.pi * e) t) ≠ k • ctrls cs (Z t) := by
  intro h
  have h1 := congrArg (fun A => A.app (fun _ => 1) (fun _ => false)) h
  have h2 := congrArg (fun A => A.app (fun _ => 1) (fun q => decide (q ∈ cs))) h
  obtain ⟨c, cs', rfl⟩ := List.exists_cons_of_ne_nil hcs
  simp only [smul_app, ctrls_app] at h1 h2
  rw [if_neg (fun h => by simpa using h c (by simp)), if_neg (fun h => by simpa using h c (by simp))] at h1
  rw [if_pos (by simp), if_pos (by simp), Rz_mat, Z_mat, mat_app, mat_app] at h2
  have hk : k = 1 := by simpa using h1.symm
  rw [hk] at h2
  simp only [decide_eq_true_eq, ht, if_false] at h2
  simp at h2
  exact rz_pi_ne e he (by simpa using h2)

/-- C39 is false for `Z` with two or more controls and `CZ` with one or more: the gates emitted are not the
controlled gate, whatever the global phase. -/
theorem C39_controlled_z_wrong (cs qs : List Q) (dagger : Bool) (op : TketOp) (θ : ℝ) (out : List (Node Q))
    (hd : (cs ++ qs).Nodup) (hl : qs.length = op.qubits)
    (h : (op = .CZ ∧ 1 ≤ cs.length) ∨ (op = .Z ∧ 2 ≤ cs.length)) :
    ∃ N, ∀ fuel ≥ N, ∃ gates U V,
      modify fuel op qs θ (top cs dagger out) = .ok (qs, top cs dagger (out ++ gates)) ∧
      gateSem op θ qs = some U ∧ den gates = some V ∧
      ∀ V' : Op Q, IsControlled cs U V' → ∀ k : ℂ, V ≠ k • V' := by
  refine ⟨10 * (cs.length + 2) + 9, fun fuel hf => ?_⟩
  have g := good (Q := Q) fuel
  have hsg : sg (top cs dagger out) 1 = 1 ∨ sg (top cs dagger out) 1 = -1 := by
    simp only [sg]; split <;> simp
  rcases h with ⟨rfl, h⟩ | ⟨rfl, h⟩
  · obtain ⟨c, t, rfl⟩ := List.length_eq_two.1 hl
    obtain ⟨gs, e, hg⟩ := g.cz (top cs dagger out) c t θ ⟨rfl, by simpa [top] using hd⟩
      (by simp only [top]; omega)
    rw [if_neg (by simp only [top]; omega)] at hg
    refine ⟨gs, ctrl c (Z t), _, e, rfl, hg, fun V' hV' k hk => ?_⟩
    rw [isControlled_eq hV'] at hk
    have h2 : ctrls cs (ctrl c (Z t)) = ctrls (cs ++ [c]) (Z t) := by rw [ctrls_append]; rfl
    rw [h2] at hk
    refine czz_ne (by simp) ?_ _ hsg k hk
    rw [List.nodup_append] at hd
    have h3 := hd.2.1
    intro hm
    rcases List.mem_append.1 hm with hm | hm
    · exact hd.2.2 t hm t (by simp) rfl
    · simp at hm h3; exact h3 hm.symm
  · obtain ⟨t, rfl⟩ := List.length_eq_one_iff.1 hl
    obtain ⟨gs, e, hg⟩ := g.z (top cs dagger out) t θ ⟨rfl, by simpa [top] using hd⟩
      (by simp only [top]; omega)
    rw [if_neg (by simp only [top]; omega)] at hg
    refine ⟨gs, Z t, _, e, rfl, hg, fun V' hV' k hk => ?_⟩
    rw [isControlled_eq hV'] at hk
    refine czz_ne ?_ ?_ _ hsg k hk
    · simp only [top]; intro hn; rw [hn] at h; simp at h
    · rw [List.nodup_append] at hd
      exact fun hm => hd.2.2 t hm t (by simp) rfl

/-- C39 is false for the wire order of `Toffoli` with one or more controls: the gates are right, but the two
outputs of the control qubits of the `Toffoli` are exchanged. -/
theorem C39_toffoli_outputs_swapped (cs : List Q) (x y t : Q) (dagger : Bool) (θ : ℝ) (out : List (Node Q))
    (hd : (cs ++ [x, y, t]).Nodup) (hc : cs ≠ []) :
    x ≠ y ∧ ∃ N, ∀ fuel ≥ N, ∃ gates U V,
      modify fuel .Toffoli [x, y, t] θ (top cs dagger out) = .ok ([y, x, t], top cs dagger (out ++ gates)) ∧
      gateSem .Toffoli θ [x, y, t] = some U ∧ den gates = some V ∧ IsControlled cs U V := by
  constructor
  · rw [List.nodup_append] at hd
    have := hd.2.1
    simp at this
    exact this.1.1
  refine ⟨10 * (cs.length + 2) + 9, fun fuel hf => ?_⟩
  obtain ⟨gs, e, hg⟩ := (good (Q := Q) fuel).tof (top cs dagger out) x y t θ ⟨rfl, by simpa [top] using hd⟩
    (by simp only [top]; omega)
  rw [if_pos ⟨rfl, by simpa [top] using hc⟩] at e
  refine ⟨gs, ctrl x (ctrl y (X t)), _, e, rfl, hg, ?_⟩
  rw [ctrls_append]
  exact isControlled_ctrls cs _

/-- C39: removing all global phases at the end changes the circuit by a global phase only. -/
theorem C39_phases_deleted (c : List (Node Q)) (U : Op Q) (h : den c = some U) :
    ∃ k : ℂ, ‖k‖ = 1 ∧ ∃ V, den (deletePhase c) = some V ∧ U = k • V := by
  induction c generalizing U with
  | nil => simp only [den, Option.some.injEq] at h; exact ⟨1, by simp, 1, rfl, by simp [h]⟩
  | cons n c ih =>
    simp only [den, Option.bind_eq_some_iff, Option.map_eq_some_iff] at h
    obtain ⟨A, hA, B, hB, rfl⟩ := h
    obtain ⟨k, hk, V, hV, rfl⟩ := ih B hB
    cases n with
    | gate op qs θ =>
      refine ⟨k, hk, V * A, ?_, by rw [smul_mul_assoc]⟩
      have : deletePhase (.gate op qs θ :: c) = .gate op qs θ :: deletePhase c := rfl
      rw [this, den_cons_some hA hV]
    | phase θ =>
      simp only [Node.sem, Option.some.injEq] at hA
      subst hA
      refine ⟨k * exp (I * (Real.pi * θ)), ?_, V, hV, ?_⟩
      · rw [norm_mul, hk, one_mul]
        have : I * (Real.pi * θ : ℂ) = ((Real.pi * θ : ℝ) : ℂ) * I := by push_cast; ring
        rw [this, norm_exp_ofReal_mul_I]
      · rw [mul_smul_comm, mul_one, smul_smul, mul_comm]

/-- C40: resolving a dagger (and any number of controls) on a straight-line circuit succeeds, keeps every
wire on its line, and gives exactly the (controlled) inverse of the circuit; without the dagger, the
(controlled) circuit. Missing: the gates excluded in C39. -/
theorem C40_circuit_partial (cs : List Q) (dagger : Bool) (c : List (Node Q)) (hc : ∀ n ∈ c, NodeOk cs n) :
    ∃ N, ∀ fuel ≥ N, ∃ gates U W V,
      modifyChildren fuel c (top cs dagger []) = .ok (id, top cs dagger gates) ∧
      den c = some U ∧ Daggered dagger U W ∧ den gates = some V ∧ IsControlled cs W V := by
  refine ⟨10 * (cs.length + 2) + 9, fun fuel hf => ?_⟩
  cases dagger with
  | false =>
    obtain ⟨Us, gs, h1, h2, h3, h4⟩ := fold_ok (fuel := fuel) (d := false) (by omega) c [] hc
    refine ⟨gs, _, _, _, h3, den_of_map h1, ?_, h4, isControlled_ctrls _ _⟩
    show _ = _
    congr 2
    exact List.map_congr_left (fun p hp => (h2 p hp).1)
  | true =>
    obtain ⟨Us, gs, h1, h2, h3, h4⟩ := fold_ok (fuel := fuel) (d := true) (by omega) c.reverse []
      (fun n hn => hc n (List.mem_reverse.1 hn))
    have h5 : c.map Node.sem = Us.reverse.map (fun p => some p.1) := by
      rw [List.map_reverse, ← h1, List.map_reverse, List.reverse_reverse]
    refine ⟨gs, _, _, _, h3, den_of_map h5, ?_, h4, isControlled_ctrls _ _⟩
    have := inv_prod Us (fun p hp => (h2 p hp).1)
    simpa [Daggered] using this

/-- The inverse gate. -/
def invOp : TketOp → TketOp
  | .T => .Tdg | .Tdg => .T | .S => .Sdg | .Sdg => .S | .V => .Vdg | .Vdg => .V | op => op

/-- The gate emitted without controls. -/
def plain (d : Bool) : Node Q → Node Q
  | .gate op qs θ => .gate (if d then invOp op else op)
      qs (if d then -θ else θ)
  | .phase θ => .phase (if d then -θ else θ)

theorem modifyNode_plain (fuel : Nat) (d : Bool) (n : Node Q) (out : List (Node Q))
    (h : ∀ op qs θ, n = .gate op qs θ → op.isQuantum = true) :
    modifyNode (fuel + 1) n (id, top [] d out) = .ok (id, top [] d (out ++ [plain d n])) := by
  cases n with
  | gate op qs θ =>
    have hq := h op qs θ rfl
    have hd : (direct op 0 || directRot op 0) = true := by
      cases op <;> simp only [TketOp.isQuantum, Bool.false_eq_true] at hq <;> rfl
    have hm : modified 0 d op = some (if d then invOp op else op) := by
      cases d <;> cases op <;> simp only [TketOp.isQuantum, Bool.false_eq_true] at hq <;> rfl
    have e := modify_direct (f := fuel) (op := op) (qs := qs) (θ := θ) (s := top [] d out) hq hd
    simp only [addControlled, top, List.length_nil, hm, St.emit, List.nil_append] at e
    simp only [modifyNode, top, List.length_nil, ne_eq, not_true_eq_false, if_false, List.map_id, e,
      bind, Except.bind, rename_id, plain]
    rfl
  | phase θ =>
    simp only [modifyNode, top, List.length_nil, ne_eq, not_true_eq_false, if_false, phase, St.emit,
      bind, Except.bind, plain]
    rfl

theorem modifyChildren_plain (fuel : Nat) (d : Bool) (c : List (Node Q))
    (hc : ∀ n ∈ c, ∀ op qs θ, n = .gate op qs θ → op.isQuantum = true) :
    modifyChildren (fuel + 1) c (top [] d []) =
      .ok (id, top [] d ((if d then c.reverse else c).map (plain d))) := by
  have key : ∀ (c out : List (Node Q)),
      (∀ n ∈ c, ∀ op qs θ, n = .gate op qs θ → op.isQuantum = true) →
      c.foldlM (fun a n => modifyNode (fuel + 1) n a) (id, top [] d out) =
        .ok (id, top [] d (out ++ c.map (plain d))) := by
    intro c
    induction c with
    | nil => intro out _; simp only [List.map_nil, List.append_nil]; rfl
    | cons n c ih =>
      intro out h
      rw [List.foldlM_cons, modifyNode_plain fuel d n out (h n (by simp))]
      simp only [bind, Except.bind]
      rw [ih _ (fun m hm => h m (by simp [hm])), List.append_assoc]
      rfl
  have h := key (if d then c.reverse else c) [] (fun n hn => hc n (by
    split at hn
    · exact List.mem_reverse.1 hn
    · exact hn))
  exact h

/-- C40: without modifiers the circuit is copied, gate by gate. -/
theorem C40_unmodified (c : List (Node Q)) (fuel : Nat)
    (hc : ∀ n ∈ c, ∀ op qs θ, n = .gate op qs θ → op.isQuantum = true) :
    modifyChildren (fuel + 1) c (top [] false []) = .ok (id, top [] false c) := by
  rw [modifyChildren_plain fuel false c hc]
  have : (plain false : Node Q → Node Q) = id := by
    funext n; cases n <;> simp [plain]
  simp [this]

/-- C40: resolving a dagger on the result of a dagger restores the circuit, gate by gate. -/
theorem C40_double_dagger (c : List (Node Q)) (fuel : Nat)
    (hc : ∀ n ∈ c, ∀ op qs θ, n = .gate op qs θ → op.isQuantum = true) :
    ∃ gates, modifyChildren (fuel + 1) c (top [] true []) = .ok (id, top [] true gates) ∧
      modifyChildren (fuel + 1) gates (top [] true []) = .ok (id, top [] true c) := by
  refine ⟨_, modifyChildren_plain fuel true c hc, ?_⟩
  rw [modifyChildren_plain]
  · have h : ∀ n : Node Q, plain true (plain true n) = n := by
      intro n
      cases n with
      | gate op qs θ => cases op <;> simp [plain, invOp]
      | phase θ => simp [plain]
    have h' : (plain true ∘ plain true : Node Q → Node Q) = id := funext h
    simp [List.map_reverse, h']
  · intro n hn op qs θ e
    simp only [if_true, List.mem_map, List.mem_reverse] at hn
    obtain ⟨m, hm, rfl⟩ := hn
    cases m with
    | phase => simp [plain] at e
    | gate op' qs' θ' =>
      have := hc _ hm op' qs' θ' rfl
      simp only [plain, if_true, Node.gate.injEq] at e
      rw [← e.1]
      clear e hm hc
      revert this
      cases op' <;> simp [TketOp.isQuantum, invOp]

/-! ## The hypotheses can be met -/

example : Supported 5 .H ∧ Supported 7 .CX ∧ Supported 4 .V ∧ Supported 0 .CZ ∧ Supported 3 .CRz := by
  simp [Supported, TketOp.isQuantum]

example : ([0, 1, 2, 3] ++ [4, 5] : List Nat).Nodup ∧ ([4, 5] : List Nat).length = TketOp.CX.qubits := by
  decide

example : ∀ n ∈ [Node.gate .H [3] 0, .gate .CX [3, 4] 0, .gate .Rz [4] 0.3, .phase 0.1],
    NodeOk [0, 1, 2] n := by
  simp [NodeOk, Supported, TketOp.isQuantum, TketOp.qubits]

end Tket.ControlSynth
