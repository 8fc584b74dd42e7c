import Verif.Lemmas.ControlSynth

/-!
# The synthesis of controlled flips
-/

noncomputable section

namespace Tket.ControlSynth

open Tket.Quantum Complex

set_option linter.unusedSectionVars false

variable {Q : Type} [DecidableEq Q]

theorem step_rot {f : Nat} (g : Good Q f) (op : TketOp) (s : St Q) (t : Q) (θ : ℝ) (U : Op Q)
    (hop : op ∈ [TketOp.T, .Tdg, .S, .Sdg, .V, .Vdg]) (w : WF s [t]) (hf : 10 * s.control + 6 < f + 1)
    (hU : gateSem (dag s op) 0 [t] = some U) :
    Runs (modify (f + 1) op [t] θ s) s [t] (ctrls s.controls U) := by
  have hq : op.isQuantum = true := by
    simp only [List.mem_cons, List.not_mem_nil, or_false] at hop
    rcases hop with rfl | rfl | rfl | rfl | rfl | rfl <;> rfl
  by_cases hc : s.control = 0
  · refine run_direct (g := dag s op) hq ?_ ?_ ?_
    · simp only [List.mem_cons, List.not_mem_nil, or_false] at hop
      rcases hop with rfl | rfl | rfl | rfl | rfl | rfl <;> simp [direct, hc]
    · simp only [List.mem_cons, List.not_mem_nil, or_false] at hop
      rcases hop with rfl | rfl | rfl | rfl | rfl | rfl <;> simp [modified, hc, dag] <;> split <;> rfl
    · rw [controls_nil w hc, List.nil_append, ← List.foldr_nil (f := ctrl) (b := U)]
      show _ = some U
      rw [← hU]
      simp only [List.mem_cons, List.not_mem_nil, or_false] at hop
      rcases hop with rfl | rfl | rfl | rfl | rfl | rfl <;> simp only [dag] <;> split <;> rfl
  · have ht := w.notMem (t := t) (by simp)
    have hd : (direct op s.control || directRot op s.control) = false := by
      simp only [List.mem_cons, List.not_mem_nil, or_false] at hop
      rcases hop with rfl | rfl | rfl | rfl | rfl | rfl <;> simp [direct, directRot, hc]
    obtain ⟨gt, angle, hr⟩ : ∃ gt angle, rotAngle s.dagger op = some (gt, angle) := by
      simp only [List.mem_cons, List.not_mem_nil, or_false] at hop
      rcases hop with rfl | rfl | rfl | rfl | rfl | rfl <;> exact ⟨_, _, rfl⟩
    have key := rot_split hr hU
    -- the rotation
    have hrun : ∃ R : Op Q, Away s.controls R ∧ exp (I * (Real.pi * angle)) • R = U ∧
        Runs (modify f gt [t] (angle * 2) { s with dagger := false }) { s with dagger := false } [t]
          (ctrls s.controls R) := by
      rcases key with ⟨rfl, hk⟩ | ⟨rfl, hk⟩
      · exact ⟨_, Rz_away _ ht, hk, g.rz { s with dagger := false } t (angle * 2) ⟨w.len, w.nodup⟩
          (by simp only; omega)⟩
      · exact ⟨_, Rx_away _ ht, hk, g.rx { s with dagger := false } t (angle * 2) ⟨w.len, w.nodup⟩
          (by simp only; omega)⟩
    obtain ⟨R, hR, hRU, g1, e1, d1⟩ := hrun
    obtain ⟨g2, e2, d2⟩ := g.phase { s with dagger := false, ancilla := s.ancilla ++ [t], out := s.out ++ g1 } angle
      ⟨w.len, by wf_count w⟩ (by simp only; omega)
    have e2' := withAncilla_ok (w := t) (s := { s with dagger := false, out := s.out ++ g1 }) (r := ()) (gs := g2)
      (F := fun s => do let s ← phase f angle s; .ok ((), s)) (by simp only [e2, bind, Except.bind])
    simp only [bind, Except.bind] at e1 e2'
    have hm : modify (f + 1) op [t] θ s = (match rotAngle s.dagger op with
      | some (g, angle) => do
        let (ts, s') ← modify f g [t] (angle * 2) { s with dagger := false }
        match ts with
        | [t] => do
          let (_, t, s') ← withAncilla t s' (fun s => do let s ← phase f angle s; .ok ((), s))
          .ok ([t], { s' with dagger := s.dagger })
        | _ => .error .panic
      | none => .ok ([t], s.emit (.gate op [t] 0))) := by
      simp only [List.mem_cons, List.not_mem_nil, or_false] at hop
      rcases hop with rfl | rfl | rfl | rfl | rfl | rfl <;> simp [modify, TketOp.isQuantum, hd] <;> rfl
    refine ⟨g1 ++ g2, ?_, ?_⟩
    · rw [hm, hr]
      simp only [bind, Except.bind, e1, e2', List.append_assoc]
    · rw [den_append d1 d2]
      simp only
      rw [ctrls_mul ((Away.one _).smul _) hR, smul_mul_assoc, one_mul, ← hRU]
      rfl

theorem foldl_push (xs : List Q) (n : Nat) (d : Bool) (cs anc : List Q) (out : List (Node Q)) :
    xs.foldl pushControl ⟨n, d, cs, anc, out⟩ = ⟨n + xs.length, d, cs ++ xs, anc, out⟩ := by
  induction xs generalizing n cs with
  | nil => simp
  | cons x xs ih =>
    rw [List.foldl_cons, pushControl, ih]
    simp; omega

theorem popN_append (xs : List Q) (n : Nat) (d : Bool) (cs anc : List Q) (out : List (Node Q)) :
    popN xs.length ⟨n, d, cs ++ xs, anc, out⟩ = .ok (xs.reverse, ⟨n - xs.length, d, cs, anc, out⟩) := by
  induction xs using List.reverseRecOn generalizing n cs with
  | nil => simp [popN]
  | append_singleton xs x ih =>
    rw [List.length_append, List.length_singleton, popN, ← List.append_assoc, popControl_append]
    simp only [bind, Except.bind]
    rw [ih]
    simp [Nat.sub_sub, Nat.add_comm]

/-- The branch without ancilla, given what the gate does with one control less and an ancilla. -/
theorem no_anc {f : Nat} (g : Good Q f) (op : TketOp) (xs : List Q) (s : St Q) (t : Q) (w : WF s (xs ++ [t]))
    (hanc : s.ancilla = []) (hn : s.control ≠ 0) (hk : 3 ≤ s.control + xs.length)
    (hf : 10 * (s.control + xs.length) - 1 ≤ f)
    (hsub : ∀ (s' : St Q) (c : Q), WF s' (xs ++ [c]) → s'.ancilla ≠ [] → s'.control + 1 = s.control →
      Runs (modify f op (xs ++ [c]) 0 s') s' (xs ++ [c]) (ctrls (s'.controls ++ xs) (X c))) :
    Runs (noAncilla (f + 1) op xs t s) s (xs.reverse ++ [t]) (ctrls (s.controls ++ xs) (X t)) := by
  obtain ⟨cs, c, e, hl⟩ := ne_of_len w hn
  obtain ⟨n, d, ds, anc, out⟩ := s
  simp only at e hn hf hl hk hanc hsub
  subst e hanc
  have hnd := w.nodup
  simp only at hnd
  have hct : c ≠ t := by
    intro e; subst e
    have := List.nodup_iff_count_le_one.1 hnd c
    simp [List.count_append] at this
    omega
  have hcc : c ∉ cs ++ xs := by
    intro h
    have := List.nodup_iff_count_le_one.1 hnd c
    have h1 := List.count_pos_iff.2 h
    simp only [List.count_cons, List.count_append, List.count_nil, beq_self_eq_true, if_true] at this h1
    omega
  have htc : t ∉ cs ++ xs := by
    intro h
    have := List.nodup_iff_count_le_one.1 hnd t
    have h1 := List.count_pos_iff.2 h
    simp only [List.count_cons, List.count_append, List.count_nil, beq_self_eq_true, if_true] at this h1
    omega
  obtain ⟨g1, e1, d1⟩ := g.rot .V ⟨1, false, [c], [], out⟩ t 0 (V t) (by simp)
    ⟨rfl, by wf_count w⟩ (by simp only; omega) rfl
  obtain ⟨g2, e2, d2⟩ := hsub ⟨n - 1, false, cs, [] ++ [t], out ++ g1⟩ c
    ⟨by simp only; omega, by wf_count w⟩ (by simp) (by simp only; omega)
  have e2' := withAncilla_ok (w := t) (s := (⟨n - 1, false, cs, [], out ++ g1⟩ : St Q)) (gs := g2)
    (F := modify f op (xs ++ [c]) 0) e2
  obtain ⟨g3, e3, d3⟩ := g.rot .Vdg ⟨1, false, [c], [], out ++ g1 ++ g2⟩ t 0 (Vdg t) (by simp)
    ⟨rfl, by wf_count w⟩ (by simp only; omega) rfl
  obtain ⟨g4, e4, d4⟩ := hsub ⟨n - 1, false, cs, [] ++ [t], out ++ g1 ++ g2 ++ g3⟩ c
    ⟨by simp only; omega, by wf_count w⟩ (by simp) (by simp only; omega)
  have e4' := withAncilla_ok (w := t) (s := (⟨n - 1, false, cs, [], out ++ g1 ++ g2 ++ g3⟩ : St Q)) (gs := g4)
    (F := modify f op (xs ++ [c]) 0) e4
  obtain ⟨g5, e5, d5⟩ := g.rot .V ⟨n - 1 + xs.length, false, cs ++ xs, [] ++ [c], out ++ g1 ++ g2 ++ g3 ++ g4⟩ t 0
    (V t) (by simp) ⟨by simp only [List.length_append]; omega, by wf_count w⟩ (by simp only; omega) rfl
  have e5' := withAncilla_ok (w := c)
    (s := (⟨n - 1 + xs.length, false, cs ++ xs, [], out ++ g1 ++ g2 ++ g3 ++ g4⟩ : St Q)) (gs := g5)
    (F := modify f .V [t] 0) e5
  refine ⟨g1 ++ g2 ++ g3 ++ g4 ++ g5, ?_, ?_⟩
  · dsimp only at e1 e2' e3 e4' e5'
    have hlen : cs.length = n - 1 := by omega
    have hnn : n - 1 + 1 = n := by omega
    have hsub' : n - 1 + xs.length - xs.length = n - 1 := by omega
    simp only [noAncilla, popLast_append, bind, Except.bind, e1, e2', e3, hlen, ne_eq, not_true, if_false, e4',
      foldl_push, e5', popN_append, pushControl, hsub', hnn]
    simp
  · rw [den_append (den_append (den_append (den_append d1 d2) d3) d4) d5]
    have := x_split hcc htc hct
    rw [← ctrls_perm (cs := cs ++ xs ++ [c]) (ds := cs ++ [c] ++ xs) ?_ (X t), ← this]
    · rfl
    · exact List.perm_iff_count.2 (fun a => by simp only [List.count_append]; omega)

theorem step_x {f : Nat} (ih : ∀ f' ≤ f, Good Q f') (s : St Q) (t : Q) (θ : ℝ) (w : WF s [t])
    (hf : 10 * s.control + 1 < f + 1) :
    Runs (modify (f + 1) .X [t] θ s) s [t] (ctrls s.controls (X t)) := by
  by_cases hc : s.control = 0
  · refine run_direct (g := .X) rfl (by simp [direct, hc]) (by simp [modified, hc]) ?_
    rw [controls_nil w hc]; rfl
  by_cases hc1 : s.control = 1
  · obtain ⟨c, e⟩ := controls_one w hc1
    refine run_direct (g := .CX) rfl (by simp [direct, hc1]) (by simp [modified, hc1]) ?_
    rw [e]; rfl
  by_cases hc2 : s.control = 2
  · obtain ⟨b, c, e⟩ := controls_two w hc2
    refine run_direct (g := .Toffoli) rfl (by simp [direct, hc2]) (by simp [modified, hc2]) ?_
    rw [e]; rfl
  have hd : (direct .X s.control || directRot .X s.control) = false := by
    simp [direct, directRot, hc]; omega
  by_cases ha : s.ancilla = []
  · have hm : modify (f + 1) .X [t] θ s = noAncilla f .X [] t s := by
      simp [modify, TketOp.isQuantum, hd, ha]
    rw [hm]
    obtain ⟨f, rfl⟩ : ∃ f', f = f' + 1 := ⟨f - 1, by omega⟩
    have := no_anc (ih f (by omega)) .X [] s t w ha hc (by simp; omega) (by simp; omega)
      (fun s' c w' _ h' => by
        have := (ih f (by omega)).x s' c 0 w' (by omega)
        simpa using this)
    simpa using this
  · obtain ⟨cs, c2, e, hl⟩ := ne_of_len w hc
    obtain ⟨n, d, ds, anc, out⟩ := s
    simp only at e hc hc1 hc2 hf hl hd ha
    subst e
    rcases List.eq_nil_or_concat cs with h' | ⟨cs', c1, h'⟩
    · rw [h'] at hl; simp at hl; omega
    · rw [List.concat_eq_append] at h'
      subst h'
      simp at hl
      obtain ⟨g1, e1, d1⟩ := (ih f (le_refl _)).tof ⟨n - 1 - 1, d, cs', anc, out⟩ c1 c2 t 0
        ⟨by simp only; omega, by wf_count w⟩ (by simp only; omega)
      rw [if_neg (by simp [ha])] at e1
      refine ⟨g1, ?_, ?_⟩
      · have hnn : n - 1 - 1 + 1 + 1 = n := by omega
        have hie : anc.isEmpty = false := by simpa using ha
        simp only [modify, TketOp.isQuantum, hd, hie, popControl_append, e1, bind, Except.bind, pushControl, hnn]
        simp
      · rw [d1]; simp

theorem step_cx {f : Nat} (ih : ∀ f' ≤ f, Good Q f') (s : St Q) (x t : Q) (θ : ℝ) (w : WF s [x, t])
    (hf : 10 * (s.control + 1) + 1 < f + 1) :
    Runs (modify (f + 1) .CX [x, t] θ s) s [x, t] (ctrls (s.controls ++ [x]) (X t)) := by
  by_cases hc : s.control = 0
  · refine run_direct (g := .CX) rfl (by simp [direct, hc]) (by simp [modified, hc]) ?_
    rw [controls_nil w hc]; rfl
  by_cases hc1 : s.control = 1
  · obtain ⟨c, e⟩ := controls_one w hc1
    refine run_direct (g := .Toffoli) rfl (by simp [direct, hc1]) (by simp [modified, hc1]) ?_
    rw [e]; rfl
  have hd : (direct .CX s.control || directRot .CX s.control) = false := by
    simp [direct, directRot, hc, hc1]
  by_cases ha : s.ancilla = []
  · have hm : modify (f + 1) .CX [x, t] θ s = noAncilla f .CX [x] t s := by
      simp [modify, TketOp.isQuantum, hd, ha]
    rw [hm]
    obtain ⟨f, rfl⟩ : ∃ f', f = f' + 1 := ⟨f - 1, by omega⟩
    have := no_anc (ih f (by omega)) .CX [x] s t w ha hc (by simp; omega) (by simp; omega)
      (fun s' c w' _ h' => by
        have := (ih f (by omega)).cx s' x c 0 w' (by omega)
        simpa using this)
    simpa using this
  · obtain ⟨cs, c, e, hl⟩ := ne_of_len w hc
    obtain ⟨n, d, ds, anc, out⟩ := s
    simp only at e hc hc1 hf hl hd ha
    subst e
    obtain ⟨g1, e1, d1⟩ := (ih f (le_refl _)).tof ⟨n - 1, d, cs, anc, out⟩ c x t 0
      ⟨by simp only; omega, by wf_count w⟩ (by simp only; omega)
    rw [if_neg (by simp [ha])] at e1
    refine ⟨g1, ?_, ?_⟩
    · have hnn : n - 1 + 1 = n := by omega
      have hie : anc.isEmpty = false := by simpa using ha
      simp only [modify, TketOp.isQuantum, hd, hie, popControl_append, e1, bind, Except.bind, pushControl, hnn]
      simp
    · rw [d1]; simp

theorem step_tof {f : Nat} (ih : ∀ f' ≤ f, Good Q f') (s : St Q) (x y t : Q) (θ : ℝ) (w : WF s [x, y, t])
    (hf : 10 * (s.control + 2) < f + 1) :
    Runs (modify (f + 1) .Toffoli [x, y, t] θ s) s
      (if s.ancilla = [] ∧ s.control ≠ 0 then [y, x, t] else [x, y, t])
      (ctrls (s.controls ++ [x, y]) (X t)) := by
  by_cases hc : s.control = 0
  · rw [if_neg (by simp [hc])]
    refine run_direct (g := .Toffoli) rfl (by simp [direct, hc]) (by simp [modified, hc]) ?_
    rw [controls_nil w hc]; rfl
  have hd : (direct .Toffoli s.control || directRot .Toffoli s.control) = false := by
    simp [direct, directRot, hc]
  by_cases ha : s.ancilla = []
  · rw [if_pos ⟨ha, hc⟩]
    have hm : modify (f + 1) .Toffoli [x, y, t] θ s = noAncilla f .Toffoli [x, y] t s := by
      simp [modify, TketOp.isQuantum, hd, ha]
    rw [hm]
    obtain ⟨f, rfl⟩ : ∃ f', f = f' + 1 := ⟨f - 1, by omega⟩
    have := no_anc (ih f (by omega)) .Toffoli [x, y] s t w ha hc (by simp; omega) (by simp; omega)
      (fun s' c w' ha' h' => by
        have := (ih f (by omega)).tof s' x y c 0 w' (by omega)
        rw [if_neg (by simp [ha'])] at this
        simpa using this)
    simpa using this
  · rw [if_neg (by simp [ha])]
    have gd := ih f (le_refl _)
    obtain ⟨n, d, ds, anc, out⟩ := s
    have hlen := w.len
    simp only at hc hf hd ha hlen
    rcases List.eq_nil_or_concat anc with h' | ⟨anc, a, h'⟩
    · exact absurd h' ha
    rw [List.concat_eq_append] at h'
    subst h'
    obtain ⟨cs1, cs2, z, h1, h2, hds⟩ : ∃ cs1 cs2 z, ds.take (n / 2) = cs1 ∧ ds.drop (n / 2) = cs2 ++ [z] ∧
        ds = cs1 ++ (cs2 ++ [z]) := by
      rcases List.eq_nil_or_concat (ds.drop (n / 2)) with h' | ⟨cs2, z, h'⟩
      · rw [List.drop_eq_nil_iff] at h'
        omega
      · rw [List.concat_eq_append] at h'
        exact ⟨_, cs2, z, rfl, h', by rw [← h', List.take_append_drop]⟩
    have hl1 : cs1.length = n / 2 := by rw [← h1, List.length_take]; omega
    have hl2 : cs2.length + 1 = n - n / 2 := by
      have := congrArg List.length hds
      simp at this; omega
    have hnd := w.nodup
    simp only [hds] at hnd
    have hw : ∀ l : List Q, (∀ a', l.count a' ≤ (cs1 ++ (cs2 ++ [z]) ++ [x, y, t] ++ (anc ++ [a])).count a') →
        l.Nodup := fun l h => nodup_of hnd h
    obtain ⟨g1, e1, d1⟩ := gd.tof ⟨n / 2, false, cs1, anc ++ [z], out⟩ x y a 0
      ⟨by simp only; omega, hw _ (fun b => by simp only [List.count_cons, List.count_append, List.count_nil]; omega)⟩
      (by simp only; omega)
    rw [if_neg (by simp)] at e1
    have e1' := withAncilla_ok (w := z) (s := (⟨n / 2, false, cs1, anc, out⟩ : St Q)) (gs := g1)
      (F := modify f .Toffoli [x, y, a] 0) e1
    obtain ⟨g2, e2, d2⟩ := gd.cx ⟨n - n / 2, false, cs2 ++ [z], anc ++ [x], out ++ g1⟩ a t 0
      ⟨by simp only [List.length_append, List.length_singleton]; omega,
        hw _ (fun b => by simp only [List.count_cons, List.count_append, List.count_nil]; omega)⟩
      (by simp only; omega)
    have e2' := withAncilla_ok (w := x) (s := (⟨n - n / 2, false, cs2 ++ [z], anc, out ++ g1⟩ : St Q)) (gs := g2)
      (F := modify f .CX [a, t] 0) e2
    obtain ⟨g3, e3, d3⟩ := gd.tof ⟨n / 2, false, cs1, anc ++ [z], out ++ g1 ++ g2⟩ x y a 0
      ⟨by simp only; omega, hw _ (fun b => by simp only [List.count_cons, List.count_append, List.count_nil]; omega)⟩
      (by simp only; omega)
    rw [if_neg (by simp)] at e3
    have e3' := withAncilla_ok (w := z) (s := (⟨n / 2, false, cs1, anc, out ++ g1 ++ g2⟩ : St Q)) (gs := g3)
      (F := modify f .Toffoli [x, y, a] 0) e3
    obtain ⟨g4, e4, d4⟩ := gd.cx ⟨n - n / 2, false, cs2 ++ [z], anc ++ [x], out ++ g1 ++ g2 ++ g3⟩ a t 0
      ⟨by simp only [List.length_append, List.length_singleton]; omega,
        hw _ (fun b => by simp only [List.count_cons, List.count_append, List.count_nil]; omega)⟩
      (by simp only; omega)
    have e4' := withAncilla_ok (w := x)
      (s := (⟨n - n / 2, false, cs2 ++ [z], anc, out ++ g1 ++ g2 ++ g3⟩ : St Q)) (gs := g4)
      (F := modify f .CX [a, t] 0) e4
    dsimp only at e1' e2' e3' e4'
    refine ⟨g1 ++ g2 ++ g3 ++ g4, ?_, ?_⟩
    · have hie : (anc ++ [a]).isEmpty = false := by simp
      simp only [modify, TketOp.isQuantum, hd, hie, popLast_append, h1, h2, bind, Except.bind, e1', e2', e3', e4']
      simp [hds]
    · rw [den_append (den_append (den_append d1 d2) d3) d4]
      have hcnt : ∀ b, (cs1 ++ (cs2 ++ [z]) ++ [x, y, t] ++ (anc ++ [a])).count b ≤ 1 :=
        List.nodup_iff_count_le_one.1 hnd
      have hmem : ∀ (b : Q) (l : List Q), l.count b = 0 → b ∉ l := fun b l h => List.count_eq_zero.1 h
      have := toffoli_split (k := cs1 ++ [x, y]) (cs := cs2 ++ [z]) (a := a) (t := t)
        (hmem _ _ (by
          have := hcnt a
          simp only [List.count_cons, List.count_append, List.count_nil, beq_self_eq_true, if_true] at this ⊢
          omega))
        (hmem _ _ (by
          have := hcnt a
          simp only [List.count_cons, List.count_append, List.count_nil, beq_self_eq_true, if_true] at this ⊢
          omega))
        (hmem _ _ (by
          have := hcnt t
          simp only [List.count_cons, List.count_append, List.count_nil, beq_self_eq_true, if_true] at this ⊢
          omega))
        (hmem _ _ (by
          have := hcnt t
          simp only [List.count_cons, List.count_append, List.count_nil, beq_self_eq_true, if_true] at this ⊢
          omega))
        (by
          intro e
          have := hcnt t
          simp only [List.count_cons, List.count_append, List.count_nil, beq_self_eq_true, if_true, e] at this
          omega)
      simp only at this ⊢
      rw [this]
      congr 1
      refine ctrls_perm (List.perm_iff_count.2 (fun b => ?_)) _
      simp only [hds, List.count_append]
      omega

/-- Every call does what it should. -/
theorem good (f : Nat) : Good Q f := by
  induction f using Nat.strong_induction_on with
  | _ f ih =>
    cases f with
    | zero =>
      exact {
        x := fun _ _ _ _ h => absurd h (by omega)
        cx := fun _ _ _ _ _ h => absurd h (by omega)
        tof := fun _ _ _ _ _ _ h => absurd h (by omega)
        crz := fun _ _ _ _ _ h => absurd h (by omega)
        cz := fun _ _ _ _ _ h => absurd h (by omega)
        cy := fun _ _ _ _ _ h => absurd h (by omega)
        rz := fun _ _ _ _ h => absurd h (by omega)
        y := fun _ _ _ _ h => absurd h (by omega)
        z := fun _ _ _ _ h => absurd h (by omega)
        rx := fun _ _ _ _ h => absurd h (by omega)
        ry := fun _ _ _ _ h => absurd h (by omega)
        h := fun _ _ _ _ h => absurd h (by omega)
        rot := fun _ _ _ _ _ _ _ h => absurd h (by omega)
        phase := fun _ _ _ h => absurd h (by omega) }
    | succ f =>
      have ih' : ∀ f' ≤ f, Good Q f' := fun f' h => ih f' (by omega)
      have g := ih' f (le_refl _)
      exact {
        x := fun s t θ w h => step_x ih' s t θ w h
        cx := fun s c t θ w h => step_cx ih' s c t θ w h
        tof := fun s x y t θ w h => step_tof ih' s x y t θ w h
        crz := fun s c t θ w h => step_crz g s c t θ w h
        cz := fun s c t θ w h => step_cz g s c t θ w h
        cy := fun s c t θ w h => step_cy g s c t θ w h
        rz := fun s t θ w h => step_rz g s t θ w h
        y := fun s t θ w h => step_y g s t θ w h
        z := fun s t θ w h => step_z g s t θ w h
        rx := fun s t θ w h => step_rx g s t θ w h
        ry := fun s t θ w h => step_ry g s t θ w h
        h := fun s t θ w h => step_h g s t θ w h
        rot := fun op s t θ U ho w h hU => step_rot g op s t θ U ho w h hU
        phase := fun s θ w h => step_phase g s θ w h }

end Tket.ControlSynth
