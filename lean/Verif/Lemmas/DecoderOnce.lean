import Verif.Lemmas.DecoderLin

/-!
# Every qubit wire of a decoded region is used exactly once: commands, start and end
-/

namespace Verif.Decoder

variable {T R L : Type} [DecidableEq T] [DecidableEq R]

theorem registerOutputs_lin {c : Cfg T R} (hc : c.Simple) {ts : List T} {node port : Nat}
    {s s' : St T R L} {m : Regs R L} (H : Inv c s m) {qs bs : List (Arg R)}
    (hlin : Lin c s (qs.map Arg.reg) fun w => w.node = node ∧ port ≤ w.port)
    (hnd : (qs.map Arg.reg).Nodup) (hcq : c.countQ ts = qs.length)
    (hty : ∀ i, typeOf s.nodes ⟨node, port + i⟩ = ts[i]?)
    (hq : ∀ x ∈ qs, x.reg ∈ keysQ s) (hb : ∀ x ∈ bs, x.reg ∈ keysB s)
    (hlt : node < s.nodes.length)
    (hn : ∀ p, port ≤ p → s.wires ⟨node, p⟩ = none)
    (h : registerOutputs c node s port ts qs bs = .ok s') :
    Lin c s' [] fun _ => False := by
  induction ts generalizing s m port qs bs with
  | nil =>
    have hqs : qs = [] := by
      simp [Cfg.countQ] at hcq
      exact List.eq_nil_of_length_eq_zero hcq.symm
    subst hqs
    simp only [registerOutputs, Except.ok.injEq, List.map_nil, List.foldl_nil] at h
    subst h
    refine Lin.weaken (Lin.markB hlin _) ?_
    intro w ht
    refine ⟨?_, fun hf => hf.elim⟩
    rintro ⟨h1, h2⟩
    have := hty (w.port - port)
    rw [show port + (w.port - port) = w.port by omega, ← h1] at this
    rw [show ({ s with b := _ } : St T R L).nodes = s.nodes from rfl, this] at ht
    simp at ht
  | cons t ts ih =>
    rw [registerOutputs] at h
    split at h
    · simp at h
    next hcnt =>
    have hn0 := hn port (Nat.le_refl _)
    have hty0 : typeOf s.nodes ⟨node, port⟩ = some t := by simpa using hty 0
    have hty' : ∀ i, typeOf s.nodes ⟨node, port + 1 + i⟩ = ts[i]? := by
      intro i
      have := hty (i + 1)
      rw [List.getElem?_cons_succ] at this
      rw [← this, show port + 1 + i = port + (i + 1) by omega]
    have hstep : ∀ p, port + 1 ≤ p → (⟨node, p⟩ : Wire) ≠ ⟨node, port⟩ := by
      intro p hp he
      injection he with _ he
      omega
    have hF : ∀ w : Wire, ((w.node = node ∧ port ≤ w.port) ∧ w ≠ ⟨node, port⟩) ↔
        (w.node = node ∧ port + 1 ≤ w.port) := by
      rintro ⟨n, p⟩
      simp only [ne_eq, Wire.mk.injEq, not_and]
      constructor
      · rintro ⟨⟨h1, h2⟩, h3⟩
        have := h3 h1
        exact ⟨h1, by omega⟩
      · rintro ⟨h1, h2⟩
        exact ⟨⟨h1, by omega⟩, fun _ => by omega⟩
    have hF' : t ≠ c.qb → ∀ w : Wire, typeOf s.nodes w = some c.qb →
        ((w.node = node ∧ port ≤ w.port) ↔ (w.node = node ∧ port + 1 ≤ w.port)) := by
      intro hne w hw
      rw [← hF]
      refine ⟨fun hh => ⟨hh, ?_⟩, fun hh => hh.1⟩
      rintro rfl
      rw [hty0] at hw
      exact hne (Option.some.inj hw)
    by_cases ht : t = c.qb
    · subst ht
      rw [hc.qb_q, hc.qb_b] at h hcnt
      cases qs with
      | nil => simp at hcnt
      | cons x xs =>
        have hx := hq x (by simp)
        simp only [List.take_succ_cons, List.take_zero, List.map_cons, List.map_nil,
          List.drop_succ_cons, List.drop_zero] at h
        rw [trackWire_q _ _ _ _ _ (singleQ H hx)] at h
        dsimp only at h
        have hk : keysQ (newQ s ⟨node, port⟩ c.qb x.reg) = keysQ s :=
          next_keys ((lookup_isSome _ _).mpr hx) _
        have H1 := H.newQ hn0 hlt x.reg (singleQ H hx)
        rw [List.map_cons, List.nodup_cons] at hnd
        rw [List.map_cons] at hlin
        have L1 := hlin.newQ (P' := xs.map Arg.reg) H (w := ⟨node, port⟩) hty0
          ⟨rfl, Nat.le_refl _⟩ x.reg (by simp) (by
            intro r'
            by_cases hr : r' = x.reg
            · subst hr; simp only [true_or, iff_true]; exact hnd.1
            · simp [hr])
        refine ih H1 (L1.weaken fun w _ => hF w) hnd.2 ?_ hty'
          (fun y hy => by rw [hk]; exact hq y (by simp [hy])) hb hlt
          (fun p hp => by simp [newQ, hstep p hp, hn p (by omega)]) h
        simp only [Cfg.countQ, List.map_cons, List.sum_cons, hc.qb_q, List.length_cons] at hcq
        unfold Cfg.countQ
        omega
    · have hcq' : c.qubits t = 0 → c.countQ ts = qs.length := by
        intro h0
        simp only [Cfg.countQ, List.map_cons, List.sum_cons, h0] at hcq
        unfold Cfg.countQ
        omega
      by_cases hbt : t = c.bool ∨ t = c.tbool
      · rw [bit_q hc hbt, bit_b hc hbt] at h hcnt
        cases bs with
        | nil => simp at hcnt
        | cons x xs =>
          have hx := hb x (by simp)
          simp only [List.take_succ_cons, List.take_zero, List.map_cons, List.map_nil,
            List.drop_succ_cons, List.drop_zero] at h
          rw [trackWire_b _ _ _ _ _ (singleB H hx)] at h
          dsimp only at h
          have hk : keysB (newB s ⟨node, port⟩ t x.reg) = keysB s :=
            next_keys ((lookup_isSome _ _).mpr hx) _
          have H1 := H.newB hn0 hlt x.reg (singleB H hx) hbt
          have L1 := (hlin.weaken (hF' ht)).newB (w := ⟨node, port⟩)
            (by rw [hty0]; simpa using ht) t x.reg
          exact ih H1 L1 hnd (hcq' (bit_q hc hbt)) hty' hq
            (fun y hy => by rw [hk]; exact hb y (by simp [hy])) hlt
            (fun p hp => by simp [newB, hstep p hp, hn p (by omega)]) h
      · obtain ⟨c1, c2⟩ := counts_other hc ht hbt
        rw [c1, c2] at h
        simp only [List.take_zero, List.map_nil, List.drop_zero] at h
        rw [trackWire_n] at h
        dsimp only at h
        have H1 := H.newW hn0 hlt t
        have L1 := (hlin.weaken (hF' ht)).newW ⟨node, port⟩ t
        exact ih H1 L1 hnd (hcq' c1) hty' hq hb hlt
          (fun p hp => by simp [newW, hstep p hp, hn p (by omega)]) h

/-- `trackEach` is `registerOutputs` on the signature of an opaque operation. -/
theorem trackEach_eq {c : Cfg T R} (hc : c.Simple) (node : Nat) (s : St T R L) (port : Nat)
    (qs bs : List (Arg R)) :
    trackEach c node s port (qs.map Arg.reg) (bs.map Arg.reg) =
      registerOutputs c node s port (c.opaqueOut qs.length bs.length) qs bs := by
  induction qs generalizing s port with
  | nil =>
    induction bs generalizing s port with
    | nil => simp [trackEach, Cfg.opaqueOut, registerOutputs]
    | cons b bs ih =>
      have ha : c.opaqueOut ([] : List (Arg R)).length (b :: bs).length =
          c.bool :: c.opaqueOut ([] : List (Arg R)).length bs.length := by
        simp [Cfg.opaqueOut, List.replicate_succ]
      rw [ha, registerOutputs, hc.bool_q, hc.bool_b, if_neg (by simp)]
      simp only [List.map_nil, List.map_cons, trackEach, List.take_zero, List.take_succ_cons,
        List.drop_zero, List.drop_succ_cons]
      cases trackWire c s ⟨node, port⟩ c.bool [] [b.reg] with
      | error e => rfl
      | ok s1 => exact ih s1 (port + 1)
  | cons q qs ih =>
    have ha : c.opaqueOut (q :: qs).length bs.length = c.qb :: c.opaqueOut qs.length bs.length := by
      simp [Cfg.opaqueOut, List.replicate_succ]
    rw [ha, registerOutputs, hc.qb_q, hc.qb_b, if_neg (by simp)]
    simp only [List.map_nil, List.map_cons, trackEach, List.take_zero, List.take_succ_cons,
      List.drop_zero, List.drop_succ_cons]
    cases trackWire c s ⟨node, port⟩ c.qb [q.reg] [] with
    | error e => rfl
    | ok s1 => exact ih s1 (port + 1)

theorem Latest.linArgs {s : St T R L} {qs : List (Arg R)} (h : ∀ x ∈ qs, Latest s.q x)
    (hn : (qs.map Arg.reg).Nodup) : LinArgs s qs :=
  ⟨fun x hx => (h x hx).look, hn⟩

/-- The common part of commands and opaque operations. -/
theorem cmd_lin {c : Cfg T R} (hc : c.Simple) {s s1 s' : St T R L} {m : Regs R L} (H : Inv c s m)
    (hlin : Lin c s [] fun _ => False)
    {l : L} {sigIn sigOut : List T} {qs inB outB : List (Arg R)} {ps : List Nat}
    (hq : ∀ x ∈ qs, Latest s.q x) (hi : ∀ x ∈ inB, ArgB c s m x) (ho : ∀ x ∈ outB, ArgB c s m x)
    (hnd : (qs.map Arg.reg).Nodup)
    {ws : List Wire} {pp : List Nat} (hf : findAll c s sigIn ⟨qs, inB, ps⟩ = .ok (ws, pp, s1))
    (hcin : c.countQ sigIn = qs.length) (hcout : c.countQ sigOut = qs.length) (marks : List Nat)
    (h : registerOutputs c s1.nodes.length
      { s1 with
        nodes := (⟨.cmd l, ws.map .val ++ pp.map .par, sigIn, sigOut⟩ : Node T L) :: s1.nodes
        b := marks.foldl Half.mark s1.b } 0 sigOut qs outB = .ok s') :
    Lin c s' [] fun _ => False := by
  have hqa : ∀ x ∈ qs, ArgQ c s m x := fun x hx => (hq x hx).argQ H
  obtain ⟨h1, h2, _⟩ := findAll_spec hc H (a := ⟨qs, inB, ps⟩) ⟨hqa, hi⟩ hf
  obtain ⟨cs, rest, g1, g2, g3, g4, g5, g6⟩ :=
    findAll_lin hc H (a := ⟨qs, inB, ps⟩) ⟨hqa, hi⟩ hlin (Latest.linArgs hq hnd) hf
  have hrest : rest = [] := by
    have := congrArg List.length g1
    rw [List.length_append, g2, hcin] at this
    dsimp only at this
    exact List.eq_nil_of_length_eq_zero (by omega)
  subst hrest
  rw [List.append_nil] at g1
  dsimp only at g1
  subst g1
  have L1 := Lin.node h1.inv g3 (⟨.cmd l, ws.map .val ++ pp.map .par, sigIn, sigOut⟩ : Node T L)
    (qs.map Arg.reg) (by simp) (by
      intro w hw
      simp only [List.mem_append, List.mem_map, Src.val.injEq, exists_eq_right, reduceCtorEq,
        and_false, exists_false, or_false] at hw
      exact h2 w hw)
    (fun w ht hw => by rw [count_srcs]; exact g5.one w ht hw)
    (fun w ht hw => by rw [count_srcs]; exact g5.zero w ht hw)
  rw [List.append_nil] at L1
  have H1 := (h1.inv.node (⟨.cmd l, ws.map .val ++ pp.map .par, sigIn, sigOut⟩ : Node T L)).marks []
    marks
  have hkB : keysB { s1 with
      nodes := (⟨.cmd l, ws.map .val ++ pp.map .par, sigIn, sigOut⟩ : Node T L) :: s1.nodes
      b := marks.foldl Half.mark s1.b } = keysB s1 :=
    congrArg (List.map Prod.fst) (marks_latest _ _)
  have hnone : ∀ p, s1.wires ⟨s1.nodes.length, p⟩ = none := fun p =>
    h1.inv.none_of_ge (Nat.le_refl _)
  refine registerOutputs_lin hc H1 ((L1.markB _).weaken ?_) hnd hcout ?_ ?_ ?_ (by simp)
    (fun p _ => hnone p) h
  · exact fun w _ => ⟨fun hh => ⟨hh, Nat.zero_le _⟩, fun hh => hh.1⟩
  · intro i
    dsimp only
    rw [Nat.zero_add, typeOf_head]
  · intro x hx
    have := (hqa x hx).known
    rw [← h1.keysQ] at this
    exact this
  · intro x hx
    have := (ho x hx).known
    rw [← h1.keysB, ← hkB] at this
    exact this

theorem command_lin {c : Cfg T R} (hc : c.Simple) {s s' : St T R L} {m : Regs R L} (H : Inv c s m)
    (hlin : Lin c s [] fun _ => False) {k : Cmd T R L} (hnd : (k.qs (keysB s)).Nodup)
    (h : command c s k = .ok s') : Lin c s' [] fun _ => False := by
  unfold command at h
  cases hsp : splitArgs s k.args with
  | error e => rw [hsp] at h; simp at h
  | ok y =>
    obtain ⟨qs, bs⟩ := y
    rw [hsp] at h
    dsimp only at h
    obtain ⟨h1, h2, h3, h4⟩ := splitArgs_spec H hsp
    have hqs : k.qs (keysB s) = qs.map Arg.reg := h1.symm
    rw [hqs] at hnd
    have hb : ∀ x ∈ bs, ArgB c s m x := fun x hx => (h4 x hx).argB H
    have hwire : ∀ inB outB, (∀ x ∈ inB, ArgB c s m x) → (∀ x ∈ outB, ArgB c s m x) →
        wireUp c s k.label k.sigIn k.sigOut qs inB outB k.params = .ok s' →
        Lin c s' [] fun _ => False := by
      intro inB outB hi ho h
      unfold wireUp at h
      split at h
      · simp at h
      next hin =>
      split at h
      · simp at h
      next hout =>
      cases hf : findAll c s k.sigIn ⟨qs, inB, k.params⟩ with
      | error e => rw [hf] at h; simp at h
      | ok y =>
        obtain ⟨ws, pp, s1⟩ := y
        rw [hf] at h
        exact cmd_lin hc H hlin h3 hi ho hnd hf (by omega) (by omega) _ h
    cases hm : k.mode with
    | split n =>
      rw [hm] at h
      dsimp only at h
      split at h
      · simp at h
      exact hwire _ _ (fun x hx => hb x (List.mem_of_mem_take hx))
        (fun x hx => hb x (List.mem_of_mem_drop hx)) h
    | both =>
      rw [hm] at h
      exact hwire _ _ hb hb h
    | «opaque» =>
      rw [hm] at h
      dsimp only at h
      unfold opaqueOp at h
      cases hf : findAll c s (c.opaqueIn qs.length bs.length k.params.length) ⟨qs, bs, k.params⟩ with
      | error e => rw [hf] at h; simp at h
      | ok y =>
        obtain ⟨ws, pp, s1⟩ := y
        rw [hf] at h
        unfold addNode at h
        dsimp only at h
        rw [trackEach_eq hc] at h
        have hrot : c.qubits c.rot = 0 := by
          have := hc.param _ hc.rot
          simp [Cfg.supported] at this
          omega
        exact cmd_lin hc H hlin h3 hb hb hnd hf
          (by simp [Cfg.countQ, Cfg.opaqueIn, hc.qb_q, hc.bool_q, hrot])
          (by simp [Cfg.countQ, Cfg.opaqueOut, hc.qb_q, hc.bool_q]) [] h

theorem commands_lin {c : Cfg T R} (hc : c.Simple) {ks : List (Cmd T R L)} {s s' : St T R L}
    {m : Regs R L} (H : Inv c s m) (hlin : Lin c s [] fun _ => False)
    (hpl : ∀ k ∈ ks, c.paramsLast k.sigIn) (hnd : ∀ k ∈ ks, (k.qs (keysB s)).Nodup)
    (h : commands c s ks = .ok s') : Lin c s' [] fun _ => False := by
  induction ks generalizing s m with
  | nil =>
    simp only [commands, Except.ok.injEq] at h
    subst h
    exact hlin
  | cons k ks ih =>
    rw [commands] at h
    cases hk : command c s k with
    | error e => rw [hk] at h; simp at h
    | ok s1 =>
      rw [hk] at h
      dsimp only at h
      obtain ⟨⟨h1, h2, h3, h4⟩, h5⟩ := command_spec hc H (hpl k (by simp)) hk
      exact ih h1 (command_lin hc H hlin (hnd k (by simp)) hk) (fun k hk => hpl k (by simp [hk]))
        (fun k hk => by rw [h4]; exact hnd k (by simp [hk])) h

/-! ### The start -/

theorem initInputs_lin {c : Cfg T R} (hc : c.Simple) {ts : List T} {port : Nat} {s s' : St T R L}
    {m : Regs R L} (H : Inv c s m) {qs bs qs' bs' : List R}
    (hlin : Lin c s [] fun w => w.node = 0 ∧ port ≤ w.port)
    (hty : ∀ i, typeOf s.nodes ⟨0, port + i⟩ = ts[i]?)
    (hlt : 0 < s.nodes.length)
    (hn : ∀ p, port ≤ p → s.wires ⟨0, p⟩ = none)
    (hq : (keysQ s ++ qs).Nodup)
    (h : initInputs c s port ts qs bs = .ok (qs', bs', s')) :
    Lin c s' [] fun _ => False := by
  induction ts generalizing s s' m port qs bs qs' bs' with
  | nil =>
    simp only [initInputs, Except.ok.injEq, Prod.mk.injEq] at h
    obtain ⟨rfl, rfl, rfl⟩ := h
    refine hlin.weaken ?_
    intro w ht
    refine ⟨?_, fun hf => hf.elim⟩
    rintro ⟨h1, h2⟩
    have := hty (w.port - port)
    rw [show port + (w.port - port) = w.port by omega, ← h1] at this
    rw [this] at ht
    simp at ht
  | cons t ts ih =>
    rw [initInputs] at h
    have hn0 := hn port (Nat.le_refl _)
    have hty0 : typeOf s.nodes ⟨0, port⟩ = some t := by simpa using hty 0
    have hty' : ∀ i, typeOf s.nodes ⟨0, port + 1 + i⟩ = ts[i]? := by
      intro i
      have := hty (i + 1)
      rw [List.getElem?_cons_succ] at this
      rw [← this, show port + 1 + i = port + (i + 1) by omega]
    have hstep : ∀ p, port + 1 ≤ p → (⟨0, p⟩ : Wire) ≠ ⟨0, port⟩ := by
      intro p hp he
      injection he with _ he
      omega
    have hF : ∀ w : Wire, ((w.node = 0 ∧ port ≤ w.port) ∧ w ≠ ⟨0, port⟩) ↔
        (w.node = 0 ∧ port + 1 ≤ w.port) := by
      rintro ⟨n, p⟩
      simp only [ne_eq, Wire.mk.injEq, not_and]
      constructor
      · rintro ⟨⟨h1, h2⟩, h3⟩
        have := h3 h1
        exact ⟨h1, by omega⟩
      · rintro ⟨h1, h2⟩
        exact ⟨⟨h1, by omega⟩, fun _ => by omega⟩
    have hF' : t ≠ c.qb → ∀ w : Wire, typeOf s.nodes w = some c.qb →
        ((w.node = 0 ∧ port ≤ w.port) ↔ (w.node = 0 ∧ port + 1 ≤ w.port)) := by
      intro hne w hw
      rw [← hF]
      refine ⟨fun hh => ⟨hh, ?_⟩, fun hh => hh.1⟩
      rintro rfl
      rw [hty0] at hw
      exact hne (Option.some.inj hw)
    by_cases ht : t = c.qb
    · subst ht
      rw [if_neg (by simp [sup_qb hc]), hc.qb_q, hc.qb_b] at h
      cases qs with
      | nil => simp at h
      | cons x xs =>
        rw [if_neg (by simp)] at h
        simp only [List.take_succ_cons, List.take_zero, List.drop_succ_cons, List.drop_zero] at h
        by_cases hs : c.single x = true
        · rw [trackWire_q _ _ _ _ _ hs] at h
          dsimp only at h
          rw [if_neg (by simp [param_false hc (sup_qb hc)])] at h
          have hx : x ∉ keysQ s := by
            rw [List.nodup_append] at hq
            exact fun hx => hq.2.2 x hx x (by simp) rfl
          have hk : keysQ (newQ s ⟨0, port⟩ c.qb x) = keysQ s ++ [x] :=
            (insert_keys x _ s.q.latest).trans (if_neg hx)
          have H1 := H.newQ hn0 hlt x hs
          have L1 := hlin.newQ (P' := []) H (w := ⟨0, port⟩) hty0 ⟨rfl, Nat.le_refl _⟩ x
            (by
              rintro w' ⟨id, g1, _⟩
              exact absurd ((lookup_isSome x s.q.latest).mp (by rw [g1]; rfl)) hx)
            (by simp)
          exact ih H1 (L1.weaken fun w _ => hF w) hty' hlt
            (fun p hp => by simp [newQ, hstep p hp, hn p (by omega)])
            (by rw [hk, List.append_assoc]; exact hq) h
        · simp [trackWire, Half.trackAll, Half.track, hs] at h
    · by_cases hbt : t = c.bool ∨ t = c.tbool
      · rw [if_neg (by simp [sup_bit hc hbt]), bit_q hc hbt, bit_b hc hbt, if_neg (by omega)] at h
        cases bs with
        | nil =>
          simp only [List.take_zero, List.drop_zero, List.take_nil, List.drop_nil] at h
          rw [trackWire_n] at h
          dsimp only at h
          rw [if_neg (by simp [param_false hc (sup_bit hc hbt)])] at h
          exact ih (H.newW hn0 hlt t) ((hlin.weaken (hF' ht)).newW _ t) hty' hlt
            (fun p hp => by simp [newW, hstep p hp, hn p (by omega)]) hq h
        | cons x xs =>
          simp only [List.take_succ_cons, List.take_zero, List.drop_succ_cons, List.drop_zero] at h
          by_cases hs : c.single x = true
          · rw [trackWire_b _ _ _ _ _ hs] at h
            dsimp only at h
            rw [if_neg (by simp [param_false hc (sup_bit hc hbt)])] at h
            have H1 := H.newB hn0 hlt x hs hbt
            exact ih H1 ((hlin.weaken (hF' ht)).newB (w := ⟨0, port⟩) (by rw [hty0]; simpa using ht) t x)
              hty' hlt (fun p hp => by simp [newB, hstep p hp, hn p (by omega)]) hq h
          · simp [trackWire, Half.trackAll, Half.track, hs] at h
      · obtain ⟨c1, c2⟩ := counts_other hc ht hbt
        split at h
        · exact ih H (hlin.weaken (hF' ht)) hty' hlt (fun p hp => hn p (by omega)) hq h
        · rw [c1, c2, if_neg (by omega)] at h
          simp only [List.take_zero, List.drop_zero] at h
          rw [trackWire_n] at h
          dsimp only at h
          split at h
          · simp at h
          · exact ih (H.newW hn0 hlt t) ((hlin.weaken (hF' ht)).newW _ t) hty' hlt
              (fun p hp => by simp [newW, hstep p hp, hn p (by omega)]) hq h

theorem declare_lin {c : Cfg T R} {s : St T R L} {m : Regs R L} (H : Inv c s m) {rs : List R}
    {q : Half R} (hlin : Lin c s [] fun _ => False) (hn : (keysQ s ++ rs).Nodup)
    (hm : ∀ r ∈ rs, m.q r = .zero)
    (hd : s.q.declare c.single rs = .ok q) : Lin c { s with q := q } [] fun _ => False := by
  induction rs generalizing s with
  | nil =>
    simp only [Half.declare, Except.ok.injEq] at hd
    subst hd
    exact hlin
  | cons r rs ih =>
    rw [Half.declare] at hd
    by_cases hs : c.single r = true
    · rw [track_eq _ _ _ hs] at hd
      dsimp only at hd
      have hr : r ∉ keysQ s := by
        rw [List.nodup_append] at hn
        exact fun hx => hn.2.2 r hx r (by simp) rfl
      have hk : (s.q.next r []).latest.map Prod.fst = s.q.latest.map Prod.fst ++ [r] :=
        (insert_keys r _ s.q.latest).trans (if_neg hr)
      have H1 : Inv c { s with q := s.q.next r [] } m := ⟨H.q.declare r hs (hm r (by simp)), H.b, H.fresh⟩
      have hcur : ∀ r' w, CurOf { s with q := s.q.next r [] } r' w ↔ CurOf s r' w := by
        intro r' w
        by_cases hrr : r' = r
        · subst hrr
          constructor
          · rintro ⟨id, h1, h2⟩
            have h1 : lookupLatest r' (s.q.next r' []).latest = some id := h1
            have h2 : (s.q.next r' []).wires id = [w] := h2
            rw [next_latest, if_pos rfl] at h1
            injection h1 with h1
            subst h1
            rw [next_wires, if_pos rfl] at h2
            simp at h2
          · rintro ⟨id, h1, _⟩
            exact absurd ((lookup_isSome r' s.q.latest).mp (by rw [h1]; rfl)) hr
        · constructor
          · rintro ⟨id, h1, h2⟩
            have h1 : lookupLatest r' (s.q.next r []).latest = some id := h1
            have h2 : (s.q.next r []).wires id = [w] := h2
            rw [next_latest, if_neg hrr] at h1
            have := (H.q.holds r' id h1).1
            rw [next_wires, if_neg (by omega)] at h2
            exact ⟨id, h1, h2⟩
          · rintro ⟨id, h1, h2⟩
            have := (H.q.holds r' id h1).1
            refine ⟨id, ?_, ?_⟩
            · show lookupLatest r' (s.q.next r []).latest = _
              rw [next_latest, if_neg hrr]
              exact h1
            · show (s.q.next r []).wires _ = _
              rw [next_wires, if_neg (by omega)]
              exact h2
      have L1 : Lin c { s with q := s.q.next r [] } [] fun _ => False := by
        refine ⟨fun w ht hw => hlin.zero w ht ?_, fun w ht hw => hlin.one w ht ?_, hlin.old, hlin.ty,
          fun r' id hl => next_live hlin.live H.q.reg r' id hl⟩
        · rcases hw with ⟨r', h1, h2⟩ | hf
          · exact .inl ⟨r', h1, (hcur r' w).mp h2⟩
          · exact hf.elim
        · rintro (⟨r', h1, h2⟩ | hf)
          · exact hw (.inl ⟨r', h1, (hcur r' w).mpr h2⟩)
          · exact hf
      exact ih (s := { s with q := s.q.next r [] }) H1 L1 (by unfold keysQ; rw [hk, List.append_assoc]; exact hn)
        (fun r hr => hm r (by simp [hr])) hd
    · simp [Half.track, hs] at hd

theorem init_lin {c : Cfg T R} (hc : c.Simple) {k : Circ T R L} (hq : k.qubits.Nodup)
    (hb : k.bits.Nodup) {s : St T R L} (h : init c k.sigIn k.qubits k.bits = .ok s) :
    Lin c s [] fun _ => False := by
  unfold init at h
  have H0 : Inv c (⟨[⟨.input, [], [], k.sigIn⟩], Half.empty, Half.empty, fun _ => none⟩ : St T R L)
      ⟨fun _ => .zero, fun _ => .ff⟩ := by
    refine ⟨⟨?_, ?_, ?_⟩, ⟨?_, ?_, ?_⟩, ?_⟩ <;> simp [Half.empty, lookupLatest]
  have L0 : Lin c (⟨[⟨.input, [], [], k.sigIn⟩], Half.empty, Half.empty, fun _ => none⟩ : St T R L) []
      fun w => w.node = 0 ∧ 0 ≤ w.port := by
    refine ⟨fun w _ _ => by simp [uses], fun w ht hw => ?_, fun w _ => by simp [uses], by simp,
      by simp [Half.empty, lookupLatest]⟩
    exfalso
    have := typeOf_lt ht
    simp only [List.length_cons, List.length_nil] at this
    exact hw (.inr ⟨by omega, Nat.zero_le _⟩)
  cases hi : initInputs c (⟨[⟨.input, [], [], k.sigIn⟩], Half.empty, Half.empty, fun _ => none⟩ :
      St T R L) 0 k.sigIn k.qubits k.bits with
  | error e => rw [hi] at h; simp at h
  | ok y =>
    obtain ⟨qs', bs', s1⟩ := y
    rw [hi] at h
    dsimp only at h
    obtain ⟨h1, h2, h3, h4, h5, h6, h7, h8⟩ := initInputs_spec hc H0 (by simp)
      (fun p => eval_head _ [] p) (fun _ _ => rfl) hq hb hi
    have L1 := initInputs_lin hc H0 L0 (fun i => by dsimp only; rw [Nat.zero_add]; exact typeOf_head _ [] i) (by simp)
      (fun _ _ => rfl) hq hi
    have e3 : keysQ s1 ++ qs' = k.qubits := h3
    cases hdq : s1.q.declare c.single qs' with
    | error e => rw [hdq] at h; simp at h
    | ok q =>
      rw [hdq] at h
      dsimp only at h
      cases hdb : s1.b.declare c.single bs' with
      | error e => rw [hdb] at h; simp at h
      | ok b =>
        rw [hdb] at h
        simp only [Except.ok.injEq] at h
        subst h
        exact (declare_lin h1 L1 (by rw [e3]; exact hq) (fun r hr => h5 r hr) hdq).markB b

/-! ### The end -/

theorem freeAll_lin {c : Cfg T R} (hc : c.Simple) {qs : List (Arg R)} {s : St T R L} {m : Regs R L}
    (H : Inv c s m) {P : List R} (hlin : Lin c s P fun _ => False) (hla : LinArgs s qs)
    (hP : ∀ x ∈ qs, x.reg ∉ P) (hout : ∀ x ∈ qs, x.outdated = false)
    (hq : ∀ x ∈ qs, ArgQ c s m x) :
    ∃ P', Lin c (freeAll c s qs) P' (fun _ => False) ∧ (freeAll c s qs).q = s.q ∧
      ∀ r, r ∈ P ∨ r ∈ qs.map Arg.reg → r ∈ P' := by
  induction qs generalizing s P with
  | nil => exact ⟨P, hlin, rfl, by simp⟩
  | cons x xs ih =>
    have hnd := hla.nodup
    rw [List.map_cons, List.nodup_cons] at hnd
    rw [freeAll]
    have hax := hq x (by simp)
    have hdis : ∀ y ∈ xs, y.reg ∉ x.reg :: P := by
      intro y hy
      rw [List.mem_cons, not_or]
      refine ⟨fun he => hnd.1 (he ▸ List.mem_map.mpr ⟨y, hy, rfl⟩), hP y (by simp [hy])⟩
    have hxl := hla.look x (by simp)
    obtain ⟨_, ⟨h1, h2⟩ | ⟨w, ty, h1, h2, h3, h4⟩⟩ := hax.holds
    · rw [if_pos (by rw [h1]; rfl)]
      have hnc : ∀ w, ¬ CurOf s x.reg w := by
        rintro w ⟨id, g1, g2⟩
        rw [hxl] at g1
        injection g1 with g1
        rw [← g1, h1] at g2
        simp at g2
      have L1 : Lin c s (x.reg :: P) fun _ => False := by
        refine ⟨fun w ht hw => hlin.zero w ht ?_, fun w ht hw => hlin.one w ht ?_, hlin.old, hlin.ty,
          hlin.live⟩
        · rcases hw with ⟨r, g1, g2⟩ | hf
          · rw [List.mem_cons, not_or] at g1
            exact .inl ⟨r, g1.2, g2⟩
          · exact hf.elim
        · rintro (⟨r, g1, g2⟩ | hf)
          · refine hw (.inl ⟨r, ?_, g2⟩)
            rw [List.mem_cons, not_or]
            exact ⟨fun he => hnc w (he ▸ g2), g1⟩
          · exact hf
      obtain ⟨P', p1, p2, p3⟩ := ih H L1 ⟨fun y hy => hla.look y (by simp [hy]), hnd.2⟩ hdis
        (fun y hy => hout y (by simp [hy])) (fun y hy => hq y (by simp [hy]))
      refine ⟨P', p1, p2, fun r hr => p3 r ?_⟩
      rw [List.map_cons, List.mem_cons] at hr
      rcases hr with hr | rfl | hr
      · exact .inl (List.mem_cons_of_mem _ hr)
      · exact .inl (by simp)
      · exact .inr hr
    · rw [if_neg (by rw [h1]; simp)]
      obtain ⟨d, hd⟩ := find_qb hc (s := s) (a := ⟨[x], [], []⟩)
        (Args.heads (m := m) ⟨fun y hy => hq y (by simp at hy; simp [hy]), by simp⟩) rfl
        (singleQ H hax.known) false
      rw [hout x (by simp)] at hd
      simp only [Bool.false_eq_true, if_false] at hd
      have htk : takeQ c s x = (w, s) := by unfold takeQ; rw [h1]
      rw [htk] at hd
      rw [hd]
      dsimp only
      unfold addNode
      dsimp only
      have hcur : CurOf s x.reg w := ⟨x.id, hxl, h1⟩
      have hty : typeOf s.nodes w = some c.qb := (hlin.ty w _ h2).1 (by simp [mkQ])
      have L1 := Lin.node H hlin (⟨.free, [.val w], [c.qb], []⟩ : Node T L) [x.reg]
        (by intro r hr; rw [List.mem_singleton.mp hr]; exact hP x (by simp))
        (by intro w' hw'; simp at hw'; subst hw'; exact typeOf_lt hty)
        (by
          rintro w' _ ⟨r, hr, hc'⟩
          rw [List.mem_singleton.mp hr] at hc'
          rw [hc'.unique hcur]
          simp)
        (by
          intro w' _ hw'
          have : w ≠ w' := by
            rintro rfl
            exact hw' ⟨x.reg, by simp, hcur⟩
          simp [this])
      have L2 : Lin c { s with nodes := (⟨.free, [.val w], [c.qb], []⟩ : Node T L) :: s.nodes }
          (x.reg :: P) fun _ => False := by
        refine L1.weaken ?_
        intro w' ht
        refine ⟨fun hw' => ?_, fun hf => hf.elim⟩
        have : w' = ⟨s.nodes.length, w'.port⟩ := by
          cases w'
          simp only [Wire.mk.injEq, and_true]
          exact hw'
        rw [this] at ht
        have ht : (([] : List T))[w'.port]? = some c.qb := by
          rw [← ht]
          exact (typeOf_head (⟨.free, [.val w], [c.qb], []⟩ : Node T L) s.nodes w'.port).symm
        simp at ht
      obtain ⟨P', p1, p2, p3⟩ := ih (H.node (⟨.free, [.val w], [c.qb], []⟩ : Node T L)) L2
        ⟨fun y hy => hla.look y (by simp [hy]), hnd.2⟩ hdis
        (fun y hy => hout y (by simp [hy]))
        (fun y hy => (hq y (by simp [hy])).mono H (Ext.node _ _) rfl)
      refine ⟨P', p1, p2, fun r hr => p3 r ?_⟩
      rw [List.map_cons, List.mem_cons] at hr
      rcases hr with hr | rfl | hr
      · exact .inl (List.mem_cons_of_mem _ hr)
      · exact .inl (by simp)
      · exact .inr hr

/-- The latest elements of a live half are not outdated. -/
theorem Latest.fresh {c : Cfg T R} {s : St T R L} {P : List R} {F : Wire → Prop}
    (h : Lin c s P F) {x : Arg R} (hx : Latest s.q x) : x.outdated = false := by
  have := h.live _ _ hx.look
  rw [hx.elem] at this
  simpa using this

theorem finish_lin {c : Cfg T R} (hc : c.Simple) {s s' : St T R L} {m : Regs R L} (H : Inv c s m)
    (hlin : Lin c s [] fun _ => False)
    (hkq : (keysQ s).Nodup) (hkb : (keysB s).Nodup) {sig : List T} {perm ps : List Nat}
    (hperm : ((List.range (keysQ s).length).filterMap fun i => (keysQ s)[(perm[i]?).getD i]?).Perm
      (keysQ s))
    (h : finish c s sig perm ps = .ok s') :
    ∀ w, typeOf s'.nodes w = some c.qb → uses s'.nodes w = 1 := by
  unfold finish at h
  cases hk : knownIds s.q.latest perm with
  | none => rw [hk] at h; simp at h
  | some ids =>
    rw [hk] at h
    dsimp only at h
    obtain ⟨l, hl1, hl2, hl3⟩ := known_spec hk
    cases hqs : s.q.args ids with
    | error e => rw [hqs] at h; simp at h
    | ok qs =>
      rw [hqs] at h
      dsimp only at h
      cases hbs : s.b.args (s.b.latest.map Prod.snd) with
      | error e => rw [hbs] at h; simp at h
      | ok bs =>
        rw [hbs] at h
        dsimp only at h
        subst hl2
        obtain ⟨q1, q2⟩ := args_latest hkq H.q.reg hl1 hqs
        obtain ⟨b1, b2⟩ := args_latest hkb H.b.reg (fun e he => he) hbs
        have hqregs : (qs.map Arg.reg).Perm (keysQ s) := by
          rw [q1, hl3, show s.q.latest.length = (keysQ s).length by unfold keysQ; simp]
          exact hperm
        have hnd : (qs.map Arg.reg).Nodup := hqregs.nodup_iff.mpr hkq
        cases hf : finishOutputs c s sig ⟨qs, bs, ps⟩ with
        | error e => rw [hf] at h; simp at h
        | ok y =>
          obtain ⟨ss, a, s1⟩ := y
          rw [hf] at h
          simp only [Except.ok.injEq] at h
          subst h
          have hargs : Args c s m ⟨qs, bs, ps⟩ :=
            ⟨fun x hx => (q2 x hx).argQ H, fun x hx => (b2 x hx).argB H⟩
          obtain ⟨g1, g2, g3⟩ := finishOutputs_spec hc H hargs hf
          obtain ⟨cs, e1, e2, e3, e4, e5, e6⟩ := finishOutputs_lin hc H hargs hlin
            (Latest.linArgs q2 hnd) hf
          dsimp only at e1
          have hsplit : (cs.map Arg.reg ++ a.q.map Arg.reg).Nodup := by
            rw [← List.map_append, ← e1]
            exact hnd
          rw [List.nodup_append] at hsplit
          have L1 := Lin.node g1.inv e2 (⟨.output, ss, sig, []⟩ : Node T L) (cs.map Arg.reg)
            (by simp) (fun w hw => e5 w hw) e4.one e4.zero
          rw [List.append_nil] at L1
          have L2 : Lin c { s1 with nodes := (⟨.output, ss, sig, []⟩ : Node T L) :: s1.nodes }
              (cs.map Arg.reg) fun _ => False := by
            refine L1.weaken ?_
            intro w' ht
            refine ⟨fun hw' => ?_, fun hf => hf.elim⟩
            have : w' = ⟨s1.nodes.length, w'.port⟩ := by
              cases w'
              simp only [Wire.mk.injEq, and_true]
              exact hw'
            rw [this] at ht
            have ht : (([] : List T))[w'.port]? = some c.qb := by
              rw [← ht]
              exact (typeOf_head (⟨.output, ss, sig, []⟩ : Node T L) s1.nodes w'.port).symm
            simp at ht
          have hmem : ∀ x ∈ a.q, x ∈ qs := fun x hx => by rw [e1]; simp [hx]
          obtain ⟨P', p1, p2, p3⟩ := freeAll_lin hc (g1.inv.node (⟨.output, ss, sig, []⟩ : Node T L)) L2
            (qs := a.q)
            ⟨fun x hx => by
              have hnot : x.reg ∉ cs.map Arg.reg := fun hh =>
                hsplit.2.2 _ hh _ (List.mem_map.mpr ⟨x, hx, rfl⟩) rfl
              exact (e6 _ hnot).trans (q2 x (hmem x hx)).look, hsplit.2.1⟩
            (fun x hx hh => hsplit.2.2 _ hh _ (List.mem_map.mpr ⟨x, hx, rfl⟩) rfl)
            (fun x hx => Latest.fresh hlin (q2 x (hmem x hx)))
            (fun x hx => (g2.q x hx).mono g1.inv (Ext.node _ _) rfl)
          intro w ht
          refine p1.one w ht ?_
          rintro (⟨r, hr, hcur⟩ | hf')
          · apply hr
            apply p3
            obtain ⟨id, c1, _⟩ := hcur
            rw [p2] at c1
            have hkey : r ∈ keysQ s1 := (lookup_isSome r _).mp (by
              show (lookupLatest r s1.q.latest).isSome = true
              rw [show lookupLatest r s1.q.latest = some id from c1]; rfl)
            rw [g1.keysQ] at hkey
            have := hqregs.mem_iff.mpr hkey
            rw [e1, List.map_append, List.mem_append] at this
            exact this
          · exact hf'

/-- In a decoded region every qubit wire is used exactly once. -/
theorem decode_once {c : Cfg T R} (hc : c.Simple) {k : Circ T R L} (hq : k.qubits.Nodup)
    (hb : k.bits.Nodup) (hpl : ∀ x ∈ k.cmds, c.paramsLast x.sigIn)
    (hnd : ∀ x ∈ k.cmds, (x.qs k.bits).Nodup) (hperm : k.outQubits.Perm k.qubits)
    {ns : List (Node T L)} (h : decode c k = .ok ns) {w : Wire} (hw : typeOf ns w = some c.qb) :
    uses ns w = 1 := by
  unfold decode at h
  cases hi : init c k.sigIn k.qubits k.bits with
  | error e => rw [hi] at h; simp at h
  | ok s =>
    rw [hi] at h
    dsimp only at h
    obtain ⟨H, k1, k2, o⟩ := init_spec hc hq hb hi
    have L0 := init_lin hc hq hb hi
    cases hcm : commands c s k.cmds with
    | error e => rw [hcm] at h; simp at h
    | ok s1 =>
      rw [hcm] at h
      dsimp only at h
      obtain ⟨⟨g1, g2, g3, g4⟩, g5⟩ := commands_spec hc H hpl hcm
      have L1 := commands_lin hc H L0 hpl (fun x hx => by rw [k2]; exact hnd x hx) hcm
      cases hf : finish c s1 k.sigOut k.perm k.outParams with
      | error e => rw [hf] at h; simp at h
      | ok s2 =>
        rw [hf] at h
        simp only [Except.ok.injEq] at h
        subst h
        have e3 : keysQ s1 = k.qubits := g3.trans k1
        have e4 : keysB s1 = k.bits := g4.trans k2
        exact finish_lin hc g1 L1 (by rw [e3]; exact hq) (by rw [e4]; exact hb)
          (by rw [e3]; exact hperm) hf w hw

end Verif.Decoder
