import Verif.Lemmas.DecoderOk

/-!
# The decoded region is well typed if no opaque booleans occur
-/

namespace Verif.Decoder

variable {T R L : Type} [DecidableEq T] [DecidableEq R]

structure Typed (c : Cfg T R) (s : St T R L) : Prop where
  wires : ∀ w d, s.wires w = some d → typeOf s.nodes w = some d.ty ∧ d.ty ≠ c.tbool
  nodes : WellTyped s.nodes

omit [DecidableEq T] [DecidableEq R] in
theorem Typed.node {c : Cfg T R} {s : St T R L} (h : Typed c s) {n : Node T L}
    (hn : ∀ (i : Nat) (w : Wire), n.ins[i]? = some (.val w) →
      ∃ t, typeOf s.nodes w = some t ∧ n.sigIn[i]? = some t) :
    Typed c { s with nodes := n :: s.nodes } := by
  refine ⟨fun w d hd => ?_, hn, h.nodes⟩
  obtain ⟨h1, h2⟩ := h.wires w d hd
  exact ⟨by dsimp only; rw [typeOf_cons n s.nodes (typeOf_lt h1)]; exact h1, h2⟩

omit [DecidableEq T] [DecidableEq R] in
theorem Typed.halves {c : Cfg T R} {s : St T R L} (h : Typed c s) (q b : Half R) :
    Typed c { s with q := q, b := b } := ⟨h.wires, h.nodes⟩

omit [DecidableEq T] in
theorem trackWire_wires {c : Cfg T R} {s s' : St T R L} {w : Wire} {ty : T} {qs bs : List R}
    (h : trackWire c s w ty qs bs = .ok s') :
    s'.nodes = s.nodes ∧ ∃ qi bi, s'.wires = fun w' => if w' = w then some ⟨ty, qi, bi⟩ else s.wires w' := by
  unfold trackWire at h
  cases hq : s.q.trackAll c.single qs with
  | error e => rw [hq] at h; simp at h
  | ok y =>
    obtain ⟨qi, q⟩ := y
    rw [hq] at h
    dsimp only at h
    cases hb : s.b.trackAll c.single bs with
    | error e => rw [hb] at h; simp at h
    | ok z =>
      obtain ⟨bi, b⟩ := z
      rw [hb] at h
      simp only [Except.ok.injEq] at h
      subst h
      exact ⟨rfl, qi, bi, rfl⟩

omit [DecidableEq T] [DecidableEq R] in
theorem Typed.track {c : Cfg T R} {s s' : St T R L} (h : Typed c s) {w : Wire} {ty : T}
    (hty : typeOf s.nodes w = some ty) (hne : ty ≠ c.tbool) (hn : s'.nodes = s.nodes)
    {qi bi : List Nat}
    (hw : s'.wires = fun w' => if w' = w then some ⟨ty, qi, bi⟩ else s.wires w') : Typed c s' := by
  refine ⟨fun w' d hd => ?_, by rw [hn]; exact h.nodes⟩
  rw [hw] at hd
  dsimp only at hd
  rw [hn]
  split at hd
  · next he =>
    injection hd with hd
    subst hd he
    exact ⟨hty, hne⟩
  · exact h.wires w' d hd

theorem registerOutputs_typed {c : Cfg T R} {ts : List T} {node port : Nat}
    {s s' : St T R L} {qs bs : List (Arg R)} (ht : Typed c s) (hne : c.tbool ∉ ts)
    (hty : ∀ i, typeOf s.nodes ⟨node, port + i⟩ = ts[i]?)
    (h : registerOutputs c node s port ts qs bs = .ok s') : Typed c s' := by
  induction ts generalizing s port qs bs with
  | nil =>
    simp only [registerOutputs, Except.ok.injEq] at h
    subst h
    exact ht.halves _ _
  | cons t ts ih =>
    rw [registerOutputs] at h
    split at h
    · simp at h
    cases htr : trackWire c s ⟨node, port⟩ t ((qs.take (c.qubits t)).map Arg.reg)
        ((bs.take (c.bits t)).map Arg.reg) with
    | error e => rw [htr] at h; simp at h
    | ok s1 =>
      rw [htr] at h
      dsimp only at h
      obtain ⟨h1, qi, bi, h2⟩ := trackWire_wires htr
      have hty0 : typeOf s.nodes ⟨node, port⟩ = some t := by simpa using hty 0
      rw [List.mem_cons, not_or] at hne
      refine ih (port := port + 1) (ht.track hty0 (fun he => hne.1 he.symm) h1 h2) hne.2 ?_ h
      intro i
      have := hty (i + 1)
      rw [List.getElem?_cons_succ] at this
      rw [← this, h1, show port + 1 + i = port + (i + 1) by omega]

theorem initInputs_typed {c : Cfg T R} {ts : List T} {port : Nat}
    {s s' : St T R L} {qs bs qs' bs' : List R} (ht : Typed c s) (hne : c.tbool ∉ ts)
    (hty : ∀ i, typeOf s.nodes ⟨0, port + i⟩ = ts[i]?)
    (h : initInputs c s port ts qs bs = .ok (qs', bs', s')) : Typed c s' := by
  induction ts generalizing s port qs bs with
  | nil =>
    simp only [initInputs, Except.ok.injEq, Prod.mk.injEq] at h
    obtain ⟨rfl, rfl, rfl⟩ := h
    exact ht
  | cons t ts ih =>
    rw [initInputs] at h
    rw [List.mem_cons, not_or] at hne
    have hty' : ∀ i, typeOf s.nodes ⟨0, port + 1 + i⟩ = ts[i]? := by
      intro i
      have := hty (i + 1)
      rw [List.getElem?_cons_succ] at this
      rw [← this, show port + 1 + i = port + (i + 1) by omega]
    split at h
    · exact ih (port := port + 1) ht hne.2 hty' h
    split at h
    · simp at h
    cases htr : trackWire c s ⟨0, port⟩ t (qs.take (c.qubits t)) (bs.take (c.bits t)) with
    | error e => rw [htr] at h; simp at h
    | ok s1 =>
      rw [htr] at h
      dsimp only at h
      obtain ⟨h1, qi, bi, h2⟩ := trackWire_wires htr
      have hty0 : typeOf s.nodes ⟨0, port⟩ = some t := by simpa using hty 0
      split at h
      · simp at h
      exact ih (port := port + 1) (ht.track hty0 (fun he => hne.1 he.symm) h1 h2) hne.2
        (by rw [h1]; exact hty') h

theorem takeQ_typed {c : Cfg T R} {s : St T R L} {m : Regs R L} (hqt : c.qb ≠ c.tbool)
    (ht : Typed c s) {x : Arg R} (hx : ArgQ c s m x) :
    Typed c (takeQ c s x).2 ∧ typeOf (takeQ c s x).2.nodes (takeQ c s x).1 = some c.qb := by
  unfold takeQ
  obtain ⟨_, ⟨h1, h2⟩ | ⟨w, ty, h1, h2, h3, h4⟩⟩ := hx.holds
  · rw [h1]
    dsimp only
    have hty : typeOf (⟨.alloc, [], [], [c.qb]⟩ :: s.nodes : List (Node T L)) ⟨s.nodes.length, 0⟩ =
        some c.qb := typeOf_head _ _ _
    refine ⟨Typed.track (s := { s with nodes := _ :: s.nodes }) (ht.node (by simp)) hty hqt rfl rfl, hty⟩
  · rw [h1]
    subst h3
    exact ⟨ht, (ht.wires w _ h2).1⟩

theorem takeB_typed {c : Cfg T R} (hne : c.bool ≠ c.tbool) {s : St T R L}
    {m : Regs R L} (ht : Typed c s) {x : Arg R} (hx : ArgB c s m x) :
    Typed c (takeB c s x c.bool).2 ∧
      typeOf (takeB c s x c.bool).2.nodes (takeB c s x c.bool).1 = some c.bool := by
  unfold takeB
  obtain ⟨_, ⟨h1, h2⟩ | ⟨w, ty, h1, h2, h3, h4⟩⟩ := hx.holds
  · rw [h1]
    dsimp only
    have hty : typeOf (⟨.ff, [], [], [c.bool]⟩ :: s.nodes : List (Node T L)) ⟨s.nodes.length, 0⟩ =
        some c.bool := typeOf_head _ _ _
    unfold convB
    rw [if_pos (by simp [recTy, newB])]
    exact ⟨Typed.track (s := { s with nodes := _ :: s.nodes }) (ht.node (by simp)) hty hne rfl rfl, hty⟩
  · rw [h1]
    dsimp only
    obtain ⟨h5, h6⟩ := ht.wires w _ h2
    have : ty = c.bool := h3.resolve_right h6
    subst this
    unfold convB
    rw [if_pos (by simp [recTy, h2, mkB])]
    exact ⟨ht, h5⟩

theorem qb_ne_tbool {c : Cfg T R} (hc : c.Simple) : c.qb ≠ c.tbool :=
  fun h => qb_ne hc (.inr rfl) h.symm

theorem find_typed {c : Cfg T R} (hc : c.Simple) (hne : c.bool ≠ c.tbool) {s s' : St T R L}
    {m : Regs R L} (H : Inv c s m) {t : T} {a a' : Rest R} (ha : Args c s m a) {u : Bool}
    {f : Found T} (ht : Typed c s) (htt : t ≠ c.tbool)
    (h : find c s t a u = .ok (f, a', s')) :
    Typed c s' ∧ (∃ l, s'.nodes = l ++ s.nodes) ∧ ∀ w d, f = .reg w d → typeOf s'.nodes w = some t := by
  cases find_cases hc H ha h with
  | par p hp hs hq hb => subst hs; exact ⟨ht, ⟨[], rfl⟩, by simp⟩
  | gap hs1 hs hq => subst hs; exact ⟨ht, ⟨[], rfl⟩, by simp⟩
  | qubit d x hq hx hb hs =>
    subst hs hq
    obtain ⟨h1, h2⟩ := takeQ_typed (qb_ne_tbool hc) ht (ha.q x (by rw [hx]; simp))
    refine ⟨h1, takeQ_nodes c s x, ?_⟩
    intro w d' hw
    injection hw with hw
    rw [← hw]
    exact h2
  | bit d x hb hx hq hs =>
    have : t = c.bool := hb.resolve_right htt
    subst hs this
    obtain ⟨h1, h2⟩ := takeB_typed hne ht (ha.b x (by rw [hx]; simp))
    refine ⟨h1, takeB_nodes c s x c.bool, ?_⟩
    intro w d' hw
    injection hw with hw
    rw [← hw]
    exact h2

omit [DecidableEq T] [DecidableEq R] in
theorem typeOf_append {ns : List (Node T L)} {w : Wire} (l : List (Node T L)) {t : T}
    (h : typeOf ns w = some t) : typeOf (l ++ ns) w = some t := by
  induction l with
  | nil => exact h
  | cons n l ih => rw [List.cons_append, typeOf_cons _ _ (typeOf_lt ih), ih]

theorem findAll_typed {c : Cfg T R} (hc : c.Simple) (hne : c.bool ≠ c.tbool) {ts : List T}
    {s s' : St T R L} {m : Regs R L} (H : Inv c s m) {a : Rest R} (ha : Args c s m a)
    {ws : List Wire} {ps : List Nat} (ht : Typed c s) (hts : c.tbool ∉ ts) (hpl : c.paramsLast ts)
    (h : findAll c s ts a = .ok (ws, ps, s')) :
    Typed c s' ∧ (∃ l, s'.nodes = l ++ s.nodes) ∧
      ∀ (i : Nat) (w : Wire), ws[i]? = some w → ∃ t, typeOf s'.nodes w = some t ∧ ts[i]? = some t := by
  induction ts generalizing s s' a ws ps with
  | nil =>
    simp only [findAll, Except.ok.injEq, Prod.mk.injEq] at h
    obtain ⟨rfl, rfl, rfl⟩ := h
    exact ⟨ht, ⟨[], rfl⟩, by simp⟩
  | cons t ts ih =>
    rw [findAll] at h
    rw [List.mem_cons, not_or] at hts
    cases hf : find c s t a false with
    | error e => rw [hf] at h; simp at h
    | ok y =>
      obtain ⟨f, a', s1⟩ := y
      rw [hf] at h
      dsimp only at h
      obtain ⟨hq, hr, ha'⟩ := find_spec hc H ha hf
      obtain ⟨t1, ⟨l1, t2⟩, t3⟩ := find_typed hc hne H ha ht (fun he => hts.1 he.symm) hf
      cases hg : findAll c s1 ts a' with
      | error e => rw [hg] at h; simp at h
      | ok z =>
        obtain ⟨ws', ps', s2⟩ := z
        rw [hg] at h
        dsimp only at h
        obtain ⟨u1, ⟨l2, u2⟩, u3⟩ := ih hq.inv ha' t1 hts.2 hpl.2 hg
        have hnodes : ∃ l, s2.nodes = l ++ s.nodes := ⟨l2 ++ l1, by rw [u2, t2, List.append_assoc]⟩
        cases f with
        | unsupported => simp at h
        | par p =>
          simp only [Except.ok.injEq, Prod.mk.injEq] at h
          obtain ⟨rfl, rfl, rfl⟩ := h
          cases hr with
          | par p hp _ _ _ =>
            rw [findAll_params (hpl.1 hp) hg]
            exact ⟨u1, hnodes, by simp⟩
        | reg w d =>
          simp only [Except.ok.injEq, Prod.mk.injEq] at h
          obtain ⟨rfl, rfl, rfl⟩ := h
          refine ⟨u1, hnodes, ?_⟩
          intro i w' hw'
          cases i with
          | zero =>
            simp only [List.getElem?_cons_zero, Option.some.injEq] at hw'
            subst hw'
            refine ⟨t, ?_, rfl⟩
            rw [u2]
            exact typeOf_append l2 (t3 w d rfl)
          | succ i =>
            rw [List.getElem?_cons_succ] at hw' ⊢
            exact u3 i w' hw'

theorem finishOutputs_typed {c : Cfg T R} (hc : c.Simple) (hne : c.bool ≠ c.tbool) {ts : List T}
    {s s' : St T R L} {m : Regs R L} (H : Inv c s m) {a a' : Rest R} (ha : Args c s m a)
    {ss : List Src} (ht : Typed c s) (hts : c.tbool ∉ ts)
    (h : finishOutputs c s ts a = .ok (ss, a', s')) :
    Typed c s' ∧ (∃ l, s'.nodes = l ++ s.nodes) ∧
      ∀ (i : Nat) (w : Wire), ss[i]? = some (.val w) →
        ∃ t, typeOf s'.nodes w = some t ∧ ts[i]? = some t := by
  induction ts generalizing s s' a ss a' with
  | nil =>
    simp only [finishOutputs, Except.ok.injEq, Prod.mk.injEq] at h
    obtain ⟨rfl, rfl, rfl⟩ := h
    exact ⟨ht, ⟨[], rfl⟩, by simp⟩
  | cons t ts ih =>
    rw [finishOutputs] at h
    rw [List.mem_cons, not_or] at hts
    cases hf : find c s t a true with
    | error e => rw [hf] at h; simp at h
    | ok y =>
      obtain ⟨f, a1, s1⟩ := y
      rw [hf] at h
      dsimp only at h
      obtain ⟨hq, hr, ha'⟩ := find_spec hc H ha hf
      obtain ⟨t1, ⟨l1, t2⟩, t3⟩ := find_typed hc hne H ha ht (fun he => hts.1 he.symm) hf
      cases hg : finishOutputs c s1 ts a1 with
      | error e => rw [hg] at h; simp at h
      | ok z =>
        obtain ⟨ss', a2, s2⟩ := z
        rw [hg] at h
        simp only [Except.ok.injEq, Prod.mk.injEq] at h
        obtain ⟨rfl, rfl, rfl⟩ := h
        obtain ⟨u1, ⟨l2, u2⟩, u3⟩ := ih hq.inv ha' t1 hts.2 hg
        refine ⟨u1, ⟨l2 ++ l1, by rw [u2, t2, List.append_assoc]⟩, ?_⟩
        intro i w' hw'
        cases i with
        | zero =>
          rw [List.getElem?_cons_zero] at hw' ⊢
          cases f with
          | unsupported => simp at hw'
          | par p => simp at hw'
          | reg w d =>
            simp only [Option.some.injEq, Src.val.injEq] at hw'
            subst hw'
            refine ⟨t, ?_, rfl⟩
            rw [u2]
            exact typeOf_append l2 (t3 w d rfl)
        | succ i =>
          rw [List.getElem?_cons_succ] at hw' ⊢
          exact u3 i w' hw'

omit [DecidableEq T] [DecidableEq R] in
theorem srcs_get {ws : List Wire} {ps : List Nat} {i : Nat} {w : Wire}
    (h : (ws.map Src.val ++ ps.map Src.par)[i]? = some (.val w)) : ws[i]? = some w := by
  rw [List.getElem?_append] at h
  split at h
  · rw [List.getElem?_map] at h
    cases hw : ws[i]? with
    | none => rw [hw] at h; simp at h
    | some w' => rw [hw] at h; simp at h; rw [h]
  · rw [List.getElem?_map] at h
    cases hp : ps[i - (ws.map Src.val).length]? with
    | none => rw [hp] at h; simp at h
    | some p => rw [hp] at h; simp at h

theorem cmd_typed {c : Cfg T R} (hc : c.Simple) (hne : c.bool ≠ c.tbool) {s s1 s' : St T R L}
    {m : Regs R L} (H : Inv c s m) (ht : Typed c s)
    {l : L} {sigIn sigOut : List T} {a : Rest R} (ha : Args c s m a) {qs outB : List (Arg R)}
    (hin : c.tbool ∉ sigIn) (hout : c.tbool ∉ sigOut) (hpl : c.paramsLast sigIn)
    {ws : List Wire} {pp : List Nat} (hf : findAll c s sigIn a = .ok (ws, pp, s1)) (marks : List Nat)
    (h : registerOutputs c s1.nodes.length
      { s1 with
        nodes := (⟨.cmd l, ws.map .val ++ pp.map .par, sigIn, sigOut⟩ : Node T L) :: s1.nodes
        b := marks.foldl Half.mark s1.b } 0 sigOut qs outB = .ok s') : Typed c s' := by
  obtain ⟨t1, _, t3⟩ := findAll_typed hc hne H ha ht hin hpl hf
  have T1 := t1.node (n := (⟨.cmd l, ws.map .val ++ pp.map .par, sigIn, sigOut⟩ : Node T L))
    (fun i w hw => t3 i w (srcs_get hw))
  refine registerOutputs_typed (T1.halves _ _) hout ?_ h
  intro i
  dsimp only
  rw [Nat.zero_add, typeOf_head]

theorem command_typed {c : Cfg T R} (hc : c.Simple) (hne : c.bool ≠ c.tbool) {s s' : St T R L}
    {m : Regs R L} (H : Inv c s m) (ht : Typed c s) {k : Cmd T R L} (hpl : c.paramsLast k.sigIn)
    (hin : c.tbool ∉ k.sigIn) (hout : c.tbool ∉ k.sigOut) (h : command c s k = .ok s') :
    Typed c s' := by
  unfold command at h
  cases hsp : splitArgs s k.args with
  | error e => rw [hsp] at h; simp at h
  | ok y =>
    obtain ⟨qs, bs⟩ := y
    rw [hsp] at h
    dsimp only at h
    obtain ⟨h1, h2, h3, h4⟩ := splitArgs_spec H hsp
    have hq : ∀ x ∈ qs, ArgQ c s m x := fun x hx => (h3 x hx).argQ H
    have hb : ∀ x ∈ bs, ArgB c s m x := fun x hx => (h4 x hx).argB H
    have hwire : ∀ inB outB, (∀ x ∈ inB, ArgB c s m x) →
        wireUp c s k.label k.sigIn k.sigOut qs inB outB k.params = .ok s' → Typed c s' := by
      intro inB outB hi h
      unfold wireUp at h
      split at h
      · simp at h
      split at h
      · simp at h
      cases hf : findAll c s k.sigIn ⟨qs, inB, k.params⟩ with
      | error e => rw [hf] at h; simp at h
      | ok y =>
        obtain ⟨ws, pp, s1⟩ := y
        rw [hf] at h
        exact cmd_typed hc hne H ht ⟨hq, hi⟩ hin hout hpl hf _ h
    cases hm : k.mode with
    | split n =>
      rw [hm] at h
      dsimp only at h
      split at h
      · simp at h
      exact hwire _ _ (fun x hx => hb x (List.mem_of_mem_take hx)) h
    | both =>
      rw [hm] at h
      exact hwire _ _ hb h
    | «opaque» =>
      rw [hm] at h
      dsimp only at h
      unfold opaqueOp at h
      cases hf : findAll c s (c.opaqueIn qs.length bs.length k.params.length) ⟨qs, bs, k.params⟩ with
      | error e => rw [hf] at h; simp at h
      | ok y =>
        obtain ⟨ws, pp, s1⟩ := y
        rw [hf] at h
        unfold addNode at h
        dsimp only at h
        rw [trackEach_eq hc] at h
        have hqt := qb_ne_tbool hc
        have hrt : c.rot ≠ c.tbool := by
          intro he
          have := hc.param _ hc.rot
          rw [he, sup_bit hc (.inr rfl)] at this
          exact absurd this (by simp)
        refine cmd_typed hc hne H ht ⟨hq, hb⟩ ?_ ?_ (opaqueIn_paramsLast hc _ _ _) hf [] h
        · simp only [Cfg.opaqueIn, List.append_assoc, List.mem_append, List.mem_replicate, not_or, not_and]
          exact ⟨fun _ he => hqt he.symm, fun _ he => hne he.symm, fun _ he => hrt he.symm⟩
        · simp only [Cfg.opaqueOut, List.mem_append, List.mem_replicate, not_or, not_and]
          exact ⟨fun _ he => hqt he.symm, fun _ he => hne he.symm⟩

theorem commands_typed {c : Cfg T R} (hc : c.Simple) (hne : c.bool ≠ c.tbool)
    {ks : List (Cmd T R L)} {s s' : St T R L} {m : Regs R L} (H : Inv c s m) (ht : Typed c s)
    (hpl : ∀ k ∈ ks, c.paramsLast k.sigIn) (hin : ∀ k ∈ ks, c.tbool ∉ k.sigIn)
    (hout : ∀ k ∈ ks, c.tbool ∉ k.sigOut) (h : commands c s ks = .ok s') : Typed c s' := by
  induction ks generalizing s m with
  | nil =>
    simp only [commands, Except.ok.injEq] at h
    subst h
    exact ht
  | cons k ks ih =>
    rw [commands] at h
    cases hk : command c s k with
    | error e => rw [hk] at h; simp at h
    | ok s1 =>
      rw [hk] at h
      dsimp only at h
      obtain ⟨⟨h1, h2, h3, h4⟩, h5⟩ := command_spec hc H (hpl k (by simp)) hk
      exact ih h1 (command_typed hc hne H ht (hpl k (by simp)) (hin k (by simp)) (hout k (by simp)) hk)
        (fun k hk => hpl k (by simp [hk])) (fun k hk => hin k (by simp [hk]))
        (fun k hk => hout k (by simp [hk])) h

theorem freeAll_typed {c : Cfg T R} (hc : c.Simple) (hne : c.bool ≠ c.tbool) {qs : List (Arg R)}
    {s : St T R L} {m : Regs R L} (H : Inv c s m) (ht : Typed c s) (hq : ∀ x ∈ qs, ArgQ c s m x) :
    Typed c (freeAll c s qs) := by
  induction qs generalizing s with
  | nil => exact ht
  | cons x xs ih =>
    rw [freeAll]
    split
    · exact ih H ht fun y hy => hq y (by simp [hy])
    · split
      · next w d a' s1 hf =>
        have hargs : Args c s m ⟨[x], [], []⟩ := ⟨fun y hy => hq y (by simp at hy; simp [hy]), by simp⟩
        obtain ⟨h1, _, _⟩ := find_spec hc H hargs hf
        obtain ⟨t1, _, t3⟩ := find_typed hc hne H hargs ht (qb_ne_tbool hc) hf
        unfold addNode
        dsimp only
        refine ih (h1.inv.node (⟨.free, [.val w], [c.qb], []⟩ : Node T L)) (t1.node ?_) ?_
        · intro i w' hw'
          cases i with
          | zero =>
            simp only [List.getElem?_cons_zero, Option.some.injEq, Src.val.injEq] at hw'
            subst hw'
            exact ⟨c.qb, t3 w d rfl, rfl⟩
          | succ i => simp at hw'
        · intro y hy
          have := (hq y (by simp [hy])).mono H h1.ext h1.keysQ
          exact this.mono h1.inv (Ext.node _ _) rfl
      · exact ih H ht fun y hy => hq y (by simp [hy])

theorem finish_typed {c : Cfg T R} (hc : c.Simple) (hne : c.bool ≠ c.tbool) {s s' : St T R L}
    {m : Regs R L} (H : Inv c s m) (ht : Typed c s)
    (hkq : (keysQ s).Nodup) (hkb : (keysB s).Nodup) {sig : List T} {perm ps : List Nat}
    (hsig : c.tbool ∉ sig) (h : finish c s sig perm ps = .ok s') : WellTyped s'.nodes := by
  unfold finish at h
  cases hk : knownIds s.q.latest perm with
  | none => rw [hk] at h; simp at h
  | some ids =>
    rw [hk] at h
    dsimp only at h
    obtain ⟨l, hl1, hl2, hl3⟩ := known_spec hk
    cases hqs : s.q.args ids with
    | error e => rw [hqs] at h; simp at h
    | ok qs =>
      rw [hqs] at h
      dsimp only at h
      cases hbs : s.b.args (s.b.latest.map Prod.snd) with
      | error e => rw [hbs] at h; simp at h
      | ok bs =>
        rw [hbs] at h
        dsimp only at h
        subst hl2
        obtain ⟨q1, q2⟩ := args_latest hkq H.q.reg hl1 hqs
        obtain ⟨b1, b2⟩ := args_latest hkb H.b.reg (fun e he => he) hbs
        cases hf : finishOutputs c s sig ⟨qs, bs, ps⟩ with
        | error e => rw [hf] at h; simp at h
        | ok y =>
          obtain ⟨ss, a, s1⟩ := y
          rw [hf] at h
          simp only [Except.ok.injEq] at h
          subst h
          have hargs : Args c s m ⟨qs, bs, ps⟩ :=
            ⟨fun x hx => (q2 x hx).argQ H, fun x hx => (b2 x hx).argB H⟩
          obtain ⟨g1, g2, g3⟩ := finishOutputs_spec hc H hargs hf
          obtain ⟨t1, _, t3⟩ := finishOutputs_typed hc hne H hargs ht hsig hf
          unfold addNode
          dsimp only
          exact (freeAll_typed hc hne (g1.inv.node (⟨.output, ss, sig, []⟩ : Node T L))
            (t1.node (n := (⟨.output, ss, sig, []⟩ : Node T L)) t3)
            (fun x hx => (g2.q x hx).mono g1.inv (Ext.node _ _) rfl)).nodes

theorem decode_typed {c : Cfg T R} (hc : c.Simple) {k : Circ T R L} (hq : k.qubits.Nodup)
    (hb : k.bits.Nodup) (hpl : ∀ x ∈ k.cmds, c.paramsLast x.sigIn) (hk : k.Native c)
    {ns : List (Node T L)} (h : decode c k = .ok ns) : WellTyped ns := by
  unfold decode at h
  cases hi : init c k.sigIn k.qubits k.bits with
  | error e => rw [hi] at h; simp at h
  | ok s =>
    rw [hi] at h
    dsimp only at h
    obtain ⟨H, k1, k2, o⟩ := init_spec hc hq hb hi
    have T0 : Typed c s := by
      unfold init at hi
      cases hii : initInputs c (⟨[⟨.input, [], [], k.sigIn⟩], Half.empty, Half.empty, fun _ => none⟩ :
          St T R L) 0 k.sigIn k.qubits k.bits with
      | error e => rw [hii] at hi; simp at hi
      | ok y =>
        obtain ⟨qs', bs', s1⟩ := y
        rw [hii] at hi
        dsimp only at hi
        have T1 := initInputs_typed ⟨by simp, by simp [WellTyped]⟩ hk.sigIn
          (fun i => by dsimp only; rw [Nat.zero_add]; exact typeOf_head _ [] i) hii
        cases hdq : s1.q.declare c.single qs' with
        | error e => rw [hdq] at hi; simp at hi
        | ok q =>
          rw [hdq] at hi
          dsimp only at hi
          cases hdb : s1.b.declare c.single bs' with
          | error e => rw [hdb] at hi; simp at hi
          | ok b =>
            rw [hdb] at hi
            simp only [Except.ok.injEq] at hi
            subst hi
            exact T1.halves q b
    cases hcm : commands c s k.cmds with
    | error e => rw [hcm] at h; simp at h
    | ok s1 =>
      rw [hcm] at h
      dsimp only at h
      obtain ⟨⟨g1, g2, g3, g4⟩, g5⟩ := commands_spec hc H hpl hcm
      have T1 := commands_typed hc hk.ne H T0 hpl hk.cmdIn hk.cmdOut hcm
      cases hf : finish c s1 k.sigOut k.perm k.outParams with
      | error e => rw [hf] at h; simp at h
      | ok s2 =>
        rw [hf] at h
        simp only [Except.ok.injEq] at h
        subst h
        have e3 : keysQ s1 = k.qubits := g3.trans k1
        have e4 : keysB s1 = k.bits := g4.trans k2
        exact finish_typed hc hk.ne g1 T1 (by rw [e3]; exact hq) (by rw [e4]; exact hb) hk.sigOut hf

end Verif.Decoder
