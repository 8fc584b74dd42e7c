import Verif.Lemmas.DecoderInv

/-!
# Commands, the start and the end of a region
-/

namespace Verif.Decoder

variable {T R L : Type} [DecidableEq T] [DecidableEq R]

/-! ### The outputs of a command -/

/-- A step that may change registers. -/
structure Step (c : Cfg T R) (m' : Regs R L) (s s' : St T R L) : Prop where
  inv : Inv c s' m'
  ext : Ext s s'
  keysQ : keysQ s' = keysQ s
  keysB : keysB s' = keysB s

theorem assign_cons (c : Cfg T R) (val : Nat → V L) (m : Regs R L) (port : Nat) (t : T)
    (ts : List T) (qs bs : List R) :
    assign c val m port (t :: ts) qs bs =
    if t = c.qb then
      match qs with
      | [] => assign c val m (port + 1) ts qs bs
      | q :: qs => assign c val { m with q := setReg m.q q (val port) } (port + 1) ts qs bs
    else if t = c.bool ∨ t = c.tbool then
      match bs with
      | [] => assign c val m (port + 1) ts qs bs
      | b :: bs => assign c val { m with b := setReg m.b b (val port) } (port + 1) ts qs bs
    else assign c val m (port + 1) ts qs bs := by
  cases qs <;> cases bs <;> rfl

theorem counts_other {c : Cfg T R} (hc : c.Simple) {t : T} (h1 : t ≠ c.qb)
    (h2 : ¬ (t = c.bool ∨ t = c.tbool)) : c.qubits t = 0 ∧ c.bits t = 0 := by
  have : c.supported t = false := by
    cases hs : c.supported t with
    | false => rfl
    | true => rcases hc.only t hs with h | h
              · exact absurd h h1
              · exact absurd h h2
  simp [Cfg.supported] at this
  omega

theorem registerOutputs_spec {c : Cfg T R} (hc : c.Simple) {ts : List T} {node port : Nat}
    {s s' : St T R L} {m : Regs R L} (H : Inv c s m) {qs bs : List (Arg R)} {val : Nat → V L}
    (hq : ∀ x ∈ qs, x.reg ∈ keysQ s) (hb : ∀ x ∈ bs, x.reg ∈ keysB s)
    (hlt : node < s.nodes.length) (hv : ∀ p, eval s.nodes ⟨node, p⟩ = val p)
    (hn : ∀ p, port ≤ p → s.wires ⟨node, p⟩ = none)
    (h : registerOutputs c node s port ts qs bs = .ok s') :
    Step c (assign c val m port ts (qs.map Arg.reg) (bs.map Arg.reg)) s s' ∧ s'.nodes = s.nodes := by
  induction ts generalizing s m port qs bs with
  | nil =>
    simp only [registerOutputs, Except.ok.injEq] at h
    subst h
    refine ⟨⟨H.marks _ _, Ext.marks _ _ _, ?_, ?_⟩, rfl⟩
    · exact congrArg (List.map Prod.fst) (marks_latest _ _)
    · exact congrArg (List.map Prod.fst) (marks_latest _ _)
  | cons t ts ih =>
    rw [registerOutputs] at h
    split at h
    · simp at h
    next hcnt =>
    rw [assign_cons]
    have hn0 := hn port (Nat.le_refl _)
    have hstep : ∀ p, port + 1 ≤ p → (⟨node, p⟩ : Wire) ≠ ⟨node, port⟩ := by
      intro p hp he
      injection he with _ he
      omega
    by_cases ht : t = c.qb
    · subst ht
      rw [hc.qb_q, hc.qb_b] at h
      rw [hc.qb_q, hc.qb_b] at hcnt
      rw [if_pos rfl]
      cases qs with
      | nil => simp at hcnt
      | cons x xs =>
        have hx := hq x (by simp)
        simp only [List.take_succ_cons, List.take_zero, List.map_cons, List.map_nil,
          List.drop_succ_cons, List.drop_zero] at h
        rw [trackWire_q _ _ _ _ _ (singleQ H hx)] at h
        dsimp only at h
        have hk : keysQ (newQ s ⟨node, port⟩ c.qb x.reg) = keysQ s :=
          next_keys ((lookup_isSome _ _).mpr hx) _
        have H1 := H.newQ hn0 hlt x.reg (singleQ H hx)
        rw [hv port] at H1
        obtain ⟨⟨h1, h2, h3, h4⟩, h5⟩ := ih H1 (fun y hy => by rw [hk]; exact hq y (by simp [hy])) hb hlt hv
          (fun p hp => by simp [newQ, hstep p hp, hn p (by omega)]) h
        exact ⟨⟨h1, (Ext.newQ hn0 _ _).trans h2, h3.trans hk, h4⟩, h5⟩
    · rw [if_neg ht]
      by_cases hbt : t = c.bool ∨ t = c.tbool
      · rw [bit_q hc hbt, bit_b hc hbt] at h hcnt
        rw [if_pos hbt]
        cases bs with
        | nil => simp at hcnt
        | cons x xs =>
          have hx := hb x (by simp)
          simp only [List.take_succ_cons, List.take_zero, List.map_cons, List.map_nil,
            List.drop_succ_cons, List.drop_zero] at h
          rw [trackWire_b _ _ _ _ _ (singleB H hx)] at h
          dsimp only at h
          have hk : keysB (newB s ⟨node, port⟩ t x.reg) = keysB s :=
            next_keys ((lookup_isSome _ _).mpr hx) _
          have H1 := H.newB hn0 hlt x.reg (singleB H hx) hbt
          rw [hv port] at H1
          obtain ⟨⟨h1, h2, h3, h4⟩, h5⟩ := ih H1 hq (fun y hy => by rw [hk]; exact hb y (by simp [hy])) hlt hv
            (fun p hp => by simp [newB, hstep p hp, hn p (by omega)]) h
          exact ⟨⟨h1, (Ext.newB hn0 _ _).trans h2, h3, h4.trans hk⟩, h5⟩
      · obtain ⟨c1, c2⟩ := counts_other hc ht hbt
        rw [c1, c2] at h
        simp only [List.take_zero, List.map_nil, List.drop_zero] at h
        rw [trackWire_n] at h
        dsimp only at h
        rw [if_neg hbt]
        have H1 := H.newW hn0 hlt t
        obtain ⟨⟨h1, h2, h3, h4⟩, h5⟩ := ih H1 hq hb hlt hv
          (fun p hp => by simp [newW, hstep p hp, hn p (by omega)]) h
        exact ⟨⟨h1, (Ext.newW hn0 _).trans h2, h3, h4⟩, h5⟩

theorem trackEach_spec {c : Cfg T R} (hc : c.Simple) {qs bs : List R} {node port : Nat}
    {s s' : St T R L} {m : Regs R L} (H : Inv c s m) {val : Nat → V L}
    (hq : ∀ x ∈ qs, x ∈ keysQ s) (hb : ∀ x ∈ bs, x ∈ keysB s)
    (hlt : node < s.nodes.length) (hv : ∀ p, eval s.nodes ⟨node, p⟩ = val p)
    (hn : ∀ p, port ≤ p → s.wires ⟨node, p⟩ = none)
    (h : trackEach c node s port qs bs = .ok s') :
    Step c (assign c val m port (c.opaqueOut qs.length bs.length) qs bs) s s' ∧
      s'.nodes = s.nodes := by
  have hstep : ∀ port p, port + 1 ≤ p → (⟨node, p⟩ : Wire) ≠ ⟨node, port⟩ := by
    intro port p hp he
    injection he with _ he
    omega
  induction qs generalizing s m port with
  | nil =>
    induction bs generalizing s m port with
    | nil =>
      simp only [trackEach, Except.ok.injEq] at h
      subst h
      exact ⟨⟨H, .refl _, rfl, rfl⟩, rfl⟩
    | cons b bs ih =>
      rw [trackEach] at h
      have hx := hb b (by simp)
      have hn0 := hn port (Nat.le_refl _)
      rw [trackWire_b _ _ _ _ _ (singleB H hx)] at h
      dsimp only at h
      have hk : keysB (newB s ⟨node, port⟩ c.bool b) = keysB s :=
        next_keys ((lookup_isSome _ _).mpr hx) _
      have H1 := H.newB hn0 hlt b (singleB H hx) (.inl rfl)
      rw [hv port] at H1
      obtain ⟨⟨h1, h2, h3, h4⟩, h5⟩ := ih H1 (by simp) (fun y hy => by rw [hk]; exact hb y (by simp [hy])) hlt hv
        (fun p hp => by simp [newB, hstep port p hp, hn p (by omega)]) h
      have ha : c.opaqueOut ([] : List R).length (b :: bs).length =
          c.bool :: c.opaqueOut ([] : List R).length bs.length := by
        simp [Cfg.opaqueOut, List.replicate_succ]
      rw [ha, assign_cons, if_neg (qb_ne hc (.inl rfl)), if_pos (.inl rfl)]
      exact ⟨⟨h1, (Ext.newB hn0 _ _).trans h2, h3, h4.trans hk⟩, h5⟩
  | cons q qs ih =>
    rw [trackEach] at h
    have hx := hq q (by simp)
    have hn0 := hn port (Nat.le_refl _)
    rw [trackWire_q _ _ _ _ _ (singleQ H hx)] at h
    dsimp only at h
    have hk : keysQ (newQ s ⟨node, port⟩ c.qb q) = keysQ s :=
      next_keys ((lookup_isSome _ _).mpr hx) _
    have H1 := H.newQ hn0 hlt q (singleQ H hx)
    rw [hv port] at H1
    obtain ⟨⟨h1, h2, h3, h4⟩, h5⟩ := ih H1 (fun y hy => by rw [hk]; exact hq y (by simp [hy])) hb hlt hv
      (fun p hp => by simp [newQ, hstep port p hp, hn p (by omega)]) h
    have ha : c.opaqueOut (q :: qs).length bs.length = c.qb :: c.opaqueOut qs.length bs.length := by
      simp [Cfg.opaqueOut, List.replicate_succ]
    rw [ha, assign_cons, if_pos rfl]
    exact ⟨⟨h1, (Ext.newQ hn0 _ _).trans h2, h3.trans hk, h4⟩, h5⟩

/-! ### One command -/

omit [DecidableEq T] in
theorem half_get {h : Half R} {r : R} {x : Arg R} (hg : h.get r = .ok x)
    (hr : ∀ id, lookupLatest r h.latest = some id → h.regOf id = some r) :
    x.reg = r ∧ lookupLatest r h.latest = some x.id ∧
      h.elems[x.id]? = some ⟨x.reg, x.outdated⟩ := by
  unfold Half.get at hg
  cases hl : lookupLatest r h.latest with
  | none => rw [hl] at hg; simp at hg
  | some id =>
    rw [hl] at hg
    dsimp only at hg
    cases he : h.elems[id]? with
    | none => rw [he] at hg; simp at hg
    | some e =>
      rw [he] at hg
      simp only [Except.ok.injEq] at hg
      subst hg
      refine ⟨?_, rfl, he⟩
      have := hr id hl
      unfold Half.regOf at this
      rw [he] at this
      simpa using this

/-- The arguments of a command are the latest elements of its registers. -/
structure Latest (h : Half R) (x : Arg R) : Prop where
  look : lookupLatest x.reg h.latest = some x.id
  elem : h.elems[x.id]? = some ⟨x.reg, x.outdated⟩

theorem splitArgs_spec {c : Cfg T R} {s : St T R L} {m : Regs R L} (H : Inv c s m) {args : List R}
    {qs bs : List (Arg R)} (h : splitArgs s args = .ok (qs, bs)) :
    qs.map Arg.reg = args.filter (· ∉ keysB s) ∧ bs.map Arg.reg = args.filter (· ∈ keysB s) ∧
      (∀ x ∈ qs, Latest s.q x) ∧ (∀ x ∈ bs, Latest s.b x) := by
  induction args generalizing qs bs with
  | nil =>
    simp only [splitArgs, Except.ok.injEq, Prod.mk.injEq] at h
    obtain ⟨rfl, rfl⟩ := h
    simp
  | cons r rs ih =>
    rw [splitArgs] at h
    by_cases hb : (lookupLatest r s.b.latest).isSome
    · rw [if_pos hb] at h
      have hmem : r ∈ keysB s := (lookup_isSome r _).mp hb
      cases hg : s.b.get r with
      | error e => rw [hg] at h; simp at h
      | ok x =>
        rw [hg] at h
        dsimp only at h
        cases hr : splitArgs s rs with
        | error e => rw [hr] at h; simp at h
        | ok y =>
          obtain ⟨qs', bs'⟩ := y
          rw [hr] at h
          simp only [Except.ok.injEq, Prod.mk.injEq] at h
          obtain ⟨rfl, rfl⟩ := h
          obtain ⟨h1, h2, h3, h4⟩ := ih hr
          obtain ⟨e1, e2, e3⟩ := half_get hg (H.b.reg r)
          refine ⟨?_, ?_, h3, ?_⟩
          · rw [h1, List.filter_cons_of_neg (by simpa using hmem)]
          · rw [List.map_cons, h2, e1, List.filter_cons_of_pos (by simpa using hmem)]
          · intro z hz
            rcases List.mem_cons.mp hz with rfl | hz
            · exact ⟨by rw [e1]; exact e2, e3⟩
            · exact h4 z hz
    · rw [if_neg hb] at h
      have hmem : r ∉ keysB s := fun h => hb ((lookup_isSome r _).mpr h)
      cases hg : s.q.get r with
      | error e => rw [hg] at h; simp at h
      | ok x =>
        rw [hg] at h
        dsimp only at h
        cases hr : splitArgs s rs with
        | error e => rw [hr] at h; simp at h
        | ok y =>
          obtain ⟨qs', bs'⟩ := y
          rw [hr] at h
          simp only [Except.ok.injEq, Prod.mk.injEq] at h
          obtain ⟨rfl, rfl⟩ := h
          obtain ⟨h1, h2, h3, h4⟩ := ih hr
          obtain ⟨e1, e2, e3⟩ := half_get hg (H.q.reg r)
          refine ⟨?_, ?_, ?_, h4⟩
          · rw [List.map_cons, h1, e1, List.filter_cons_of_pos (by simpa using hmem)]
          · rw [h2, List.filter_cons_of_neg (by simpa using hmem)]
          · intro z hz
            rcases List.mem_cons.mp hz with rfl | hz
            · exact ⟨by rw [e1]; exact e2, e3⟩
            · exact h3 z hz

theorem Latest.argQ {c : Cfg T R} {s : St T R L} {m : Regs R L} (H : Inv c s m) {x : Arg R}
    (h : Latest s.q x) : ArgQ c s m x :=
  ⟨H.q.holds x.reg x.id h.look, (lookup_isSome _ _).mp (by rw [h.look]; rfl)⟩

theorem Latest.argB {c : Cfg T R} {s : St T R L} {m : Regs R L} (H : Inv c s m) {x : Arg R}
    (h : Latest s.b x) : ArgB c s m x :=
  ⟨H.b.holds x.reg x.id h.look, (lookup_isSome _ _).mp (by rw [h.look]; rfl)⟩

theorem eval_head (n : Node T L) (ns : List (Node T L)) (p : Nat) :
    eval (n :: ns) ⟨ns.length, p⟩ = portVal n.op p (n.ins.map (srcVal (eval ns))) := by
  rw [eval, if_pos rfl]

theorem srcs_map (e : Wire → V L) (ws : List Wire) (ps : List Nat) :
    (ws.map Src.val ++ ps.map Src.par).map (srcVal e) = ws.map e ++ ps.map .par := by
  simp [srcVal, Function.comp_def]

theorem wireUp_spec {c : Cfg T R} (hc : c.Simple) {s s' : St T R L} {m : Regs R L} (H : Inv c s m)
    {l : L} {sigIn sigOut : List T} {qs inB outB : List (Arg R)} {ps : List Nat}
    (hpl : c.paramsLast sigIn) (hq : ∀ x ∈ qs, ArgQ c s m x) (hi : ∀ x ∈ inB, ArgB c s m x)
    (ho : ∀ x ∈ outB, ArgB c s m x)
    (h : wireUp c s l sigIn sigOut qs inB outB ps = .ok s') :
    Step c (assign c (fun port => .out l port (feed c sigIn (qs.map fun x => m.q x.reg)
        (inB.map fun x => m.b x.reg) ps)) m 0 sigOut (qs.map Arg.reg) (outB.map Arg.reg)) s s' ∧
      observe s'.nodes = observe s.nodes ++ [(some l, feed c sigIn (qs.map fun x => m.q x.reg)
        (inB.map fun x => m.b x.reg) ps)] := by
  unfold wireUp at h
  split at h
  · simp at h
  split at h
  · simp at h
  cases hf : findAll c s sigIn ⟨qs, inB, ps⟩ with
  | error e => rw [hf] at h; simp at h
  | ok y =>
    obtain ⟨ws, pp, s1⟩ := y
    rw [hf] at h
    unfold addNode at h
    dsimp only at h
    obtain ⟨h1, h2, h3⟩ := findAll_spec hc H (a := ⟨qs, inB, ps⟩) ⟨hq, hi⟩ hf
    have h3 := h3 hpl
    dsimp only at h3
    have H1 := (h1.inv.node (⟨.cmd l, ws.map .val ++ pp.map .par, sigIn, sigOut⟩ : Node T L)).marks []
      (inB.map Arg.id)
    have hkB : keysB { s1 with
        nodes := (⟨.cmd l, ws.map .val ++ pp.map .par, sigIn, sigOut⟩ : Node T L) :: s1.nodes
        b := (inB.map Arg.id).foldl Half.mark s1.b } = keysB s1 :=
      congrArg (List.map Prod.fst) (marks_latest _ _)
    have hnone : ∀ p, s1.wires ⟨s1.nodes.length, p⟩ = none := fun p =>
      h1.inv.none_of_ge (Nat.le_refl _)
    obtain ⟨⟨g1, g2, g3, g4⟩, g5⟩ := registerOutputs_spec hc H1
      (val := fun port => .out l port (feed c sigIn (qs.map fun x => m.q x.reg)
        (inB.map fun x => m.b x.reg) ps))
      (fun x hx => by
        have := (hq x hx).known
        rw [← h1.keysQ] at this
        exact this)
      (fun x hx => by
        have := (ho x hx).known
        rw [← h1.keysB, ← hkB] at this
        exact this)
      (by simp)
      (fun p => by
        dsimp only
        rw [eval_head]
        dsimp only [portVal]
        rw [srcs_map, h3])
      (fun p _ => hnone p) h
    refine ⟨⟨g1, (h1.ext.trans (Ext.node _ _)).trans ((Ext.marks _ [] _).trans g2), ?_, ?_⟩, ?_⟩
    · exact g3.trans h1.keysQ
    · exact g4.trans (hkB.trans h1.keysB)
    · rw [g5]
      dsimp only
      rw [observe]
      dsimp only
      rw [srcs_map, h3, h1.obs]

theorem opaqueIn_paramsLast {c : Cfg T R} (hc : c.Simple) (nq nb np : Nat) :
    c.paramsLast (c.opaqueIn nq nb np) := by
  have hrep : ∀ n, c.paramsLast (List.replicate n c.rot) := by
    intro n
    induction n with
    | zero => trivial
    | succ n ih =>
      refine ⟨fun _ t ht => ?_, ih⟩
      rw [List.eq_of_mem_replicate ht]
      exact hc.rot
  have hpre : ∀ (t : T) (l : List T) (n : Nat), c.param t = false → c.paramsLast l →
      c.paramsLast (List.replicate n t ++ l) := by
    intro t l n ht hl
    induction n with
    | zero => exact hl
    | succ n ih => exact ⟨fun h => absurd h (by simp [ht]), ih⟩
  unfold Cfg.opaqueIn
  rw [List.append_assoc]
  exact hpre _ _ _ (param_false hc (sup_qb hc))
    (hpre _ _ _ (param_false hc (sup_bit hc (.inl rfl))) (hrep _))

theorem opaqueOp_spec {c : Cfg T R} (hc : c.Simple) {s s' : St T R L} {m : Regs R L} (H : Inv c s m)
    {l : L} {qs bs : List (Arg R)} {ps : List Nat}
    (hq : ∀ x ∈ qs, ArgQ c s m x) (hb : ∀ x ∈ bs, ArgB c s m x)
    (h : opaqueOp c s l qs bs ps = .ok s') :
    Step c (assign c (fun port => .out l port (feed c (c.opaqueIn qs.length bs.length ps.length)
        (qs.map fun x => m.q x.reg) (bs.map fun x => m.b x.reg) ps)) m 0
        (c.opaqueOut qs.length bs.length) (qs.map Arg.reg) (bs.map Arg.reg)) s s' ∧
      observe s'.nodes = observe s.nodes ++ [(some l, feed c (c.opaqueIn qs.length bs.length ps.length)
        (qs.map fun x => m.q x.reg) (bs.map fun x => m.b x.reg) ps)] := by
  unfold opaqueOp at h
  cases hf : findAll c s (c.opaqueIn qs.length bs.length ps.length) ⟨qs, bs, ps⟩ with
  | error e => rw [hf] at h; simp at h
  | ok y =>
    obtain ⟨ws, pp, s1⟩ := y
    rw [hf] at h
    unfold addNode at h
    dsimp only at h
    obtain ⟨h1, h2, h3⟩ := findAll_spec hc H (a := ⟨qs, bs, ps⟩) ⟨hq, hb⟩ hf
    have h3 := h3 (opaqueIn_paramsLast hc _ _ _)
    dsimp only at h3
    have H1 := (h1.inv.node (⟨.cmd l, ws.map .val ++ pp.map .par,
      c.opaqueIn qs.length bs.length ps.length, c.opaqueOut qs.length bs.length⟩ : Node T L))
    have hnone : ∀ p, s1.wires ⟨s1.nodes.length, p⟩ = none := fun p =>
      h1.inv.none_of_ge (Nat.le_refl _)
    obtain ⟨⟨g1, g2, g3, g4⟩, g5⟩ := trackEach_spec hc H1
      (val := fun port => .out l port (feed c (c.opaqueIn qs.length bs.length ps.length)
        (qs.map fun x => m.q x.reg) (bs.map fun x => m.b x.reg) ps))
      (fun r hr => by
        obtain ⟨x, hx, rfl⟩ := List.mem_map.mp hr
        have := (hq x hx).known
        rw [← h1.keysQ] at this
        exact this)
      (fun r hr => by
        obtain ⟨x, hx, rfl⟩ := List.mem_map.mp hr
        have := (hb x hx).known
        rw [← h1.keysB] at this
        exact this)
      (by simp)
      (fun p => by
        dsimp only
        rw [eval_head]
        dsimp only [portVal]
        rw [srcs_map, h3])
      (fun p _ => hnone p) h
    rw [List.length_map, List.length_map] at g1
    refine ⟨⟨g1, (h1.ext.trans (Ext.node _ _)).trans g2, ?_, ?_⟩, ?_⟩
    · exact g3.trans h1.keysQ
    · exact g4.trans h1.keysB
    · rw [g5]
      dsimp only
      rw [observe]
      dsimp only
      rw [srcs_map, h3, h1.obs]

theorem command_spec {c : Cfg T R} (hc : c.Simple) {s s' : St T R L} {m : Regs R L} (H : Inv c s m)
    {k : Cmd T R L} (hpl : c.paramsLast k.sigIn) (h : command c s k = .ok s') :
    Step c (k.step c (keysB s) m) s s' ∧
      observe s'.nodes = observe s.nodes ++ [(some k.label, k.reads c (keysB s) m)] := by
  unfold command at h
  cases hsp : splitArgs s k.args with
  | error e => rw [hsp] at h; simp at h
  | ok y =>
    obtain ⟨qs, bs⟩ := y
    rw [hsp] at h
    dsimp only at h
    obtain ⟨h1, h2, h3, h4⟩ := splitArgs_spec H hsp
    have hqs : k.qs (keysB s) = qs.map Arg.reg := h1.symm
    have hbs : k.bs (keysB s) = bs.map Arg.reg := h2.symm
    have hq : ∀ x ∈ qs, ArgQ c s m x := fun x hx => (h3 x hx).argQ H
    have hb : ∀ x ∈ bs, ArgB c s m x := fun x hx => (h4 x hx).argB H
    unfold Cmd.step Cmd.reads Cmd.nodeIn Cmd.nodeOut
    rw [hqs, hbs]
    cases hm : k.mode with
    | split n =>
      rw [hm] at h
      dsimp only at h ⊢
      split at h
      · simp at h
      have := wireUp_spec hc H hpl hq (fun x hx => hb x (List.mem_of_mem_take hx))
        (fun x hx => hb x (List.mem_of_mem_drop hx)) h
      simpa only [Mode.readBits, Mode.writeBits, ← List.map_take, ← List.map_drop, List.map_map, Function.comp_def]
        using this
    | both =>
      rw [hm] at h
      dsimp only at h ⊢
      have := wireUp_spec hc H hpl hq hb hb h
      simpa only [Mode.readBits, Mode.writeBits, List.map_map, Function.comp_def] using this
    | «opaque» =>
      rw [hm] at h
      dsimp only at h ⊢
      have := opaqueOp_spec hc H hq hb h
      simpa only [Mode.readBits, Mode.writeBits, List.map_map, Function.comp_def, List.length_map]
        using this

theorem commands_spec {c : Cfg T R} (hc : c.Simple) {ks : List (Cmd T R L)} {s s' : St T R L}
    {m : Regs R L} (H : Inv c s m) (hpl : ∀ k ∈ ks, c.paramsLast k.sigIn)
    (h : commands c s ks = .ok s') :
    Step c (runCmds c (keysB s) m ks).2 s s' ∧
      observe s'.nodes = observe s.nodes ++ (runCmds c (keysB s) m ks).1 := by
  induction ks generalizing s m with
  | nil =>
    simp only [commands, Except.ok.injEq] at h
    subst h
    exact ⟨⟨H, .refl _, rfl, rfl⟩, by simp [runCmds]⟩
  | cons k ks ih =>
    rw [commands] at h
    cases hk : command c s k with
    | error e => rw [hk] at h; simp at h
    | ok s1 =>
      rw [hk] at h
      dsimp only at h
      obtain ⟨⟨h1, h2, h3, h4⟩, h5⟩ := command_spec hc H (hpl k (by simp)) hk
      obtain ⟨⟨g1, g2, g3, g4⟩, g5⟩ := ih h1 (fun k hk => hpl k (by simp [hk])) h
      rw [h4] at g1 g5
      refine ⟨⟨g1, h2.trans g2, g3.trans h3, g4.trans h4⟩, ?_⟩
      rw [g5, h5]
      simp [runCmds]

/-! ### The start -/

theorem assign_other {c : Cfg T R} {val : Nat → V L} {ts : List T} {m : Regs R L} {port : Nat}
    {qs bs : List R} :
    (∀ r, r ∉ qs → (assign c val m port ts qs bs).q r = m.q r) ∧
      ∀ r, r ∉ bs → (assign c val m port ts qs bs).b r = m.b r := by
  induction ts generalizing m port qs bs with
  | nil => exact ⟨fun _ _ => rfl, fun _ _ => rfl⟩
  | cons t ts ih =>
    rw [assign_cons]
    split
    · cases qs with
      | nil => exact ih
      | cons q qs =>
        obtain ⟨h1, h2⟩ := ih (m := { m with q := setReg m.q q (val port) }) (port := port + 1)
          (qs := qs) (bs := bs)
        refine ⟨fun r hr => ?_, h2⟩
        rw [List.mem_cons, not_or] at hr
        dsimp only
        rw [h1 r hr.2]
        simp [setReg, hr.1]
    · split
      · cases bs with
        | nil => exact ih
        | cons b bs =>
          obtain ⟨h1, h2⟩ := ih (m := { m with b := setReg m.b b (val port) }) (port := port + 1)
            (qs := qs) (bs := bs)
          refine ⟨h1, fun r hr => ?_⟩
          rw [List.mem_cons, not_or] at hr
          dsimp only
          rw [h2 r hr.2]
          simp [setReg, hr.1]
      · exact ih

/-- While the inputs are read: which registers are left and which have a wire. -/
theorem initInputs_spec {c : Cfg T R} (hc : c.Simple) {ts : List T} {port : Nat} {s s' : St T R L}
    {m : Regs R L} (H : Inv c s m) {qs bs qs' bs' : List R}
    (hlt : 0 < s.nodes.length) (hv : ∀ p, eval s.nodes ⟨0, p⟩ = .inp p)
    (hn : ∀ p, port ≤ p → s.wires ⟨0, p⟩ = none)
    (hq : (keysQ s ++ qs).Nodup) (hb : (keysB s ++ bs).Nodup)
    (h : initInputs c s port ts qs bs = .ok (qs', bs', s')) :
    Inv c s' (assign c .inp m port ts qs bs) ∧ s'.nodes = s.nodes ∧
      keysQ s' ++ qs' = keysQ s ++ qs ∧ keysB s' ++ bs' = keysB s ++ bs ∧
      (∀ r ∈ qs', (assign c .inp m port ts qs bs).q r = m.q r) ∧
      (∀ r ∈ bs', (assign c .inp m port ts qs bs).b r = m.b r) ∧
      (∀ r ∈ qs', r ∈ qs) ∧ (∀ r ∈ bs', r ∈ bs) := by
  induction ts generalizing s s' m port qs bs qs' bs' with
  | nil =>
    simp only [initInputs, Except.ok.injEq, Prod.mk.injEq] at h
    obtain ⟨rfl, rfl, rfl⟩ := h
    exact ⟨H, rfl, rfl, rfl, fun _ _ => rfl, fun _ _ => rfl, fun _ h => h, fun _ h => h⟩
  | cons t ts ih =>
    rw [initInputs] at h
    rw [assign_cons]
    have hn0 := hn port (Nat.le_refl _)
    have hstep : ∀ p, port + 1 ≤ p → (⟨0, p⟩ : Wire) ≠ ⟨0, port⟩ := by
      intro p hp he
      injection he with _ he
      omega
    by_cases ht : t = c.qb
    · subst ht
      rw [if_neg (by simp [sup_qb hc]), hc.qb_q, hc.qb_b] at h
      rw [if_pos rfl]
      cases qs with
      | nil => simp at h
      | cons x xs =>
        rw [if_neg (by simp)] at h
        simp only [List.take_succ_cons, List.take_zero, List.drop_succ_cons, List.drop_zero] at h
        by_cases hs : c.single x = true
        · rw [trackWire_q _ _ _ _ _ hs] at h
          dsimp only at h
          rw [if_neg (by simp [param_false hc (sup_qb hc)])] at h
          have hx : x ∉ keysQ s := by
            rw [List.nodup_append] at hq
            exact fun hx => hq.2.2 x hx x (by simp) rfl
          have hk : keysQ (newQ s ⟨0, port⟩ c.qb x) = keysQ s ++ [x] :=
            (insert_keys x _ s.q.latest).trans (if_neg hx)
          have H1 := H.newQ hn0 hlt x hs
          rw [hv port] at H1
          obtain ⟨h1, h2, h3, h4, h5, h6, h7, h8⟩ := ih H1 hlt hv
            (fun p hp => by simp [newQ, hstep p hp, hn p (by omega)])
            (by rw [hk, List.append_assoc]; exact hq) hb h
          refine ⟨h1, h2, ?_, h4, ?_, h6, fun r hr => List.mem_cons_of_mem _ (h7 r hr), h8⟩
          · rw [h3, hk, List.append_assoc]; rfl
          · intro r hr
            dsimp only
            rw [h5 r hr]
            have : r ≠ x := by
              rintro rfl
              rw [List.nodup_append] at hq
              exact (List.nodup_cons.mp hq.2.1).1 (h7 r hr)
            simp [setReg, this]
        · simp [trackWire, Half.trackAll, Half.track, hs] at h
    · rw [if_neg ht]
      by_cases hbt : t = c.bool ∨ t = c.tbool
      · rw [if_neg (by simp [sup_bit hc hbt]), bit_q hc hbt, bit_b hc hbt, if_neg (by omega)] at h
        rw [if_pos hbt]
        cases bs with
        | nil =>
          simp only [List.take_zero, List.drop_zero, List.take_nil, List.drop_nil] at h
          rw [trackWire_n] at h
          dsimp only at h
          rw [if_neg (by simp [param_false hc (sup_bit hc hbt)])] at h
          exact ih (H.newW hn0 hlt t) hlt hv
            (fun p hp => by simp [newW, hstep p hp, hn p (by omega)]) hq hb h
        | cons x xs =>
          simp only [List.take_succ_cons, List.take_zero, List.drop_succ_cons, List.drop_zero] at h
          by_cases hs : c.single x = true
          · rw [trackWire_b _ _ _ _ _ hs] at h
            dsimp only at h
            rw [if_neg (by simp [param_false hc (sup_bit hc hbt)])] at h
            have hx : x ∉ keysB s := by
              rw [List.nodup_append] at hb
              exact fun hx => hb.2.2 x hx x (by simp) rfl
            have hk : keysB (newB s ⟨0, port⟩ t x) = keysB s ++ [x] :=
              (insert_keys x _ s.b.latest).trans (if_neg hx)
            have H1 := H.newB hn0 hlt x hs hbt
            rw [hv port] at H1
            obtain ⟨h1, h2, h3, h4, h5, h6, h7, h8⟩ := ih H1 hlt hv
              (fun p hp => by simp [newB, hstep p hp, hn p (by omega)]) hq
              (by rw [hk, List.append_assoc]; exact hb) h
            refine ⟨h1, h2, h3, ?_, h5, ?_, h7, fun r hr => List.mem_cons_of_mem _ (h8 r hr)⟩
            · rw [h4, hk, List.append_assoc]; rfl
            · intro r hr
              dsimp only
              rw [h6 r hr]
              have : r ≠ x := by
                rintro rfl
                rw [List.nodup_append] at hb
                exact (List.nodup_cons.mp hb.2.1).1 (h8 r hr)
              simp [setReg, this]
          · simp [trackWire, Half.trackAll, Half.track, hs] at h
      · rw [if_neg hbt]
        obtain ⟨c1, c2⟩ := counts_other hc ht hbt
        split at h
        · exact ih H hlt hv (fun p hp => hn p (by omega)) hq hb h
        · rw [c1, c2, if_neg (by omega)] at h
          simp only [List.take_zero, List.drop_zero] at h
          rw [trackWire_n] at h
          dsimp only at h
          split at h
          · simp at h
          · exact ih (H.newW hn0 hlt t) hlt hv
              (fun p hp => by simp [newW, hstep p hp, hn p (by omega)]) hq hb h

omit [DecidableEq T] in
theorem declare_spec {wires : Wire → Option (WireData T)} {ev : Wire → V L}
    {mk : T → Nat → WireData T} {ok : T → Prop} {d : V L} {single : R → Bool} {m : R → V L}
    {rs : List R} {h h' : Half R} (H : HInv h wires ev mk ok d single m)
    (hm : ∀ r ∈ rs, m r = d) (hn : (h.latest.map Prod.fst ++ rs).Nodup)
    (hd : h.declare single rs = .ok h') :
    HInv h' wires ev mk ok d single m ∧
      h'.latest.map Prod.fst = h.latest.map Prod.fst ++ rs := by
  induction rs generalizing h with
  | nil =>
    simp only [Half.declare, Except.ok.injEq] at hd
    subst hd
    exact ⟨H, by simp⟩
  | cons r rs ih =>
    rw [Half.declare] at hd
    by_cases hs : single r = true
    · rw [track_eq _ _ _ hs] at hd
      dsimp only at hd
      have hr : r ∉ h.latest.map Prod.fst := by
        rw [List.nodup_append] at hn
        exact fun hx => hn.2.2 r hx r (by simp) rfl
      have hk : (h.next r []).latest.map Prod.fst = h.latest.map Prod.fst ++ [r] :=
        (insert_keys r _ h.latest).trans (if_neg hr)
      obtain ⟨h1, h2⟩ := ih (H.declare r hs (hm r (by simp))) (fun r hr => hm r (by simp [hr]))
        (by rw [hk, List.append_assoc]; exact hn) hd
      exact ⟨h1, by rw [h2, hk, List.append_assoc]; rfl⟩
    · simp [Half.track, hs] at hd

theorem init_spec {c : Cfg T R} (hc : c.Simple) {k : Circ T R L} (hq : k.qubits.Nodup)
    (hb : k.bits.Nodup) {s : St T R L} (h : init c k.sigIn k.qubits k.bits = .ok s) :
    Inv c s (startRegs c k) ∧ keysQ s = k.qubits ∧ keysB s = k.bits ∧ observe s.nodes = [] := by
  unfold init at h
  have H0 : Inv c (⟨[⟨.input, [], [], k.sigIn⟩], Half.empty, Half.empty, fun _ => none⟩ : St T R L)
      ⟨fun _ => .zero, fun _ => .ff⟩ := by
    refine ⟨⟨?_, ?_, ?_⟩, ⟨?_, ?_, ?_⟩, ?_⟩ <;> simp [Half.empty, lookupLatest]
  cases hi : initInputs c (⟨[⟨.input, [], [], k.sigIn⟩], Half.empty, Half.empty, fun _ => none⟩ :
      St T R L) 0 k.sigIn k.qubits k.bits with
  | error e => rw [hi] at h; simp at h
  | ok y =>
    obtain ⟨qs', bs', s1⟩ := y
    rw [hi] at h
    dsimp only at h
    obtain ⟨h1, h2, h3, h4, h5, h6, h7, h8⟩ := initInputs_spec hc H0 (by simp)
      (fun p => eval_head _ [] p) (fun _ _ => rfl) hq hb hi
    have e3 : keysQ s1 ++ qs' = k.qubits := h3
    have e4 : keysB s1 ++ bs' = k.bits := h4
    cases hdq : s1.q.declare c.single qs' with
    | error e => rw [hdq] at h; simp at h
    | ok q =>
      rw [hdq] at h
      dsimp only at h
      cases hdb : s1.b.declare c.single bs' with
      | error e => rw [hdb] at h; simp at h
      | ok b =>
        rw [hdb] at h
        simp only [Except.ok.injEq] at h
        subst h
        obtain ⟨g1, g2⟩ := declare_spec h1.q (fun r hr => h5 r hr) (by rw [← e3] at hq; exact hq) hdq
        obtain ⟨g3, g4⟩ := declare_spec h1.b (fun r hr => h6 r hr) (by rw [← e4] at hb; exact hb) hdb
        refine ⟨⟨g1, g3, h1.fresh⟩, g2.trans e3, g4.trans e4, ?_⟩
        dsimp only
        rw [h2]
        rfl

/-! ### The end -/

omit [DecidableEq T] in
theorem half_args {h : Half R} {ids : List Nat} {as : List (Arg R)} (ha : h.args ids = .ok as) :
    as.map Arg.id = ids ∧ ∀ x ∈ as, h.elems[x.id]? = some ⟨x.reg, x.outdated⟩ := by
  induction ids generalizing as with
  | nil =>
    simp only [Half.args, Except.ok.injEq] at ha
    subst ha
    simp
  | cons id ids ih =>
    rw [Half.args] at ha
    cases he : h.elems[id]? with
    | none => rw [he] at ha; simp at ha
    | some e =>
      rw [he] at ha
      dsimp only at ha
      cases hr : h.args ids with
      | error e => rw [hr] at ha; simp at ha
      | ok as' =>
        rw [hr] at ha
        simp only [Except.ok.injEq] at ha
        subst ha
        obtain ⟨h1, h2⟩ := ih hr
        refine ⟨by rw [List.map_cons, h1], fun x hx => ?_⟩
        rcases List.mem_cons.mp hx with rfl | hx
        · exact he
        · exact h2 x hx

omit [DecidableEq T] in
/-- Clones of the elements at positions of the map of latest elements. -/
theorem args_latest {h : Half R} (hk : (h.latest.map Prod.fst).Nodup)
    (hr : ∀ r id, lookupLatest r h.latest = some id → h.regOf id = some r) {l : List (R × Nat)}
    (hl : ∀ e ∈ l, e ∈ h.latest) {as : List (Arg R)} (ha : h.args (l.map Prod.snd) = .ok as) :
    as.map Arg.reg = l.map Prod.fst ∧ ∀ x ∈ as, Latest h x := by
  induction l generalizing as with
  | nil =>
    simp only [List.map_nil, Half.args, Except.ok.injEq] at ha
    subst ha
    simp
  | cons e l ih =>
    obtain ⟨r, id⟩ := e
    rw [List.map_cons, Half.args] at ha
    have hlook := lookup_of_mem hk (hl (r, id) (by simp))
    have hreg := hr r id hlook
    cases he : h.elems[id]? with
    | none => simp only [he] at ha; simp at ha
    | some e =>
      simp only [he] at ha
      cases hrest : h.args (l.map Prod.snd) with
      | error e => rw [hrest] at ha; simp at ha
      | ok as' =>
        rw [hrest] at ha
        simp only [Except.ok.injEq] at ha
        subst ha
        obtain ⟨h1, h2⟩ := ih (fun e he => hl e (by simp [he])) hrest
        have hre : e.reg = r := by
          unfold Half.regOf at hreg
          rw [he] at hreg
          simpa using hreg
        refine ⟨by rw [List.map_cons, h1, List.map_cons, hre], fun x hx => ?_⟩
        rcases List.mem_cons.mp hx with rfl | hx
        · exact ⟨by rw [hre]; exact hlook, he⟩
        · exact h2 x hx

omit [DecidableEq R] in
theorem mapM_latest {latest : List (R × Nat)} {perm : List Nat} {js ids : List Nat}
    (h : (js.mapM fun i => (latest[(perm[i]?).getD i]?).map Prod.snd) = some ids) :
    ∃ l : List (R × Nat), (∀ e ∈ l, e ∈ latest) ∧ l.map Prod.snd = ids ∧
      l.map Prod.fst = js.filterMap (fun i => (latest.map Prod.fst)[(perm[i]?).getD i]?) ∧
      l = js.filterMap (fun i => latest[(perm[i]?).getD i]?) ∧ l.length = js.length := by
  induction js generalizing ids with
  | nil =>
    simp at h
    subst h
    exact ⟨[], by simp⟩
  | cons i js ih =>
    rw [List.mapM_cons] at h
    cases he : latest[(perm[i]?).getD i]? with
    | none => rw [he] at h; simp at h
    | some e =>
      rw [he] at h
      cases hr : js.mapM fun i => (latest[(perm[i]?).getD i]?).map Prod.snd with
      | none => rw [hr] at h; simp at h
      | some ids' =>
        rw [hr] at h
        simp at h
        subst h
        obtain ⟨l, h1, h2, h3, h4, h5⟩ := ih hr
        refine ⟨e :: l, ?_, ?_, ?_, ?_, ?_⟩
        · intro x hx
          rcases List.mem_cons.mp hx with rfl | hx
          · exact List.mem_of_getElem? he
          · exact h1 x hx
        · rw [List.map_cons, h2]
        · rw [List.map_cons, h3, List.filterMap_cons]
          simp [he]
        · rw [List.filterMap_cons, he, ← h4]
        · simp [h5]

omit [DecidableEq R] in
theorem known_spec {latest : List (R × Nat)} {perm : List Nat} {ids : List Nat}
    (h : knownIds latest perm = some ids) :
    ∃ l : List (R × Nat), (∀ e ∈ l, e ∈ latest) ∧ l.map Prod.snd = ids ∧
      l.map Prod.fst = (List.range latest.length).filterMap
        (fun i => (latest.map Prod.fst)[(perm[i]?).getD i]?) := by
  obtain ⟨l, h1, h2, h3, _⟩ := mapM_latest h
  exact ⟨l, h1, h2, h3⟩

theorem freeAll_obs {c : Cfg T R} (hc : c.Simple) {qs : List (Arg R)} {s : St T R L} {m : Regs R L}
    (H : Inv c s m) (hq : ∀ x ∈ qs, ArgQ c s m x) :
    observe (freeAll c s qs).nodes = observe s.nodes := by
  induction qs generalizing s with
  | nil => rfl
  | cons x xs ih =>
    rw [freeAll]
    split
    · exact ih H fun y hy => hq y (by simp [hy])
    · split
      · next w d a' s1 hf =>
        obtain ⟨h1, _, _⟩ := find_spec hc H (a := ⟨[x], [], []⟩)
          ⟨fun y hy => hq y (by simp at hy; simp [hy]), by simp⟩ hf
        have H1 := h1.inv.node (⟨.free, [.val w], [c.qb], []⟩ : Node T L)
        unfold addNode
        dsimp only
        rw [ih H1]
        · rw [observe]
          simp [h1.obs]
        · intro y hy
          have := (hq y (by simp [hy])).mono H h1.ext h1.keysQ
          exact this.mono h1.inv (Ext.node _ _) rfl
      · exact ih H fun y hy => hq y (by simp [hy])

theorem finish_spec {c : Cfg T R} (hc : c.Simple) {s s' : St T R L} {m : Regs R L} (H : Inv c s m)
    (hkq : (keysQ s).Nodup) (hkb : (keysB s).Nodup) {sig : List T} {perm ps : List Nat}
    (h : finish c s sig perm ps = .ok s') :
    observe s'.nodes = observe s.nodes ++ [(none, feed c sig
      (((List.range (keysQ s).length).filterMap fun i => (keysQ s)[(perm[i]?).getD i]?).map m.q)
      ((keysB s).map m.b) ps)] := by
  unfold finish at h
  cases hk : knownIds s.q.latest perm with
  | none => rw [hk] at h; simp at h
  | some ids =>
    rw [hk] at h
    dsimp only at h
    obtain ⟨l, hl1, hl2, hl3⟩ := known_spec hk
    cases hqs : s.q.args ids with
    | error e => rw [hqs] at h; simp at h
    | ok qs =>
      rw [hqs] at h
      dsimp only at h
      cases hbs : s.b.args (s.b.latest.map Prod.snd) with
      | error e => rw [hbs] at h; simp at h
      | ok bs =>
        rw [hbs] at h
        dsimp only at h
        subst hl2
        obtain ⟨q1, q2⟩ := args_latest hkq H.q.reg hl1 hqs
        obtain ⟨b1, b2⟩ := args_latest hkb H.b.reg (fun e he => he) hbs
        cases hf : finishOutputs c s sig ⟨qs, bs, ps⟩ with
        | error e => rw [hf] at h; simp at h
        | ok y =>
          obtain ⟨ss, a, s1⟩ := y
          rw [hf] at h
          simp only [Except.ok.injEq] at h
          subst h
          obtain ⟨g1, g2, g3⟩ := finishOutputs_spec hc H (a := ⟨qs, bs, ps⟩)
            ⟨fun x hx => (q2 x hx).argQ H, fun x hx => (b2 x hx).argB H⟩ hf
          have H1 := g1.inv.node (⟨.output, ss, sig, []⟩ : Node T L)
          unfold addNode
          dsimp only
          rw [freeAll_obs hc H1 (fun x hx => (g2.q x hx).mono g1.inv (Ext.node _ _) rfl)]
          dsimp only
          rw [observe]
          dsimp only
          rw [g1.obs, g3]
          have e1 : (qs.map fun x => m.q x.reg) =
              ((List.range (keysQ s).length).filterMap fun i => (keysQ s)[(perm[i]?).getD i]?).map m.q := by
            have : (keysQ s).length = s.q.latest.length := by unfold keysQ; simp
            rw [this]
            unfold keysQ
            rw [← hl3, ← q1, List.map_map]
            rfl
          have e2 : (bs.map fun x => m.b x.reg) = (keysB s).map m.b := by
            unfold keysB
            rw [← b1, List.map_map]
            rfl
          dsimp only
          rw [e1, e2]

/-- The decoded region does what the circuit does. -/
theorem decode_spec {c : Cfg T R} (hc : c.Simple) {k : Circ T R L} (hq : k.qubits.Nodup)
    (hb : k.bits.Nodup) (hpl : ∀ x ∈ k.cmds, c.paramsLast x.sigIn) {ns : List (Node T L)}
    (h : decode c k = .ok ns) : observe ns = spec c k := by
  unfold decode at h
  cases hi : init c k.sigIn k.qubits k.bits with
  | error e => rw [hi] at h; simp at h
  | ok s =>
    rw [hi] at h
    dsimp only at h
    obtain ⟨H, k1, k2, o⟩ := init_spec hc hq hb hi
    cases hcm : commands c s k.cmds with
    | error e => rw [hcm] at h; simp at h
    | ok s1 =>
      rw [hcm] at h
      dsimp only at h
      obtain ⟨⟨g1, g2, g3, g4⟩, g5⟩ := commands_spec hc H hpl hcm
      cases hf : finish c s1 k.sigOut k.perm k.outParams with
      | error e => rw [hf] at h; simp at h
      | ok s2 =>
        rw [hf] at h
        simp only [Except.ok.injEq] at h
        subst h
        have e3 : keysQ s1 = k.qubits := g3.trans k1
        have e4 : keysB s1 = k.bits := g4.trans k2
        rw [finish_spec hc g1 (by rw [e3]; exact hq) (by rw [e4]; exact hb) hf, g5, o, e3, e4, k2]
        rfl

end Verif.Decoder
