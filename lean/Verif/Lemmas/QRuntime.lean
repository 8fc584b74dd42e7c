import Verif.Model.QRuntimeSpec

/-
Lemmas about the runtime calls.
-/
namespace Verif.QRuntime

/-! ### Taking values out -/

theorem takeOne_ty {s : RT} {env : List (Nat × Val)} {Γ : List (Nat × Ty)} (h : envTy s env Γ) :
    ∀ {w : Nat} {t : Ty} {Γ' : List (Nat × Ty)}, takeOne Γ w = some (t, Γ') →
      ∃ v env', takeOne env w = some (v, env') ∧ hasTy s v t ∧ envTy s env' Γ' ∧
        env.Perm ((w, v) :: env') ∧
        takeOne (showsEnv s env) w = some (shows s v, showsEnv s env') := by
  induction h with
  | nil => intro w t Γ' h; simp [takeOne] at h
  | @cons a b l l' hab hl ih =>
    intro w t Γ' h
    obtain ⟨k, v⟩ := a
    obtain ⟨k', t'⟩ := b
    obtain ⟨hk, hv⟩ := hab
    simp only at hk hv
    subst hk
    rw [takeOne] at h
    by_cases hkw : k = w
    · rw [if_pos hkw] at h
      injection h with h
      injection h with h1 h2
      subst h1 h2 hkw
      exact ⟨v, l, by rw [takeOne, if_pos rfl], hv, hl, List.Perm.refl _,
        by simp [showsEnv, takeOne]⟩
    · rw [if_neg hkw] at h
      cases h' : takeOne l' w with
      | none => rw [h'] at h; simp at h
      | some p =>
        obtain ⟨t1, Γ1⟩ := p
        rw [h'] at h
        simp only [Option.map_some, Option.some.injEq, Prod.mk.injEq] at h
        obtain ⟨h1, h2⟩ := h
        subst h1 h2
        obtain ⟨v', env', e1, e2, e3, e4, e5⟩ := ih h'
        refine ⟨v', (k, v) :: env', ?_, e2, List.Forall₂.cons ⟨rfl, hv⟩ e3, ?_, ?_⟩
        · rw [takeOne, if_neg hkw, e1]; rfl
        · exact (e4.cons (k, v)).trans (List.Perm.swap _ _ _)
        · simp only [showsEnv, List.map_cons]
          rw [takeOne, if_neg hkw]
          have : takeOne (List.map (fun p => (p.1, shows s p.2)) l) w
              = some (shows s v', List.map (fun p => (p.1, shows s p.2)) env') := e5
          rw [this]
          rfl

theorem takeAll_ty {s : RT} : ∀ {ws : List Nat} {env : List (Nat × Val)} {Γ : List (Nat × Ty)}
    {ts : List Ty} {Γ' : List (Nat × Ty)}, envTy s env Γ → takeAll Γ ws = some (ts, Γ') →
      ∃ vs env', takeAll env ws = some (vs, env') ∧ List.Forall₂ (hasTy s) vs ts ∧
        envTy s env' Γ' ∧ (env.map Prod.snd).Perm (vs ++ env'.map Prod.snd) ∧
        takeAll (showsEnv s env) ws = some (vs.map (shows s), showsEnv s env')
  | [], env, Γ, ts, Γ', he, h => by
    simp only [takeAll, Option.some.injEq, Prod.mk.injEq] at h
    obtain ⟨h1, h2⟩ := h
    subst h1 h2
    exact ⟨[], env, rfl, List.Forall₂.nil, he, List.Perm.refl _, rfl⟩
  | w :: ws, env, Γ, ts, Γ', he, h => by
    rw [takeAll] at h
    cases h1 : takeOne Γ w with
    | none => rw [h1] at h; simp at h
    | some p =>
      obtain ⟨t, Γ1⟩ := p
      rw [h1] at h
      simp only at h
      cases h2 : takeAll Γ1 ws with
      | none => rw [h2] at h; simp at h
      | some p2 =>
        obtain ⟨ts2, Γ2⟩ := p2
        rw [h2] at h
        simp only [Option.map_some, Option.some.injEq, Prod.mk.injEq] at h
        obtain ⟨h3, h4⟩ := h
        subst h3 h4
        obtain ⟨v, env1, e1, e2, e3, e4, e5⟩ := takeOne_ty he h1
        obtain ⟨vs, env2, f1, f2, f3, f4, f5⟩ := takeAll_ty e3 h2
        refine ⟨v :: vs, env2, ?_, List.Forall₂.cons e2 f2, f3, ?_, ?_⟩
        · rw [takeAll, e1]; simp only; rw [f1]; rfl
        · refine (e4.map Prod.snd).trans ?_
          simp only [List.map_cons, List.cons_append]
          exact f4.cons v
        · rw [takeAll, e5]; simp only; rw [f5]; rfl

/-! ### Balance -/

theorem fq_qb (q : Nat) (vs : List Val) :
    (Val.qb q :: vs).filterMap Val.qubit = q :: vs.filterMap Val.qubit := rfl
theorem fq_fut (x : Nat) (vs : List Val) :
    (Val.fut x :: vs).filterMap Val.qubit = vs.filterMap Val.qubit := rfl
theorem fh_qb (q : Nat) (vs : List Val) :
    (Val.qb q :: vs).filterMap Val.handle = vs.filterMap Val.handle := rfl
theorem fh_fut (x : Nat) (vs : List Val) :
    (Val.fut x :: vs).filterMap Val.handle = x :: vs.filterMap Val.handle := rfl

theorem Balanced.perm {vs vs' : List Val} {s : RT} (h : Balanced vs s) (hp : vs.Perm vs') :
    Balanced vs' s := by
  refine ⟨((hp.filterMap _).symm.trans h.qubits), h.nodup, fun x => ?_⟩
  rw [h.refs x]
  exact (hp.filterMap _).count_eq x

theorem Balanced.mem {q : Nat} {v : Val} {vs : List Val} {s : RT} (h : Balanced vs s)
    (hv : v ∈ vs) (hq : v.qubit = some q) : q ∈ s.live :=
  h.qubits.subset (List.mem_filterMap.mpr ⟨v, hv, hq⟩)

theorem Balanced.ref {x : Nat} {vs : List Val} {s : RT} (h : Balanced vs s)
    (hv : Val.fut x ∈ vs) : s.refs x ≠ 0 := by
  rw [h.refs x]
  have : x ∈ vs.filterMap Val.handle := List.mem_filterMap.mpr ⟨_, hv, rfl⟩
  exact Nat.pos_iff_ne_zero.mp (List.count_pos_iff.mpr this)

/-- What the emitted code of an operation promises to the values that it does not touch. -/
def Keeps (vs : List Val) (s s' : RT) : Prop :=
  ∀ v ∈ vs, shows s' v = shows s v ∧ ∀ t, hasTy s v t → hasTy s' v t

theorem Keeps.same {vs : List Val} {s s' : RT} (h1 : s'.kinds = s.kinds)
    (h2 : s'.table = s.table) : Keeps vs s s' := by
  intro v _
  constructor
  · cases v <;> simp [shows, h2]
  · intro t
    cases v <;> cases t <;> simp [hasTy, h1]

theorem Keeps.fresh {vs : List Val} {s s' : RT} {x : Nat} (hb : Balanced vs s)
    (hx : s.refs x = 0) (h1 : ∀ y, y ≠ x → s'.kinds y = s.kinds y)
    (h2 : ∀ y, y ≠ x → s'.table y = s.table y) : Keeps vs s s' := by
  intro v hv
  constructor
  · cases v with
    | fut y =>
      have : y ≠ x := fun e => hb.ref hv (e ▸ hx)
      simp [shows, h2 y this]
    | _ => rfl
  · intro t
    cases v with
    | fut y =>
      have : y ≠ x := fun e => hb.ref hv (e ▸ hx)
      cases t <;> simp [hasTy, h1 y this]
    | _ => cases t <;> simp [hasTy]

/-- The result of running emitted code is as it should be. -/
def EmitOk (o : Op) (vs rest : List Val) (s : RT) : Res (List Val) → Prop
  | .ok rs s' => Balanced (rs ++ rest) s' ∧ List.Forall₂ (hasTy s') rs o.sig.2 ∧ Keeps rest s s' ∧
      meaning o (vs.map (shows s)) s.visible = some (rs.map (shows s'), s'.visible)
  | .device => True
  | .fault => False
  | .reject => False

theorem inv_qb {s : RT} {v : Val} (h : hasTy s v .qb) : ∃ q, v = .qb q := by
  cases v <;> simp_all [hasTy]
theorem inv_flt {s : RT} {v : Val} (h : hasTy s v .flt) : ∃ q, v = .flt q := by
  cases v <;> simp_all [hasTy]
theorem inv_fut {s : RT} {v : Val} {t : FTy} (h : hasTy s v (.fut t)) :
    ∃ x, v = .fut x ∧ s.kinds x = t := by
  cases v <;> simp_all [hasTy]
theorem inv_bool {s : RT} {v : Val} (h : hasTy s v .bool) : ∃ q, v = .bool q := by
  cases v <;> simp_all [hasTy]
theorem inv_opt {s : RT} {v : Val} (h : hasTy s v .optQ) : ∃ q, v = .opt q := by
  cases v <;> simp_all [hasTy]

theorem inv1 {s : RT} {vs : List Val} {t : Ty} (h : List.Forall₂ (hasTy s) vs [t]) :
    ∃ v, vs = [v] ∧ hasTy s v t := by
  cases h with
  | cons h1 h2 => cases h2; exact ⟨_, rfl, h1⟩

/-- Balance does not depend on the log and on the decisions to come. -/
theorem Balanced.log {vs : List Val} {s s' : RT} (h : Balanced vs s) (h1 : s'.live = s.live)
    (h2 : s'.refs = s.refs) : Balanced vs s' :=
  ⟨by rw [h1]; exact h.qubits, by rw [h1]; exact h.nodup, by rw [h2]; exact h.refs⟩

/-- Dropping the value that holds a qubit. -/
theorem Balanced.freeQ {q : Nat} {rest : List Val} {s s' : RT} (h : Balanced (.qb q :: rest) s)
    (h1 : s'.live = s.live.erase q) (h2 : s'.refs = s.refs) : Balanced rest s' := by
  refine ⟨?_, by rw [h1]; exact h.nodup.erase q, fun x => ?_⟩
  · rw [h1]
    have := h.qubits.erase q
    simpa [fq_qb] using this
  · rw [h2, h.refs x]
    simp [fh_qb]

/-- A new handle. -/
theorem Balanced.newH {x : Nat} {rest : List Val} {s s' : RT} (h : Balanced rest s)
    (hx : s.refs x = 0) (h1 : s'.live = s.live)
    (h2 : ∀ y, s'.refs y = if y = x then 1 else s.refs y) : Balanced (.fut x :: rest) s' := by
  refine ⟨?_, by rw [h1]; exact h.nodup, fun y => ?_⟩
  · rw [h1]; simpa [fq_fut] using h.qubits
  · rw [h2 y]
    have := h.refs y
    by_cases hy : y = x
    · subst hy
      have h0 : List.count y (rest.filterMap Val.handle) = 0 := by rw [← this, hx]
      simp [fh_fut, h0]
    · have : x ≠ y := fun e => hy e.symm
      simp [fh_fut, hy, List.count_cons_of_ne this, h.refs y]

/-- One more reference. -/
theorem Balanced.inc {x : Nat} {rest : List Val} {s s' : RT} (h : Balanced rest s)
    (h1 : s'.live = s.live) (h2 : ∀ y, s'.refs y = if y = x then s.refs y + 1 else s.refs y) :
    Balanced (.fut x :: rest) s' := by
  refine ⟨?_, by rw [h1]; exact h.nodup, fun y => ?_⟩
  · rw [h1]; simpa [fq_fut] using h.qubits
  · rw [h2 y, h.refs y]
    by_cases hy : y = x
    · subst hy; simp [fh_fut]
    · have : x ≠ y := fun e => hy e.symm
      simp [fh_fut, hy, List.count_cons_of_ne this]

/-- One reference less. -/
theorem Balanced.dec {x : Nat} {rest : List Val} {s s' : RT} (h : Balanced (.fut x :: rest) s)
    (h1 : s'.live = s.live) (h2 : ∀ y, s'.refs y = if y = x then s.refs y - 1 else s.refs y) :
    Balanced rest s' := by
  refine ⟨?_, by rw [h1]; exact h.nodup, fun y => ?_⟩
  · rw [h1]; simpa [fq_fut] using h.qubits
  · rw [h2 y, h.refs y]
    by_cases hy : y = x
    · subst hy; simp [fh_fut]
    · have : x ≠ y := fun e => hy e.symm
      simp [fh_fut, hy, List.count_cons_of_ne this]

/-- Values that hold neither qubits nor handles. -/
theorem Balanced.plain {v : Val} {rest : List Val} {s : RT} (hq : v.qubit = none)
    (hh : v.handle = none) : Balanced (v :: rest) s ↔ Balanced rest s := by
  constructor
  · intro h
    exact ⟨by simpa [hq] using h.qubits, h.nodup, by simpa [hh] using h.refs⟩
  · intro h
    exact ⟨by simpa [hq] using h.qubits, h.nodup, by simpa [hh] using h.refs⟩

/-! ### The emitted code of one operation -/

theorem emitOk_oneQ {o : Op} {q : Nat} {e : Ev} {vs rest : List Val} {s : RT}
    (hb : Balanced (.qb q :: rest) s) (ho : o.sig.2 = [.qb])
    (hm : meaning o (vs.map (shows s)) s.visible = some ([.qb q], s.visible.say [e])) :
    EmitOk o vs rest s ((onQubit q e s).bind fun _ s => .ok [.qb q] s) := by
  have hq : q ∈ s.live := hb.mem (List.mem_cons_self ..) rfl
  rw [onQubit, if_pos hq]
  refine ⟨hb.log rfl rfl, ?_, Keeps.same rfl rfl, ?_⟩
  · rw [ho]; exact List.Forall₂.cons trivial List.Forall₂.nil
  · rw [hm]; rfl

theorem emitOk_lazyFree {o : Op} {q : Nat} {t : FTy} {e : Nat → Ev} {rest : List Val} {s : RT}
    (hb : Balanced (.qb q :: rest) s) (ho : o.sig.2 = [.fut t])
    (hm : meaning o [.qb q] s.visible =
      s.visible.next.map fun (v, s) => ([.fut v], s.say [e v, .free q])) :
    EmitOk o [.qb q] rest s ((callLazy t e q s).bind fun h s =>
      (callFree q s).bind fun _ s => .ok [.fut h] s) := by
  have hq : q ∈ s.live := hb.mem (List.mem_cons_self ..) rfl
  rw [callLazy, if_pos hq]
  cases hv : s.outcomes with
  | nil => exact trivial
  | cons v vs =>
    cases hh : s.handles with
    | nil => exact trivial
    | cons h hs =>
      simp only
      by_cases h0 : s.refs h = 0
      · rw [if_pos h0]
        simp only [Res.bind, callFree, if_pos hq]
        refine ⟨?_, ?_, ?_, ?_⟩
        · have h1 : Balanced rest { s with live := s.live.erase q } := hb.freeQ rfl rfl
          exact h1.newH (x := h) h0 rfl (fun y => rfl)
        · rw [ho]
          refine List.Forall₂.cons ?_ List.Forall₂.nil
          simp [hasTy]
        · have h1 : Balanced rest { s with live := s.live.erase q } := hb.freeQ rfl rfl
          have h2 : Keeps rest { s with live := s.live.erase q } _ :=
            Keeps.fresh (x := h) (s' := { s with
              outcomes := vs, handles := hs
              refs := fun x => if x = h then 1 else s.refs x
              kinds := fun x => if x = h then t else s.kinds x
              table := fun x => if x = h then v else s.table x
              live := s.live.erase q
              log := s.log ++ [e v] ++ [.free q] }) h1 h0
              (fun y hy => by simp [hy]) (fun y hy => by simp [hy])
          exact h2
        · simp only [List.map_cons, List.map_nil, shows]
          rw [hm]
          simp [SS.next, RT.visible, hv, SS.say]
      · rw [if_neg h0]; exact trivial

theorem emitOk_lazyReset {q : Nat} {rest : List Val} {s : RT}
    (hb : Balanced (.qb q :: rest) s) :
    EmitOk .lazyMeasureReset [.qb q] rest s (emit .lazyMeasureReset [.qb q] s) := by
  have hq : q ∈ s.live := hb.mem (List.mem_cons_self ..) rfl
  rw [emit, callLazy, if_pos hq]
  cases hv : s.outcomes with
  | nil => exact trivial
  | cons v vs =>
    cases hh : s.handles with
    | nil => exact trivial
    | cons h hs =>
      simp only
      by_cases h0 : s.refs h = 0
      · rw [if_pos h0]
        simp only [Res.bind, callReset, onQubit, if_pos hq]
        refine ⟨?_, ?_, ?_, ?_⟩
        · have h1 := hb.newH (x := h) (s' := { s with
              outcomes := vs, handles := hs
              refs := fun x => if x = h then 1 else s.refs x
              kinds := fun x => if x = h then .bool else s.kinds x
              table := fun x => if x = h then v else s.table x
              log := s.log ++ [Ev.meas q v] ++ [.reset q] }) h0 rfl (fun y => rfl)
          exact h1.perm (List.Perm.swap _ _ _)
        · refine List.Forall₂.cons trivial (List.Forall₂.cons ?_ List.Forall₂.nil)
          simp [hasTy]
        · have h2 : Keeps (.qb q :: rest) s _ :=
            Keeps.fresh (x := h) (s' := { s with
              outcomes := vs, handles := hs
              refs := fun x => if x = h then 1 else s.refs x
              kinds := fun x => if x = h then .bool else s.kinds x
              table := fun x => if x = h then v else s.table x
              log := s.log ++ [Ev.meas q v] ++ [.reset q] }) hb h0
              (fun y hy => by simp [hy]) (fun y hy => by simp [hy])
          exact fun w hw => h2 w (List.mem_cons_of_mem _ hw)
        · simp [shows, meaning, SS.next, RT.visible, hv, SS.say]
      · rw [if_neg h0]; exact trivial

theorem emitOk_dup {t : FTy} {x : Nat} {rest : List Val} {s : RT} (hk : s.kinds x = t)
    (hb : Balanced (.fut x :: rest) s) :
    EmitOk (.dup t) [.fut x] rest s (dupFuture x s) := by
  have hx : s.refs x ≠ 0 := hb.ref (List.mem_cons_self ..)
  rw [dupFuture, callInc, if_neg hx]
  refine ⟨hb.inc (x := x) rfl (fun y => rfl), ?_, Keeps.same rfl rfl, ?_⟩
  · exact List.Forall₂.cons hk (List.Forall₂.cons hk List.Forall₂.nil)
  · simp [meaning, shows, RT.visible]

theorem emitOk_free {t : FTy} {x : Nat} {rest : List Val} {s : RT}
    (hb : Balanced (.fut x :: rest) s) :
    EmitOk (.free t) [.fut x] rest s (freeFuture x s) := by
  have hx : s.refs x ≠ 0 := hb.ref (List.mem_cons_self ..)
  rw [freeFuture, callDec, if_neg hx]
  refine ⟨hb.dec (x := x) rfl (fun y => rfl), List.Forall₂.nil, Keeps.same rfl rfl, ?_⟩
  simp [meaning, shows, RT.visible]

theorem emit_ok (o : Op) (ho : o.supported = true) (vs rest : List Val) (s : RT)
    (ht : List.Forall₂ (hasTy s) vs o.sig.1) (hb : Balanced (vs ++ rest) s) :
    EmitOk o vs rest s (emit o vs s) := by
  cases o with
  | rz =>
    simp only [Op.sig] at ht
    cases ht with
    | cons h1 h2 =>
      obtain ⟨q, rfl⟩ := inv_qb h1
      obtain ⟨v, rfl, h3⟩ := inv1 h2
      obtain ⟨a, rfl⟩ := inv_flt h3
      refine emitOk_oneQ (e := .rz q a) ?_ rfl rfl
      exact (Balanced.plain rfl rfl).mp (hb.perm (List.Perm.swap _ _ _))
  | phasedX =>
    simp only [Op.sig] at ht
    cases ht with
    | cons h1 h2 =>
      cases h2 with
      | cons h2 h4 =>
        obtain ⟨q, rfl⟩ := inv_qb h1
        obtain ⟨v, rfl, h3⟩ := inv1 h4
        obtain ⟨a, rfl⟩ := inv_flt h2
        obtain ⟨b, rfl⟩ := inv_flt h3
        refine emitOk_oneQ (e := .rxy q a b) ?_ rfl rfl
        have := (Balanced.plain rfl rfl).mp (hb.perm (List.Perm.swap _ _ _))
        exact (Balanced.plain rfl rfl).mp (this.perm (List.Perm.swap _ _ _))
  | zzPhase =>
    simp only [Op.sig] at ht
    cases ht with
    | cons h1 h2 =>
      cases h2 with
      | cons h2 h4 =>
        obtain ⟨q, rfl⟩ := inv_qb h1
        obtain ⟨r, rfl⟩ := inv_qb h2
        obtain ⟨v, rfl, h3⟩ := inv1 h4
        obtain ⟨a, rfl⟩ := inv_flt h3
        have hq : q ∈ s.live := hb.mem (v := .qb q) (by simp) rfl
        have hr : r ∈ s.live := hb.mem (v := .qb r) (by simp) rfl
        have hqr : q ≠ r := by
          have hn := hb.qubits.nodup_iff.mpr hb.nodup
          intro e
          subst e
          simp only [List.cons_append] at hn
          rw [fq_qb, fq_qb] at hn
          simp at hn
        have hb' : Balanced (.qb q :: .qb r :: rest) s := by
          have h5 : (Val.qb q :: .qb r :: .flt a :: rest).Perm (.flt a :: .qb q :: .qb r :: rest) :=
            ((List.Perm.swap _ _ _).cons _).trans (List.Perm.swap _ _ _)
          exact (Balanced.plain rfl rfl).mp (hb.perm h5)
        rw [emit, callRzz, if_pos ⟨hq, hr, hqr⟩]
        refine ⟨hb'.log rfl rfl, ?_, Keeps.same rfl rfl, rfl⟩
        exact List.Forall₂.cons trivial (List.Forall₂.cons trivial List.Forall₂.nil)
  | measure =>
    obtain ⟨v, rfl, h1⟩ := inv1 ht
    obtain ⟨q, rfl⟩ := inv_qb h1
    have hq : q ∈ s.live := hb.mem (v := .qb q) (by simp) rfl
    rw [emit, callMeasure, if_pos hq]
    cases hv : s.outcomes with
    | nil => exact trivial
    | cons v vs =>
      simp only [Res.bind, callFree, if_pos hq]
      refine ⟨?_, ?_, Keeps.same rfl rfl, ?_⟩
      · exact (Balanced.plain rfl rfl).mpr (hb.freeQ rfl rfl)
      · exact List.Forall₂.cons trivial List.Forall₂.nil
      · simp [shows, meaning, SS.next, RT.visible, hv, SS.say]
  | measureReset =>
    obtain ⟨v, rfl, h1⟩ := inv1 ht
    obtain ⟨q, rfl⟩ := inv_qb h1
    have hq : q ∈ s.live := hb.mem (v := .qb q) (by simp) rfl
    rw [emit, callMeasure, if_pos hq]
    cases hv : s.outcomes with
    | nil => exact trivial
    | cons v vs =>
      simp only [Res.bind, callReset, onQubit, if_pos hq]
      refine ⟨?_, ?_, Keeps.same rfl rfl, ?_⟩
      · have h2 : Balanced (.bool (v != 0) :: .qb q :: rest) s := (Balanced.plain rfl rfl).mpr hb
        exact (h2.perm (List.Perm.swap _ _ _)).log rfl rfl
      · exact List.Forall₂.cons trivial (List.Forall₂.cons trivial List.Forall₂.nil)
      · simp [shows, meaning, SS.next, RT.visible, hv, SS.say]
  | lazyMeasure =>
    obtain ⟨v, rfl, h1⟩ := inv1 ht
    obtain ⟨q, rfl⟩ := inv_qb h1
    exact emitOk_lazyFree hb rfl rfl
  | lazyMeasureLeaked =>
    obtain ⟨v, rfl, h1⟩ := inv1 ht
    obtain ⟨q, rfl⟩ := inv_qb h1
    exact emitOk_lazyFree hb rfl rfl
  | lazyMeasureReset =>
    obtain ⟨v, rfl, h1⟩ := inv1 ht
    obtain ⟨q, rfl⟩ := inv_qb h1
    exact emitOk_lazyReset hb
  | reset =>
    obtain ⟨v, rfl, h1⟩ := inv1 ht
    obtain ⟨q, rfl⟩ := inv_qb h1
    exact emitOk_oneQ hb rfl rfl
  | tryQAlloc =>
    cases ht
    rw [emit, callAlloc]
    cases ha : s.allocs with
    | nil => exact trivial
    | cons q as =>
      simp only
      by_cases hm : q = maxQb
      · rw [if_pos hm]
        simp only [Res.bind]
        rw [if_neg (fun h => h hm)]
        refine ⟨?_, List.Forall₂.cons trivial List.Forall₂.nil, Keeps.same rfl rfl, ?_⟩
        · exact (Balanced.plain rfl rfl).mpr (hb.log rfl rfl)
        · have : q = 2 ^ 64 - 1 := hm
          simp [shows, meaning, RT.visible, ha, this, SS.say]
      · rw [if_neg hm]
        by_cases hl : q ∈ s.live
        · rw [if_pos hl]; exact trivial
        · rw [if_neg hl]
          simp only [Res.bind, callReset, onQubit]
          rw [if_pos hm, if_pos (List.mem_cons_self ..)]
          refine ⟨⟨?_, ?_, ?_⟩, List.Forall₂.cons trivial List.Forall₂.nil, Keeps.same rfl rfl, ?_⟩
          · exact hb.qubits.cons q
          · exact List.nodup_cons.mpr ⟨hl, hb.nodup⟩
          · exact hb.refs
          · have : ¬ q = 2 ^ 64 - 1 := hm
            simp [shows, meaning, RT.visible, ha, this, SS.say]
  | qfree =>
    obtain ⟨v, rfl, h1⟩ := inv1 ht
    obtain ⟨q, rfl⟩ := inv_qb h1
    have hq : q ∈ s.live := hb.mem (v := .qb q) (by simp) rfl
    rw [emit, callFree, if_pos hq]
    exact ⟨hb.freeQ rfl rfl, List.Forall₂.nil, Keeps.same rfl rfl, rfl⟩
  | barrier n =>
    rw [emit]
    refine ⟨hb, ht, Keeps.same rfl rfl, ?_⟩
    rw [meaning]
  | read t =>
    cases t with
    | other => simp [Op.supported] at ho
    | bool =>
      obtain ⟨v, rfl, h1⟩ := inv1 ht
      obtain ⟨x, rfl, hk⟩ := inv_fut h1
      have hx : s.refs x ≠ 0 := hb.ref (by simp)
      rw [emit, callReadBool, if_neg (by simp [hx, hk])]
      simp only [Res.bind, callDec, if_neg hx]
      refine ⟨?_, ?_, Keeps.same rfl rfl, ?_⟩
      · exact (Balanced.plain rfl rfl).mpr (hb.dec (x := x) rfl (fun y => rfl))
      · exact List.Forall₂.cons trivial List.Forall₂.nil
      · simp [shows, meaning, RT.visible]
    | int =>
      obtain ⟨v, rfl, h1⟩ := inv1 ht
      obtain ⟨x, rfl, hk⟩ := inv_fut h1
      have hx : s.refs x ≠ 0 := hb.ref (by simp)
      rw [emit, callReadUint, if_neg (by simp [hx, hk])]
      simp only [Res.bind, callDec, if_neg hx]
      refine ⟨?_, ?_, Keeps.same rfl rfl, ?_⟩
      · exact (Balanced.plain rfl rfl).mpr (hb.dec (x := x) rfl (fun y => rfl))
      · exact List.Forall₂.cons trivial List.Forall₂.nil
      · simp [shows, meaning, RT.visible]
  | dup t =>
    obtain ⟨v, rfl, h1⟩ := inv1 ht
    obtain ⟨x, rfl, hk⟩ := inv_fut h1
    cases t with
    | other => simp [Op.supported] at ho
    | bool => exact emitOk_dup hk hb
    | int => exact emitOk_dup hk hb
  | free t =>
    obtain ⟨v, rfl, h1⟩ := inv1 ht
    obtain ⟨x, rfl, hk⟩ := inv_fut h1
    cases t with
    | other => simp [Op.supported] at ho
    | bool => exact emitOk_free hb
    | int => exact emitOk_free hb

/-! ### Programs -/

/-- The result of running a program is as it should be. -/
def RunOk (fin : List (Nat × Ty) → Prop) (p : Prog) (env : List (Nat × Val)) (s : RT) : Res (List (Nat × Val)) → Prop
  | .ok env' s' => Balanced (env'.map Prod.snd) s' ∧ (∃ Γ, fin Γ ∧ envTy s' env' Γ) ∧
      means p (showsEnv s env) s.visible = some (showsEnv s' env', s'.visible)
  | .device => True
  | .fault => False
  | .reject => False

theorem RunOk.of_eq {fin : List (Nat × Ty) → Prop} {p p' : Prog} {env env' : List (Nat × Val)} {s s' : RT}
    {r : Res (List (Nat × Val))} (h : RunOk fin p env s r)
    (he : means p' (showsEnv s' env') s'.visible = means p (showsEnv s env) s.visible) :
    RunOk fin p' env' s' r := by
  cases r with
  | ok a b => exact ⟨h.1, h.2.1, he.trans h.2.2⟩
  | device => exact trivial
  | fault => exact h
  | reject => exact h

theorem envTy_append {s : RT} : ∀ {outs : List Nat} {rs : List Val} {ts : List Ty}
    {env : List (Nat × Val)} {Γ : List (Nat × Ty)}, List.Forall₂ (hasTy s) rs ts → envTy s env Γ →
    envTy s (outs.zip rs ++ env) (outs.zip ts ++ Γ)
  | [], _, _, _, _, _, h => by simpa using h
  | o :: outs, _, _, _, _, .nil, h => by simpa using h
  | o :: outs, _, _, _, _, .cons h1 h2, h => by
    simp only [List.zip_cons_cons, List.cons_append]
    exact List.Forall₂.cons ⟨rfl, h1⟩ (envTy_append h2 h)

theorem envTy_keeps {s s' : RT} {env : List (Nat × Val)} {Γ : List (Nat × Ty)}
    (h : envTy s env Γ) (hk : Keeps (env.map Prod.snd) s s') : envTy s' env Γ := by
  induction h with
  | nil => exact List.Forall₂.nil
  | @cons a b l l' hab hl ih =>
    refine List.Forall₂.cons ⟨hab.1, ?_⟩ (ih (fun v hv => hk v (List.mem_cons_of_mem _ hv)))
    exact (hk a.2 (by simp)).2 _ hab.2

theorem envTy_mem {s : RT} {env : List (Nat × Val)} {Γ : List (Nat × Ty)} (h : envTy s env Γ)
    {a : Nat × Val} (ha : a ∈ env) : ∃ b ∈ Γ, a.1 = b.1 ∧ hasTy s a.2 b.2 := by
  induction h with
  | nil => simp at ha
  | @cons x y l l' hab hl ih =>
    rcases List.mem_cons.mp ha with rfl | ha
    · exact ⟨y, List.mem_cons_self .., hab⟩
    · obtain ⟨b, hb, h⟩ := ih ha
      exact ⟨b, List.mem_cons_of_mem _ hb, h⟩

theorem showsEnv_keeps {s s' : RT} {env : List (Nat × Val)} (hk : Keeps (env.map Prod.snd) s s') :
    showsEnv s' env = showsEnv s env := by
  apply List.map_congr_left
  intro p hp
  rw [(hk p.2 (List.mem_map.mpr ⟨p, hp, rfl⟩)).1]

theorem showsEnv_zip {s : RT} (outs : List Nat) (rs : List Val) (env : List (Nat × Val)) :
    showsEnv s (outs.zip rs ++ env) = outs.zip (rs.map (shows s)) ++ showsEnv s env := by
  simp only [showsEnv, List.map_append]
  congr 1
  rw [List.zip_map_right]
  rfl

theorem map_snd_zip {α β : Type} : ∀ {as : List α} {bs : List β}, as.length = bs.length →
    (as.zip bs).map Prod.snd = bs
  | [], [], _ => rfl
  | a :: as, b :: bs, h => by
    simp only [List.zip_cons_cons, List.map_cons]
    rw [map_snd_zip (by simpa using h)]

theorem run_ok {fin : List (Nat × Ty) → Prop} : ∀ (p : Prog) (Γ : List (Nat × Ty)) (env : List (Nat × Val)) (s : RT),
    typed fin p Γ → supported p = true → envTy s env Γ → Balanced (env.map Prod.snd) s →
    RunOk fin p env s (run p env s)
  | .done, Γ, env, s, ht, _, he, hb => ⟨hb, ⟨Γ, ht, he⟩, rfl⟩
  | .op o ins outs k, Γ, env, s, ht, hs, he, hb => by
    obtain ⟨Γ', h1, h2, h3⟩ := ht
    simp only [supported, Bool.and_eq_true] at hs
    obtain ⟨vs, env', e1, e2, e3, e4, e5⟩ := takeAll_ty he h1
    have hok := emit_ok o hs.1 vs (env'.map Prod.snd) s e2 (hb.perm e4)
    rw [run, e1]
    simp only
    cases hr : emit o vs s with
    | ok rs s' =>
      rw [hr] at hok
      obtain ⟨g1, g2, g3, g4⟩ := hok
      have hlen : outs.length = rs.length := by rw [h2, g2.length_eq]
      simp only [Res.bind]
      refine (run_ok k _ (outs.zip rs ++ env') s' h3 hs.2 ?_ ?_).of_eq ?_
      · exact envTy_append g2 (envTy_keeps e3 g3)
      · rw [List.map_append, map_snd_zip hlen]; exact g1
      · rw [means, e5]
        simp only [Option.bind_eq_bind, Option.bind_some, g4]
        rw [showsEnv_zip, showsEnv_keeps g3]
    | device => exact trivial
    | fault => rw [hr] at hok; exact hok
    | reject => rw [hr] at hok; exact hok
  | .const x out k, Γ, env, s, ht, hs, he, hb => by
    rw [run]
    refine (run_ok k _ ((out, .flt x) :: env) s ht hs ?_ ?_).of_eq ?_
    · exact List.Forall₂.cons ⟨rfl, trivial⟩ he
    · exact (Balanced.plain rfl rfl).mpr hb
    · rfl
  | .copy w a b k, Γ, env, s, ht, hs, he, hb => by
    obtain ⟨t, Γ', h1, h2, h3⟩ := ht
    obtain ⟨v, env', e1, e2, e3, e4, e5⟩ := takeOne_ty he h1
    rw [run, e1]
    simp only
    have hv : v.qubit = none ∧ v.handle = none := by
      cases v <;> cases t <;> simp_all [hasTy, Ty.copyable, Val.qubit, Val.handle]
    refine (run_ok k _ ((a, v) :: (b, v) :: env') s h3 hs ?_ ?_).of_eq ?_
    · exact List.Forall₂.cons ⟨rfl, e2⟩ (List.Forall₂.cons ⟨rfl, e2⟩ e3)
    · have h4 : Balanced (v :: env'.map Prod.snd) s := hb.perm (e4.map Prod.snd)
      exact (Balanced.plain hv.1 hv.2).mpr h4
    · rw [means, e5]; rfl
  | .discard w k, Γ, env, s, ht, hs, he, hb => by
    obtain ⟨t, Γ', h1, h2, h3⟩ := ht
    obtain ⟨v, env', e1, e2, e3, e4, e5⟩ := takeOne_ty he h1
    rw [run, e1]
    simp only
    have hv : v.qubit = none ∧ v.handle = none := by
      cases v <;> cases t <;> simp_all [hasTy, Ty.copyable, Val.qubit, Val.handle]
    refine (run_ok k _ env' s h3 hs e3 ?_).of_eq ?_
    · have h4 : Balanced (v :: env'.map Prod.snd) s := hb.perm (e4.map Prod.snd)
      exact (Balanced.plain hv.1 hv.2).mp h4
    · rw [means, e5]; rfl
  | .ite w t e, Γ, env, s, ht, hs, he, hb => by
    obtain ⟨Γ', h1, h2, h3⟩ := ht
    simp only [supported, Bool.and_eq_true] at hs
    obtain ⟨v, env', e1, e2, e3, e4, e5⟩ := takeOne_ty he h1
    obtain ⟨b, rfl⟩ := inv_bool e2
    have h4 : Balanced (env'.map Prod.snd) s :=
      (Balanced.plain (v := .bool b) rfl rfl).mp (hb.perm (e4.map Prod.snd))
    rw [run, e1]
    cases b with
    | true =>
      refine (run_ok t _ env' s h2 hs.1 e3 h4).of_eq ?_
      rw [means, e5]; rfl
    | false =>
      refine (run_ok e _ env' s h3 hs.2 e3 h4).of_eq ?_
      rw [means, e5]; rfl
  | .unwrap w out k k', Γ, env, s, ht, hs, he, hb => by
    obtain ⟨Γ', h1, h2, h3⟩ := ht
    simp only [supported, Bool.and_eq_true] at hs
    obtain ⟨v, env', e1, e2, e3, e4, e5⟩ := takeOne_ty he h1
    obtain ⟨b, rfl⟩ := inv_opt e2
    rw [run, e1]
    cases b with
    | some q =>
      refine (run_ok k _ ((out, .qb q) :: env') s h2 hs.1 (List.Forall₂.cons ⟨rfl, trivial⟩ e3)
        ?_).of_eq ?_
      · have := hb.perm (e4.map Prod.snd)
        exact ⟨this.qubits, this.nodup, this.refs⟩
      · rw [means, e5]; rfl
    | none =>
      refine (run_ok k' _ env' s h3 hs.2 e3 ?_).of_eq ?_
      · exact (Balanced.plain (v := .opt none) rfl rfl).mp (hb.perm (e4.map Prod.snd))
      · rw [means, e5]; rfl

end Verif.QRuntime
