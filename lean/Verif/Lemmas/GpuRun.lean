import Verif.Lemmas.Gpu

/-
Lemmas on executions of GPU calls.
-/
namespace Verif.Gpu

theorem Std.cases' {s : Sym} {b : Body} (h : Std s b) :
    (s = respSym ∧ b = .response) ∨ (s = errSym ∧ b = .error) ∨ (s = valSym ∧ b = .validate valFlag) ∨
      ∃ n, s = lookSym n ∧ b = .lookup (flagSym n) (idSym n) n := by
  cases h with
  | resp => exact .inl ⟨rfl, rfl⟩
  | err => exact .inr (.inl ⟨rfl, rfl⟩)
  | val => exact .inr (.inr (.inl ⟨rfl, rfl⟩))
  | look n => exact .inr (.inr (.inr ⟨n, rfl, rfl⟩))

theorem Std.unique {s : Sym} {b b' : Body} (h : Std s b) (h' : Std s b') : b = b' := by
  rcases h.cases' with ⟨rfl, rfl⟩ | ⟨rfl, rfl⟩ | ⟨rfl, rfl⟩ | ⟨n, rfl, rfl⟩ <;>
  rcases h'.cases' with ⟨h1, rfl⟩ | ⟨h1, rfl⟩ | ⟨h1, rfl⟩ | ⟨k, h1, rfl⟩ <;>
  first
    | rfl
    | exact absurd h1 err_ne_resp
    | exact absurd h1.symm err_ne_resp
    | exact absurd h1 val_ne_resp
    | exact absurd h1.symm val_ne_resp
    | exact absurd h1 val_ne_err
    | exact absurd h1.symm val_ne_err
    | exact absurd h1 (look_ne_resp _)
    | exact absurd h1.symm (look_ne_resp _)
    | exact absurd h1 (look_ne_err _)
    | exact absurd h1.symm (look_ne_err _)
    | exact absurd h1 (look_ne_val _)
    | exact absurd h1.symm (look_ne_val _)
    | (rw [lookSym_inj.mp h1])

theorem getFunc_std {m : Module} (hm : MInv m) {s : Sym} {b : Body} (hs : Std s b) (h : m.has s) :
    getFunc m.funcs s = some b := by
  unfold Module.has at h
  cases h1 : getFunc m.funcs s with
  | none => rw [h1] at h; simp at h
  | some c => rw [(hm.bodies s c h1).unique hs]

/-- The message of the report of an error. -/
def message (r : Resp) : Sym := match r.msg with | some x => x | none => noMessage

/-- The calls after a failed call. -/
def failTrace (lib : Lib) (t : List Call) : List Call :=
  .panicStr 70002 (message (lib t .getError)) :: .getError :: t

theorem runResponse_eq {lib : Lib} {m : Module} (hm : MInv m) (h : m.has respSym) (s : St) (st : Nat) :
    runResponse lib m s st = if st ≠ 0 then .ok () s else .panic { s with trace := failTrace lib s.trace } := by
  rw [runResponse, getFunc_std hm .resp h]
  simp only
  rw [runError, getFunc_std hm .err (hm.cResp h)]
  rfl

theorem request_eq {α : Type} {lib : Lib} {m : Module} (hm : MInv m) (h : m.has respSym) (s : St) (c : Call)
    (k : Resp → St → Out α) :
    ((ext lib s c).then fun r s => (runResponse lib m s r.status).then fun _ s => k r s) =
      if (lib s.trace c).status ≠ 0 then k (lib s.trace c) { s with trace := c :: s.trace }
      else .panic { s with trace := failTrace lib (c :: s.trace) } := by
  rw [ext, Out.then, runResponse_eq hm h]
  by_cases h1 : (lib s.trace c).status ≠ 0
  · rw [if_pos h1, if_pos h1]; rfl
  · rw [if_neg h1, if_neg h1]; rfl

/-- The invariant of executions. -/
structure J (lib : Lib) (s : St) : Prop where
  proto : Protocol s.trace
  ok : AllOk lib s.trace
  val0 : s.mem valFlag = 0 → s.trace = []
  val1 : s.mem valFlag ≠ 0 → s.trace ≠ []
  look0 : ∀ n, s.mem (flagSym n) = 0 → Call.getFunctionId n ∉ s.trace
  look1 : ∀ n, s.mem (flagSym n) ≠ 0 → ∃ pre, (.getFunctionId n :: pre) <:+ s.trace ∧
    s.mem (idSym n) = (lib pre (.getFunctionId n)).out

theorem AllOk.push {lib : Lib} {t : List Call} (h : AllOk lib t) {c : Call}
    (hc : (lib t c).status ≠ 0) : AllOk lib (c :: t) := by
  intro d pre hd
  rcases List.suffix_cons_iff.mp hd with hd | hd
  · simp at hd
    rw [hd.1, hd.2]; exact hc
  · exact h d pre hd

theorem Protocol.push {t : List Call} (h : Protocol t) (ht : t ≠ []) {c : Call}
    (h1 : ∀ a b d, c ≠ .validateApi a b d) (h2 : c ≠ .getError) (h3 : ∀ a b, c ≠ .panicStr a b)
    (h4 : ∀ n, c = .getFunctionId n → c ∉ t) : Protocol (c :: t) := by
  refine ⟨.inr ?_, ?_, ?_⟩
  · rcases h.first with h | ⟨later, e, hl⟩
    · exact absurd h ht
    · refine ⟨c :: later, by rw [e]; rfl, ?_⟩
      intro d hd
      rcases List.mem_cons.mp hd with rfl | hd
      · exact h1
      · exact hl d hd
  · intro n
    rw [List.count_cons]
    by_cases hc : c = .getFunctionId n
    · have := h4 n hc
      rw [hc] at this
      rw [List.count_eq_zero_of_not_mem this]
      split <;> omega
    · have := h.once n
      rw [if_neg (by simpa using hc)]
      omega
  · intro d hd
    rcases List.mem_cons.mp hd with rfl | hd
    · exact ⟨h2, h3⟩
    · exact h.noError d hd

theorem own_proto {c : Call} (h : c.own = true) :
    (∀ a b d, c ≠ .validateApi a b d) ∧ c ≠ .getError ∧ (∀ a b, c ≠ .panicStr a b) ∧
      ∀ n, c ≠ .getFunctionId n := by
  cases c <;> simp [Call.own] at h ⊢

theorem J.push {lib : Lib} {s : St} (h : J lib s) (hv : s.mem valFlag ≠ 0) {c : Call} (hc : c.own = true)
    (hs : (lib s.trace c).status ≠ 0) : J lib { s with trace := c :: s.trace } := by
  obtain ⟨c1, c2, c3, c4⟩ := own_proto hc
  refine ⟨h.proto.push (h.val1 hv) c1 c2 c3 (fun n e => absurd e (c4 n)), h.ok.push hs,
    fun x => absurd x hv, fun _ => by simp, ?_, ?_⟩
  · intro n hn hmem
    rcases List.mem_cons.mp hmem with e | e
    · exact c4 n e.symm
    · exact h.look0 n hn e
  · intro n hn
    obtain ⟨pre, p1, p2⟩ := h.look1 n hn
    exact ⟨pre, p1.trans (List.suffix_cons _ _), p2⟩

/-- The program ended after a failed call; `es` are the calls of the execution of an operation. -/
def Failed (lib : Lib) (t t0 es : List Call) : Prop :=
  ∃ c pre new, Reported lib t c pre ∧ Protocol (c :: pre) ∧ c :: pre = new ++ t0 ∧
    new.filter Call.own = es

theorem reported_fail {lib : Lib} {t : List Call} (h : AllOk lib t) {c : Call}
    (hc : ¬ (lib t c).status ≠ 0) : Reported lib (failTrace lib (c :: t)) c t := by
  refine ⟨by omega, h, _, rfl, ?_, ?_⟩
  · intro x hx; simp only [message, hx]
  · intro hx; simp only [message, hx]; rfl

theorem J.fail {lib : Lib} {s : St} (h : J lib s) (hv : s.mem valFlag ≠ 0) {c : Call} (hc : c.own = true)
    (hs : ¬ (lib s.trace c).status ≠ 0) : Failed lib (failTrace lib (c :: s.trace)) s.trace [c] := by
  obtain ⟨c1, c2, c3, c4⟩ := own_proto hc
  exact ⟨c, s.trace, [c], reported_fail h.ok hs,
    h.proto.push (h.val1 hv) c1 c2 c3 (fun n e => absurd e (c4 n)), rfl, by simp [hc]⟩

theorem runValidate_spec {lib : Lib} {m : Module} (hm : MInv m) (hf : m.has valSym) {s : St} (h : J lib s) :
    (∃ s' new, runValidate lib m s = .ok () s' ∧ J lib s' ∧ s'.mem valFlag ≠ 0 ∧
      s'.trace = new ++ s.trace ∧ new.filter Call.own = [] ∧ ∀ x, x ≠ valFlag → s'.mem x = s.mem x) ∨
    (∃ s', runValidate lib m s = .panic s' ∧ Failed lib s'.trace s.trace []) := by
  rw [runValidate, getFunc_std hm .val hf]
  simp only
  by_cases hv : s.mem valFlag ≠ 0
  · left
    rw [if_pos hv]
    exact ⟨s, [], rfl, h, hv, rfl, rfl, fun _ _ => rfl⟩
  · rw [if_neg hv]
    have hv0 : s.mem valFlag = 0 := by omega
    have ht := h.val0 hv0
    rw [request_eq hm (hm.cVal hf) s (.validateApi 0 1 0) (fun _ s => .ok () (s.set valFlag 1))]
    have hp : Protocol (.validateApi 0 1 0 :: s.trace) := by
      rw [ht]
      refine ⟨.inr ⟨[], rfl, by simp⟩, ?_, ?_⟩
      · intro n; rw [List.count_cons]; simp
      · simp
    by_cases hs : (lib s.trace (.validateApi 0 1 0)).status ≠ 0
    · left
      rw [if_pos hs]
      refine ⟨_, [.validateApi 0 1 0], rfl, ⟨hp, h.ok.push hs, ?_, ?_, ?_, ?_⟩, ?_, rfl, rfl, ?_⟩
      · intro x; simp [St.set] at x
      · intro _; simp [St.set]
      · intro n hn
        simp only [St.set] at hn ⊢
        rw [if_neg (flag_ne_val n)] at hn
        have := h.look0 n hn
        simpa using this
      · intro n hn
        simp only [St.set] at hn ⊢
        rw [if_neg (flag_ne_val n)] at hn
        obtain ⟨pre, p1, p2⟩ := h.look1 n hn
        exact ⟨pre, p1.trans (List.suffix_cons _ _), by rw [if_neg (id_ne_val n)]; exact p2⟩
      · simp [St.set]
      · intro x hx; simp [St.set, hx]
    · right
      rw [if_neg hs]
      exact ⟨_, rfl, _, _, [.validateApi 0 1 0], reported_fail h.ok hs, hp, rfl, rfl⟩

theorem runLookup_spec {lib : Lib} {m : Module} (hm : MInv m) {n : Sym} (hf : m.has (lookSym n)) {s : St}
    (h : J lib s) :
    (∃ id s' new, runLookup lib m s (lookSym n) = .ok id s' ∧ J lib s' ∧ s'.mem valFlag ≠ 0 ∧
      s'.trace = new ++ s.trace ∧ new.filter Call.own = [] ∧
      ∃ pre, (.getFunctionId n :: pre) <:+ s'.trace ∧ id = (lib pre (.getFunctionId n)).out) ∨
    (∃ s', runLookup lib m s (lookSym n) = .panic s' ∧ Failed lib s'.trace s.trace []) := by
  rw [runLookup, getFunc_std hm (.look n) hf]
  simp only
  by_cases hfl : s.mem (flagSym n) = 0
  · rw [if_pos hfl]
    have hval := hm.cLook n hf
    rcases runValidate_spec hm hval h with ⟨s1, new1, e1, j1, v1, t1, o1, m1⟩ | ⟨s1, e1, f1⟩
    · rw [e1, Out.then, request_eq hm (hm.cVal hval) s1 (.getFunctionId n)
        (fun r s => .ok r.out ((s.set (idSym n) r.out).set (flagSym n) 1))]
      have hfl1 : s1.mem (flagSym n) = 0 := by rw [m1 _ (flag_ne_val n)]; exact hfl
      have hp : Protocol (.getFunctionId n :: s1.trace) := by
        refine j1.proto.push (j1.val1 v1) (by simp) (by simp) (by simp) ?_
        intro k hk
        simp at hk
        subst hk
        exact j1.look0 n hfl1
      by_cases hs : (lib s1.trace (.getFunctionId n)).status ≠ 0
      · left
        rw [if_pos hs]
        refine ⟨_, _, .getFunctionId n :: new1, rfl, ⟨hp, j1.ok.push hs, ?_, ?_, ?_, ?_⟩, ?_, ?_, ?_,
          s1.trace, List.suffix_rfl, rfl⟩
        · intro x
          simp only [St.set] at x
          rw [if_neg (Ne.symm (flag_ne_val n)), if_neg (Ne.symm (id_ne_val n))] at x
          exact absurd x v1
        · intro _; simp [St.set]
        · intro k hk
          simp only [St.set] at hk ⊢
          by_cases hkn : k = n
          · subst hkn; simp at hk
          · rw [if_neg (fun e => hkn (flagSym_inj.mp e)), if_neg (flag_ne_id k n)] at hk
            have := j1.look0 k hk
            simp [this, hkn]
        · intro k hk
          simp only [St.set] at hk ⊢
          rw [if_neg (Ne.symm (flag_ne_id n k))]
          by_cases hkn : k = n
          · subst hkn
            rw [if_pos rfl]
            exact ⟨s1.trace, List.suffix_rfl, rfl⟩
          · rw [if_neg (fun e => hkn (flagSym_inj.mp e)), if_neg (flag_ne_id k n)] at hk
            rw [if_neg (fun e => hkn (idSym_inj.mp e))]
            obtain ⟨pre, p1, p2⟩ := j1.look1 k hk
            exact ⟨pre, p1.trans (List.suffix_cons _ _), p2⟩
        · simp only [St.set]
          rw [if_neg (Ne.symm (flag_ne_val n)), if_neg (Ne.symm (id_ne_val n))]
          exact v1
        · simp only [St.set, t1]; rfl
        · simp [Call.own] at o1 ⊢
          simpa using o1
      · right
        rw [if_neg hs]
        refine ⟨_, rfl, _, _, .getFunctionId n :: new1, reported_fail j1.ok hs, hp, by rw [t1]; rfl, ?_⟩
        simp [Call.own] at o1 ⊢
        simpa using o1
    · right
      rw [e1]
      exact ⟨s1, rfl, f1⟩
  · left
    rw [if_neg hfl]
    obtain ⟨pre, p1, p2⟩ := h.look1 n hfl
    refine ⟨_, s, [], rfl, h, ?_, rfl, rfl, pre, p1, p2⟩
    intro hv
    have := h.val0 hv
    rw [this] at p1
    simp at p1

/-- What one execution does. -/
structure StepOk (little : Bool) (lib : Lib) (step : Site × Operands) (s : St) (r : Ret) (s' : St) :
    Prop where
  inv : J lib s'
  val : s.mem valFlag ≠ 0 → s'.mem valFlag ≠ 0
  ctx : ∀ w, step.1 = .getContext w → s'.mem valFlag ≠ 0
  trace : ∃ new, s'.trace = new ++ s.trace ∧
    ((step.1.calls = true ∧ ∃ e, new.filter Call.own = [e] ∧ Asks little step e) ∨
     (step.1.calls = false ∧ new.filter Call.own = []))
  answer : Answered lib s'.trace step r

/-- One execution of an operation that only makes one call. -/
theorem request_step {little : Bool} {lib : Lib} {m : Module} (hm : MInv m) (hr : m.has respSym) {s : St}
    (h : J lib s) (hv : s.mem valFlag ≠ 0) {c : Call} (hc : c.own = true) {f : Resp → Ret}
    {step : Site × Operands} (hcalls : step.1.calls = true) (hask : Asks little step c)
    (hans : Answered lib (c :: s.trace) step (f (lib s.trace c))) :
    (∃ r s', ((ext lib s c).then fun r s => (runResponse lib m s r.status).then fun _ s => .ok (f r) s) =
        .ok r s' ∧ StepOk little lib step s r s') ∨
    (∃ s', ((ext lib s c).then fun r s => (runResponse lib m s r.status).then fun _ s =>
        .ok (f r) s) = .panic s' ∧
      ∃ es, Failed lib s'.trace s.trace es ∧ (es = [] ∨ ∃ e, es = [e] ∧ step.1.calls = true ∧ Asks little step e)) := by
  rw [request_eq hm hr s c (fun r s => Out.ok (f r) s)]
  by_cases hs : (lib s.trace c).status ≠ 0
  · left
    rw [if_pos hs]
    exact ⟨_, _, rfl, h.push hv hc hs, fun _ => hv, fun _ _ => hv,
      ⟨[c], rfl, .inl ⟨hcalls, c, by simp [hc], hask⟩⟩, hans⟩
  · right
    rw [if_neg hs]
    exact ⟨_, rfl, [c], h.fail hv hc hs, .inr ⟨c, rfl, hcalls, hask⟩⟩

theorem coerce_eq {w n : Nat} (h : n < 2 ^ w) : coerce w n = n % 2 ^ 64 := by
  unfold coerce
  split
  · rfl
  · rename_i hw
    have : 2 ^ w ≤ 2 ^ 64 := Nat.pow_le_pow_right (by omega) (by omega)
    rw [Nat.mod_eq_of_lt (by omega)]

theorem runInstr_spec {little : Bool} {undef : Nat → List Nat} (hu : ∀ n, (undef n).length = n) {lib : Lib}
    {m : Module} (hm : MInv m) {site : Site} {i : Instr} (he : Emitted m site i) {o : Operands}
    (hfit : Fits site o) {s : St} (h : J lib s) (hv : site.usesContext = true → s.mem valFlag ≠ 0) :
    (∃ r s', runInstr little undef lib m s o i = .ok r s' ∧ StepOk little lib (site, o) s r s') ∨
    (∃ s', runInstr little undef lib m s o i = .panic s' ∧
      ∃ es, Failed lib s'.trace s.trace es ∧
        (es = [] ∨ ∃ e, es = [e] ∧ site.calls = true ∧ Asks little (site, o) e)) := by
  cases site with
  | getContext w =>
    obtain ⟨rfl, h1, h2⟩ := he
    rw [runInstr]
    rcases runValidate_spec hm h1 h with ⟨s1, new1, e1, j1, v1, t1, o1, m1⟩ | ⟨s1, e1, f1⟩
    · rw [e1, Out.then]
      have hco := coerce_eq (w := w) (n := o.index) hfit
      rcases request_step (little := little) (f := fun r => .context r.out) (step := (.getContext w, o))
        (c := .init (coerce w o.index)) hm h2 j1 v1 rfl rfl (by rw [hco]; rfl)
        ⟨s1.trace, by rw [hco]; exact List.suffix_rfl, by rw [hco]⟩
        with ⟨r, s', q1, q2⟩ | ⟨s', q1, es, ⟨c, pre, new, g1, g2, g3, g4⟩, q3⟩
      · left
        refine ⟨r, s', q1, q2.inv, fun _ => q2.val v1, fun _ _ => q2.val v1, ?_, q2.answer⟩
        obtain ⟨new, n1, n2⟩ := q2.trace
        refine ⟨new ++ new1, by rw [n1, t1, List.append_assoc], ?_⟩
        rw [List.filter_append, o1, List.append_nil]
        exact n2
      · right
        refine ⟨s', q1, es, ⟨c, pre, new ++ new1, g1, g2, by rw [g3, t1, List.append_assoc], ?_⟩, q3⟩
        rw [List.filter_append, o1, List.append_nil, g4]
    · right
      rw [e1]
      exact ⟨s1, rfl, [], f1, .inl rfl⟩
  | dispose =>
    obtain ⟨rfl, h1⟩ := he
    exact request_step (little := little) (f := fun _ => .none) (step := (.dispose, o)) hm h1 h (hv rfl) rfl rfl rfl rfl
  | lookupById id =>
    cases he
    left
    exact ⟨_, s, rfl, h, fun x => x, fun w hw => by simp at hw, ⟨[], rfl, .inr ⟨rfl, rfl⟩⟩, rfl⟩
  | lookupByName n =>
    obtain ⟨rfl, h1⟩ := he
    rw [runInstr]
    rcases runLookup_spec hm h1 h with ⟨id, s1, new1, e1, j1, v1, t1, o1, p1⟩ | ⟨s1, e1, f1⟩
    · left
      rw [e1]
      obtain ⟨pre, p1, rfl⟩ := p1
      exact ⟨_, s1, rfl, j1, fun _ => v1, fun _ _ => v1, ⟨new1, t1, .inr ⟨rfl, o1⟩⟩, pre, p1, rfl⟩
    · right
      rw [e1]
      exact ⟨s1, rfl, [], f1, .inl rfl⟩
  | call args outs =>
    obtain ⟨size, sig, rfl, h1, h2, h3⟩ := he
    obtain ⟨f1, f2⟩ := hfit
    subst f1
    rw [runInstr]
    have hp := packLoop_spec little (pre := []) (rest := undef size) h1 (hu size)
    simp only [List.nil_append, List.length_nil] at hp
    rw [hp]
    simp only
    obtain ⟨a1, cs, x, a2, a3⟩ := signature_announces h2
    refine request_step (little := little) (f := fun _ => .result o.handle) (step := (.call _ outs, o)) hm h3 h (hv rfl)
      rfl rfl ⟨_, sig, by rw [blobSize_bytes little h1], ?_, a1⟩ rfl
    rw [a3]
    exact unpack_bytes little [x] a2 f2
  | readResult outs =>
    rcases he with ⟨rfl, rfl⟩ | ⟨h1, ⟨rfl, rfl⟩ | ⟨rfl, rfl⟩⟩
    · left
      exact ⟨_, s, rfl, h, fun x => x, fun w hw => by simp at hw, ⟨[], rfl, .inr ⟨rfl, rfl⟩⟩,
        .inl ⟨rfl, rfl⟩⟩
    · exact request_step (little := little) (f := fun r => .int o.handle r.out) (step := (.readResult [.int 64], o))
        hm h1 h (hv rfl) rfl rfl rfl
        (.inr ⟨s.trace, List.suffix_rfl, .inl ⟨rfl, rfl⟩⟩)
    · exact request_step (little := little) (f := fun r => .float o.handle r.out) (step := (.readResult [.float], o))
        hm h1 h (hv rfl) rfl rfl rfl
        (.inr ⟨s.trace, List.suffix_rfl, .inr ⟨rfl, rfl⟩⟩)

theorem Answered.mono {lib : Lib} {t t' : List Call} (h : t <:+ t') {step : Site × Operands} {r : Ret}
    (ha : Answered lib t step r) : Answered lib t' step r := by
  obtain ⟨site, o⟩ := step
  cases site with
  | getContext w => obtain ⟨pre, h1, h2⟩ := ha; exact ⟨pre, h1.trans h, h2⟩
  | dispose => exact ha
  | lookupById id => exact ha
  | lookupByName n => obtain ⟨pre, h1, h2⟩ := ha; exact ⟨pre, h1.trans h, h2⟩
  | call a b => exact ha
  | readResult outs =>
    rcases ha with ha | ⟨pre, h1, h2⟩
    · exact .inl ha
    · exact .inr ⟨pre, h1.trans h, h2⟩

theorem runAll_spec {little : Bool} {undef : Nat → List Nat} (hu : ∀ n, (undef n).length = n) {lib : Lib}
    {m : Module} (hm : MInv m) {sites : List Site} {code : List Instr}
    (he : List.Forall₂ (Emitted m) sites code) {steps : List (Nat × Operands)}
    {run : List (Site × Operands)} (hx : Executes sites steps run) {s : St} (h : J lib s)
    (hh : ∀ pre step post, run = pre ++ step :: post → step.1.usesContext = true →
      s.mem valFlag ≠ 0 ∨ ∃ x ∈ pre, ∃ w, x.1 = .getContext w) :
    (∃ rets s' new, runAll little undef lib m code s steps = .ok rets s' ∧ J lib s' ∧
      s'.trace = new ++ s.trace ∧
      List.Forall₂ (Asks little) (run.filter fun x => x.1.calls) (new.reverse.filter Call.own) ∧
      List.Forall₂ (Answered lib s'.trace) run rets) ∨
    (∃ s' c pre new k, runAll little undef lib m code s steps = .panic s' ∧ Reported lib s'.trace c pre ∧
      Protocol (c :: pre) ∧ c :: pre = new ++ s.trace ∧
      List.Forall₂ (Asks little) ((run.filter fun x => x.1.calls).take k) (new.reverse.filter Call.own)) := by
  induction hx generalizing s with
  | nil => exact .inl ⟨[], s, [], rfl, h, rfl, .nil, .nil⟩
  | @cons a b steps run hab hrest ih =>
    obtain ⟨i, o⟩ := a
    obtain ⟨site, o'⟩ := b
    obtain ⟨h1, h2, h3⟩ := hab
    simp only at h1 h2 h3
    subst h2
    obtain ⟨instr, hi, hem⟩ : ∃ instr, code[i]? = some instr ∧ Emitted m site instr := by
      obtain ⟨hlt, hget⟩ := List.getElem?_eq_some_iff.mp h1
      have hlen := he.length_eq
      refine ⟨code[i]'(by omega), List.getElem?_eq_getElem _, ?_⟩
      have := (List.forall₂_iff_get.mp he).2 i hlt (by omega)
      simp only [List.get_eq_getElem] at this
      rw [hget] at this
      exact this
    have hv : site.usesContext = true → s.mem valFlag ≠ 0 := by
      intro hu'
      rcases hh [] (site, o) run rfl hu' with h | ⟨x, hx, _⟩
      · exact h
      · simp at hx
    rw [runAll, hi]
    simp only
    rcases runInstr_spec (little := little) hu hm hem h3 h hv with ⟨r, s1, e1, ok1⟩ | ⟨s1, e1, es, ⟨c, pre, new, g1, g2, g3, g4⟩, q⟩
    · rw [e1, Out.then]
      obtain ⟨new1, n1, n2⟩ := ok1.trace
      have hhead : ∀ (x : List Call) (tail : List (Site × Operands)),
          List.Forall₂ (Asks little) (tail.filter fun x => x.1.calls) (x.reverse.filter Call.own) →
          List.Forall₂ (Asks little) (((site, o) :: tail).filter fun x => x.1.calls)
            ((x ++ new1).reverse.filter Call.own) := by
        intro x tail hf
        rw [List.reverse_append, List.filter_append]
        rcases n2 with ⟨c1, e, c2, c3⟩ | ⟨c1, c2⟩
        · rw [List.filter_cons_of_pos (by exact c1), List.filter_reverse, c2]
          exact .cons c3 hf
        · rw [List.filter_cons_of_neg (by simp only at c1; simp [c1]), List.filter_reverse, c2]
          exact hf
      have hh' : ∀ pre step post, run = pre ++ step :: post → step.1.usesContext = true →
          s1.mem valFlag ≠ 0 ∨ ∃ x ∈ pre, ∃ w, x.1 = .getContext w := by
        intro pre step post e hu'
        rcases hh ((site, o) :: pre) step post (by rw [e]; rfl) hu' with h | ⟨x, hx, w, hw⟩
        · exact .inl (ok1.val h)
        · rcases List.mem_cons.mp hx with rfl | hx
          · exact .inl (ok1.ctx w hw)
          · exact .inr ⟨x, hx, w, hw⟩
      rcases ih ok1.inv hh' with ⟨rets, s2, new2, e2, j2, t2, f2, a2⟩ | ⟨s2, c, pre, new2, k, e2, g1, g2, g3, g4⟩
      · left
        rw [e2]
        refine ⟨r :: rets, s2, new2 ++ new1, rfl, j2, by rw [t2, n1, List.append_assoc], hhead _ _ f2,
          .cons (ok1.answer.mono ⟨new2, t2.symm⟩) a2⟩
      · right
        rw [e2]
        rcases n2 with ⟨c1, e, c2, c3⟩ | ⟨c1, c2⟩
        · refine ⟨s2, c, pre, new2 ++ new1, k + 1, rfl, g1, g2, by rw [g3, n1, List.append_assoc], ?_⟩
          rw [List.reverse_append, List.filter_append, List.filter_cons_of_pos (by exact c1),
            List.filter_reverse, c2]
          exact .cons c3 g4
        · refine ⟨s2, c, pre, new2 ++ new1, k, rfl, g1, g2, by rw [g3, n1, List.append_assoc], ?_⟩
          rw [List.reverse_append, List.filter_append,
            List.filter_cons_of_neg (by simp only at c1; simp [c1]), List.filter_reverse, c2]
          exact g4
    · right
      rw [e1]
      rcases q with rfl | ⟨e, rfl, c1, c3⟩
      · refine ⟨s1, c, pre, new, 0, rfl, g1, g2, g3, ?_⟩
        rw [List.filter_reverse, g4]
        exact .nil
      · refine ⟨s1, c, pre, new, 1, rfl, g1, g2, g3, ?_⟩
        rw [List.filter_reverse, g4, List.filter_cons_of_pos (by exact c1)]
        exact .cons c3 .nil

end Verif.Gpu
