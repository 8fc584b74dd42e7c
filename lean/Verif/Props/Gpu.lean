import Verif.Lemmas.GpuRun

/-
C69: calls of the GPU library.
-/
namespace Verif.Gpu

/-- The state at the start of a program. -/
def start : St := ⟨[], fun _ => 0⟩

theorem J.start (lib : Lib) : J lib Gpu.start := by
  refine ⟨⟨.inl rfl, by intro n; simp [Gpu.start], by simp [Gpu.start]⟩, ?_, fun _ => rfl, ?_, ?_, ?_⟩
  · intro c pre h; simp [Gpu.start] at h
  all_goals simp [Gpu.start]

/-- The code of a program can be made exactly if all its GPU operations have supported types. -/
theorem C69_emit_iff {others : List Sym} (h : Unused others) (sites : List Site) :
    (∃ r, emitAll ⟨others, [], []⟩ sites = some r) ↔ ∀ s ∈ sites, s.Supported := by
  constructor
  · rintro ⟨r, hr⟩
    exact emitAll_supported hr
  · intro hs
    obtain ⟨m, is, e, _⟩ := emitAll_ok (MInv.fresh h) hs
    exact ⟨_, e⟩

/-- What is assumed of a program and its execution: the symbols are not used otherwise, the operands have
the types of the operations, and contexts are used only after one was made. -/
structure Setting (others : List Sym) (sites : List Site) (m : Module) (code : List Instr)
    (undef : Nat → List Nat) (steps : List (Nat × Operands)) (run : List (Site × Operands)) : Prop where
  unused : Unused others
  emitted : emitAll ⟨others, [], []⟩ sites = some (m, code)
  memory : ∀ n, (undef n).length = n
  executes : Executes sites steps run
  handled : Handled run

section
variable {others : List Sym} {sites : List Site} {m : Module} {code : List Instr}
  {undef : Nat → List Nat} {steps : List (Nat × Operands)} {run : List (Site × Operands)}

theorem Setting.spec (h : Setting others sites m code undef steps run) (little : Bool) (lib : Lib) :
    (∃ rets s', runAll little undef lib m code start steps = .ok rets s' ∧ J lib s' ∧
      List.Forall₂ (Asks little) (run.filter fun x => x.1.calls) (s'.trace.reverse.filter Call.own) ∧
      List.Forall₂ (Answered lib s'.trace) run rets) ∨
    (∃ s' c pre k, runAll little undef lib m code start steps = .panic s' ∧ Reported lib s'.trace c pre ∧
      Protocol (c :: pre) ∧
      List.Forall₂ (Asks little) ((run.filter fun x => x.1.calls).take k)
        ((c :: pre).reverse.filter Call.own)) := by
  obtain ⟨m', is, e, hm, _, hem⟩ := emitAll_ok (MInv.fresh h.unused) (emitAll_supported h.emitted)
  rw [h.emitted] at e
  simp only [Option.some.injEq, Prod.mk.injEq] at e
  obtain ⟨rfl, rfl⟩ := e
  rcases runAll_spec (little := little) h.memory hm hem h.executes (J.start lib)
    (fun pre step post e u => .inr (h.handled pre step post e u))
    with ⟨rets, s', new, e, j, t, a, b⟩ | ⟨s', c, pre, new, k, e, g1, g2, g3, g4⟩
  · left
    rw [show Gpu.start.trace = [] from rfl, List.append_nil] at t
    exact ⟨rets, s', e, j, by rw [t]; exact a, b⟩
  · right
    rw [show Gpu.start.trace = [] from rfl, List.append_nil] at g3
    exact ⟨s', c, pre, k, e, g1, g2, by rw [g3]; exact g4⟩

/-- Compiled programs do not get stuck: no value is missing and no write is outside the memory of the
arguments. -/
theorem C69_never_broken (h : Setting others sites m code undef steps run) (little : Bool) (lib : Lib) :
    runAll little undef lib m code start steps ≠ .broken := by
  rcases h.spec little lib with ⟨_, _, e, _⟩ | ⟨_, _, _, _, e, _⟩ <;> rw [e] <;> simp

/-- If the program goes on, all calls were successful, the version was validated once and before all
other calls, and no name was looked up twice. -/
theorem C69_protocol (h : Setting others sites m code undef steps run) {little : Bool} {lib : Lib}
    {rets : List Ret} {s : St} (hr : runAll little undef lib m code start steps = .ok rets s) :
    Protocol s.trace ∧ AllOk lib s.trace := by
  rcases h.spec little lib with ⟨_, _, e, j, _⟩ | ⟨_, _, _, _, e, _⟩
  · rw [hr] at e; cases e; exact ⟨j.proto, j.ok⟩
  · rw [hr] at e; cases e

/-- The other calls are those of the operations, in the order of their executions, and the arguments of
functions can be read back from the blob with the signature. -/
theorem C69_requests (h : Setting others sites m code undef steps run) {little : Bool} {lib : Lib}
    {rets : List Ret} {s : St} (hr : runAll little undef lib m code start steps = .ok rets s) :
    List.Forall₂ (Asks little) (run.filter fun x => x.1.calls) (s.trace.reverse.filter Call.own) := by
  rcases h.spec little lib with ⟨_, _, e, _, a, _⟩ | ⟨_, _, _, _, e, _⟩
  · rw [hr] at e; cases e; exact a
  · rw [hr] at e; cases e

/-- The results of the operations are what the library answered. -/
theorem C69_answers (h : Setting others sites m code undef steps run) {little : Bool} {lib : Lib}
    {rets : List Ret} {s : St} (hr : runAll little undef lib m code start steps = .ok rets s) :
    List.Forall₂ (Answered lib s.trace) run rets := by
  rcases h.spec little lib with ⟨_, _, e, _, _, a⟩ | ⟨_, _, _, _, e, _⟩
  · rw [hr] at e; cases e; exact a
  · rw [hr] at e; cases e

/-- If the program ends with an error, the last call failed, all before it were successful and followed
the protocol and the operations, and the error is reported with the message of the library. -/
theorem C69_failure (h : Setting others sites m code undef steps run) {little : Bool} {lib : Lib}
    {s : St} (hr : runAll little undef lib m code start steps = .panic s) :
    ∃ c pre k, Reported lib s.trace c pre ∧ Protocol (c :: pre) ∧
      List.Forall₂ (Asks little) ((run.filter fun x => x.1.calls).take k)
        ((c :: pre).reverse.filter Call.own) := by
  rcases h.spec little lib with ⟨_, _, e, _⟩ | ⟨_, c, pre, k, e, a⟩
  · rw [hr] at e; cases e
  · rw [hr] at e; cases e; exact ⟨c, pre, k, a⟩

/-- A program ends with an error exactly if the library refuses one of the calls: with a library that
accepts all calls it goes on. -/
theorem C69_accepting (h : Setting others sites m code undef steps run) {lib : Lib}
    (hl : ∀ t c, (lib t c).status ≠ 0) (little : Bool) :
    ∃ rets s, runAll little undef lib m code start steps = .ok rets s := by
  rcases h.spec little lib with ⟨_, _, e, _⟩ | ⟨_, _, _, _, _, g, _⟩
  · exact ⟨_, _, e⟩
  · exact absurd g.1 (hl _ _)

end

/-- The value of the arguments of a call can be read back from the blob, whatever was in the memory
before, and the blob has the size that is passed. -/
theorem C69_blob (little : Bool) {vals : List Val} {outs : List Ty} {size : Nat} {sig : Sym}
    {mem : List Nat} (hs : blobSize (vals.map Val.ty) = some size) (hg : signature (vals.map Val.ty) outs = some sig)
    (hm : mem.length = size) (hv : ∀ v ∈ vals, v.InRange) :
    ∃ blob, packLoop little mem 0 vals = some blob ∧ blob.length = size ∧
      unpack little sig blob = some vals ∧ announces sig outs := by
  have hp := packLoop_spec little (pre := []) (rest := mem) hs hm
  simp only [List.nil_append, List.length_nil] at hp
  obtain ⟨a1, cs, x, a2, a3⟩ := signature_announces hg
  refine ⟨_, hp, blobSize_bytes little hs, ?_, a1⟩
  rw [a3]
  exact unpack_bytes little [x] a2 hv

/-! ### Examples -/

/-- A library that accepts everything and answers with the number of calls before. -/
def exLib : Lib := fun t _ => ⟨1, t.length, none⟩

def exSites : List Site :=
  [.getContext 32, .lookupByName ['f'], .call [.int 1, .int 64, .float] [.float], .readResult [.float],
    .dispose]

def exOps : Operands := ⟨0, 1, 2, [.int 1 1, .int 64 513, .float 7]⟩

def exSteps : List (Nat × Operands) :=
  [(0, exOps), (1, exOps), (2, exOps), (1, exOps), (3, exOps), (4, exOps)]

def exCode : Option (Module × List Instr) := emitAll ⟨[], [], []⟩ exSites

theorem exUnused : Unused [] := by simp [Unused]

example : exCode.isSome = true := by decide +kernel

/-- The hypotheses of the theorems are met. -/
theorem exSetting {m : Module} {code : List Instr} (h : exCode = some (m, code)) :
    Setting [] exSites m code (fun n => List.replicate n 255) exSteps
      [(.getContext 32, exOps), (.lookupByName ['f'], exOps),
        (.call [.int 1, .int 64, .float] [.float], exOps), (.lookupByName ['f'], exOps),
        (.readResult [.float], exOps), (.dispose, exOps)] := by
  refine ⟨exUnused, h, fun n => List.length_replicate, ?_, ?_⟩
  · refine .cons ⟨rfl, rfl, show 0 < 2 ^ 32 by decide⟩ (.cons ⟨rfl, rfl, trivial⟩ (.cons ⟨rfl, rfl, rfl, ?_⟩
      (.cons ⟨rfl, rfl, trivial⟩ (.cons ⟨rfl, rfl, trivial⟩ (.cons ⟨rfl, rfl, trivial⟩ .nil)))))
    intro v hv
    simp [exOps] at hv
    rcases hv with rfl | rfl | rfl <;> simp [Val.InRange]
  · intro pre step post e hu
    cases pre with
    | nil => simp at e; rw [← e.1] at hu; simp [Site.usesContext] at hu
    | cons x pre =>
      simp at e
      exact ⟨x, by simp, 32, by rw [← e.1]⟩

/-- The calls of the program. -/
def exTrace : List Call :=
  match exCode with
  | some (m, code) =>
    match runAll true (fun n => List.replicate n 255) exLib m code start exSteps with
    | .ok _ s => s.trace.reverse
    | _ => []
  | none => []

example : exTrace =
    [.validateApi 0 1 0, .init 0, .getFunctionId ['f'],
      .gpuCall 1 2 17 [1, 1, 2, 0, 0, 0, 0, 0, 0, 7, 0, 0, 0, 0, 0, 0, 0] ['b', 'i', 'f', ':', 'f'],
      .getResult 1 8, .discard 1] := by decide +kernel

/-- The argument of `gpu_init` is documented as reserved and zero, but is the number that the program
asks for. -/
theorem C69_reserved_nonzero :
    ∃ m code s, emitAll ⟨[], [], []⟩ [.getContext 64] = some (m, code) ∧
      runAll true (fun n => List.replicate n 0) exLib m code start [(0, ⟨5, 0, 0, []⟩)] =
        .ok [.context 1] s ∧ s.trace = [.init 5, .validateApi 0 1 0] := by
  exact ⟨_, _, _, rfl, rfl, rfl⟩

/-- A context that cannot be made ends the program, although the operation has an optional result: with
a library that refuses, no execution returns. -/
theorem C69_refused_context {others : List Sym} (h : Unused others) (little : Bool) {undef : Nat → List Nat}
    (hu : ∀ n, (undef n).length = n) {m : Module} {code : List Instr} {w : Nat}
    (he : emitAll ⟨others, [], []⟩ [.getContext w] = some (m, code)) {lib : Lib} {o : Operands}
    (ho : o.index < 2 ^ w) (hl : ∀ t n, (lib t (.init n)).status = 0) :
    ∃ s, runAll little undef lib m code start [(0, o)] = .panic s := by
  have hs : Setting others [.getContext w] m code undef [(0, o)] [(.getContext w, o)] := by
    refine ⟨h, he, hu, .cons ⟨rfl, rfl, ho⟩ .nil, ?_⟩
    intro pre step post e hx
    cases pre with
    | nil => simp at e; rw [← e.1] at hx; simp [Site.usesContext] at hx
    | cons x pre => simp at e
  rcases hs.spec little lib with ⟨rets, s', e, j, a, b⟩ | ⟨s, _, _, _, e, _⟩
  · cases b with
    | cons b _ =>
      obtain ⟨pre, p, _⟩ := b
      exact absurd (hl pre _) (j.ok _ _ p)
  · exact ⟨s, e⟩

end Verif.Gpu
