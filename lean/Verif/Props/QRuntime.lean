import Verif.Lemmas.QRuntime

/-
Property C65: calls of the runtime for qubits and futures.
-/
namespace Verif.QRuntime

/-- Compiled programs never misuse the runtime: whatever qubits, handles and outcomes it gives, no
function is called with a qubit that was freed or never allocated, with the same qubit twice, or
with a future that has no references left or is of the other type; and the compiler accepts the
program. -/
theorem C65_safe (fin : List (Nat × Ty) → Prop) (p : Prog) (Γ : List (Nat × Ty))
    (env : List (Nat × Val)) (s : RT) (ht : typed fin p Γ) (hs : supported p = true)
    (he : envTy s env Γ) (hb : Balanced (env.map Prod.snd) s) :
    run p env s ≠ .fault ∧ run p env s ≠ .reject := by
  have h := run_ok p Γ env s ht hs he hb
  constructor
  · intro e; rw [e] at h; exact h
  · intro e; rw [e] at h; exact h

/-- At the end the runtime has allocated the qubits that are still on wires, each once, and as many
references to each future as there are wires with it. -/
theorem C65_balanced (fin : List (Nat × Ty) → Prop) (p : Prog) (Γ : List (Nat × Ty))
    (env env' : List (Nat × Val)) (s s' : RT) (ht : typed fin p Γ) (hs : supported p = true)
    (he : envTy s env Γ) (hb : Balanced (env.map Prod.snd) s) (hr : run p env s = .ok env' s') :
    Balanced (env'.map Prod.snd) s' := by
  have h := run_ok p Γ env s ht hs he hb
  rw [hr] at h
  exact h.1

/-- Nothing is leaked: a program that starts with an empty runtime and ends with copyable values
only leaves no qubit allocated and no future referenced. -/
theorem C65_clean (p : Prog) (env' : List (Nat × Val)) (s s' : RT)
    (ht : typed (fun Γ => ∀ q ∈ Γ, q.2.copyable = true) p []) (hs : supported p = true)
    (hl : s.live = []) (h0 : ∀ h, s.refs h = 0) (hr : run p [] s = .ok env' s') :
    s'.live = [] ∧ ∀ h, s'.refs h = 0 := by
  have hb : Balanced (([] : List (Nat × Val)).map Prod.snd) s :=
    ⟨by rw [hl]; exact List.Perm.refl _, by rw [hl]; exact List.nodup_nil, fun h => by
      rw [h0 h]; rfl⟩
  have h := run_ok p [] [] s ht hs List.Forall₂.nil hb
  rw [hr] at h
  obtain ⟨g1, ⟨Γ, g2, g3⟩, _⟩ := h
  have hv : ∀ v ∈ env'.map Prod.snd, v.qubit = none ∧ v.handle = none := by
    intro v hv
    obtain ⟨a, ha, rfl⟩ := List.mem_map.mp hv
    obtain ⟨b, hb', hab⟩ := envTy_mem g3 ha
    have hc := g2 b hb'
    obtain ⟨ka, a⟩ := a
    obtain ⟨kb, b⟩ := b
    obtain ⟨_, hab⟩ := hab
    cases a <;> cases b <;> simp_all [hasTy, Ty.copyable, Val.qubit, Val.handle]
  have hq : (env'.map Prod.snd).filterMap Val.qubit = [] := by
    rw [List.filterMap_eq_nil_iff]
    exact fun v h => (hv v h).1
  have hh : (env'.map Prod.snd).filterMap Val.handle = [] := by
    rw [List.filterMap_eq_nil_iff]
    exact fun v h => (hv v h).2
  refine ⟨?_, fun h => ?_⟩
  · have := g1.qubits
    rw [hq] at this
    exact this.symm.eq_nil
  · rw [g1.refs h, hh]; rfl

/-- Compiled programs do what the operations say: the gates, measurements, resets, allocations and
frees happen in the order of the program, every future gives the outcome of its measurement in each
of its copies, branches are taken by these outcomes, an allocation gives a qubit that was reset, or
nothing exactly if the runtime answered with the maximal number. -/
theorem C65_meaning (fin : List (Nat × Ty) → Prop) (p : Prog) (Γ : List (Nat × Ty))
    (env env' : List (Nat × Val)) (s s' : RT) (ht : typed fin p Γ) (hs : supported p = true)
    (he : envTy s env Γ) (hb : Balanced (env.map Prod.snd) s) (hr : run p env s = .ok env' s') :
    means p (showsEnv s env) s.visible = some (showsEnv s' env', s'.visible) := by
  have h := run_ok p Γ env s ht hs he hb
  rw [hr] at h
  exact h.2.2

/-- Futures of other types are not compiled: the program is rejected as soon as it is to read,
copy or free one. -/
theorem C65_unsupported (o : Op) (vs : List Val) (s : RT) (ho : o.supported = false) :
    emit o vs s = .reject := by
  cases o with
  | read t => cases t <;> simp_all [Op.supported, emit]
  | dup t => cases t <;> simp_all [Op.supported, emit]
  | free t => cases t <;> simp_all [Op.supported, emit]
  | _ => simp [Op.supported] at ho

/-! ### Examples -/

/-- A runtime that starts with nothing. -/
def fresh : RT :=
  { allocs := [7, 18446744073709551615], outcomes := [1, 2], handles := [5, 5], live := []
    refs := fun _ => 0, kinds := fun _ => .other, table := fun _ => 0, log := [] }

/-- Allocate a qubit, measure it lazily twice, read one copy of the first outcome and, if it was
one, allocate again; free the other copy. -/
def sample : Prog :=
  .op .tryQAlloc [] [0] <| .unwrap 0 1
    (.op .lazyMeasureReset [1] [1, 2] <| .op (.dup .bool) [2] [2, 3] <| .op (.read .bool) [3] [4] <|
      .op (.free .bool) [2] [] <| .op .lazyMeasureLeaked [1] [5] <| .op (.read .int) [5] [6] <|
      .ite 4
        (.op .tryQAlloc [] [0] <| .unwrap 0 1 (.op .qfree [1] [] .done) .done)
        .done)
    .done

/-- The sample is well typed and ends with copyable values. -/
example : typed (fun Γ => ∀ q ∈ Γ, q.2.copyable = true) sample [] ∧ supported sample = true := by
  refine ⟨?_, rfl⟩
  refine ⟨_, rfl, rfl, _, rfl, ?_, by simp [typed]⟩
  refine ⟨_, rfl, rfl, _, rfl, rfl, _, rfl, rfl, _, rfl, rfl, _, rfl, rfl, _, rfl, rfl, _, rfl, ?_, ?_⟩
  · refine ⟨_, rfl, rfl, _, rfl, ⟨_, rfl, rfl, ?_⟩, ?_⟩
    · intro q hq; simp at hq; subst hq; rfl
    · intro q hq; simp at hq; subst hq; rfl
  · intro q hq; simp at hq; subst hq; rfl

/-- It runs, reads both outcomes though the handle was used twice, and leaves nothing. -/
example : (match run sample [] fresh with
    | .ok env s => decide (env = [(6, .int 2)] ∧ s.live = [] ∧ s.refs 5 = 0 ∧
        s.log = [.alloc (some 7), .reset 7, .meas 7 1, .reset 7, .leak 7 2, .free 7, .alloc none])
    | _ => false) = true := by
  decide +kernel

/-- If the emitted code did not take a reference for the copy, reading the other one would be a
misuse. -/
example : (match callDec 5 { fresh with refs := fun x => if x = 5 then 1 else 0 } with
    | .ok _ s => (match callReadBool 5 s with
      | .fault => true
      | _ => false)
    | _ => false) = true := by
  decide +kernel

example : (Op.read .other).supported = false := rfl

end Verif.QRuntime
