import Verif.Lemmas.CommutationPass
import Verif.Props.Ops
import Mathlib.Data.List.Permutation

/-!
# Properties of the greedy commutation pass
-/

namespace Tket.Commutation

/-- **C25.** The greedy commutation pass never panics, the resulting graph can be executed, it contains
exactly the original commands, and every execution order of it has the meaning of the original circuit. Here
the meaning of the commands may be any for which operations with agreeing labels commute (see C26 and
`C25_unitary_preserved_partial`).

Restrictions: every command is a `TketOp` with at least one qubit and no classical data flows between the
commands; without them the claim is false (`C25_opaque_operation_crossed`, `C25_classical_dependency_broken`,
`C25_panics_on_allocation`, `C25_panics_on_other_linear_values`). -/
theorem C25_meaning_preserved_partial {M : Type} [Monoid M] (n : Nat) (cmds : List Cmd)
    (hok : ∀ c ∈ cmds, CmdOk n c) (hn : cmds.Nodup) (m : Meaning cmds M) :
    ∃ lines count, greedyCommutation n cmds = some (lines, count) ∧
      (∃ l, l.Perm cmds ∧ linesOf l = lines) ∧
      ∀ l, l.Perm cmds → linesOf l = lines → den m.sem l = den m.sem cmds := by
  obtain ⟨lines, count, slices, h1, h2⟩ := greedy_ok hok hn m
  have hnod := nodup_flat (n := n) h2.once slices.length
  have hperm : (flat n (sl slices) slices.length).Perm cmds := by
    rw [List.perm_ext_iff_of_nodup hnod hn]
    intro c
    rw [mem_flat, h2.all c]
    constructor
    · rintro ⟨j, _, q, _, e⟩; exact ⟨j, q, e⟩
    · rintro ⟨k, q, e⟩; exact ⟨k, lt_of_sl e, q, (h2.coh k).bound q c e, e⟩
  have hlines : linesOf (flat n (sl slices) slices.length) = lines := by
    funext q
    rw [linesOf_flat h2.coh, h2.lines q]
  refine ⟨lines, count, h1, ⟨_, hperm, hlines⟩, ?_⟩
  intro l hp hl
  rw [den_of_lines m l (flat n (sl slices) slices.length) (hp.nodup_iff.2 hn) hnod (hp.trans hperm.symm)
    (fun c hc => hp.subset hc) (by rw [hl, hlines]), den_flat, h2.prod]

/-! ## Quantum meaning -/

open Tket.Quantum

/-- A command whose ports match the signature of its operation: the qubits first, then other values. The
operation neither adds nor removes qubits. -/
structure Typed (c : Cmd) : Prop where
  ports : ∃ (op : TketOp) (qs : List Nat) (k : Nat), c.op = some op ∧ c.inputs = qs.map some ++ List.replicate k none ∧
    qs.length = op.qubits ∧ qs.Nodup
  gate : c.op ∉ [some .MeasureFree, some .QAlloc, some .TryQAlloc, some .QFree]

/-- The operator of a command, given the angle of every rotation and the outcome of every measurement. -/
noncomputable def gate (θ : Nat → ℝ) (out : Nat → Bool) (c : Cmd) : Op Nat :=
  match c.op with
  | some op => (sem op (θ c.node) (out c.node) (fun j => c.qubits.getD j 0)).getD 0
  | none => 0

/-- Execute commands in order. -/
noncomputable def run (θ : Nat → ℝ) (out : Nat → Bool) : List Cmd → State Nat → State Nat
  | [], ψ => ψ
  | c :: cs, ψ => run θ out cs ((gate θ out c).app ψ)

theorem qubits_typed {c : Cmd} {qs : List Nat} {k : Nat}
    (h : c.inputs = qs.map some ++ List.replicate k none) : c.qubits = qs := by
  unfold Cmd.qubits
  rw [h, List.filterMap_append, List.filterMap_map]
  have : (List.replicate k (none : Option Nat)).filterMap id = [] := by
    rw [List.eq_nil_iff_forall_not_mem]
    intro a ha
    rw [List.mem_filterMap] at ha
    obtain ⟨x, hx, e⟩ := ha
    rw [List.mem_replicate] at hx
    rw [hx.2] at e; simp at e
  rw [this]
  have e2 : (id ∘ some : Nat → Option Nat) = some := rfl
  rw [e2]; simp

theorem portOf_typed {c : Cmd} {qs : List Nat} {k j q : Nat}
    (h : c.inputs = qs.map some ++ List.replicate k none) (hn : qs.Nodup) (hj : qs[j]? = some q) :
    c.portOf q = some j := by
  obtain ⟨hlt, hjq⟩ := List.getElem?_eq_some_iff.1 hj
  unfold Cmd.portOf
  rw [h, List.findIdx?_eq_some_iff_getElem]
  have hl : j < (qs.map some ++ List.replicate k none).length := by simp; omega
  refine ⟨hl, ?_, ?_⟩
  · rw [List.getElem_append_left (by simpa using hlt)]
    simp [hjq]
  · intro i hi
    rw [List.getElem_append_left (by simp; omega)]
    simp only [List.getElem_map, Option.some.injEq, decide_eq_true_eq]
    intro e
    have := (List.Nodup.getElem_inj_iff hn).1 (e.trans hjq.symm)
    omega

theorem gate_comm (θ : Nat → ℝ) (out : Nat → Bool) {a b : Cmd} (ha : Typed a) (hb : Typed b)
    (h : ∀ q ∈ a.qubits, q ∈ b.qubits → Compat a b q) : Commute (gate θ out a) (gate θ out b) := by
  obtain ⟨⟨opa, qa, ka, a1, a2, a3, a4⟩, a5⟩ := ha
  obtain ⟨⟨opb, qb, kb, b1, b2, b3, b4⟩, b5⟩ := hb
  have ea := qubits_typed a2
  have eb := qubits_typed b2
  have ga : ∃ A, sem opa (θ a.node) (out a.node) (fun j => a.qubits.getD j 0) = some A := by
    rw [a1] at a5
    cases opa <;> first | (exact ⟨_, rfl⟩) | (simp at a5)
  have gb : ∃ A, sem opb (θ b.node) (out b.node) (fun j => b.qubits.getD j 0) = some A := by
    rw [b1] at b5
    cases opb <;> first | (exact ⟨_, rfl⟩) | (simp at b5)
  obtain ⟨A, hA⟩ := ga
  obtain ⟨B, hB⟩ := gb
  have e1 : gate θ out a = A := by unfold gate; rw [a1]; simp only [hA, Option.getD_some]
  have e2 : gate θ out b = B := by unfold gate; rw [b1]; simp only [hB, Option.getD_some]
  rw [e1, e2]
  refine C26_qubit_commutation_sound opa opb _ _ _ _ _ _ A B hA hB ?_
  intro i hi j hj e
  rw [ea, eb] at e
  have hia : i < qa.length := by omega
  have hjb : j < qb.length := by omega
  have ei : qa[i]? = some (qa.getD i 0) := by
    rw [List.getD_eq_getElem?_getD, List.getElem?_eq_getElem hia]; rfl
  have ej : qb[j]? = some (qa.getD i 0) := by
    rw [e, List.getD_eq_getElem?_getD, List.getElem?_eq_getElem hjb]; rfl
  obtain ⟨p, p', h1, h2, h3⟩ := h (qa.getD i 0) (by rw [ea]; exact List.mem_of_getElem? ei)
    (by rw [eb]; exact List.mem_of_getElem? ej)
  refine ⟨p, p', ?_, ?_, h3⟩
  · unfold Cmd.label at h1
    rw [portOf_typed a2 a4 ei, a1] at h1; exact h1
  · unfold Cmd.label at h2
    rw [portOf_typed b2 b4 ej, b1] at h2; exact h2

theorem run_eq (θ : Nat → ℝ) (out : Nat → Bool) (l : List Cmd) (ψ : State Nat) :
    run θ out l ψ = (MulOpposite.unop (den (fun c => MulOpposite.op (gate θ out c)) l)).app ψ := by
  induction l generalizing ψ with
  | nil => rfl
  | cons c l ih =>
    have : den (fun c => MulOpposite.op (gate θ out c)) (c :: l) =
        MulOpposite.op (gate θ out c) * den (fun c => MulOpposite.op (gate θ out c)) l := by simp [den]
    rw [this, MulOpposite.unop_mul, MulOpposite.unop_op, mul_app, ← ih]; rfl

/-- **C25.** On circuits of gates, measurements and resets without classical data flow, the pass never panics
and every execution of the result has the same effect on the state as the original: for all numbers of
qubits, all rotation angles, all measurement outcomes and all initial states. -/
theorem C25_unitary_preserved_partial (n : Nat) (cmds : List Cmd) (ht : ∀ c ∈ cmds, Typed c)
    (hb : ∀ c ∈ cmds, ∀ q ∈ c.qubits, q < n) (hn : cmds.Nodup) (_hneeds : ∀ c ∈ cmds, c.needs = []) :
    ∃ lines count, greedyCommutation n cmds = some (lines, count) ∧
      (∃ l, l.Perm cmds ∧ linesOf l = lines) ∧
      ∀ l, l.Perm cmds → linesOf l = lines →
        ∀ θ out ψ, run θ out l ψ = run θ out cmds ψ := by
  have hok : ∀ c ∈ cmds, CmdOk n c := by
    intro c hc
    obtain ⟨⟨op, qs, k, h1, h2, h3, h4⟩, h5⟩ := ht c hc
    refine ⟨by rw [h1]; rfl, ?_, by rw [qubits_typed h2]; exact h4, hb c hc⟩
    rw [qubits_typed h2]
    rintro rfl
    rw [h1] at h5
    cases op <;> simp [TketOp.qubits] at h3 h5
  have mk : ∀ θ out, ∃ m : Meaning cmds (Op Nat)ᵐᵒᵖ, m.sem = fun c => MulOpposite.op (gate θ out c) := by
    intro θ out
    refine ⟨⟨fun c => MulOpposite.op (gate θ out c), ?_⟩, rfl⟩
    intro a ha b hb' _ h
    exact (gate_comm θ out (ht a ha) (ht b hb') h).op
  obtain ⟨m0, _⟩ := mk (fun _ => 0) (fun _ => false)
  obtain ⟨lines, count, h1, h2, _⟩ := C25_meaning_preserved_partial n cmds hok hn m0
  refine ⟨lines, count, h1, h2, ?_⟩
  intro l hp hl θ out ψ
  obtain ⟨m, hm⟩ := mk θ out
  obtain ⟨lines', count', h1', _, h3⟩ := C25_meaning_preserved_partial n cmds hok hn m
  rw [h1] at h1'
  simp only [Option.some.injEq, Prod.mk.injEq] at h1'
  have := h3 l hp (by rw [hl, h1'.1])
  rw [hm] at this
  rw [run_eq, run_eq, this]

/-! ## A circuit on which the pass moves a gate -/

def exH : Cmd := ⟨10, some .H, [some 1], []⟩
def exCX : Cmd := ⟨11, some .CX, [some 0, some 1], []⟩
def exRz : Cmd := ⟨12, some .Rz, [some 0, none], []⟩
def exX : Cmd := ⟨13, some .X, [some 1], []⟩

example : (∀ c ∈ [exH, exCX, exRz, exX], Typed c) ∧
    (∀ c ∈ [exH, exCX, exRz, exX], ∀ q ∈ c.qubits, q < 2) ∧ [exH, exCX, exRz, exX].Nodup ∧
    (∀ c ∈ [exH, exCX, exRz, exX], c.needs = []) := by
  refine ⟨?_, by decide, by decide, by decide⟩
  intro c hc
  simp only [List.mem_cons, List.not_mem_nil, or_false] at hc
  rcases hc with rfl | rfl | rfl | rfl
  · exact ⟨⟨.H, [1], 0, rfl, rfl, rfl, by decide⟩, by decide⟩
  · exact ⟨⟨.CX, [0, 1], 0, rfl, rfl, rfl, by decide⟩, by decide⟩
  · exact ⟨⟨.Rz, [0], 1, rfl, rfl, rfl, by decide⟩, by decide⟩
  · exact ⟨⟨.X, [1], 0, rfl, rfl, rfl, by decide⟩, by decide⟩

/-- The rotation moves before the CX; the X gate cannot move across the Hadamard gate. -/
example : (greedyCommutation 2 [exH, exCX, exRz, exX]).map (fun r => (r.1 0, r.1 1, r.2)) =
    some ([exRz, exCX], [exH, exCX, exX], 1) := by decide

/-! ## Findings -/

/-- An operation the pass does not know on qubit 0. -/
def exU : Cmd := ⟨14, none, [some 0], []⟩
def exZ : Cmd := ⟨15, some .Z, [some 0], []⟩

/-- **C25, without the restriction to `TketOp`s.** Operations the pass does not know are not entered in the
slices, and gates are moved across them: here `Z` is moved from after the unknown operation on its qubit to
before it. -/
theorem C25_opaque_operation_crossed :
    linesOf [exH, exCX, exU, exZ] 0 = [exCX, exU, exZ] ∧
    (greedyCommutation 2 [exH, exCX, exU, exZ]).map (fun r => r.1 0) = some [exZ, exCX, exU] := by decide

/-- A measurement of qubit 0, and a rotation of qubit 1 by an angle computed from the outcome. -/
def exH0 : Cmd := ⟨10, some .H, [some 0], []⟩
def exCX1 : Cmd := ⟨11, some .CX, [some 1, some 0], []⟩
def exM : Cmd := ⟨16, some .Measure, [some 0], []⟩
def exR : Cmd := ⟨17, some .Rz, [some 1, none], [16]⟩

/-- Every command comes after the nodes it takes classical values from. -/
def RespectsNeeds : List Nat → List Cmd → Bool
  | _, [] => true
  | done, c :: cs => c.needs.all (fun k => done.contains k) && RespectsNeeds (c.node :: done) cs

/-- **C25, with classical data flow.** The pass ignores classical dependencies. Here the rotation is moved
before the CX on its qubit, while its angle comes from a measurement after that CX: the result is a graph
with a cycle, which no order can execute. -/
theorem C25_classical_dependency_broken :
    RespectsNeeds [] [exH0, exCX1, exM, exR] = true ∧
    ∃ r, greedyCommutation 2 [exH0, exCX1, exM, exR] = some r ∧
      ¬ ∃ l, l.Perm [exH0, exCX1, exM, exR] ∧ linesOf l = r.1 ∧ RespectsNeeds [] l = true := by
  refine ⟨by decide, ?_⟩
  have h0 : (greedyCommutation 2 [exH0, exCX1, exM, exR]).map (fun r => (r.1 0, r.1 1)) =
      some ([exH0, exCX1, exM], [exR, exCX1]) := by decide
  cases hr : greedyCommutation 2 [exH0, exCX1, exM, exR] with
  | none => rw [hr] at h0; simp at h0
  | some r =>
    rw [hr] at h0
    simp only [Option.map_some, Option.some.injEq, Prod.mk.injEq] at h0
    refine ⟨r, rfl, ?_⟩
    rintro ⟨l, hp, hl, hn⟩
    have key : ∀ l ∈ [exH0, exCX1, exM, exR].permutations', linesOf l 0 = [exH0, exCX1, exM] →
        linesOf l 1 = [exR, exCX1] → RespectsNeeds [] l = false := by decide +kernel
    have := key l (List.mem_permutations'.2 hp) (by rw [hl]; exact h0.1) (by rw [hl]; exact h0.2)
    rw [hn] at this
    simp at this

/-- **C25, panics.** The pass panics on any circuit that allocates a qubit, whatever comes before that it
handles. -/
theorem C25_panics_on_allocation (n node : Nat) (op : TketOp) (_hop : op.qubits = 0) (pre post : List Cmd)
    (st : List Slice × (Nat → Nat)) (hpre : loadSlices n pre ([], fun _ => 0) = some st) :
    greedyCommutation n (pre ++ ⟨node, some op, [], []⟩ :: post) = none := by
  have key : ∀ (pre : List Cmd) (s : List Slice × (Nat → Nat)),
      loadSlices n pre s = some st →
      loadSlices n (pre ++ ⟨node, some op, [], []⟩ :: post) s = none := by
    intro pre
    induction pre with
    | nil => intro s _; rfl
    | cons c pre ih =>
      intro s h
      simp only [List.cons_append, loadSlices] at h ⊢
      cases hs : loadStep n s c with
      | none => rfl
      | some s' =>
        rw [hs] at h
        exact ih s' h
  unfold greedyCommutation
  rw [key pre _ hpre]

example : (TketOp.QAlloc).qubits = 0 ∧ (TketOp.TryQAlloc).qubits = 0 ∧
    (loadSlices 2 [exH, exCX] ([], fun _ => 0)).isSome = true := by decide

/-- **C25, panics.** Units are numbered over all linear values of the region, slices only have room for the
qubits: in a circuit whose first input is another linear value, the last qubit is out of range. -/
theorem C25_panics_on_other_linear_values :
    greedyCommutation 1 [⟨10, some .H, [some 1], []⟩] = none := by decide

end Tket.Commutation
