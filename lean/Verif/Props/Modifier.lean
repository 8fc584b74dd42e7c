import Verif.Lemmas.Modifier
import Verif.Props.ControlSynth

/-!
# C41, C42, C43, C44, C57: chains of modifiers, rewiring, nested regions, flags, calls
-/

namespace Tket.Modifier

/-! ## C41 -/

/-- The sizes of the control arrays of a chain, starting with the modifier that is called. -/
def sizes : List Modifier → List Nat
  | [] => []
  | .control n :: ms => n :: sizes ms
  | _ :: ms => sizes ms

/-- The number of daggers of a chain. -/
def daggers : List Modifier → Nat
  | [] => 0
  | .dagger :: ms => daggers ms + 1
  | _ :: ms => daggers ms

/-- The function type a chain promises: each control modifier puts an array in front of the type of the function
it is applied to (modifier/control.rs), the other modifiers keep the type. -/
def promise : List Modifier → Sig → Sig
  | [], s => s
  | .control n :: ms, s => ⟨.qarray n :: (promise ms s).input, .qarray n :: (promise ms s).output⟩
  | _ :: ms, s => promise ms s

theorem trace_eq (chain : List Modifier) : ∀ c : Combined,
    (traceChain c chain).control = c.control + (sizes chain).sum ∧
    (traceChain c chain).accum = c.accum ++ sizes chain ∧
    (traceChain c chain).dagger = xor c.dagger (decide (daggers chain % 2 = 1)) := by
  induction chain with
  | nil => intro c; simp [traceChain, sizes, daggers]
  | cons m ms ih =>
    intro c
    have h := ih (c.push m)
    rw [show traceChain c (m :: ms) = traceChain (c.push m) ms from rfl]
    cases m with
    | control n =>
      refine ⟨by rw [h.1]; simp [Combined.push, sizes]; omega, by rw [h.2.1]; simp [Combined.push, sizes], ?_⟩
      rw [h.2.2]; rfl
    | dagger =>
      refine ⟨by rw [h.1]; rfl, by rw [h.2.1]; rfl, ?_⟩
      rw [h.2.2]
      simp only [Combined.push, daggers]
      rcases Nat.mod_two_eq_zero_or_one (daggers ms) with e | e
      · have : (daggers ms + 1) % 2 = 1 := by omega
        simp [e, this]
      · have : (daggers ms + 1) % 2 = 0 := by omega
        simp [e, this]
    | power => exact ⟨by rw [h.1]; rfl, by rw [h.2.1]; rfl, by rw [h.2.2]; rfl⟩

/-- C41: a chain accumulates to the sum of its controls and the parity of its daggers. -/
theorem C41_accumulates (chain : List Modifier) :
    (traceChain .empty chain).control = (sizes chain).sum ∧
    (traceChain .empty chain).accum = sizes chain ∧
    ((traceChain .empty chain).dagger = true ↔ daggers chain % 2 = 1) := by
  obtain ⟨h1, h2, h3⟩ := trace_eq chain .empty
  refine ⟨by rw [h1]; simp [Combined.empty], by rw [h2]; simp [Combined.empty], ?_⟩
  rw [h3]; simp [Combined.empty]

theorem foldl_sig (l : List Nat) : ∀ s : Sig,
    l.foldl (fun s n => (⟨.qarray n :: s.input, .qarray n :: s.output⟩ : Sig)) s =
      ⟨l.reverse.map .qarray ++ s.input, l.reverse.map .qarray ++ s.output⟩ := by
  induction l with
  | nil => intro s; simp
  | cons n l ih => intro s; rw [List.foldl_cons, ih]; simp

theorem promise_eq (chain : List Modifier) (s : Sig) :
    promise chain s = ⟨(sizes chain).map .qarray ++ s.input, (sizes chain).map .qarray ++ s.output⟩ := by
  induction chain with
  | nil => simp [promise, sizes]
  | cons m ms ih => cases m <;> simp [promise, sizes, ih]

theorem map_qarray_inj {l l' : List Nat} (h : l.map Ty.qarray = l'.map Ty.qarray) : l = l' :=
  List.map_injective_iff.2 (fun _ _ h => by cases h; rfl) h

/-- C41: the generated function has the type the chain promises exactly if the sizes of the control arrays read
the same in both directions. (The code puts the arrays in the opposite order.) -/
theorem C41_signature (chain : List Modifier) (s : Sig) :
    modifySignature (traceChain .empty chain) s false = promise chain s ↔ (sizes chain).reverse = sizes chain := by
  rw [promise_eq]
  simp only [modifySignature, Bool.false_eq_true, if_false, foldl_sig, (C41_accumulates chain).2.1, Sig.mk.injEq]
  constructor
  · intro h; exact map_qarray_inj (List.append_cancel_right h.1)
  · intro h; rw [h]; exact ⟨rfl, rfl⟩

theorem unpack_iff : ∀ (ns ns' : List Nat) (rest : List Ty), ns.length = ns'.length →
    (unpackControls ns (ns'.map .qarray ++ rest) = some ns.sum ↔ ns = ns') ∧
    (ns ≠ ns' → unpackControls ns (ns'.map .qarray ++ rest) = none)
  | [], [], rest, _ => by simp [unpackControls]
  | [], _ :: _, _, h => by simp at h
  | _ :: _, [], _, h => by simp at h
  | n :: ns, n' :: ns', rest, h => by
    obtain ⟨h1, h2⟩ := unpack_iff ns ns' rest (by simpa using h)
    simp only [List.map_cons, List.cons_append, unpackControls]
    by_cases hn : n = n'
    · subst hn
      simp only [if_true, List.sum_cons, List.cons.injEq, true_and]
      by_cases hs : ns = ns'
      · subst hs; simp [h1.2 rfl]
      · simp [h2 hs, hs]
    · rw [if_neg (by simpa using fun h => hn h.symm)]
      simp [hn]

/-- C41: the controls of the generated function are unpacked from arrays of the right sizes exactly in the same
case, otherwise an unpacking operation is connected to an array of another size. -/
theorem C41_unpacking (chain : List Modifier) (s : Sig) :
    unpackControls (traceChain .empty chain).accum (modifySignature (traceChain .empty chain) s false).input =
      if (sizes chain).reverse = sizes chain then some (sizes chain).sum else none := by
  simp only [modifySignature, Bool.false_eq_true, if_false, foldl_sig, (C41_accumulates chain).2.1]
  have h := unpack_iff (sizes chain) (sizes chain).reverse s.input (by simp)
  split
  · next hp => exact h.1.2 hp.symm
  · next hp => exact h.2 (fun e => hp e.symm)

/-- C41: two controls of different sizes are not resolved correctly. -/
theorem C41_two_controls_wrong :
    modifySignature (traceChain .empty [.control 1, .dagger, .control 2]) ⟨[.qubit], [.qubit]⟩ false ≠
      promise [.control 1, .dagger, .control 2] ⟨[.qubit], [.qubit]⟩ := by decide

/-- C41: power modifiers have no effect besides a flag that no gate looks at. -/
theorem C41_power_ignored (pre post : List Modifier) :
    (traceChain .empty (pre ++ .power :: post)).control = (traceChain .empty (pre ++ post)).control ∧
    (traceChain .empty (pre ++ .power :: post)).accum = (traceChain .empty (pre ++ post)).accum ∧
    (traceChain .empty (pre ++ .power :: post)).dagger = (traceChain .empty (pre ++ post)).dagger := by
  have hs : sizes (pre ++ .power :: post) = sizes (pre ++ post) := by
    induction pre with
    | nil => rfl
    | cons m ms ih => cases m <;> simp [sizes, ih]
  have hd : daggers (pre ++ .power :: post) = daggers (pre ++ post) := by
    clear hs
    induction pre with
    | nil => rfl
    | cons m ms ih => cases m <;> simp [daggers, ih]
  obtain ⟨a1, a2, a3⟩ := trace_eq (pre ++ .power :: post) .empty
  obtain ⟨b1, b2, b3⟩ := trace_eq (pre ++ post) .empty
  exact ⟨by rw [a1, b1, hs], by rw [a2, b2, hs], by rw [a3, b3, hd]⟩

example : (sizes [.control 2, .dagger, .control 3, .dagger, .control 2]).reverse =
    sizes [.control 2, .dagger, .control 3, .dagger, .control 2] := by decide

section Semantics

open Tket.Quantum Tket.ControlSynth

variable {Q : Type} [DecidableEq Q]

/-- What a chain of control and dagger modifiers means for the operator `U` of the function. -/
def Meaning : List Modifier → List Q → Op Q → Op Q → Prop
  | [], cs, U, V => cs = [] ∧ V = U
  | .control n :: ms, cs, U, V =>
    n ≤ cs.length ∧ ∃ W, Meaning ms (cs.drop n) U W ∧ IsControlled (cs.take n) W V
  | .dagger :: ms, cs, U, V => ∃ W, Meaning ms cs U W ∧ W * V = 1 ∧ V * W = 1
  | .power :: _, _, _, _ => False

theorem isControlled_iff {cs : List Q} {U V : Op Q} : IsControlled cs U V ↔ V = ctrls cs U :=
  ⟨isControlled_eq, fun h => h ▸ isControlled_ctrls cs U⟩

theorem meaning_iff {U Ui : Op Q} (h1 : U * Ui = 1) (h2 : Ui * U = 1) : ∀ (chain : List Modifier) (cs : List Q)
    (V : Op Q), Modifier.power ∉ chain → Away cs U → cs.length = (sizes chain).sum →
    (Meaning chain cs U V ↔ V = ctrls cs (if daggers chain % 2 = 1 then Ui else U))
  | [], cs, V, _, _, hl => by
    have : cs = [] := List.length_eq_zero_iff.1 (by simpa [sizes] using hl)
    subst this
    simp [Meaning, daggers, ctrls]
  | .control n :: ms, cs, V, hp, ha, hl => by
    have hl' : cs.length = n + (sizes ms).sum := by simpa [sizes] using hl
    have ih := fun W => meaning_iff h1 h2 ms (cs.drop n) W (fun h => hp (by simp [h]))
      (fun c hc => ha c (List.mem_of_mem_drop hc)) (by rw [List.length_drop]; omega)
    simp only [Meaning, ih, isControlled_iff, exists_eq_left, ← ctrls_append, List.take_append_drop, daggers]
    exact ⟨fun h => h.2, fun h => ⟨by omega, h⟩⟩
  | .dagger :: ms, cs, V, hp, ha, hl => by
    have ih := fun W => meaning_iff h1 h2 ms cs W (fun h => hp (by simp [h])) ha (by simpa [sizes] using hl)
    have hai := away_inv ha h1 h2
    have key : ∀ A B : Op Q, A * B = 1 → B * A = 1 → Away cs A → Away cs B →
        ((ctrls cs A * V = 1 ∧ V * ctrls cs A = 1) ↔ V = ctrls cs B) := by
      intro A B e1 e2 hA hB
      have k : ctrls cs A * ctrls cs B = 1 ∧ ctrls cs B * ctrls cs A = 1 := by
        rw [ctrls_mul hA hB, ctrls_mul hB hA, e1, e2, ctrls_one]; exact ⟨rfl, rfl⟩
      constructor
      · rintro ⟨k1, k2⟩
        calc V = (ctrls cs B * ctrls cs A) * V := by rw [k.2, one_mul]
          _ = ctrls cs B * (ctrls cs A * V) := by rw [mul_assoc]
          _ = _ := by rw [k1, mul_one]
      · rintro rfl; exact k
    simp only [Meaning, ih, exists_eq_left, daggers]
    rcases Nat.mod_two_eq_zero_or_one (daggers ms) with e | e
    · have : (daggers ms + 1) % 2 = 1 := by omega
      simp only [e, this, if_true, Nat.zero_ne_one, if_false]
      exact key U Ui h1 h2 ha hai
    · have : (daggers ms + 1) % 2 = 0 := by omega
      simp only [e, this, if_true, Nat.zero_ne_one, if_false]
      exact key Ui U h2 h1 hai ha
  | .power :: ms, _, _, hp, _, _ => absurd (List.mem_cons_self) hp

/-- C41: the accumulated controls and dagger mean the same as the modifiers of the chain one after the other. -/
theorem C41_combination_sound (chain : List Modifier) (cs : List Q) (U Ui V : Op Q) (h1 : U * Ui = 1)
    (h2 : Ui * U = 1) (hp : Modifier.power ∉ chain) (ha : Away cs U)
    (hl : cs.length = (traceChain .empty chain).control) :
    Meaning chain cs U V ↔ ∃ W, Daggered (traceChain .empty chain).dagger U W ∧ IsControlled cs W V := by
  obtain ⟨c1, _, c3⟩ := C41_accumulates chain
  rw [meaning_iff h1 h2 chain cs V hp ha (by rw [hl, c1])]
  simp only [isControlled_iff]
  by_cases hd : daggers chain % 2 = 1
  · rw [if_pos hd, c3.2 hd]
    constructor
    · rintro rfl; exact ⟨Ui, ⟨h1, h2⟩, rfl⟩
    · rintro ⟨W, ⟨k1, _⟩, rfl⟩
      have : W = Ui := by
        calc W = (Ui * U) * W := by rw [h2, one_mul]
          _ = Ui * (U * W) := by rw [mul_assoc]
          _ = Ui := by rw [k1, mul_one]
      rw [this]
  · have hf : (traceChain .empty chain).dagger = false := by
      rw [← Bool.not_eq_true]; exact fun h => hd (c3.1 h)
    rw [if_neg hd, hf]
    constructor
    · rintro rfl; exact ⟨U, rfl, rfl⟩
    · rintro ⟨W, k, rfl⟩
      have k' : W = U := k
      rw [k']

/-- C41: resolving a chain on a straight-line circuit of supported gates implements the meaning of the chain, the
control qubits being taken in the order of the chain. -/
theorem C41_circuit_partial (chain : List Modifier) (hp : Modifier.power ∉ chain) (cs : List Q)
    (hl : cs.length = (sizes chain).sum) (c : List (Node Q)) (hc : ∀ n ∈ c, NodeOk cs n) :
    ∃ N, ∀ fuel ≥ N, ∃ gates U V,
      modifyChildren fuel c (top cs (traceChain .empty chain).dagger []) =
        .ok (id, top cs (traceChain .empty chain).dagger gates) ∧
      den c = some U ∧ den gates = some V ∧ Meaning chain cs U V := by
  obtain ⟨N, hN⟩ := C40_circuit_partial cs (traceChain .empty chain).dagger c hc
  obtain ⟨N', hN'⟩ := C40_circuit_partial cs true c hc
  refine ⟨N, fun fuel hf => ?_⟩
  obtain ⟨gates, U, W, V, e, hU, hW, hV, hC⟩ := hN fuel hf
  obtain ⟨_, U', Ui, _, _, hU', ⟨i1, i2⟩, _, _⟩ := hN' N' (Nat.le_refl _)
  rw [hU] at hU'; cases hU'
  refine ⟨gates, U, V, e, hU, hV, ?_⟩
  have ha : Away cs U := by
    obtain ⟨Us, gs, h1, h2, -, -⟩ := fold_ok (fuel := 10 * (cs.length + 2) + 9) (d := false) (by omega) c [] hc
    have h3 := den_of_map h1
    rw [hU] at h3
    cases h3
    intro x hx
    refine Commute.list_prod_right _ _ ?_
    intro y hy
    rw [List.mem_reverse, List.mem_map] at hy
    obtain ⟨p, hp', rfl⟩ := hy
    exact (h2 p hp').2 x hx
  exact (C41_combination_sound chain cs U Ui V i1 i2 hp ha (by rw [hl, (C41_accumulates chain).1])).2 ⟨W, hW, hC⟩

example : ∀ n ∈ ([.gate .H [2] 0, .gate .CX [2, 3] 0] : List (Node Nat)), NodeOk [0, 1] n := by
  intro n hn
  simp only [List.mem_cons, List.not_mem_nil, or_false] at hn
  rcases hn with rfl | rfl <;> refine ⟨⟨rfl, by simp, by simp, by simp⟩, rfl, by decide⟩

end Semantics

/-! ## C42 -/

/-- The type of a port of a node with signature `s` whose dataflow ports start at `a` and `b`. -/
def portTy (s : Sig) (a b : Nat) (p : Port) : Option Ty :=
  match p.dir with
  | .inc => if a ≤ p.idx then s.input[p.idx - a]? else none
  | .out => if b ≤ p.idx then s.output[p.idx - b]? else none

/-- The other direction. -/
def Dir.flip : Dir → Dir
  | .inc => .out
  | .out => .inc

theorem portTy_isSome (s : Sig) (a b : Nat) (p : Port) : (portTy s a b p).isSome = true ↔
    (p.dir = .inc ∧ a ≤ p.idx ∧ p.idx < a + s.input.length) ∨
    (p.dir = .out ∧ b ≤ p.idx ∧ p.idx < b + s.output.length) := by
  obtain ⟨d, i⟩ := p
  cases d
  · simp only [portTy, true_and, reduceCtorEq, false_and, or_false]
    split
    · rw [Option.isSome_iff_ne_none, ne_eq, List.getElem?_eq_none_iff]; omega
    · simp; omega
  · simp only [portTy, true_and, reduceCtorEq, false_and, false_or]
    split
    · rw [Option.isSome_iff_ne_none, ne_eq, List.getElem?_eq_none_iff]; omega
    · simp; omega

/-- C42: the rewiring never fails; every port of the old node is mapped exactly once, to distinct ports; quantum
ports change direction exactly under dagger and classical ports never. -/
theorem C42_rewiring (dagger : Bool) (s : Sig) (a b n : Nat) :
    ∃ m, wireInout dagger s a b n = .ok m ∧
      (∀ p, p ∈ m.map Prod.fst ↔ (portTy s a b p).isSome = true) ∧
      (m.map Prod.fst).Nodup ∧ (m.map Prod.snd).Nodup ∧
      ∀ e ∈ m, ∀ t, portTy s a b e.1 = some t →
        e.2.dir = if dagger && t.isQ then e.1.dir.flip else e.1.dir := by
  obtain ⟨m, e, i⟩ := wireInout_inv dagger s a b n
  refine ⟨m, e, fun p => by rw [i.key, portTy_isSome], i.keys, i.vals, ?_⟩
  rintro ⟨⟨d, x⟩, new⟩ he t ht
  cases d
  · obtain ⟨t', h1, h2⟩ := i.inc _ he rfl
    simp only [portTy] at ht
    split at ht
    · dsimp only at h1
      rw [h1] at ht; cases ht; exact h2
    · cases ht
  · obtain ⟨t', h1, h2⟩ := i.out _ he rfl
    simp only [portTy] at ht
    split at ht
    · dsimp only at h1
      rw [h1] at ht; cases ht; exact h2
    · cases ht

/-- C42: under dagger, the ports that are mapped to are exactly those of the new node if and only if there are as
many quantum inputs as quantum outputs; without dagger they always are. -/
theorem C42_fills (dagger : Bool) (s : Sig) (a b n : Nat) :
    ∃ m, wireInout dagger s a b n = .ok m ∧
      ((∀ p, p ∈ m.map Prod.snd ↔ (portTy s (a + n) (b + n) p).isSome = true) ↔
        (dagger = true → (s.input.filter Ty.isQ).length = (s.output.filter Ty.isQ).length)) := by
  obtain ⟨m, e, i⟩ := wireInout_inv dagger s a b n
  refine ⟨m, e, ?_⟩
  have b1 : (s.input.filter Ty.isQ).length ≤ s.input.length := List.length_filter_le _ _
  have b2 : (s.output.filter Ty.isQ).length ≤ s.output.length := List.length_filter_le _ _
  cases dagger
  · simp only [Bool.false_eq_true, false_imp_iff, iff_true]
    intro p
    rw [i.val, portTy_isSome]
    simp only [quantum, Bool.false_eq_true, if_false]
    rw [show a + n + (s.input.length - (s.input.filter Ty.isQ).length) + (s.input.filter Ty.isQ).length =
      a + n + s.input.length by omega,
      show b + n + (s.output.length - (s.output.filter Ty.isQ).length) + (s.output.filter Ty.isQ).length =
      b + n + s.output.length by omega]
  · simp only [forall_const]
    constructor
    · intro h
      by_contra hne
      rcases Nat.lt_or_gt_of_ne hne with hlt | hgt
      · have := (h ⟨.inc, a + n + s.input.length⟩).1 (by
          rw [i.val]; simp only [quantum, if_true, true_and]; left; omega)
        rw [portTy_isSome] at this; simp at this
      · have := (h ⟨.out, b + n + s.output.length⟩).1 (by
          rw [i.val]; simp only [quantum, if_true, true_and]; right; omega)
        rw [portTy_isSome] at this; simp at this
    · intro h p
      rw [i.val, portTy_isSome]
      simp only [quantum, if_true]
      rw [show a + n + (s.input.length - (s.input.filter Ty.isQ).length) + (s.output.filter Ty.isQ).length =
        a + n + s.input.length by omega,
        show b + n + (s.output.length - (s.output.filter Ty.isQ).length) + (s.input.filter Ty.isQ).length =
        b + n + s.output.length by omega]

theorem straight_ok (dagger : Bool) (s : Sig) (a b n : Nat) {R C D : List Ty} (hi : s.input = R ++ C)
    (ho : s.output = R ++ D) (hC : ∀ t ∈ C, t.isQ = false) (hD : ∀ t ∈ D, t.isQ = false) :
    ∃ m, wireInout dagger s a b n = .ok m ∧ Straight a b n m := by
  cases dagger
  · exact wireLoop_plain _ _ _ [] a b (by omega) (Inv.init false s a b n) (by simp) (by simp) (by simp [Straight])
  · unfold wireInout
    rw [hi, ho]
    exact wireLoop_dagger hC hD _ R [] a b (by omega) (Inv.init true s a b n) (by simp [hi]) (by simp [ho]) (by omega)
      (by simp [Straight])

/-- C42: a port is mapped to a port with its type, if the quantum values a node returns are those it takes, in the
same places, and further values are classical. Without dagger any signature will do. -/
theorem C42_types_partial (dagger : Bool) (s : Sig) (a b n : Nat)
    (h : dagger = false ∨ ∃ R C D, s.input = R ++ C ∧ s.output = R ++ D ∧ (∀ t ∈ C, t.isQ = false) ∧
      ∀ t ∈ D, t.isQ = false) :
    ∃ m, wireInout dagger s a b n = .ok m ∧
      ∀ e ∈ m, portTy s (a + n) (b + n) e.2 = portTy s a b e.1 := by
  obtain ⟨m, e, i⟩ := wireInout_inv dagger s a b n
  have hs : Straight a b n m := by
    rcases h with rfl | ⟨R, C, D, hi, ho, hC, hD⟩
    · obtain ⟨m', e', h'⟩ := wireLoop_plain (s := s) (a := a) (b := b) (n := n) _ s.input s.output [] a b
        (Nat.lt_succ_self _) (Inv.init false s a b n) (by simp) (by simp) (by simp [Straight])
      have : m' = m := by
        have := e'.symm.trans e
        cases this; rfl
      exact this ▸ h'
    · obtain ⟨m', e', h'⟩ := straight_ok dagger s a b n hi ho hC hD
      rw [e] at e'; cases e'; exact h'
  refine ⟨m, e, ?_⟩
  rintro ⟨⟨d, x⟩, ⟨d', y⟩⟩ he
  have hal := hs _ he
  simp only [Aligned] at hal
  have hk := (i.key ⟨d, x⟩).1 (List.mem_map_of_mem (f := Prod.fst) he)
  have same : d' = d → portTy s (a + n) (b + n) ⟨d', y⟩ = portTy s a b ⟨d, x⟩ := by
    rintro rfl
    cases d' <;> simp only [off] at hal <;> simp only [portTy, true_and, reduceCtorEq, false_and, or_false, false_or] at hk ⊢ <;>
      rw [if_pos (by omega), if_pos (by omega)] <;> congr 1 <;> omega
  have both : ∀ (j : Nat) (t : Ty), t.isQ = true → dagger = true → (s.input[j]? = some t ↔ s.output[j]? = some t) := by
    intro j t ht hd
    rcases h with rfl | ⟨R, C, D, hi, ho, hC, hD⟩
    · cases hd
    · rw [hi, ho, List.getElem?_append, List.getElem?_append]
      split
      · rfl
      · constructor
        · intro hg
          have := hC t (List.mem_of_getElem? hg)
          rw [ht] at this; cases this
        · intro hg
          have := hD t (List.mem_of_getElem? hg)
          rw [ht] at this; cases this
  cases d
  · obtain ⟨t, h1, h2⟩ := i.inc _ he rfl
    by_cases hf : (dagger && t.isQ) = true
    · rw [if_pos hf] at h2
      simp only [Bool.and_eq_true] at hf
      dsimp only at h1 h2
      subst h2
      have h3 := (both _ t hf.2 hf.1).1 h1
      simp only [off] at hal
      simp only [reduceCtorEq, false_and, or_false, true_and] at hk
      simp only [portTy]
      rw [if_pos (by omega), if_pos (by omega), h1, ← h3]
      congr 1; omega
    · rw [if_neg hf] at h2; exact same h2
  · obtain ⟨t, h1, h2⟩ := i.out _ he rfl
    by_cases hf : (dagger && t.isQ) = true
    · rw [if_pos hf] at h2
      simp only [Bool.and_eq_true] at hf
      dsimp only at h1 h2
      subst h2
      have h3 := (both _ t hf.2 hf.1).2 h1
      simp only [off] at hal
      simp only [reduceCtorEq, false_and, false_or, true_and] at hk
      simp only [portTy]
      rw [if_pos (by omega), if_pos (by omega), h1, ← h3]
      congr 1; omega
    · rw [if_neg hf] at h2; exact same h2

/-- C42: with a classical value between two qubits, a dagger mixes up types: the second qubit output, which becomes
an input, is mapped to input 1 of the new node, which is the integer. -/
theorem C42_mixed_types_wrong :
    ∃ m, wireInout true ⟨[.qubit, .other false 0, .qubit], [.qubit, .qubit]⟩ 0 0 0 = .ok m ∧
      ∃ e ∈ m, portTy ⟨[.qubit, .other false 0, .qubit], [.qubit, .qubit]⟩ 0 0 e.2 ≠
        portTy ⟨[.qubit, .other false 0, .qubit], [.qubit, .qubit]⟩ 0 0 e.1 :=
  ⟨_, rfl, (⟨.out, 1⟩, ⟨.inc, 1⟩), by decide, by decide⟩

example : ∃ R C D : List Ty, [Ty.qubit, .other false 0, .qubit, .other false 1] = R ++ C ∧
    [Ty.qubit, .other false 0, .qubit] = R ++ D ∧ (∀ t ∈ C, t.isQ = false) ∧ ∀ t ∈ D, t.isQ = false :=
  ⟨[.qubit, .other false 0, .qubit], [.other false 1], [], rfl, rfl, by decide, by decide⟩

/-- C42: a nested region with controls and dagger: every quantum port is mapped to a port of the same type if the
region takes and returns the same quantum values and nothing else. -/
theorem C42_dfg_partial (c : Combined) (s : Sig) (h : c.dagger = false ∨ s.input = s.output ∧ ∀ t ∈ s.input, t.isQ = true) :
    ∃ m, modifyDfgWiring c s = .ok m ∧ (m.map Prod.fst).Nodup ∧
      ∀ p t, portTy s 0 0 p = some t → ∃ new, (p, new) ∈ m ∧
        new.dir = (if c.dagger && t.isQ then p.dir.flip else p.dir) ∧
        portTy s c.control c.control new = some t := by
  have hms : modifySignature c s true = ⟨List.replicate c.control .qubit ++ s.input,
      List.replicate c.control .qubit ++ s.output⟩ := rfl
  obtain ⟨m, e, i⟩ := wireInout_inv c.dagger (modifySignature c s true) 0 0 c.control
  have hs : Straight 0 0 c.control m := by
    rcases h with hd | ⟨hio, _⟩
    · rw [hd] at e
      obtain ⟨m', e', h'⟩ := wireLoop_plain (s := modifySignature c s true) (a := 0) (b := 0) (n := c.control) _
        (modifySignature c s true).input (modifySignature c s true).output [] 0 0
        (Nat.lt_succ_self _) (Inv.init false _ 0 0 _) (by simp) (by simp) (by simp [Straight])
      have : m' = m := by
        have := e'.symm.trans e
        cases this; rfl
      exact this ▸ h'
    · obtain ⟨m', e', h'⟩ := straight_ok c.dagger (modifySignature c s true) 0 0 c.control
        (R := List.replicate c.control .qubit ++ s.input) (C := []) (D := []) (by rw [hms]; simp)
        (by rw [hms, hio]; simp) (by simp) (by simp)
      rw [e] at e'; cases e'; exact h'
  refine ⟨m, e, i.keys, ?_⟩
  rintro ⟨d, x⟩ t ht
  have hx := (portTy_isSome s 0 0 ⟨d, x⟩).1 (by rw [ht]; rfl)
  have hmem : (⟨d, x⟩ : Port) ∈ m.map Prod.fst := by
    rw [i.key, hms]
    simp only [List.length_append, List.length_replicate]
    rcases hx with ⟨rfl, h1, h2⟩ | ⟨rfl, h1, h2⟩
    · left; exact ⟨rfl, by omega, by dsimp only at h2 ⊢; omega⟩
    · right; exact ⟨rfl, by omega, by dsimp only at h2 ⊢; omega⟩
  obtain ⟨⟨old, d', y⟩, he, rfl⟩ := List.mem_map.1 hmem
  have hal := hs _ he
  simp only [Aligned] at hal
  have hy : y = x + c.control := by
    have h1 : ∀ d, off 0 0 d = 0 := by intro d; cases d <;> rfl
    simp only [h1] at hal; omega
  -- all ports seen by the rewiring are quantum if there is a dagger
  have hq : c.dagger = true → ∀ l, l = (modifySignature c s true).input ∨ l = (modifySignature c s true).output →
      ∀ t ∈ l, t.isQ = true := by
    intro hd l hl t ht'
    rcases h with h | ⟨hio, hq⟩
    · rw [hd] at h; cases h
    · rw [hms, ← hio, or_self] at hl
      rw [hl] at ht'
      rcases List.mem_append.1 ht' with h | h
      · rw [(List.mem_replicate.1 h).2]; rfl
      · exact hq t h
  have htq : c.dagger = true → t.isQ = true := by
    intro hd
    rcases h with h | ⟨hio, hq⟩
    · rw [hd] at h; cases h
    · cases d <;> simp only [portTy, Nat.zero_le, if_true] at ht
      · exact hq t (List.mem_of_getElem? ht)
      · exact hq t (hio ▸ List.mem_of_getElem? ht)
  have hdir : d' = if c.dagger && t.isQ then d.flip else d := by
    cases d
    · obtain ⟨t', h1, h2⟩ := i.inc _ he rfl
      dsimp only at h2
      rw [h2]
      cases hd : c.dagger
      · simp
      · rw [hq hd _ (Or.inl rfl) t' (List.mem_of_getElem? h1), htq hd]; rfl
    · obtain ⟨t', h1, h2⟩ := i.out _ he rfl
      dsimp only at h2
      rw [h2]
      cases hd : c.dagger
      · simp
      · rw [hq hd _ (Or.inr rfl) t' (List.mem_of_getElem? h1), htq hd]; rfl
  refine ⟨⟨d', y⟩, he, hdir, ?_⟩
  subst hy
  cases hd : c.dagger
  · rw [hd] at hdir
    simp only [Bool.false_and, Bool.false_eq_true, if_false] at hdir
    subst hdir
    cases d' <;> simpa [portTy] using ht
  · rcases h with h | ⟨hio, _⟩
    · rw [hd] at h; cases h
    · cases d <;> cases d' <;> simpa [portTy, hio] using ht

/-- C42: a nested region with at least one control, dagger, and a classical input: that input is mapped to an
output port the new node does not have. -/
theorem C42_controlled_dagger_classical_wrong (c : Combined) (R C : List Ty) (t : Ty) (hd : c.dagger = true)
    (hn : 1 ≤ c.control) (hR : ∀ t ∈ R, t.isQ = true) (ht : t.isQ = false) :
    ∃ m, modifyDfgWiring c ⟨R ++ t :: C, R⟩ = .ok m ∧
      portTy ⟨R ++ t :: C, R⟩ 0 0 ⟨.inc, R.length⟩ = some t ∧
      ∃ new, (⟨.inc, R.length⟩, new) ∈ m ∧
        portTy ⟨R ++ t :: C, R⟩ c.control c.control new ≠ some t := by
  have hms : modifySignature c ⟨R ++ t :: C, R⟩ true = ⟨List.replicate c.control .qubit ++ (R ++ t :: C),
      List.replicate c.control .qubit ++ R⟩ := rfl
  obtain ⟨m, e, i⟩ := wireInout_inv c.dagger (modifySignature c ⟨R ++ t :: C, R⟩ true) 0 0 c.control
  refine ⟨m, e, by simp [portTy], ?_⟩
  have hmem : (⟨.inc, R.length⟩ : Port) ∈ m.map Prod.fst := by
    rw [i.key, hms]; left
    simp only [List.length_append, List.length_replicate, List.length_cons, true_and]
    omega
  obtain ⟨⟨old, d', y⟩, he, ho⟩ := List.mem_map.1 hmem
  dsimp only at ho
  subst ho
  refine ⟨_, he, ?_⟩
  obtain ⟨t', h1, h2⟩ := i.inc _ he rfl
  have htq : t'.isQ = true := by
    have h3 := List.mem_of_getElem? (l := (List.replicate c.control Ty.qubit ++ R)) (i := R.length) (a := t') (by
      rw [hms] at h1
      dsimp only at h1
      rw [← List.append_assoc, List.getElem?_append_left (by simp; omega)] at h1
      simpa using h1)
    rcases List.mem_append.1 h3 with h | h
    · rw [(List.mem_replicate.1 h).2]; rfl
    · exact hR _ h
  rw [hd, htq] at h2
  dsimp only at h2
  subst h2
  simp only [portTy, Bool.and_self, if_true]
  intro hc
  split at hc
  · have := hR _ (List.mem_of_getElem? hc)
    rw [ht] at this; cases this
  · cases hc

example : ∃ m, modifyDfgWiring ⟨1, [1], true, false⟩ ⟨[.qubit, .other false 0], [.qubit]⟩ = .ok m ∧
    (⟨.inc, 1⟩, ⟨.out, 2⟩) ∈ m := ⟨_, rfl, by decide⟩

/-! ## C43 -/

/-- The ports of the controls have qubit type, and the other ports have the types they had. -/
structure TypeCorrect (n : Nat) (old : Sig) (x : Nested) : Prop where
  ctrlIn : ∀ i < n, x.sig.input[x.ctrlIn i]? = some .qubit
  ctrlOut : ∀ i < n, x.sig.output[x.ctrlOut i]? = some .qubit
  oldIn : ∀ p t, old.input[p]? = some t → x.sig.input[x.oldIn p]? = some t
  oldOut : ∀ p t, old.output[p]? = some t → x.sig.output[x.oldOut p]? = some t

theorem get_shift (n p : Nat) (l : List Ty) : (List.replicate n Ty.qubit ++ l)[p + n]? = l[p]? := by
  rw [List.getElem?_append_right (by simp)]
  simp

/-- C43: nested dataflow graphs. -/
theorem C43_dfg (n : Nat) (s : Sig) : TypeCorrect n s (dfg n s) where
  ctrlIn i hi := by
    simp only [dfg]
    rw [List.getElem?_append_left (by simpa using hi)]; simp [hi]
  ctrlOut i hi := by
    simp only [dfg]
    rw [List.getElem?_append_left (by simpa using hi)]; simp [hi]
  oldIn p t h := by simp only [dfg]; rw [get_shift]; exact h
  oldOut p t h := by simp only [dfg]; rw [get_shift]; exact h

/-- C43: conditionals. -/
theorem C43_conditional (n : Nat) (sum : Ty) (others outputs : List Ty) :
    TypeCorrect n ⟨sum :: others, outputs⟩ (conditional n sum others outputs) where
  ctrlIn i hi := by
    simp only [conditional, List.getElem?_cons_succ]
    rw [List.getElem?_append_left (by simpa using hi)]; simp [hi]
  ctrlOut i hi := by
    simp only [conditional]
    rw [List.getElem?_append_left (by simpa using hi)]; simp [hi]
  oldIn p t h := by
    cases p with
    | zero => simpa [conditional] using h
    | succ p =>
      simp only [conditional]
      rw [if_neg (by omega), show p + 1 + n = p + n + 1 by omega, List.getElem?_cons_succ, get_shift]
      simpa using h
  oldOut p t h := by simp only [conditional]; rw [get_shift]; exact h

theorem all_qubit_of {n : Nat} {rest : List Ty} (hn : 1 ≤ n)
    (h1 : ∀ i < n, (rest ++ List.replicate n Ty.qubit)[i]? = some .qubit)
    (h2 : ∀ p t, rest[p]? = some t → (rest ++ List.replicate n Ty.qubit)[p + n]? = some t) :
    ∀ k p, rest.length ≤ p + k → ∀ t, rest[p]? = some t → t = .qubit
  | 0, p, hp, t, h => by
    rw [List.getElem?_eq_none (by omega)] at h; cases h
  | k + 1, p, hp, t, h => by
    have h3 := h2 p t h
    by_cases hl : p + n < rest.length
    · rw [List.getElem?_append_left hl] at h3
      exact all_qubit_of hn h1 h2 k (p + n) (by omega) t h3
    · rw [List.getElem?_append_right (by omega)] at h3
      have := List.mem_of_getElem? h3
      exact (List.mem_replicate.1 this).2

/-- C43: tail loops are right exactly if all values that the loop passes on are qubits: the controls are declared
behind these values but connected in front of them. -/
theorem C43_tail_loop (n : Nat) (hn : 1 ≤ n) (justIn justOut rest : List Ty) :
    TypeCorrect n ⟨justIn ++ rest, justOut ++ rest⟩ (tailLoop n justIn justOut rest) ↔
      ∀ t ∈ rest, t = .qubit := by
  constructor
  · intro h t ht
    obtain ⟨p, hp⟩ := List.mem_iff_getElem?.1 ht
    refine all_qubit_of hn ?_ ?_ rest.length p (by omega) t hp
    · intro i hi
      have := h.ctrlIn i hi
      simp only [tailLoop] at this
      rw [List.getElem?_append_right (by omega)] at this
      simpa using this
    · intro q u hu
      have := h.oldIn (q + justIn.length) u (by
        simp only
        rw [List.getElem?_append_right (by omega)]; simpa using hu)
      simp only [tailLoop] at this
      rw [if_neg (by omega), List.getElem?_append_right (by omega)] at this
      rw [← this]; congr 1; omega
  · intro h
    have hr : rest = List.replicate rest.length .qubit := List.eq_replicate_iff.2 ⟨rfl, h⟩
    have hc : rest ++ List.replicate n Ty.qubit = List.replicate n Ty.qubit ++ rest := by
      rw [hr, List.replicate_append_replicate, List.replicate_append_replicate, Nat.add_comm]
    have key : ∀ (J : List Ty) p t, (J ++ rest)[p]? = some t →
        (J ++ (rest ++ List.replicate n Ty.qubit))[if p < J.length then p else p + n]? = some t := by
      intro J p t hp
      by_cases hl : p < J.length
      · rw [if_pos hl, List.getElem?_append_left hl]
        rwa [List.getElem?_append_left hl] at hp
      · rw [List.getElem?_append_right (by omega)] at hp
        rw [if_neg hl, List.getElem?_append_right (by omega), hc,
          show p + n - J.length = (p - J.length) + n by omega, get_shift, hp]
    have key' : ∀ (J : List Ty) i, i < n →
        (J ++ (rest ++ List.replicate n Ty.qubit))[i + J.length]? = some .qubit := by
      intro J i hi
      rw [List.getElem?_append_right (by omega), hc, List.getElem?_append_left (by simp; omega)]
      simp [hi]
    exact ⟨key' justIn, key' justOut, key justIn, key justOut⟩

/-- C43: a loop that carries a classical value is not modified correctly. -/
theorem C43_tail_loop_wrong :
    ¬ TypeCorrect 1 ⟨[.other false 0, .qubit], [.other false 0, .qubit]⟩
      (tailLoop 1 [] [] [.other false 0, .qubit]) := fun h =>
  absurd ((C43_tail_loop 1 (Nat.le_refl _) [] [] [.other false 0, .qubit]).1 h (.other false 0) (by simp))
    (by simp)

/-! ## C44 -/

/-- C44: flags survive being stored. -/
theorem C44_stored (f : Flags) : Flags.fromMetadata (some f.toMetadata) = some f := by
  obtain ⟨c, d, p⟩ := f
  cases c <;> cases d <;> cases p <;> rfl

/-- What is stored for which flags. -/
theorem C44_bits (f : Flags) :
    (f.toMetadata.testBit 0 = f.dagger ∧ f.toMetadata.testBit 1 = f.control ∧ f.toMetadata.testBit 2 = f.power) ∧
      f.toMetadata < 8 := by
  obtain ⟨c, d, p⟩ := f
  cases c <;> cases d <;> cases p <;> decide

theorem and_bit (num i : Nat) : (num &&& 2 ^ i != 0) = num.testBit i := by
  rw [Nat.testBit_eq_decide_div_mod_eq]
  have h := Nat.testBit_eq_decide_div_mod_eq (x := num) (i := i)
  by_cases hb : num.testBit i = true
  · have h1 : (num &&& 2 ^ i).testBit i = true := by simp [hb]
    have h2 : num &&& 2 ^ i ≠ 0 := fun h0 => by rw [h0] at h1; simp at h1
    rw [← h, hb]; simpa using h2
  · have h2 : num &&& 2 ^ i = 0 := by
      apply Nat.eq_of_testBit_eq
      intro j
      rw [Nat.testBit_and, Nat.testBit_two_pow, Nat.zero_testBit]
      by_cases hj : i = j
      · subst hj; simpa using hb
      · simp [hj]
    rw [← h, h2]; simpa using hb

/-- C44: reading any number gives the flags of its three lowest bits. -/
theorem C44_read (num : Nat) :
    Flags.fromMetadata (some num) = some ⟨num.testBit 1, num.testBit 0, num.testBit 2⟩ := by
  simp only [Flags.fromMetadata, Option.map_some]
  rw [← and_bit, ← and_bit, ← and_bit]
  rfl

/-- C44: the function that is generated carries flags that allow the modifier that was applied, and all flags of
the original function. -/
theorem C44_modified_function (c : Combined) (old : Option Nat) :
    ∃ f, Flags.fromMetadata (some (newMetadata c old)) = some f ∧ f.satisfies c = true ∧
      ∀ g, Flags.fromMetadata old = some g →
        (g.control = true → f.control = true) ∧ (g.dagger = true → f.dagger = true) ∧
        (g.power = true → f.power = true) := by
  refine ⟨_, C44_stored _, ?_, ?_⟩
  · cases h : Flags.fromMetadata old <;>
      simp only [Flags.or, Flags.satisfies, Flags.fromCombined] <;>
      cases c.dagger <;> cases c.power <;> rcases Nat.eq_zero_or_pos c.control with h0 | h0 <;> simp [h0]
  · intro g hg
    rw [hg]
    simp only [Flags.or]
    refine ⟨fun h => by simp [h], fun h => by simp [h], fun h => by simp [h]⟩

/-- C44: `satisfies` says that every modifier in use is allowed. -/
theorem C44_satisfies (f : Flags) (c : Combined) : f.satisfies c = true ↔
    (c.control ≠ 0 → f.control = true) ∧ (c.dagger = true → f.dagger = true) ∧ (c.power = true → f.power = true) := by
  simp only [Flags.satisfies, Bool.and_eq_true, Bool.or_eq_true, beq_iff_eq, Bool.not_eq_true']
  cases c.dagger <;> cases c.power <;> by_cases h : c.control = 0 <;> simp [h, and_assoc]

/-! ## C57 -/

/-- C57: a called function is modified if it carries the needed flags. -/
theorem C57_flagged_partial (c : Combined) (num : Nat) (f : Flags) (s : Sig)
    (h : Flags.fromMetadata (some num) = some f) (hc : c.control ≠ 0 → f.control = true)
    (hd : c.dagger = true → f.dagger = true) (hp : c.power = true → f.power = true) :
    modifiesCallee c (some num) s = true := by
  have : f.satisfies c = true := (C44_satisfies f c).2 ⟨hc, hd, hp⟩
  simp [modifiesCallee, h, this]

/-- C57: exactly the calls to functions without the needed flags whose inputs and outputs have the same types are
kept as they are. -/
theorem C57_kept_calls (c : Combined) (metadata : Option Nat) (s : Sig) :
    modifiesCallee c metadata s = false ↔
      s.input = s.output ∧ ∀ f, Flags.fromMetadata metadata = some f → f.satisfies c = false := by
  simp only [modifiesCallee, Bool.not_eq_false', Bool.and_eq_true, Bool.not_eq_true', decide_eq_true_eq]
  cases h : Flags.fromMetadata metadata with
  | none => simp
  | some f => simp [and_comm]

/-- C57: a call of an unmarked function on a qubit, inside a function that is controlled or daggered, is kept
without the control and without the dagger, and no error is reported. -/
theorem C57_unflagged_call_kept (c : Combined) : modifiesCallee c none ⟨[.qubit], [.qubit]⟩ = false := by
  rw [C57_kept_calls]; exact ⟨rfl, fun f h => by cases h⟩

end Tket.Modifier
