import Verif.Lemmas.InputParams
import Verif.Lemmas.ParamsEval
import Verif.Props.TypeTranslate

/-!
# C108: parameters of decoded circuits
-/

namespace Verif.InputParams

/-- **C108.** If a circuit is decoded, each use of a variable reads one input: the names that are given
come first, then the variables in the order they are first used; the `k`-th of them is the `k`-th
parameter of the signature, or a new input after all inputs when the signature has no more. The names
are stored in this order. -/
theorem C108_bound {sig : List Count} {q : Nat} {names : List String} {es : List Exp} {d : Decoded}
    (h : decode sig q names es = .ok d) :
    d.names = order names (es.flatMap Exp.vars) ∧
    d.trees = es.map (fun e => e.subst fun n => slot sig (d.names.idxOf n)) ∧
    d.inputs = sig.length + (d.names.length - (positions 0 sig).length) := by
  unfold decode at h
  split at h
  · rename_i t ht
    cases h
    obtain ⟨h1, h2, _⟩ := init_spec ht
    obtain ⟨h3, h4, h5⟩ := loadAll_spec es h1
    exact ⟨by rw [← h2]; exact h4, h5 _ List.prefix_rfl, h3.inputs⟩
  · cases h

/-- **C108.** Different names have different inputs, in increasing order; no two stored names are
equal, and they are the given names and the variables that are used. -/
theorem C108_distinct {sig : List Count} {q : Nat} {names : List String} {es : List Exp} {d : Decoded}
    (h : decode sig q names es = .ok d) :
    d.names.Nodup ∧ (∀ n, n ∈ d.names ↔ n ∈ names ∨ ∃ e ∈ es, n ∈ e.vars) ∧
    ∀ k l, k < l → slot sig k < slot sig l := by
  have hb := (C108_bound h).1
  unfold decode at h
  split at h
  · rename_i t ht
    obtain ⟨h1, h2, _⟩ := init_spec ht
    rw [hb]
    refine ⟨order_nodup (h2 ▸ h1.nodup), fun n => ?_, fun _ _ => slot_lt⟩
    rw [mem_order, List.mem_flatMap]
  · cases h

/-- **C108.** The input of a name is a parameter of the signature, or new. -/
theorem C108_slot (sig : List Count) (k : Nat) :
    (∃ c, sig[slot sig k]? = some c ∧ 0 < c.params) ∨
    (sig.length ≤ slot sig k ∧ ∀ i c, sig[i]? = some c → 0 < c.params → ∃ l < k, slot sig l = i) := by
  by_cases hk : k < (positions 0 sig).length
  · left
    have hs : slot sig k = (positions 0 sig)[k] := by
      unfold slot
      rw [List.getElem?_eq_getElem hk]
    rw [hs]
    exact (mem_positions.mp (List.getElem_mem hk)).2
  · right
    constructor
    · unfold slot
      rw [List.getElem?_eq_none (by omega)]
      exact Nat.le_add_right _ _
    · intro i c hc hp
      have : i ∈ positions 0 sig := mem_positions.mpr ⟨Nat.zero_le _, c, hc, hp⟩
      obtain ⟨l, hl, e⟩ := List.mem_iff_getElem.mp this
      refine ⟨l, by omega, ?_⟩
      unfold slot
      rw [List.getElem?_eq_getElem hl]
      exact e

/-- **C108.** Every input that is added has a name. -/
theorem C108_added {sig : List Count} {q : Nat} {names : List String} {es : List Exp} {d : Decoded}
    (h : decode sig q names es = .ok d) {i : Nat} (h1 : sig.length ≤ i) (h2 : i < d.inputs) :
    ∃ k, ∃ _ : k < d.names.length, slot sig k = i := by
  have h3 := (C108_bound h).2.2
  refine ⟨(positions 0 sig).length + (i - sig.length), by omega, ?_⟩
  unfold slot
  rw [List.getElem?_eq_none (by omega)]
  dsimp only
  omega

/-- **C108.** Decoding fails, for reasons of the signature and of parameters, exactly if a name is given
twice, an input of the signature mixes parameters with other values, or there are not enough qubits. -/
theorem C108_succeeds (sig : List Count) (q : Nat) (names : List String) (es : List Exp) :
    (∃ d, decode sig q names es = .ok d) ↔
    names.Nodup ∧ (∀ c ∈ sig, c.params = 0 ∨ c = ⟨0, 0, 1⟩) ∧ (sig.map Count.qubits).sum ≤ q := by
  constructor
  · rintro ⟨d, h⟩
    unfold decode at h
    split at h
    · rename_i t ht
      obtain ⟨h1, h2, h3, h4⟩ := init_spec ht
      exact ⟨h2 ▸ h1.nodup, h3, h4⟩
    · cases h
  · rintro ⟨h1, h2, h3⟩
    obtain ⟨t, ht⟩ := init_some h1 h2 h3
    exact ⟨_, by unfold decode; rw [ht]⟩

/-- **C108.** With the type translators of tket the condition on the signature always holds: no type mixes
parameters with other values, so decoding never fails for that reason. -/
theorem C108_types {sig : List Count}
    (h : ∀ c ∈ sig, c = ⟨0, 0, 0⟩ ∨ ∃ t, TypeTranslate.okTy t = true ∧
      TypeTranslate.answers TypeTranslate.Set'.empty (TypeTranslate.qsystemActs ++ [.ask t]) =
        [some ⟨c.qubits, c.bits, c.params⟩]) :
    ∀ c ∈ sig, c.params = 0 ∨ c = ⟨0, 0, 1⟩ := by
  intro c hc
  rcases h c hc with rfl | ⟨t, hok, ht⟩
  · exact .inl rfl
  · rcases (TypeTranslate.C64_registers t hok _).mp ht with ⟨_, e⟩ | ⟨rs, _, _, e⟩
    · right
      obtain ⟨a, b, d⟩ := c
      injection e with h1 h2 h3
      dsimp only at h1 h2 h3
      rw [h1, h2, h3]
    · left
      injection e with _ _ h3

/-- **C108.** The `k`-th name that is given is the `k`-th parameter, whatever the circuit contains. -/
theorem C108_given {sig : List Count} {q : Nat} {names : List String} {es : List Exp} {d : Decoded}
    (h : decode sig q names es = .ok d) {k : Nat} {n : String} (hk : names[k]? = some n) :
    slot sig (d.names.idxOf n) = slot sig k := by
  obtain ⟨hl, rfl⟩ := List.getElem?_eq_some_iff.mp hk
  have hn := ((C108_succeeds sig q names es).mp ⟨d, h⟩).1
  rw [(C108_bound h).1, mem_order_prefix_idx hl hn]

/-- **C108.** The values in the decoded circuit are those of the expressions, for every meaning of the
operations: when the input of each name has the value of the variable, every parameter has its value. -/
theorem C108_value {V : Type} (S : Sem V) {sig : List Count} {q : Nat} {names : List String}
    {es : List Exp} {d : Decoded} (h : decode sig q names es = .ok d) (ρ : String → V) (σ : Nat → V)
    (hσ : ∀ k n, d.names[k]? = some n → σ (slot sig k) = ρ n) :
    d.trees.map (Tree.value S σ) = es.map (Exp.value S ρ) := by
  obtain ⟨h1, h2, _⟩ := C108_bound h
  rw [h2, List.map_map]
  refine List.map_congr_left fun e he => subst_value S σ ρ _ e fun n hn => ?_
  have hm : n ∈ d.names := ((C108_distinct h).2.1 n).mpr (.inr ⟨e, he, hn⟩)
  exact hσ _ n (List.getElem?_eq_some_iff.mpr
    ⟨List.idxOf_lt_length_of_mem hm, List.getElem_idxOf (List.idxOf_lt_length_of_mem hm)⟩)

/-- **C108.** Every assignment of values to variables is given by some inputs. -/
theorem C108_assign {V : Type} (sig : List Count) (names : List String) (ρ : String → V) (σ : Nat → V) :
    ∃ σ' : Nat → V, (∀ k n, names[k]? = some n → σ' (slot sig k) = ρ n) ∧
      ∀ i, (∀ k < names.length, slot sig k ≠ i) → σ' i = σ i := by
  classical
  refine ⟨fun i => if h : ∃ k, ∃ _ : k < names.length, slot sig k = i
    then ρ (names[h.choose]'(h.choose_spec.choose)) else σ i, fun k n hk => ?_, fun i hi => ?_⟩
  · obtain ⟨hl, rfl⟩ := List.getElem?_eq_some_iff.mp hk
    have hex : ∃ k', ∃ _ : k' < names.length, slot sig k' = slot sig k := ⟨k, hl, rfl⟩
    dsimp only
    rw [dif_pos hex]
    have := slot_inj hex.choose_spec.choose_spec
    congr 2
  · dsimp only
    rw [dif_neg]
    rintro ⟨k, hk, e⟩
    exact hi k hk e

/-- **C108.** The encoder names every parameter: first the stored names in order, then new ones; they
are distinct if the stored names are. -/
theorem C108_encoded (stored : List String) (sig : List Count) :
    (encNames stored sig).length = (sig.map Count.params).sum ∧
    (stored.Nodup → (encNames stored sig).Nodup) ∧
    ∀ k < (encNames stored sig).length, k < stored.length →
      (encNames stored sig)[k]? = stored[k]? := by
  refine ⟨encNames_length stored sig, fun h => encNames_nodup h sig, fun k h1 h2 => ?_⟩
  rw [encNames_length] at h1
  show ((stored ++ _).take _)[k]? = _
  rw [List.getElem?_take_of_lt h1, List.getElem?_append_left h2]

/-- **C108.** Reassembling an encoded region: if the circuit has only the variables the encoder named,
it is decoded with no new inputs, each variable reads the parameter it was the name of, and the names
are stored again. -/
theorem C108_reassemble_partial {stored : List String} {sig : List Count} {q : Nat} {es : List Exp}
    (hs : stored.Nodup) (hsig : ∀ c ∈ sig, c.params = 0 ∨ c = ⟨0, 0, 1⟩)
    (hq : (sig.map Count.qubits).sum ≤ q) (hv : ∀ e ∈ es, ∀ n ∈ e.vars, n ∈ encNames stored sig) :
    ∃ d, decode sig q (encNames stored sig) es = .ok d ∧ d.inputs = sig.length ∧
      d.names = encNames stored sig ∧
      d.trees = es.map (fun e => e.subst fun n => slot sig ((encNames stored sig).idxOf n)) ∧
      ∀ k < (encNames stored sig).length, ∃ c, sig[slot sig k]? = some c ∧ 0 < c.params := by
  obtain ⟨d, h⟩ := (C108_succeeds sig q (encNames stored sig) es).mpr
    ⟨encNames_nodup hs sig, hsig, hq⟩
  obtain ⟨h1, h2, h3⟩ := C108_bound h
  have ho : order (encNames stored sig) (es.flatMap Exp.vars) = encNames stored sig :=
    order_subset fun n hn => by
      obtain ⟨e, he, hn⟩ := List.mem_flatMap.mp hn
      exact hv e he n hn
  rw [ho] at h1
  have hl : (encNames stored sig).length = (positions 0 sig).length := by
    rw [encNames_length, usable_params hsig 0]
  refine ⟨d, h, ?_, h1, by rw [h2, h1], fun k hk => ?_⟩
  · rw [h3, h1, hl]
    omega
  · rw [hl] at hk
    have hs : slot sig k = (positions 0 sig)[k] := by
      unfold slot
      rw [List.getElem?_eq_getElem hk]
    rw [hs]
    exact (mem_positions.mp (List.getElem_mem hk)).2

/-- **C108.** If no stored name is `pi`, every parameter of an encoded region that is used by its name
is read again from its own input. -/
theorem C108_returns_partial {stored : List String} {sig : List Count} {q : Nat}
    (hs : stored.Nodup) (hsig : ∀ c ∈ sig, c.params = 0 ∨ c = ⟨0, 0, 1⟩)
    (hq : (sig.map Count.qubits).sum ≤ q) (hpi : "pi" ∉ stored) :
    decode sig q (encNames stored sig) ((encNames stored sig).map Exp.var) =
      .ok ⟨(positions 0 sig).map Tree.input, sig.length, encNames stored sig⟩ := by
  obtain ⟨d, h, h1, h2, h3, _⟩ := C108_reassemble_partial (es := (encNames stored sig).map Exp.var) hs hsig hq
    (fun e he n hn => by
      obtain ⟨m, hm, rfl⟩ := List.mem_map.mp he
      unfold Exp.vars at hn
      split at hn
      · cases hn
      · rw [List.mem_singleton.mp hn]
        exact hm)
  have hl : (encNames stored sig).length = (positions 0 sig).length := by
    rw [encNames_length, usable_params hsig 0]
  have ht : d.trees = (positions 0 sig).map Tree.input := by
    rw [h3, List.map_map]
    refine List.ext_getElem (by simp [hl]) fun k hk hk' => ?_
    have hk1 : k < (encNames stored sig).length := by simpa using hk
    have hk2 : k < (positions 0 sig).length := by omega
    have hne : (encNames stored sig)[k] ≠ "pi" := fun e => by
      have := List.mem_of_mem_take (e ▸ List.getElem_mem hk1 : "pi" ∈ encNames stored sig)
      rcases List.mem_append.mp this with h | h
      · exact hpi h
      · exact generated_ne_pi h
    simp only [List.getElem_map, Function.comp_apply, Exp.subst, hne, if_false]
    rw [(encNames_nodup hs sig).idxOf_getElem]
    unfold slot
    rw [List.getElem?_eq_getElem hk2]
  rw [h, ← ht, ← h1, ← h2]

/-- **C108.** A region with symbolic expressions whose symbols are not names of parameters, if the names
are read as variables: all values are kept when it is encoded and decoded again, and every symbol becomes one new input. -/
theorem C108_symbols_partial {stored : List String} {sig : List Count} {q : Nat} {parse : String → Exp}
    {as : List Src} (hs : stored.Nodup) (hsig : ∀ c ∈ sig, c.params = 0 ∨ c = ⟨0, 0, 1⟩)
    (hq : (sig.map Count.qubits).sum ≤ q) (hpi : "pi" ∉ stored)
    (hid : ∀ n ∈ encNames stored sig, parse n = .var n)
    (hp : ∀ a ∈ as, ∀ k ∈ a.params, k < (sig.map Count.params).sum)
    (hd : ∀ a ∈ as, ∀ n ∈ a.symbols parse, n ∉ encNames stored sig) :
    ∃ d, decode sig q (encNames stored sig) (as.map (Src.encode parse (encNames stored sig))) = .ok d ∧
      ∃ new : List String, d.names = encNames stored sig ++ new ∧ new.Nodup ∧
        d.inputs = sig.length + new.length ∧
        (∀ n, n ∈ new ↔ ∃ a ∈ as, n ∈ a.symbols parse) ∧
        ∀ {V : Type} (S : Sem V) (ρ : String → V) (σ : Nat → V),
          (∀ j n, new[j]? = some n → σ (sig.length + j) = ρ n) →
          d.trees.map (Tree.value S σ) = as.map (Src.value S parse sig ρ σ) := by
  have hnd := encNames_nodup hs sig
  have hl : (encNames stored sig).length = (positions 0 sig).length := by
    rw [encNames_length, usable_params hsig 0]
  have hpi' : "pi" ∉ encNames stored sig := fun h => by
    rcases List.mem_append.mp (List.mem_of_mem_take h) with h | h
    · exact hpi h
    · exact generated_ne_pi h
  rw [← encNames_length stored sig] at hp
  generalize encNames stored sig = names at *
  obtain ⟨d, h⟩ := (C108_succeeds sig q names (as.map (Src.encode parse names))).mpr ⟨hnd, hsig, hq⟩
  obtain ⟨h1, h2, h3⟩ := C108_bound h
  obtain ⟨h4, h5, _⟩ := C108_distinct h
  obtain ⟨new, hnew⟩ : names <+: d.names := h1 ▸ order_prefix _ _
  have hdis := List.nodup_append.mp (hnew ▸ h4)
  have hslot : ∀ j, slot sig (names.length + j) = sig.length + j := fun j => by
    unfold slot
    rw [List.getElem?_eq_none (by omega), hl]
    simp
  refine ⟨d, h, new, hnew.symm, hdis.2.1, ?_, fun n => ⟨fun hn => ?_, ?_⟩, fun S ρ σ hσ => ?_⟩
  · rw [h3, ← hnew, List.length_append, hl]
    omega
  · have hm : n ∈ d.names := hnew ▸ List.mem_append_right _ hn
    have hnn : n ∉ names := fun h => hdis.2.2 n h n hn rfl
    obtain ⟨e, he, hv⟩ := ((h5 n).mp hm).resolve_left hnn
    obtain ⟨a, ha, rfl⟩ := List.mem_map.mp he
    exact ⟨a, ha, (encode_vars a hid (hp a ha) hv).resolve_left hnn⟩
  · rintro ⟨a, ha, hn⟩
    have hm : n ∈ d.names := (h5 n).mpr (.inr ⟨_, List.mem_map_of_mem ha, symbols_vars a hn⟩)
    rw [← hnew] at hm
    exact (List.mem_append.mp hm).resolve_left (hd a ha n hn)
  · rw [h2, List.map_map, List.map_map]
    refine List.map_congr_left fun a ha => ?_
    show (Exp.subst _ _).value S σ = _
    rw [subst_value S σ (fun n => σ (slot sig (d.names.idxOf n))) _ _ fun _ _ => rfl]
    refine encode_value S a hpi' hid (hp a ha) (fun k n hk => ?_) fun n hn => ?_
    · obtain ⟨hk', rfl⟩ := List.getElem?_eq_some_iff.mp hk
      rw [h1, mem_order_prefix_idx hk' hnd]
    · have hm : n ∈ d.names := (h5 n).mpr (.inr ⟨_, List.mem_map_of_mem ha, symbols_vars a hn⟩)
      rw [← hnew] at hm
      have hm' := (List.mem_append.mp hm).resolve_left (hd a ha n hn)
      rw [← hnew, List.idxOf_append, if_neg (hd a ha n hn), Nat.add_comm, hslot]
      exact hσ _ n (List.getElem?_eq_some_iff.mpr
        ⟨List.idxOf_lt_length_of_mem hm', List.getElem_idxOf (List.idxOf_lt_length_of_mem hm')⟩)

/-- **C108.** If stored names are identifiers, the parser of the decoder reads every name of the encoder,
stored or generated, as a variable. -/
theorem C108_identifiers {F : Type} (A : Params.Arith F) {stored : List String} {sig : List Count}
    (h : ∀ n ∈ stored, Params.IsName n.toList) :
    ∀ n ∈ encNames stored sig, Params.parse A n.toList = .var n.toList := by
  intro n hn
  have hname : Params.IsName n.toList := by
    rcases List.mem_append.mp (List.mem_of_mem_take hn) with hn | hn
    · exact h n hn
    · obtain ⟨i, _, rfl⟩ := List.mem_map.mp (List.mem_filter.mp hn).1
      refine ⟨'f', (toString i).toList, by simp [String.toList_append], by decide, fun d hd => ?_⟩
      have hd' : d ∈ Nat.toDigits 10 i := by simpa [Nat.toList_repr] using hd
      have := Nat.isDigit_of_mem_toDigits (by decide) (by decide) hd'
      simp only [Char.isDigit, Bool.and_eq_true, decide_eq_true_eq] at this
      simp only [Params.isIdent, Params.isDigit, Bool.or_eq_true, decide_eq_true_eq]
      exact .inl (.inr ⟨this.1, this.2⟩)
  have hg := Params.goodHead_alpha (t := []) hname
  rw [List.append_nil] at hg
  rw [Params.parse_chain hg (Params.chain_of_term (Params.term_name hname))]
  rfl

/-- **C108.** Outputs of a region that is put back: parameters of commands are decoded, then those of the
outputs, and every output is connected to its own parameter, input or subgraph, if the subgraphs have the
links they had. -/
theorem C108_outputs {sig : List Count} {q : Nat} {names : List String} {parse : String → Exp}
    {cs : List Src} {os : List Out} {tys : List OutTy} {subs : List (Nat × Nat)} {d : Decoded}
    (h : decode sig q names ((cs ++ outParams os).map (Src.encode parse names)) = .ok d)
    (hl : os.length = tys.length)
    (ht : ∀ (j : Nat) (o : Out) (ty : OutTy), os[j]? = some o → tys[j]? = some ty → o.Typed ty)
    (hsub : ∀ i p : Nat, (i, p) ∈ subs ↔ os[p]? = some (.subgraph i)) :
    finish (linked (straight 0 os) subs) 0 tys (d.trees.drop cs.length) =
      some (os.map (Out.link fun a =>
        (a.encode parse names).subst fun n => slot sig (d.names.idxOf n))) := by
  have h2 := (C108_bound h).2.1
  rw [List.map_map, List.map_append] at h2
  rw [h2, List.drop_append_of_le_length (by simp), List.drop_eq_nil_of_le (by simp), List.nil_append,
    ← List.append_nil (List.map _ (outParams os))]
  refine finish_spec os hl ht fun j o hj => ?_
  have hfs := find_straight os (k := 0) (p := j) (Nat.zero_le _)
  rw [Nat.sub_zero, hj] at hfs
  have hnone : (∀ i, o ≠ .subgraph i) → subs.find? (fun w => w.2 == j) = none := fun hne => by
    refine List.find?_eq_none.mpr fun w hw e => ?_
    have := (hsub w.1 w.2).mp hw
    rw [show w.2 = j by simpa using e, hj] at this
    exact hne _ (Option.some.inj this)
  rw [Nat.zero_add]
  unfold linked
  rw [hfs]
  cases o with
  | through i => rfl
  | subgraph i =>
    dsimp only
    cases hf : subs.find? (fun w => w.2 == j) with
    | none =>
      have := List.find?_eq_none.mp hf (i, j) ((hsub i j).mpr hj)
      simp at this
    | some w =>
      have hw := (hsub w.1 w.2).mp (List.mem_of_find?_eq_some hf)
      have e : w.2 = j := by simpa using List.find?_some hf
      rw [e, hj] at hw
      have := Option.some.inj hw
      injection this with this
      simp [this]
  | param a => simp [hnone]
  | reg => simp [hnone]
  | free => simp [hnone]

/-- **C108 (finding).** A circuit that is decoded by itself is given no parameters for outputs
(circuit.rs:369), so a signature with a parameter among the outputs is always refused. -/
theorem C108_output_refused (l : Nat → Option Link) (hl : ∀ p, l p = none) {tys : List OutTy}
    (h : .param ∈ tys) (p : Nat) : finish l p tys [] = none := by
  induction tys generalizing p with
  | nil => cases h
  | cons ty tys ih =>
    unfold finish
    rw [hl]
    cases ty with
    | param => rfl
    | register => simp [ih (by simpa using h)]
    | other => simp [ih (by simpa using h)]

/-- **C108 (finding).** The encoder does not look at symbols when it generates names: a symbol `f0` and
the first parameter without a name are the same variable in the encoded circuit, and both read the
input after decoding. -/
theorem C108_capture :
    let parse : String → Exp := .var
    let names := encNames [] [⟨1, 0, 0⟩, ⟨0, 0, 1⟩]
    names = ["f0"] ∧
    ([Src.param 0, .sympy "f0"].map (Src.encode parse names)) = [.var "f0", .var "f0"] ∧
    decode [⟨1, 0, 0⟩, ⟨0, 0, 1⟩] 1 ["f0"] [.var "f0", .var "f0"] =
      .ok ⟨[.input 1, .input 1], 2, ["f0"]⟩ := by
  refine ⟨by decide +kernel, by decide +kernel, rfl⟩

/-- **C108 (finding).** A stored name that is not an identifier is read as an expression: the parameter
`a-b` becomes the difference of two new inputs, and its own input is not used. -/
theorem C108_not_identifier {F : Type} (A : Params.Arith F) :
    encNames ["a-b"] [⟨0, 0, 1⟩] = ["a-b"] ∧
    Params.parse A ['a', '-', 'b'] = .bin .sub (.var ['a']) (.var ['b']) ∧
    decode [⟨0, 0, 1⟩] 0 ["a-b"] [.op2 1 (.var "a") (.var "b")] =
      .ok ⟨[.op2 1 (.input 1) (.input 2)], 3, ["a-b", "a", "b"]⟩ :=
  ⟨by decide +kernel, rfl, rfl⟩

/-- **C108 (finding).** A symbol becomes a new input, so a region that is reassembled has more inputs than
its signature, which is not changed (circuit.rs:199-233). -/
theorem C108_symbol_input :
    ∃ d, decode [⟨1, 0, 0⟩] 1 (encNames [] [⟨1, 0, 0⟩])
      ([Src.sympy "alpha"].map (Src.encode .var (encNames [] [⟨1, 0, 0⟩]))) = .ok d ∧
      d.trees = [.input 1] ∧ d.inputs = 2 := by
  exact ⟨⟨[.input 1], 2, ["alpha"]⟩, rfl, rfl, rfl⟩

/-- **C108 (finding).** A parameter named `pi` is lost: the encoder keeps the stored name, and the decoder
reads the constant, whatever input has that name. -/
theorem C108_pi :
    encNames ["pi"] [⟨1, 0, 0⟩, ⟨0, 0, 1⟩] = ["pi"] ∧
    decode [⟨1, 0, 0⟩, ⟨0, 0, 1⟩] 1 ["pi"] [.var "pi"] = .ok ⟨[.pi], 2, ["pi"]⟩ := by
  exact ⟨by decide +kernel, rfl⟩

/-- **C108 (finding).** Stored names that are not distinct are used by the encoder as they are, so both
parameters have the same name, and the decoder refuses them. -/
theorem C108_duplicate :
    encNames ["a", "a"] [⟨0, 0, 1⟩, ⟨0, 0, 1⟩] = ["a", "a"] ∧
    decode [⟨0, 0, 1⟩, ⟨0, 0, 1⟩] 0 ["a", "a"] [] = .error (.duplicate "a") := by
  exact ⟨by decide +kernel, rfl⟩

/-- **C108 (finding).** A signature does not say which variable a parameter is: without names the first
variable that is used becomes the first parameter. -/
theorem C108_first_used :
    decode [⟨0, 0, 1⟩, ⟨0, 0, 1⟩] 0 [] [.op2 0 (.var "b") (.var "a")] =
      .ok ⟨[.op2 0 (.input 0) (.input 1)], 2, ["b", "a"]⟩ ∧
    decode [⟨0, 0, 1⟩, ⟨0, 0, 1⟩] 0 ["a", "b"] [.op2 0 (.var "b") (.var "a")] =
      .ok ⟨[.op2 0 (.input 1) (.input 0)], 2, ["a", "b"]⟩ := by
  exact ⟨rfl, rfl⟩

/-- More variables than parameters: a new input, after the qubits. -/
example : decode [⟨0, 0, 1⟩, ⟨1, 0, 0⟩] 1 ["x"] [.var "y", .op1 3 (.var "x")] =
    .ok ⟨[.input 2, .op1 3 (.input 0)], 3, ["x", "y"]⟩ := rfl

/-- Generated names avoid the stored ones. -/
example : encNames ["f0"] [⟨0, 0, 1⟩, ⟨1, 0, 0⟩, ⟨0, 0, 1⟩] = ["f0", "f1"] := by decide +kernel

/-- The hypotheses of `C108_reassemble_partial` hold for these names. -/
example : ["f0"].Nodup ∧ (∀ c ∈ [⟨0, 0, 1⟩, ⟨1, 0, 0⟩, ⟨0, 0, 1⟩], c.params = 0 ∨ c = (⟨0, 0, 1⟩ : Count)) ∧
    (([⟨0, 0, 1⟩, ⟨1, 0, 0⟩, ⟨0, 0, 1⟩] : List Count).map Count.qubits).sum ≤ 1 ∧
    ∀ e ∈ [Exp.op2 1 (.var "f1") (.var "f0")], ∀ n ∈ e.vars,
      n ∈ encNames ["f0"] [⟨0, 0, 1⟩, ⟨1, 0, 0⟩, ⟨0, 0, 1⟩] := by decide +kernel

/-- The hypotheses of `C108_symbols_partial` hold for a parameter and a symbol `alpha`. -/
example : let as := [Src.op2 0 (.param 0) (.sympy "alpha")]
    "pi" ∉ ([] : List String) ∧ (∀ n ∈ encNames [] [⟨0, 0, 1⟩], Exp.var n = .var n) ∧
    (∀ a ∈ as, ∀ k ∈ a.params, k < (([⟨0, 0, 1⟩] : List Count).map Count.params).sum) ∧
    (∀ a ∈ as, ∀ n ∈ a.symbols .var, n ∉ encNames [] [⟨0, 0, 1⟩]) ∧
    decode [⟨0, 0, 1⟩] 0 ["f0"] (as.map (Src.encode .var ["f0"])) =
      .ok ⟨[.op2 0 (.input 0) (.input 1)], 2, ["f0", "alpha"]⟩ := by
  exact ⟨by decide +kernel, fun _ _ => rfl, by decide +kernel, by decide +kernel, rfl⟩

/-- The hypothesis of `C108_identifiers` holds for the name `theta_1`. -/
example : ∀ n ∈ ["theta_1"], Params.IsName n.toList := by
  intro n hn
  rw [List.mem_singleton.mp hn]
  exact Params.isName_of 't' ['h', 'e', 't', 'a', '_', '1'] (by decide) (by decide)

/-- Outputs of every kind; the fourth is a parameter that comes from a subgraph. -/
example : let os : List Out := [.reg, .through 3, .param (.param 0), .subgraph 0, .free, .param (.const 7)]
    finish (linked (straight 0 os) [(0, 3)]) 0 [.register, .other, .param, .param, .other, .param]
      [.input 1, .const 7] =
    some [.register, .input 3, .tree (.input 1), .subgraph 0, .none, .tree (.const 7)] := by
  decide +kernel

/-- The hypotheses of `C108_outputs` hold for an input, an output of a subgraph and a parameter. -/
example : let os : List Out := [.through 1, .subgraph 0, .param (.const 7)]
    (∃ d, decode [] 0 [] ((outParams os).map (Src.encode .var [])) = .ok d) ∧
    (∀ (j : Nat) (o : Out) (ty : OutTy), os[j]? = some o →
      ([.other, .param, .param] : List OutTy)[j]? = some ty → o.Typed ty) ∧
    ∀ i p : Nat, (i, p) ∈ [(0, 1)] ↔ os[p]? = some (.subgraph i) := by
  refine ⟨⟨_, rfl⟩, ?_, ?_⟩
  · intro j o ty h1 h2
    match j with
    | 0 | 1 | 2 =>
      cases h1
      cases h2
      first | rfl | trivial
    | _ + 3 => cases h1
  · intro i p
    match p with
    | 0 | 1 | 2 => simp [eq_comm]
    | _ + 3 => simp

/-- The hypothesis of `C108_types` holds for a future of a qubit and a bit, and an unknown type. -/
example : ∀ c ∈ ([⟨1, 1, 0⟩, ⟨0, 0, 0⟩] : List Count), c = ⟨0, 0, 0⟩ ∨
    ∃ t, TypeTranslate.okTy t = true ∧
      TypeTranslate.answers TypeTranslate.Set'.empty (TypeTranslate.qsystemActs ++ [.ask t]) =
        [some ⟨c.qubits, c.bits, c.params⟩] := by
  intro c hc
  rcases List.mem_cons.mp hc with rfl | hc
  · exact .inr ⟨TypeTranslate.sampleTy, by decide +kernel, by decide +kernel⟩
  · exact .inl (List.mem_singleton.mp hc)

/-- A type that holds a parameter and a qubit is refused. -/
example : decode [⟨1, 0, 1⟩] 1 [] [] = .error .params := rfl

end Verif.InputParams
