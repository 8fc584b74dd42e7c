import Verif.Model.InputParamsSpec

/-! # Lemmas on the parameters of decoded circuits -/

namespace Verif.InputParams

/-! ### Order of names -/

theorem order_append (names xs ys : List String) :
    order names (xs ++ ys) = order (order names xs) ys := by
  induction xs generalizing names with
  | nil => rfl
  | cons x xs ih => exact ih _

theorem order_prefix (names xs : List String) : names <+: order names xs := by
  induction xs generalizing names with
  | nil => exact List.prefix_rfl
  | cons x xs ih =>
    refine List.IsPrefix.trans ?_ (ih _)
    split
    · exact List.prefix_rfl
    · exact List.prefix_append _ _

theorem mem_order {names xs : List String} {n : String} :
    n ∈ order names xs ↔ n ∈ names ∨ n ∈ xs := by
  induction xs generalizing names with
  | nil => simp [order]
  | cons x xs ih =>
    unfold order
    rw [ih]
    split
    · rename_i h
      constructor
      · rintro (h | h)
        · exact .inl h
        · exact .inr (.tail _ h)
      · rintro (h' | h')
        · exact .inl h'
        · cases h' with
          | head => exact .inl h
          | tail _ h' => exact .inr h'
    · simp [or_assoc]

theorem order_nodup {names xs : List String} (h : names.Nodup) : (order names xs).Nodup := by
  induction xs generalizing names with
  | nil => exact h
  | cons x xs ih =>
    unfold order
    refine ih ?_
    split
    · exact h
    · rename_i hx
      exact List.nodup_append.mpr ⟨h, by simp, fun a ha b hb e => by
        rw [List.mem_singleton] at hb
        subst e hb
        exact hx ha⟩

theorem order_subset {names xs : List String} (h : ∀ n ∈ xs, n ∈ names) :
    order names xs = names := by
  induction xs with
  | nil => rfl
  | cons x xs ih =>
    unfold order
    rw [if_pos (h x (.head _))]
    exact ih fun n hn => h n (.tail _ hn)

theorem idxOf_prefix {vs ws : List String} (h : vs <+: ws) {n : String} (hn : n ∈ vs) :
    ws.idxOf n = vs.idxOf n := by
  obtain ⟨us, rfl⟩ := h
  rw [List.idxOf_append, if_pos hn]

/-! ### The invariant of the tracker -/

structure Inv (sig : List Count) (t : Tracker) : Prop where
  nodup : t.vars.Nodup
  fst : t.params.map Prod.fst = t.vars
  snd : t.params.map Prod.snd = (List.range t.vars.length).map (slot sig)
  unused : t.unused = (positions 0 sig).drop t.vars.length
  inputs : t.inputs = sig.length + (t.vars.length - (positions 0 sig).length)

theorem Inv.next {sig : List Count} {t : Tracker} (h : Inv sig t) :
    slot sig t.vars.length = t.unused.headD t.inputs := by
  unfold slot
  rw [h.unused, h.inputs]
  cases hp : (positions 0 sig)[t.vars.length]? with
  | some i =>
    obtain ⟨hl, hi⟩ := List.getElem?_eq_some_iff.mp hp
    rw [List.drop_eq_getElem_cons hl]
    exact hi.symm
  | none =>
    rw [List.drop_eq_nil_of_le (List.getElem?_eq_none_iff.mp hp)]
    rfl

theorem Inv.push {sig : List Count} {t : Tracker} (h : Inv sig t) {n : String}
    (hn : n ∉ t.vars) :
    Inv sig ⟨t.params ++ [(n, slot sig t.vars.length)], t.unused.tail, t.vars ++ [n],
      sig.length + (t.vars.length + 1 - (positions 0 sig).length)⟩ where
  nodup := List.nodup_append.mpr ⟨h.nodup, by simp, fun a ha b hb e => by
    rw [List.mem_singleton] at hb
    subst e hb
    exact hn ha⟩
  fst := by simp [h.fst]
  snd := by simp [h.snd, List.range_succ]
  unused := by simp [h.unused]
  inputs := by simp

theorem Inv.find {sig : List Count} {t : Tracker} (h : Inv sig t) {n : String}
    {p : String × Nat} (hp : t.params.find? (fun p => p.1 == n) = some p) :
    n ∈ t.vars ∧ p.2 = slot sig (t.vars.idxOf n) := by
  have h1 : p.1 = n := by simpa using List.find?_some hp
  have h2 := List.mem_of_find?_eq_some hp
  obtain ⟨k, hk, e⟩ := List.mem_iff_getElem.mp h2
  have hlen : t.params.length = t.vars.length := by rw [← h.fst, List.length_map]
  have hv : t.vars[k]'(by omega) = n := by
    have : (t.params.map Prod.fst)[k]? = some n := by simp [hk, e, h1]
    rw [h.fst, List.getElem?_eq_some_iff] at this
    exact this.2
  have hs : p.2 = slot sig k := by
    have : (t.params.map Prod.snd)[k]? = some p.2 := by simp [hk, e]
    rw [h.snd, List.getElem?_map, List.getElem?_range (by omega)] at this
    exact (Option.some.inj this).symm
  have hm : n ∈ t.vars := hv ▸ List.getElem_mem _
  refine ⟨hm, ?_⟩
  rw [hs, ← hv, h.nodup.idxOf_getElem]

theorem Inv.not_find {sig : List Count} {t : Tracker} (h : Inv sig t) {n : String}
    (hp : t.params.find? (fun p => p.1 == n) = none) : n ∉ t.vars := by
  rw [← h.fst]
  intro hm
  obtain ⟨p, hp', e⟩ := List.mem_map.mp hm
  have := List.find?_eq_none.mp hp p hp'
  simp [e] at this

theorem varInput_spec {sig : List Count} {t : Tracker} (h : Inv sig t) (n : String) :
    Inv sig (varInput t n).2 ∧ (varInput t n).2.vars = order t.vars [n] ∧
    (varInput t n).1 = slot sig ((varInput t n).2.vars.idxOf n) := by
  unfold varInput
  cases hp : t.params.find? (fun p => p.1 == n) with
  | some p =>
    obtain ⟨h1, h2⟩ := h.find hp
    exact ⟨h, by simp [order, h1], h2⟩
  | none =>
    have hn := h.not_find hp
    have hnext := h.next
    have hpush := h.push hn
    have hi : insertVar t.vars n = t.vars ++ [n] := by simp [insertVar, hn]
    have hidx : (t.vars ++ [n]).idxOf n = t.vars.length := by
      rw [List.idxOf_append, if_neg hn]
      simp
    have ho : order t.vars [n] = t.vars ++ [n] := by simp [order, hn]
    cases hu : t.unused with
    | nil =>
      rw [hu] at hnext hpush
      dsimp only [List.headD] at hnext
      rw [hnext] at hpush
      dsimp only
      rw [hi, ho, hidx]
      refine ⟨?_, rfl, hnext.symm⟩
      have hle : (positions 0 sig).length ≤ t.vars.length := by
        have := h.unused
        rw [hu] at this
        exact List.drop_eq_nil_iff.mp this.symm
      have : sig.length + (t.vars.length + 1 - (positions 0 sig).length) = t.inputs + 1 := by
        rw [h.inputs]; omega
      rw [this] at hpush
      exact hpush
    | cons i rest =>
      rw [hu] at hnext hpush
      dsimp only [List.headD] at hnext
      rw [hnext] at hpush
      dsimp only
      rw [hi, ho, hidx]
      refine ⟨?_, rfl, hnext.symm⟩
      have hlt : t.vars.length < (positions 0 sig).length := by
        have := congrArg List.length h.unused
        rw [hu, List.length_drop, List.length_cons] at this
        omega
      have : sig.length + (t.vars.length + 1 - (positions 0 sig).length) = t.inputs := by
        rw [h.inputs]; omega
      rw [this] at hpush
      exact hpush

theorem load_spec {sig : List Count} (e : Exp) : ∀ {t : Tracker}, Inv sig t →
    Inv sig (load e t).2 ∧ (load e t).2.vars = order t.vars e.vars ∧
    ∀ ws, (load e t).2.vars <+: ws → (load e t).1 = e.subst fun n => slot sig (ws.idxOf n) := by
  induction e with
  | const c => exact fun h => ⟨h, rfl, fun _ _ => rfl⟩
  | sympy s => exact fun h => ⟨h, rfl, fun _ _ => rfl⟩
  | var n =>
    intro t h
    unfold load
    by_cases hn : n = "pi"
    · simp only [hn, if_true]
      exact ⟨h, by simp [Exp.vars, order], fun _ _ => by simp [Exp.subst]⟩
    · simp only [hn, if_false]
      obtain ⟨h1, h2, h3⟩ := varInput_spec h n
      refine ⟨h1, by rw [h2]; simp [Exp.vars, hn], fun ws hw => ?_⟩
      have hm : n ∈ (varInput t n).2.vars := by rw [h2]; exact mem_order.mpr (.inr (.head _))
      simp only [Exp.subst, hn, if_false]
      rw [idxOf_prefix hw hm, ← h3]
  | op1 o a ih =>
    intro t h
    obtain ⟨h1, h2, h3⟩ := ih h
    exact ⟨h1, h2, fun ws hw => congrArg (Tree.op1 o) (h3 ws hw)⟩
  | op2 o a b iha ihb =>
    intro t h
    obtain ⟨h1, h2, h3⟩ := iha h
    obtain ⟨h4, h5, h6⟩ := ihb h1
    refine ⟨h4, ?_, fun ws hw => ?_⟩
    · show (load b (load a t).2).2.vars = _
      rw [h5, h2, Exp.vars, order_append]
    · have hw' : (load b (load a t).2).2.vars <+: ws := hw
      have : (load a t).2.vars <+: ws := by
        refine List.IsPrefix.trans ?_ hw'
        rw [h5]
        exact order_prefix _ _
      show Tree.op2 o (load a t).1 (load b (load a t).2).1 = _
      rw [h3 ws this, h6 ws hw']
      rfl

theorem loadAll_spec {sig : List Count} (es : List Exp) : ∀ {t : Tracker}, Inv sig t →
    Inv sig (loadAll es t).2 ∧ (loadAll es t).2.vars = order t.vars (es.flatMap Exp.vars) ∧
    ∀ ws, (loadAll es t).2.vars <+: ws →
      (loadAll es t).1 = es.map fun e => e.subst fun n => slot sig (ws.idxOf n) := by
  induction es with
  | nil => exact fun h => ⟨h, rfl, fun _ _ => rfl⟩
  | cons e es ih =>
    intro t h
    obtain ⟨h1, h2, h3⟩ := load_spec e h
    obtain ⟨h4, h5, h6⟩ := ih h1
    refine ⟨h4, ?_, fun ws hw => ?_⟩
    · show (loadAll es (load e t).2).2.vars = _
      rw [h5, h2, List.flatMap_cons, order_append]
    · have hw' : (loadAll es (load e t).2).2.vars <+: ws := hw
      have : (load e t).2.vars <+: ws := by
        refine List.IsPrefix.trans ?_ hw'
        rw [h5]
        exact order_prefix _ _
      show (load e t).1 :: (loadAll es (load e t).2).1 = _
      rw [h3 ws this, h6 ws hw']
      rfl

/-! ### The start -/

theorem map_fst_zip_take (xs : List String) (ys : List Nat) :
    (xs.zip ys).map Prod.fst = xs.take ys.length := by
  induction xs generalizing ys with
  | nil => simp
  | cons x xs ih => cases ys <;> simp [ih]

theorem map_snd_zip_take (xs : List String) (ys : List Nat) :
    (xs.zip ys).map Prod.snd = ys.take xs.length := by
  induction xs generalizing ys with
  | nil => simp
  | cons x xs ih => cases ys <;> simp [ih]

theorem register_ok {t t' : Tracker} {n : String} {i : Nat} (hf : t.params.map Prod.fst = t.vars)
    (h : register t n i = .ok t') :
    n ∉ t.vars ∧ t' = ⟨t.params ++ [(n, i)], t.unused, t.vars ++ [n], t.inputs⟩ := by
  unfold register at h
  rw [hf] at h
  split at h
  · cases h
  · rename_i hn
    cases h
    exact ⟨hn, by simp [insertVar, hn]⟩

theorem register_new {t : Tracker} {n : String} {i : Nat} (hf : t.params.map Prod.fst = t.vars)
    (h : n ∉ t.vars) :
    register t n i = .ok ⟨t.params ++ [(n, i)], t.unused, t.vars ++ [n], t.inputs⟩ := by
  unfold register
  rw [hf, if_neg h]
  simp [insertVar, h]

theorem nodup_snoc {vs : List String} {n : String} (h : vs.Nodup) (hn : n ∉ vs) :
    (vs ++ [n]).Nodup :=
  List.nodup_append.mpr ⟨h, by simp, fun a ha b hb e => by
    rw [List.mem_singleton] at hb
    subst e hb
    exact hn ha⟩

/-- The types of the signature are usable. -/
def Usable (sig : List Count) : Prop := ∀ c ∈ sig, c.params = 0 ∨ c = ⟨0, 0, 1⟩

theorem initLoop_ok (cs : List Count) : ∀ {i q : Nat} {names names' : List String}
    {t t' : Tracker}, t.params.map Prod.fst = t.vars → t.vars.Nodup →
    initLoop cs i q names t = .ok (t', names') →
    t'.params = t.params ++ names.zip (positions i cs) ∧
    t'.unused = t.unused ++ (positions i cs).drop names.length ∧
    t'.vars = t.vars ++ names.take (positions i cs).length ∧
    names' = names.drop (positions i cs).length ∧ t'.inputs = t.inputs ∧ t'.vars.Nodup ∧
    Usable cs ∧ (cs.map Count.qubits).sum ≤ q := by
  induction cs with
  | nil =>
    intro i q names names' t t' hf hn h
    cases h
    exact ⟨by simp [positions], by simp [positions], by simp [positions], by simp [positions], rfl,
      hn, (fun _ hc => (nomatch hc)), by simp⟩
  | cons c cs ih =>
    intro i q names names' t t' hf hn h
    unfold initLoop at h
    split at h
    · rename_i hc
      subst hc
      obtain ⟨h1, h2, h3, h4, h5, h6, h7, h8⟩ := ih hf hn h
      refine ⟨by simpa [positions] using h1, by simpa [positions] using h2,
        by simpa [positions] using h3, by simpa [positions] using h4, h5, h6, ?_, by simpa using h8⟩
      intro c hc
      cases hc with
      | head => exact .inl rfl
      | tail _ hc => exact h7 c hc
    · split at h
      · cases h
      · rename_i hq
        split at h
        · rename_i hp
          split at h
          · cases h
          · rename_i hc
            have hc : c = ⟨0, 0, 1⟩ := Decidable.not_not.mp hc
            subst hc
            have use : ∀ {P : Prop}, P → (P ∧ (Usable cs ∧ (cs.map Count.qubits).sum ≤ q) →
                P ∧ Usable (⟨0, 0, 1⟩ :: cs) ∧
                  ((⟨0, 0, 1⟩ :: cs).map Count.qubits).sum ≤ q) := by
              rintro P _ ⟨hP, h7, h8⟩
              refine ⟨hP, ?_, by simpa using h8⟩
              intro c hc
              cases hc with
              | head => exact .inr rfl
              | tail _ hc => exact h7 c hc
            split at h
            · rename_i n ns
              split at h
              · rename_i t1 hr
                obtain ⟨hn1, rfl⟩ := register_ok hf hr
                obtain ⟨h1, h2, h3, h4, h5, h6, h7, h8⟩ :=
                  ih (by simp [hf]) (nodup_snoc hn hn1) h
                exact ⟨by simpa [positions] using h1, by simpa [positions] using h2,
                  by simpa [positions] using h3, by simpa [positions] using h4, h5,
                  use h6 ⟨h6, h7, h8⟩⟩
              · cases h
            · obtain ⟨h1, h2, h3, h4, h5, h6, h7, h8⟩ := ih (t := { t with unused := t.unused ++ [i] })
                hf hn h
              exact ⟨by simpa [positions] using h1, by simpa [positions] using h2,
                by simpa [positions] using h3, by simpa [positions] using h4, h5,
                use h6 ⟨h6, h7, h8⟩⟩
        · rename_i hp
          obtain ⟨h1, h2, h3, h4, h5, h6, h7, h8⟩ := ih hf hn h
          refine ⟨by simpa [positions, hp] using h1, by simpa [positions, hp] using h2,
            by simpa [positions, hp] using h3, by simpa [positions, hp] using h4, h5, h6, ?_, ?_⟩
          · intro c' hc
            cases hc with
            | head => exact .inl (by omega)
            | tail _ hc => exact h7 c' hc
          · simp only [List.map_cons, List.sum_cons]
            omega

theorem initLoop_some (cs : List Count) : ∀ {i q : Nat} {names : List String} {t : Tracker},
    t.params.map Prod.fst = t.vars → (t.vars ++ names).Nodup → Usable cs →
    (cs.map Count.qubits).sum ≤ q → ∃ r, initLoop cs i q names t = .ok r := by
  induction cs with
  | nil => exact fun _ _ _ _ => ⟨_, rfl⟩
  | cons c cs ih =>
    intro i q names t hf hn hu hq
    have hu' : Usable cs := fun c hc => hu c (.tail _ hc)
    simp only [List.map_cons, List.sum_cons] at hq
    unfold initLoop
    split
    · exact ih hf hn hu' (by omega)
    · rw [if_neg (by omega)]
      split
      · rename_i hp
        have hc : c = ⟨0, 0, 1⟩ := by
          rcases hu c (.head _) with h | h
          · omega
          · exact h
        subst hc
        simp only [ne_eq, not_true_eq_false, if_false]
        cases names with
        | nil => exact ih (t := { t with unused := t.unused ++ [i] }) hf hn hu' (by omega)
        | cons n ns =>
          have hn1 : n ∉ t.vars := fun hm =>
            (List.nodup_append.mp hn).2.2 n hm n (.head _) rfl
          dsimp only
          rw [register_new hf hn1]
          exact ih (by simp [hf]) (by simpa using hn) hu' (by omega)
      · exact ih hf hn hu' (by omega)

theorem addRest_ok (ns : List String) : ∀ {t t' : Tracker},
    t.params.map Prod.fst = t.vars → t.vars.Nodup → addRest ns t = .ok t' →
    t'.params = t.params ++ ns.zip (List.range' t.inputs ns.length) ∧ t'.unused = t.unused ∧
    t'.vars = t.vars ++ ns ∧ t'.inputs = t.inputs + ns.length ∧ t'.vars.Nodup := by
  induction ns with
  | nil =>
    intro t t' hf hn h
    cases h
    exact ⟨by simp, rfl, by simp, rfl, hn⟩
  | cons n ns ih =>
    intro t t' hf hn h
    unfold addRest at h
    split at h
    · rename_i t1 hr
      obtain ⟨hn1, rfl⟩ := register_ok (t := { t with inputs := t.inputs + 1 }) hf hr
      obtain ⟨h1, h2, h3, h4, h5⟩ := ih (by simp [hf]) (nodup_snoc hn hn1) h
      refine ⟨by simpa [List.range'_succ] using h1, h2, by simpa using h3, ?_, h5⟩
      rw [h4, List.length_cons]
      dsimp only
      omega
    · cases h

theorem addRest_some (ns : List String) : ∀ {t : Tracker},
    t.params.map Prod.fst = t.vars → (t.vars ++ ns).Nodup → ∃ t', addRest ns t = .ok t' := by
  induction ns with
  | nil => exact fun _ _ => ⟨_, rfl⟩
  | cons n ns ih =>
    intro t hf hn
    have hn1 : n ∉ t.vars := fun hm => (List.nodup_append.mp hn).2.2 n hm n (.head _) rfl
    unfold addRest
    rw [register_new (t := { t with inputs := t.inputs + 1 }) hf hn1]
    exact ih (by simp [hf]) (by simpa using hn)

theorem init_spec {sig : List Count} {q : Nat} {names : List String} {t : Tracker}
    (h : init sig q names = .ok t) :
    Inv sig t ∧ t.vars = names ∧ Usable sig ∧ (sig.map Count.qubits).sum ≤ q := by
  unfold init at h
  split at h
  · rename_i t1 rest h1
    obtain ⟨a1, a2, a3, a4, a5, a6, a7, a8⟩ := initLoop_ok sig (by rfl) List.nodup_nil h1
    simp only [List.nil_append] at a1 a2 a3 a5
    have hf : t1.params.map Prod.fst = t1.vars := by
      rw [a1, a3, map_fst_zip_take]
    obtain ⟨b1, b2, b3, b4, b5⟩ := addRest_ok rest hf a6 h
    have hv : t.vars = names := by rw [b3, a3, a4, List.take_append_drop]
    refine ⟨⟨b5, ?_, ?_, ?_, ?_⟩, hv, a7, a8⟩
    · rw [b1, List.map_append, hf, b3, List.map_fst_zip (by simp)]
    · rw [b1, List.map_append, a1, map_snd_zip_take, List.map_snd_zip (by simp), hv, a5]
      have hr : rest.length = names.length - (positions 0 sig).length := by
        rw [a4, List.length_drop]
      refine List.ext_getElem? fun k => ?_
      by_cases hk : k < names.length
      · rw [List.getElem?_map, List.getElem?_range hk]
        by_cases hp : k < (positions 0 sig).length
        · rw [List.getElem?_append_left (by simp; omega), List.getElem?_take_of_lt hk]
          simp [slot, List.getElem?_eq_getElem hp]
        · rw [List.getElem?_append_right (by simp; omega)]
          have hm : min names.length (positions 0 sig).length = (positions 0 sig).length := by omega
          simp only [List.length_take, hm, Option.map_some]
          rw [List.getElem?_range' (by omega)]
          unfold slot
          rw [List.getElem?_eq_none (by omega)]
          simp
      · rw [List.getElem?_eq_none (by simp; omega), List.getElem?_eq_none (by simp; omega)]
    · rw [b2, a2, hv]
    · rw [b4, a5, hv, a4, List.length_drop]
  · cases h

theorem init_some {sig : List Count} {q : Nat} {names : List String} (hn : names.Nodup)
    (hu : Usable sig) (hq : (sig.map Count.qubits).sum ≤ q) : ∃ t, init sig q names = .ok t := by
  unfold init
  obtain ⟨⟨t1, rest⟩, h1⟩ := initLoop_some sig (i := 0) (names := names)
    (t := ⟨[], [], [], sig.length⟩) rfl (by simpa using hn) hu hq
  rw [h1]
  obtain ⟨a1, _, a3, a4, _, _⟩ := initLoop_ok sig (by rfl) List.nodup_nil h1
  simp only [List.nil_append] at a1 a3
  refine addRest_some rest ?_ ?_
  · rw [a1, a3, map_fst_zip_take]
  · rw [a3, a4, List.take_append_drop]
    exact hn

/-! ### The encoder -/

theorem gen_inj {i j : Nat} (h : "f" ++ toString i = "f" ++ toString j) : i = j := by
  have h1 := congrArg String.toList h
  simp only [String.toList_append, List.append_cancel_left_eq] at h1
  have h2 : Nat.toDigits 10 i = Nat.toDigits 10 j := by
    simpa [Nat.toList_repr] using h1
  rw [← Nat.ofDigitChars_ten_toDigits (n := i), h2, Nat.ofDigitChars_ten_toDigits]

theorem candidates_nodup (n : Nat) : ((List.range n).map fun i => "f" ++ toString i).Nodup := by
  refine List.Pairwise.map _ (fun a b h e => h (gen_inj e)) List.nodup_range

theorem generated_length (stored : List String) (n : Nat) :
    n ≤ (generated stored n).length := by
  unfold generated
  have h1 := List.length_eq_countP_add_countP (fun s => !stored.contains s)
    (l := (List.range (stored.length + n)).map fun i => "f" ++ toString i)
  rw [List.countP_eq_length_filter, List.countP_eq_length_filter] at h1
  have h2 : (((List.range (stored.length + n)).map fun i => "f" ++ toString i).filter
      fun s => decide ¬(!stored.contains s) = true).length ≤ stored.length := by
    refine List.Nodup.length_le_of_subset ((candidates_nodup _).filter _) fun s hs => ?_
    simpa using (List.mem_filter.mp hs).2
  simp only [List.length_map, List.length_range] at h1
  omega

theorem generated_nodup (stored : List String) (n : Nat) : (generated stored n).Nodup :=
  (candidates_nodup _).filter _

theorem generated_ne_pi {stored : List String} {n : Nat} : "pi" ∉ generated stored n := by
  intro h
  obtain ⟨i, _, e⟩ := List.mem_map.mp (List.mem_filter.mp h).1
  have := congrArg String.toList e
  simp [String.toList_append] at this

theorem encNames_nodup {stored : List String} (h : stored.Nodup) (sig : List Count) :
    (encNames stored sig).Nodup := by
  refine List.Nodup.sublist (List.take_sublist _ _) (List.nodup_append.mpr
    ⟨h, generated_nodup _ _, fun a ha b hb e => ?_⟩)
  subst e
  have := (List.mem_filter.mp hb).2
  simp [ha] at this

theorem encNames_length (stored : List String) (sig : List Count) :
    (encNames stored sig).length = (sig.map Count.params).sum := by
  have := generated_length stored (sig.map Count.params).sum
  simp only [encNames, List.length_take, List.length_append]
  omega

theorem usable_params {sig : List Count} (h : Usable sig) (i : Nat) :
    (sig.map Count.params).sum = (positions i sig).length := by
  induction sig generalizing i with
  | nil => rfl
  | cons c cs ih =>
    have ih := ih (fun c hc => h c (.tail _ hc)) (i + 1)
    unfold positions
    rcases h c (.head _) with hc | hc
    · simp [hc, ih]
    · subst hc
      simp [ih]
      omega

/-! ### Values -/

theorem subst_value {V : Type} (S : Sem V) (σ : Nat → V) (ρ : String → V) (f : String → Nat) (e : Exp)
    (h : ∀ n ∈ e.vars, σ (f n) = ρ n) : (e.subst f).value S σ = e.value S ρ := by
  induction e with
  | const c => rfl
  | sympy s => rfl
  | var n =>
    by_cases hn : n = "pi"
    · simp [Exp.subst, Exp.value, hn, Tree.value]
    · simpa [Exp.subst, Exp.value, hn, Tree.value] using h n (by simp [Exp.vars, hn])
  | op1 o a ih => exact congrArg (S.op1 o) (ih h)
  | op2 o a b iha ihb =>
    show S.op2 o _ _ = S.op2 o _ _
    rw [iha fun n hn => h n (List.mem_append_left _ hn),
      ihb fun n hn => h n (List.mem_append_right _ hn)]

theorem value_congr {V : Type} (S : Sem V) {ρ ρ' : String → V} (e : Exp)
    (h : ∀ n ∈ e.vars, ρ n = ρ' n) : e.value S ρ = e.value S ρ' := by
  induction e with
  | const c => rfl
  | sympy s => rfl
  | var n =>
    by_cases hn : n = "pi"
    · simp [Exp.value, hn]
    · simpa [Exp.value, hn] using h n (by simp [Exp.vars, hn])
  | op1 o a ih => exact congrArg (S.op1 o) (ih h)
  | op2 o a b iha ihb =>
    show S.op2 o _ _ = S.op2 o _ _
    rw [iha fun n hn => h n (List.mem_append_left _ hn),
      ihb fun n hn => h n (List.mem_append_right _ hn)]

theorem encode_value {V : Type} (S : Sem V) {parse : String → Exp} {sig : List Count}
    {names : List String} {ρ ρ' : String → V} {σ : Nat → V} (a : Src) (hpi : "pi" ∉ names)
    (hid : ∀ n ∈ names, parse n = .var n)
    (hp : ∀ k ∈ a.params, k < names.length) (h1 : ∀ k n, names[k]? = some n → ρ' n = σ (slot sig k))
    (h2 : ∀ n ∈ a.symbols parse, ρ' n = ρ n) :
    (a.encode parse names).value S ρ' = a.value S parse sig ρ σ := by
  induction a with
  | const c => rfl
  | param k =>
    have hk := hp k (.head _)
    have hg : names.getD k "" = names[k] := by simp [List.getD, List.getElem?_eq_getElem hk]
    have hne : names[k] ≠ "pi" := fun e => hpi (e ▸ List.getElem_mem hk)
    simp only [Src.encode, hg, hid _ (List.getElem_mem hk), Exp.value, hne, if_false, Src.value]
    exact h1 k _ (List.getElem?_eq_getElem hk)
  | sympy s => exact value_congr S _ h2
  | op1 o a ih => exact congrArg (S.op1 o) (ih hp h2)
  | op2 o a b iha ihb =>
    show S.op2 o _ _ = S.op2 o _ _
    rw [iha (fun n hn => hp n (List.mem_append_left _ hn))
        (fun n hn => h2 n (List.mem_append_left _ hn)),
      ihb (fun n hn => hp n (List.mem_append_right _ hn))
        (fun n hn => h2 n (List.mem_append_right _ hn))]

theorem encode_vars {parse : String → Exp} {names : List String} (a : Src)
    (hid : ∀ n ∈ names, parse n = .var n)
    (hp : ∀ k ∈ a.params, k < names.length) {n : String} (h : n ∈ (a.encode parse names).vars) :
    n ∈ names ∨ n ∈ a.symbols parse := by
  induction a with
  | const c => cases h
  | param k =>
    have hk := hp k (.head _)
    have hg : names.getD k "" = names[k] := by simp [List.getD, List.getElem?_eq_getElem hk]
    simp only [Src.encode, hg, hid _ (List.getElem_mem hk), Exp.vars] at h
    split at h
    · cases h
    · rw [List.mem_singleton.mp h]
      exact .inl (List.getElem_mem hk)
  | sympy s => exact .inr h
  | op1 o a ih => exact ih hp h
  | op2 o a b iha ihb =>
    rcases List.mem_append.mp h with h | h
    · exact (iha (fun n hn => hp n (List.mem_append_left _ hn)) h).imp id (List.mem_append_left _)
    · exact (ihb (fun n hn => hp n (List.mem_append_right _ hn)) h).imp id (List.mem_append_right _)

theorem symbols_vars {parse : String → Exp} {names : List String} (a : Src) {n : String}
    (h : n ∈ a.symbols parse) : n ∈ (a.encode parse names).vars := by
  induction a with
  | const c => cases h
  | param k => cases h
  | sympy s => exact h
  | op1 o a ih => exact ih h
  | op2 o a b iha ihb =>
    rcases List.mem_append.mp h with h | h
    · exact List.mem_append_left _ (iha h)
    · exact List.mem_append_right _ (ihb h)

/-! ### Positions -/

theorem mem_positions {sig : List Count} {i j : Nat} :
    j ∈ positions i sig ↔ i ≤ j ∧ ∃ c, sig[j - i]? = some c ∧ 0 < c.params := by
  induction sig generalizing i with
  | nil => simp [positions]
  | cons c cs ih =>
    have key : j ∈ positions (i + 1) cs ↔
        i < j ∧ ∃ c', (c :: cs)[j - i]? = some c' ∧ 0 < c'.params := by
      rw [ih]
      constructor
      · rintro ⟨h, c', h1, h2⟩
        refine ⟨h, c', ?_, h2⟩
        rw [show j - i = (j - (i + 1)) + 1 by omega, List.getElem?_cons_succ]
        exact h1
      · rintro ⟨h, c', h1, h2⟩
        refine ⟨h, c', ?_, h2⟩
        rw [show j - i = (j - (i + 1)) + 1 by omega, List.getElem?_cons_succ] at h1
        exact h1
    unfold positions
    split
    · rename_i hc
      rw [List.mem_cons, key]
      constructor
      · rintro (rfl | ⟨h, h'⟩)
        · exact ⟨Nat.le_refl _, c, by simp, hc⟩
        · exact ⟨by omega, h'⟩
      · rintro ⟨h, h'⟩
        by_cases e : j = i
        · exact .inl e
        · exact .inr ⟨by omega, h'⟩
    · rename_i hc
      rw [key]
      constructor
      · rintro ⟨h, h'⟩
        exact ⟨by omega, h'⟩
      · rintro ⟨h, c', h1, h2⟩
        refine ⟨?_, c', h1, h2⟩
        by_cases e : j = i
        · subst e
          simp at h1
          subst h1
          omega
        · omega

theorem positions_sorted (sig : List Count) (i : Nat) :
    (positions i sig).Pairwise (· < ·) := by
  induction sig generalizing i with
  | nil => exact .nil
  | cons c cs ih =>
    unfold positions
    split
    · refine .cons (fun j hj => ?_) (ih _)
      have := (mem_positions.mp hj).1
      omega
    · exact ih _

theorem positions_lt {sig : List Count} {j : Nat} (h : j ∈ positions 0 sig) : j < sig.length := by
  obtain ⟨_, c, hc, _⟩ := mem_positions.mp h
  exact (List.getElem?_eq_some_iff.mp hc).1

theorem slot_lt {sig : List Count} {k l : Nat} (h : k < l) : slot sig k < slot sig l := by
  unfold slot
  by_cases hl : l < (positions 0 sig).length
  · have hk : k < (positions 0 sig).length := by omega
    rw [List.getElem?_eq_getElem hl, List.getElem?_eq_getElem hk]
    exact List.pairwise_iff_getElem.mp (positions_sorted sig 0) k l hk hl h
  · rw [List.getElem?_eq_none (by omega : (positions 0 sig).length ≤ l)]
    by_cases hk : k < (positions 0 sig).length
    · rw [List.getElem?_eq_getElem hk]
      have := positions_lt (List.getElem_mem hk)
      dsimp only
      omega
    · rw [List.getElem?_eq_none (by omega)]
      dsimp only
      omega

theorem slot_inj {sig : List Count} {k l : Nat} (h : slot sig k = slot sig l) : k = l := by
  rcases Nat.lt_trichotomy k l with hl | hl | hl
  · exact absurd h (Nat.ne_of_lt (slot_lt hl))
  · exact hl
  · exact absurd h.symm (Nat.ne_of_lt (slot_lt hl))

theorem mem_order_prefix_idx {names xs : List String} {k : Nat} (h : k < names.length)
    (hn : names.Nodup) : (order names xs).idxOf names[k] = k := by
  rw [idxOf_prefix (order_prefix names xs) (List.getElem_mem h), hn.idxOf_getElem]

/-! ### Outputs -/

theorem find_straight (os : List Out) : ∀ {k p : Nat}, k ≤ p →
    (straight k os).find? (fun w => w.2 == p) =
      match os[p - k]? with
      | some (.through i) => some (i, p)
      | _ => none := by
  induction os with
  | nil => intro k p _; simp [straight]
  | cons o os ih =>
    intro k p h
    by_cases e : p = k
    · subst e
      have hlater : (straight (p + 1) os).find? (fun w => w.2 == p) = none := by
        refine List.find?_eq_none.mpr fun w hw => ?_
        have key : ∀ (os : List Out) (j : Nat), ∀ w ∈ straight j os, j ≤ w.2 := by
          intro os
          induction os with
          | nil => intro j w hw; cases hw
          | cons o os ih' =>
            intro j w hw
            cases o with
            | through i =>
              cases hw with
              | head => exact Nat.le_refl _
              | tail _ hw => exact Nat.le_of_succ_le (ih' _ _ hw)
            | _ => exact Nat.le_of_succ_le (ih' _ _ hw)
        have := key os _ w hw
        simp
        omega
      cases o <;> simp [straight, hlater]
    · have hi := ih (k := k + 1) (p := p) (by omega)
      have hp : p - k = (p - (k + 1)) + 1 := by omega
      rw [hp, List.getElem?_cons_succ, ← hi]
      cases o with
      | through i =>
        have : ¬k = p := fun h => e h.symm
        simp [straight, this]
      | _ => rfl

theorem finish_spec {f : Src → Tree} {l : Nat → Option Link} (os : List Out) :
    ∀ {k : Nat} {tys : List OutTy} {more : List Tree}, os.length = tys.length →
    (∀ (j : Nat) (o : Out) (ty : OutTy), os[j]? = some o → tys[j]? = some ty → o.Typed ty) →
    (∀ (j : Nat) (o : Out), os[j]? = some o → l (k + j) = match o with
      | .through i => some (.input i)
      | .subgraph i => some (.subgraph i)
      | _ => none) →
    finish l k tys ((outParams os).map f ++ more) = some (os.map (Out.link f)) := by
  induction os with
  | nil =>
    intro k tys more hl _ _
    cases tys with
    | nil => rfl
    | cons _ _ => cases hl
  | cons o os ih =>
    intro k tys more hl ht hk
    cases tys with
    | nil => cases hl
    | cons ty tys =>
      have h0 := hk 0 o rfl
      have hty := ht 0 o ty rfl rfl
      have hrec := fun more => ih (k := k + 1) (tys := tys) (more := more) (by simpa using hl)
        (fun j o ty h1 h2 => ht (j + 1) o ty h1 h2) (fun j o h1 => by
          have := hk (j + 1) o h1
          rw [← this]
          congr 1
          omega)
      rw [Nat.add_zero] at h0
      unfold finish
      cases o with
      | param a =>
        have : ty = .param := hty
        subst this
        simp [h0, outParams, hrec, Out.link]
      | through i => simp [h0, outParams, hrec, Out.link]
      | subgraph i => simp [h0, outParams, hrec, Out.link]
      | reg =>
        have : ty = .register := hty
        subst this
        simp [h0, outParams, hrec, Out.link]
      | free =>
        have : ty = .other := hty
        subst this
        simp [h0, outParams, hrec, Out.link]

end Verif.InputParams
