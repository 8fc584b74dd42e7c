import Verif.Lemmas.PyCircuit

/-!
# C105: circuit objects of the Python package

Copies are independent, comparison and sets of circuits, hashes, and envelopes.
-/
namespace Tket.PyCircuit

variable {C T R N : Type} (E : Env C T R N)

/-- Whatever a program does with other objects, a circuit that is not rewritten itself stays the same. -/
theorem C105_untouched {st : State C T N} {a : Nat} {c : C} (h : st.circ a = some c) (cmds : List (Cmd R))
    (hc : ∀ r, Cmd.apply a r ∉ cmds) : (run E st cmds).circ a = some c :=
  circ_eq_some.2 (run_keep E cmds (circ_eq_some.1 h) hc)

/-- `Tk2Circuit(x)`, `copy.copy(x)` and `copy.deepcopy(x)` give a new object with the same circuit.  Afterwards
each of the two keeps its circuit as long as it is not rewritten itself, whatever is done with the other. -/
theorem C105_copy {st : State C T N} {a : Nat} {c : C} (h : st.circ a = some c) (mk : Nat → Cmd R)
    (hmk : mk = .new ∨ mk = .copy ∨ mk = .deepcopy) :
    ∃ b, (step E st (mk a)).2 = .obj b ∧ st.heap[b]? = none ∧
      ∀ cmds : List (Cmd R),
        ((∀ r, Cmd.apply b r ∉ cmds) → (run E (step E st (mk a)).1 cmds).circ b = some c) ∧
        ((∀ r, Cmd.apply a r ∉ cmds) → (run E (step E st (mk a)).1 cmds).circ a = some c) := by
  have h' := circ_eq_some.1 h
  have hs : step E st (mk a) = alloc st (.tk2 c) := by
    rcases hmk with rfl | rfl | rfl <;> simp only [step, h']
  rw [hs]
  refine ⟨st.heap.length, rfl, List.getElem?_eq_none (Nat.le_refl _), fun cmds => ⟨fun hb => ?_, fun ha => ?_⟩⟩
  · exact C105_untouched E (circ_eq_some.2 (alloc_new st _)) cmds hb
  · exact C105_untouched E (circ_eq_some.2 (alloc_heap st _ h')) cmds ha

/-- `Tk2Circuit(x)` of a `pytket` circuit: a new object with the decoded circuit, or an exception and no change. -/
theorem C105_convert {st : State C T N} {a : Nat} {t : T} (h : st.heap[a]? = some (.tk1 t)) :
    (E.decode t = none → step E st (.new a) = (st, .raised)) ∧
    ∀ c, E.decode t = some c → ∃ b, (step E st (.new a)).2 = .obj b ∧ st.heap[b]? = none ∧
      (step E st (.new a)).1.circ b = some c ∧ ∀ (d : Nat) (x : Obj C T N), st.heap[d]? = some x → (step E st (.new a)).1.heap[d]? = some x := by
  refine ⟨fun hd => by simp only [step, h, hd], fun c hd => ?_⟩
  have hs : step E st (.new a) = alloc st (.tk2 c) := by simp only [step, h, hd]
  rw [hs]
  exact ⟨st.heap.length, rfl, List.getElem?_eq_none (Nat.le_refl _), circ_eq_some.2 (alloc_new st _),
    fun d x hx => alloc_heap st _ hx⟩

/-- `apply_rewrite` replaces the circuit of this object by what the rewrite makes of it and changes no other object;
it raises an exception exactly if the rewrite fails, and then the circuit is as the rewrite left it. -/
theorem C105_rewrite {st : State C T N} {a : Nat} {c : C} (h : st.circ a = some c) (r : R) :
    (step E st (.apply a r)).1.circ a = some (E.apply r c).1 ∧
    (step E st (.apply a r)).2 = (if (E.apply r c).2 then .none else .raised) ∧
    (∀ b, b ≠ a → (step E st (.apply a r)).1.heap[b]? = st.heap[b]?) ∧
    (step E st (.apply a r)).1.sets = st.sets := by
  have h' := circ_eq_some.1 h
  have hl : a < st.heap.length := (List.getElem?_eq_some_iff.1 h').1
  rcases ha : E.apply r c with ⟨c', _ | _⟩ <;> simp only [step, h', ha] <;>
    refine ⟨circ_eq_some.2 (List.getElem?_set_self hl), by simp, fun b hb => ?_, by trivial⟩ <;>
    exact List.getElem?_set_ne (Ne.symm hb)

/-- `hash(x)` raises an exception exactly if the circuit has no hash (it has a cycle). -/
theorem C105_hash_raises {st : State C T N} {a : Nat} {c : C} (h : st.circ a = some c) :
    (step E st (.hash a)).2 = .raised ↔ E.circuitHash c = none := by
  have h' := circ_eq_some.1 h
  cases hc : E.circuitHash c <;> simp [step, pyHash, h', hc]

/-- Circuits have the same `hash(x)` in Python exactly if they have the same `x.hash()`, apart from the two largest
values, which are not told apart.  No hash is -1, which Python takes for an exception. -/
theorem C105_hash {st : State C T N} {a b : Nat} {c d : C} (ha : st.circ a = some c) (hb : st.circ b = some d)
    {m n : Fin (2 ^ 64)} (hm : E.circuitHash c = some m) (hn : E.circuitHash d = some n) :
    (step E st (.hash a)).2 ≠ .int (-1) ∧
    ((step E st (.hash a)).2 = (step E st (.hash b)).2 ↔
      m = n ∨ (2 ^ 64 - 2 ≤ m.val ∧ 2 ^ 64 - 2 ≤ n.val)) := by
  have ha' := circ_eq_some.1 ha
  have hb' := circ_eq_some.1 hb
  have hm2 := m.isLt
  have hn2 := n.isLt
  simp only [step, pyHash, ha', hb', hm, hn, Option.map_some, Res.int.injEq, ne_eq, toPyHash, asIsize, Fin.ext_iff]
  simp only [Nat.reducePow, Int.reducePow] at *
  constructor
  · split <;> split <;> omega
  · split <;> split <;> split <;> split <;> omega

/-- `x == y` of circuits and handles is true exactly if they are the same object. -/
theorem C105_eq {st : State C T N} {a b : Nat} (ha : ∀ t, st.heap[a]? ≠ some (.tk1 t)) :
    (step E st (.eq a b)).2 = .bool true ↔ a = b := by
  simp only [step, pyEq, Res.bool.injEq]
  split
  · next h _ => exact absurd h (ha _)
  · simp

/-- A copy is never equal to its original, although it has the same circuit and the same hash. -/
theorem C105_copy_not_equal {st : State C T N} {a : Nat} {c : C} (h : st.circ a = some c) (mk : Nat → Cmd R)
    (hmk : mk = .new ∨ mk = .copy ∨ mk = .deepcopy) :
    ∃ b, (step E st (mk a)).2 = .obj b ∧ (step E st (mk a)).1.circ b = st.circ a ∧
      (step E (step E st (mk a)).1 (.eq b a)).2 = .bool false ∧
      (step E (step E st (mk a)).1 (.hash b)).2 = (step E (step E st (mk a)).1 (.hash a)).2 := by
  have h' := circ_eq_some.1 h
  have hl : a < st.heap.length := (List.getElem?_eq_some_iff.1 h').1
  have hs : step E st (mk a) = alloc st (.tk2 c) := by
    rcases hmk with rfl | rfl | rfl <;> simp only [step, h']
  have hnew := alloc_new st (.tk2 c)
  have hold := alloc_heap st (.tk2 c) h'
  rw [hs]
  refine ⟨st.heap.length, rfl, (circ_eq_some.2 hnew).trans h.symm, ?_, ?_⟩
  · simp only [step, pyEq, hnew, hold]
    simp; omega
  · simp only [step, pyHash, hnew, hold]

/-- `input_node` and `output_node` give new handles of the input and the output of the circuit and change nothing
else. -/
theorem C105_handles {st : State C T N} {a : Nat} {c : C} (h : st.circ a = some c) :
    (∃ b, (step E st (.inputNode a)).2 = .obj b ∧ st.heap[b]? = none ∧
      (step E st (.inputNode a)).1.heap[b]? = some (.node (E.inputNode c))) ∧
    (∃ b, (step E st (.outputNode a)).2 = .obj b ∧ st.heap[b]? = none ∧
      (step E st (.outputNode a)).1.heap[b]? = some (.node (E.outputNode c))) := by
  have h' := circ_eq_some.1 h
  have h1 : step E st (.inputNode a) = alloc st (.node (E.inputNode c)) := by simp only [step, h']
  have h2 : step E st (.outputNode a) = alloc st (.node (E.outputNode c)) := by simp only [step, h']
  rw [h1, h2]
  exact ⟨⟨st.heap.length, rfl, List.getElem?_eq_none (Nat.le_refl _), alloc_new _ _⟩,
    ⟨st.heap.length, rfl, List.getElem?_eq_none (Nat.le_refl _), alloc_new _ _⟩⟩

/-- Two calls of `input_node` give handles of the same node that are not equal. -/
theorem C105_handles_not_equal {st : State C T N} {a : Nat} {c : C} (h : st.circ a = some c) :
    ∃ b d, (step E st (.inputNode a)).2 = .obj b ∧
      (step E (step E st (.inputNode a)).1 (.inputNode a)).2 = .obj d ∧
      (step E (step E st (.inputNode a)).1 (.inputNode a)).1.heap[b]? = some (.node (E.inputNode c)) ∧
      (step E (step E st (.inputNode a)).1 (.inputNode a)).1.heap[d]? = some (.node (E.inputNode c)) ∧
      (step E (step E (step E st (.inputNode a)).1 (.inputNode a)).1 (.eq b d)).2 = .bool false := by
  have h' := circ_eq_some.1 h
  have hs : step E st (.inputNode a) = alloc st (.node (E.inputNode c)) := by simp only [step, h']
  have h1 := alloc_heap st (.node (E.inputNode c)) h'
  have hb := alloc_new st (.node (E.inputNode c))
  rw [hs]
  generalize hst : (alloc st (.node (E.inputNode c))).1 = st1 at *
  have hs1 : step E st1 (.inputNode a) = alloc st1 (.node (E.inputNode c)) := by simp only [step, h1]
  rw [hs1]
  have hb1 := alloc_heap st1 (.node (E.inputNode c)) hb
  have hd1 := alloc_new st1 (.node (E.inputNode c))
  refine ⟨st.heap.length, st1.heap.length, rfl, rfl, hb1, hd1, ?_⟩
  have hlt : st.heap.length < st1.heap.length := (List.getElem?_eq_some_iff.1 hb).1
  simp only [step, pyEq, hb1, hd1]
  simp; omega

/-- After `s.add(x)`, whatever else is done, `x in s` is true exactly if the hash of its circuit is still the same. -/
theorem C105_set {st : State C T N} {s a : Nat} {c : C} (h : st.circ a = some c)
    (hnew : ∀ e ∈ st.sets s, e.2 ≠ a) {i : Int} (hi : (step E st (.hash a)).2 = .int i)
    (cmds : List (Cmd R)) (hc : Cmd.add s a ∉ cmds) :
    let st' := run E (step E st (.add s a)).1 cmds
    ∀ j, (step E st' (.hash a)).2 = .int j → (step E st' (.mem s a)).2 = .bool (i == j) := by
  intro st' j hj
  have h' := circ_eq_some.1 h
  have hi' : pyHash E st.heap a = some i := by
    simp only [step] at hi
    split at hi
    · next k hk => simp only [Res.int.injEq] at hi; rw [hk, hi]
    · exact nomatch hi
  have hj' : pyHash E st'.heap a = some j := by
    simp only [step] at hj
    split at hj
    · next k hk => simp only [Res.int.injEq] at hj; rw [hk, hj]
    · exact nomatch hj
  have hnot : inSet E st.heap (st.sets s) i a = false := by
    rw [Bool.eq_false_iff]
    intro hin
    exact hnew _ ((inSet_tk2 E h' _ _).1 hin) rfl
  have hadd : step E st (.add s a) =
      ({ st with sets := fun t => if t = s then st.sets s ++ [(i, a)] else st.sets t }, .none) := by
    simp only [step, hi', hnot, Bool.false_eq_true, if_false]
  have h1 : (step E st (.add s a)).1.heap[a]? = some (.tk2 c) := by rw [hadd]; exact h'
  obtain ⟨c', hc'⟩ := run_tk2 E cmds h1
  have hmem : ∀ k, (k, a) ∈ st'.sets s ↔ k = i := by
    intro k
    refine (run_sets E cmds k hc).trans ?_
    rw [hadd]
    simp only [if_true, List.mem_append, List.mem_singleton, Prod.mk.injEq, and_true]
    exact ⟨fun hk => hk.elim (fun hk => absurd rfl (hnew _ hk)) id, Or.inr⟩
  simp only [step, hj', Res.bool.injEq]
  rw [Bool.eq_iff_iff, inSet_tk2 E hc', hmem, beq_iff_eq]
  exact eq_comm

/-- A circuit that is in a set and is not rewritten is found in the set. -/
theorem C105_set_partial {st : State C T N} {s a : Nat} {c : C} (h : st.circ a = some c)
    (hnew : ∀ e ∈ st.sets s, e.2 ≠ a) (hh : E.circuitHash c ≠ none)
    (cmds : List (Cmd R)) (hc : Cmd.add s a ∉ cmds) (hr : ∀ r, Cmd.apply a r ∉ cmds) :
    (step E (run E (step E st (.add s a)).1 cmds) (.mem s a)).2 = .bool true := by
  obtain ⟨n, hn⟩ := Option.ne_none_iff_exists'.1 hh
  have h' := circ_eq_some.1 h
  have h1 : (step E st (.add s a)).1.heap[a]? = some (.tk2 c) :=
    step_keep E h' _ fun r => by simp
  have h2 := run_keep E cmds h1 hr
  have hash : ∀ st : State C T N, st.heap[a]? = some (.tk2 c) →
      (step E st (.hash a)).2 = .int (toPyHash (asIsize n)) := by
    intro st hst
    simp only [step, pyHash, hst, hn, Option.map_some]
  rw [C105_set E h hnew (hash st h') cmds hc _ (hash _ h2)]
  simp

/-- A circuit that is in a set and is rewritten so that its hash changes is not found in the set, although it was
never removed. -/
theorem C105_set_lost {st : State C T N} {s a : Nat} {c : C} (h : st.circ a = some c)
    (hnew : ∀ e ∈ st.sets s, e.2 ≠ a) (r : R) {m n : Fin (2 ^ 64)}
    (hm : E.circuitHash c = some m) (hn : E.circuitHash (E.apply r c).1 = some n) (hmn : m.val < n.val)
    (hlt : n.val < 2 ^ 64 - 1) :
    (step E (run E (step E st (.add s a)).1 [.apply a r]) (.mem s a)).2 = .bool false := by
  have h' := circ_eq_some.1 h
  have h1 : (step E st (.add s a)).1.circ a = some c :=
    circ_eq_some.2 (step_keep E h' _ fun r => by simp)
  have h2 := circ_eq_some.1 (C105_rewrite E h1 r).1
  have ha : (step E st (.hash a)).2 = .int (toPyHash (asIsize m)) := by
    simp only [step, pyHash, h', hm, Option.map_some]
  have hb : (step E (run E (step E st (.add s a)).1 [.apply a r]) (.hash a)).2 = .int (toPyHash (asIsize n)) := by
    simp only [run]
    generalize step E (step E st (.add s a)).1 (.apply a r) = x at *
    simp only [step, pyHash, h2, hn, Option.map_some]
  rw [C105_set E h hnew ha [.apply a r] (by simp) _ hb]
  simp only [Res.bool.injEq, beq_eq_false_iff_ne, ne_eq, toPyHash, asIsize]
  have hm2 := m.isLt
  have hn2 := n.isLt
  simp only [Nat.reducePow, Int.reducePow, Nat.reduceSub] at *
  split <;> split <;> split <;> split <;> omega

/-- Sets do not go by the circuit: a copy of a circuit in a set is not found in the set. -/
theorem C105_set_copy {st : State C T N} {s a : Nat} {c : C} (h : st.circ a = some c)
    (hh : E.circuitHash c ≠ none) (hsets : ∀ e ∈ st.sets s, e.2 < st.heap.length) :
    let st1 := (step E st (.add s a)).1
    ∃ b, (step E st1 (.copy a)).2 = .obj b ∧ (step E (step E st1 (.copy a)).1 (.mem s b)).2 = .bool false := by
  intro st1
  obtain ⟨n, hn⟩ := Option.ne_none_iff_exists'.1 hh
  have h' := circ_eq_some.1 h
  have h1 : st1.heap[a]? = some (.tk2 c) := step_keep E h' _ fun r => by simp
  have hlen : st1.heap = st.heap := by
    simp only [st1, step]
    split
    · rfl
    · split <;> rfl
  have hs : step E st1 (.copy a) = alloc st1 (.tk2 c) := by simp only [step, h1]
  have hb := alloc_new st1 (.tk2 c)
  have hl : a < st.heap.length := (List.getElem?_eq_some_iff.1 h').1
  refine ⟨st1.heap.length, by rw [hs]; rfl, ?_⟩
  rw [hs]
  have hhash : pyHash E (alloc st1 (.tk2 c)).1.heap st1.heap.length = some (toPyHash (asIsize n)) := by
    simp only [pyHash, hb, hn, Option.map_some]
  simp only [step, hhash, Res.bool.injEq]
  rw [Bool.eq_false_iff]
  intro hin
  have hmem := (inSet_tk2 E hb _ _).1 hin
  have hmem' : (toPyHash (asIsize n), st1.heap.length) ∈ st1.sets s := hmem
  have := (step_sets E st (.add s a) (a := st1.heap.length) (s := s)
    (by simp only [ne_eq, Cmd.add.injEq, true_and, hlen]; omega) (toPyHash (asIsize n))).1 hmem'
  have := hsets _ this
  simp only [hlen] at this
  omega

/-- Lowering to `pytket` fails exactly if removing tuples fails; the error that calls of functions are not supported is
never given. -/
theorem C105_lowering (c : C) :
    (∀ d, lowerToPytket E c = .ok d ↔ E.untuple c = some d) ∧
    (∀ e, lowerToPytket E c = .error e ↔ E.untuple c = none ∧ e = .untuple) := by
  simp only [lowerToPytket, extractDfg]
  cases E.untuple c <;> simp [eq_comm]

/-! ## Envelopes -/

/-- What the documentation of `EnvelopeConfig` asks for: no compression, the default level for 0, or the level
given. -/
def levelSpec : Option Nat → Option (Option Nat)
  | none => none
  | some 0 => some none
  | some (k + 1) => some (some (k + 1))

/-- Levels up to 254 are used as given.  Missing: larger ones, `C105_level_wrong`. -/
theorem C105_level_partial : zstdOf .none = .ok (levelSpec none) ∧
    ∀ k : Nat, k < 255 → zstdOf (.int k) = .ok (levelSpec (some k)) := by
  refine ⟨rfl, fun k hk => ?_⟩
  have h0 : ¬ ((k : Int) < 0 ∨ (2 : Int) ^ 64 ≤ k) := by omega
  simp only [zstdOf, h0, if_false, Int.toNat_natCast]
  cases k with
  | zero => rfl
  | succ k =>
    have h1 : 0 < k + 1 ∧ k + 1 < 255 := ⟨by omega, hk⟩
    have h2 : (k + 1) % 256 = k + 1 := Nat.mod_eq_of_lt (by omega)
    simp [h1, h2, levelSpec]

/-- Larger levels give no exception and are replaced by the default level. -/
theorem C105_level_wrong (k : Nat) (h : 255 ≤ k) (h2 : k < 2 ^ 64) :
    zstdOf (.int k) = .ok (some none) ∧ zstdOf (.int k) ≠ .ok (levelSpec (some k)) := by
  have h0 : ¬ ((k : Int) < 0 ∨ (2 : Int) ^ 64 ≤ k) := by omega
  have h1 : ¬ (0 < k ∧ k < 255) := by omega
  have hz : zstdOf (.int k) = .ok (some none) := by
    simp only [zstdOf, h0, if_false, Int.toNat_natCast, h1]
  refine ⟨hz, ?_⟩
  rw [hz]
  cases k with
  | zero => omega
  | succ k => simp [levelSpec]

/-- A configuration is refused exactly if a number is negative or too large, the level is not a number, or there is no
such format; reading it never panics. -/
theorem C105_config_errors {F : Type} (fromRepr : Nat → Option F) (f : Int) (l : PyLevel) :
    ((∃ e, configOf fromRepr f l = .error e) ↔
      f < 0 ∨ 2 ^ 64 ≤ f ∨ fromRepr f.toNat = none ∨ l = .other ∨ ∃ i, l = .int i ∧ (i < 0 ∨ 2 ^ 64 ≤ i)) ∧
    configOf fromRepr f l ≠ .error .panic ∧
    ∀ cfg, configOf fromRepr f l = .ok cfg → fromRepr f.toNat = some cfg.format ∧ zstdOf l = .ok cfg.zstd := by
  have hz : (∃ e, zstdOf l = .error e) ↔ l = .other ∨ ∃ i, l = .int i ∧ (i < 0 ∨ 2 ^ 64 ≤ i) := by
    cases l with
    | none => simp [zstdOf]
    | other => simp [zstdOf]
    | int i =>
      by_cases hi : i < 0 ∨ 2 ^ 64 ≤ i
      · simp only [zstdOf, hi, if_true]; simp; omega
      · simp only [zstdOf, hi, if_false]
        split
        · next hl =>
          have : i.toNat % 256 ≠ 0 := by omega
          simp [this]; omega
        · simp; omega
  have hp : zstdOf l ≠ .error .panic := by
    cases l with
    | none => simp [zstdOf]
    | other => simp [zstdOf]
    | int i =>
      simp only [zstdOf]
      split
      · simp
      · split
        · next hl =>
          have : i.toNat % 256 ≠ 0 := by omega
          simp [this]
        · simp
  unfold configOf
  split
  · next hf =>
    refine ⟨⟨fun _ => hf.elim Or.inl fun h => Or.inr (Or.inl h), fun _ => ⟨_, rfl⟩⟩, by simp, by simp⟩
  · next hf =>
    have hf1 : ¬ f < 0 := fun h => hf (Or.inl h)
    have hf2 : ¬ 2 ^ 64 ≤ f := fun h => hf (Or.inr h)
    cases hr : fromRepr f.toNat with
    | none => simp
    | some g =>
      cases hzl : zstdOf l with
      | error e =>
        have := hz.1 ⟨e, hzl⟩
        refine ⟨⟨fun _ => Or.inr (Or.inr (Or.inr this)), fun _ => ⟨_, rfl⟩⟩, ?_, by simp⟩
        intro he
        simp only [Except.error.injEq] at he
        exact hp (he ▸ hzl)
      | ok z =>
        have hno : ¬ (l = .other ∨ ∃ i, l = .int i ∧ (i < 0 ∨ 2 ^ 64 ≤ i)) := by
          intro h; obtain ⟨e, he⟩ := hz.2 h; rw [hzl] at he; exact nomatch he
        refine ⟨⟨fun ⟨e, he⟩ => (nomatch he), ?_⟩, by simp, ?_⟩
        · rintro (h | h | h | h)
          · exact absurd h hf1
          · exact absurd h hf2
          · exact nomatch h
          · exact absurd h hno
        · intro cfg hcfg
          simp only [Except.ok.injEq] at hcfg
          subst hcfg
          exact ⟨rfl, rfl⟩

section
variable {F B : Type} (V : Env' C F B)

/-- `to_bytes` stores the circuit with the configuration given, or with the binary one; a wrong configuration raises
its exception, and a circuit that can not be stored raises an exception that is not a panic. -/
theorem C105_to_bytes (fromRepr : Nat → Option F) (config : Option (Int × PyLevel)) (c : C) :
    (∀ cfg, (config = none ∧ cfg = V.binary ∨ ∃ f l, config = some (f, l) ∧ configOf fromRepr f l = .ok cfg) →
      (∀ b, V.store cfg c = some b → toBytes V fromRepr config c = .ok b) ∧
      (V.store cfg c = none → toBytes V fromRepr config c = .error .attribute)) ∧
    (∀ f l e, config = some (f, l) → configOf fromRepr f l = .error e → toBytes V fromRepr config c = .error e) := by
  constructor
  · rintro cfg (⟨rfl, rfl⟩ | ⟨f, l, rfl, hc⟩)
    · exact ⟨fun b hb => by simp only [toBytes, hb], fun hb => by simp only [toBytes, hb]⟩
    · exact ⟨fun b hb => by simp only [toBytes, hc, hb], fun hb => by simp only [toBytes, hc, hb]⟩
  · rintro f l e rfl hc
    simp only [toBytes, hc]

/-- What `to_bytes` gives, with any configuration, is read back by `from_bytes` as the same circuit, if no extension but
those of the Python registry is used.  Missing: circuits with operations of `TKET1`, `C105_bytes_tket1`. -/
theorem C105_bytes_partial (hst : ∀ cfg c b, V.store cfg c = some b → V.parse b = some c)
    (fromRepr : Nat → Option F) (config : Option (Int × PyLevel)) {c : C} {b : B}
    (hb : toBytes V fromRepr config c = .ok b) (hv : V.valid c = true) (hu : ∀ e ∈ V.uses c, e ≠ .tket1) :
    fromBytes V b none = .ok c := by
  have hp : V.parse b = some c := by
    simp only [toBytes] at hb
    split at hb
    · exact nomatch hb
    · split at hb
      · exact nomatch hb
      · next h => simp only [Except.ok.injEq] at hb; subst hb; exact hst _ _ _ h
  have hall : (V.uses c).all pyRegistry = true := by
    rw [List.all_eq_true]
    intro e he
    have := hu e he
    revert this
    cases e <;> simp [pyRegistry]
  simp only [fromBytes, Env'.load, hp, hall, hv, Bool.and_self, if_true]

/-- A circuit with an operation of the extension `TKET1`, where operations of `pytket` without counterpart go, can be
stored but not read back, unless a function is named. -/
theorem C105_bytes_tket1 (hst : ∀ cfg c b, V.store cfg c = some b → V.parse b = some c)
    (fromRepr : Nat → Option F) (config : Option (Int × PyLevel)) {c : C} {b : B}
    (hb : toBytes V fromRepr config c = .ok b) (hu : Ext.tket1 ∈ V.uses c) :
    fromBytes V b none = .error .attribute ∧
    (V.valid c = true → (∀ e ∈ V.uses c, rustRegistry e = true) → ∀ n d, V.select c n = some d →
      fromBytes V b (some n) = .ok d) := by
  have hp : V.parse b = some c := by
    simp only [toBytes] at hb
    split at hb
    · exact nomatch hb
    · split at hb
      · exact nomatch hb
      · next h => simp only [Except.ok.injEq] at hb; subst hb; exact hst _ _ _ h
  constructor
  · have : ((V.uses c).all pyRegistry && V.valid c) = false := by
      rw [Bool.and_eq_false_iff]
      left
      rw [Bool.eq_false_iff]
      intro h
      exact absurd (List.all_eq_true.1 h _ hu) (by decide)
    simp only [fromBytes, Env'.load, hp, this, Bool.false_eq_true, if_false]
  · intro hv hr n d hd
    have hall : (V.uses c).all rustRegistry = true := List.all_eq_true.2 hr
    simp only [fromBytes, Env'.load, hp, hall, hv, Bool.and_self, if_true, Option.bind_some, hd]

/-- Naming a function makes reading fail for all programs with an extension of Q-System, a global phase or a modifier,
which are read without the name. -/
theorem C105_named {b : B} {c : C} (hp : V.parse b = some c) (n : String) :
    fromBytes V b (some n) = .error .attribute ↔
      (∃ e ∈ V.uses c, e = .globalPhase ∨ e = .modifier ∨ e = .gpu ∨ e = .qsystem ∨ e = .futures ∨ e = .random ∨
        e = .result ∨ e = .utils ∨ e = .wasm) ∨ V.valid c = false ∨ V.select c n = none := by
  have hreg : ∀ e, rustRegistry e = false ↔ e = .globalPhase ∨ e = .modifier ∨ e = .gpu ∨ e = .qsystem ∨
      e = .futures ∨ e = .random ∨ e = .result ∨ e = .utils ∨ e = .wasm := by
    intro e; cases e <;> simp [rustRegistry]
  simp only [← hreg, fromBytes, Env'.load, hp]
  by_cases hall : (V.uses c).all rustRegistry = true
  · have hne : ¬ ∃ e ∈ V.uses c, rustRegistry e = false := by
      rintro ⟨e, he, hf⟩
      rw [List.all_eq_true.1 hall e he] at hf
      exact nomatch hf
    cases hv : V.valid c
    · simp
    · cases hs : V.select c n <;> simp [hall, hs, hne]
  · have hex : ∃ e ∈ V.uses c, rustRegistry e = false := by
      rw [Bool.not_eq_true, List.all_eq_false] at hall
      obtain ⟨e, he, hf⟩ := hall
      exact ⟨e, he, by simpa using hf⟩
    simp [hall, hex]

end

/-! ## Examples -/

/-- Circuits are numbers; a rewrite adds a number, it fails for 0. -/
def exEnv : Env Nat Nat Nat Nat where
  circuitHash c := if h : c < 100 then some ⟨c, by omega⟩ else none
  apply r c := (c + r, r != 0)
  decode t := if t = 0 then none else some t
  encode c := some c
  untuple c := if c = 7 then none else some c
  inputNode c := c + 1
  outputNode c := c + 2
  tk1Eq := (· == ·)
  idHash a := a

/-- One circuit and one `pytket` circuit. -/
def exState : State Nat Nat Nat := ⟨[.tk2 5, .tk1 9], fun _ => []⟩

example : exState.circ 0 = some 5 := rfl
example : (run exEnv exState [.copy 0, .apply 0 3, .new 1, .apply 2 4]).heap = [.tk2 8, .tk1 9, .tk2 9, .tk2 9] := rfl
/-- The conditions of `C105_set_lost`. -/
example : exEnv.circuitHash 5 = some ⟨5, by omega⟩ ∧ exEnv.circuitHash (exEnv.apply 3 5).1 = some ⟨8, by omega⟩ ∧
    ∀ e ∈ exState.sets 0, e.2 ≠ 0 := ⟨rfl, rfl, by simp [exState]⟩
example : (step exEnv (run exEnv (step exEnv exState (.add 0 0)).1 [.copy 0, .hash 0]) (.mem 0 0)).2 = .bool true := rfl
example : (step exEnv (run exEnv (step exEnv exState (.add 0 0)).1 [.apply 0 3]) (.mem 0 0)).2 = .bool false := rfl
/-- A circuit without hash. -/
example : (step exEnv ⟨[.tk2 100], fun _ => []⟩ (.hash 0)).2 = .raised := rfl
/-- Envelopes of circuits: a list of extensions. -/
def exStore : Env' (List Ext) Unit (List Ext) where
  store _ c := some c
  parse := some
  uses := id
  valid _ := true
  select c n := if n = "main" then some c else none
  binary := ⟨(), some none⟩
example : ∀ cfg c b, exStore.store cfg c = some b → exStore.parse b = some c := fun _ _ _ h => by
  simp only [exStore, Option.some.injEq] at *; exact h.symm
example : toBytes exStore (fun _ => some ()) (some (1, .int 3)) [.tket, .qsystem] = .ok [.tket, .qsystem] := rfl
example : fromBytes exStore [.tket, .qsystem] none = .ok [.tket, .qsystem] := rfl
example : fromBytes exStore [.tket, .qsystem] (some "main") = .error .attribute := rfl
example : fromBytes exStore [.tket, .tket1] none = .error .attribute := rfl
example : fromBytes exStore [.tket, .tket1] (some "main") = .ok [.tket, .tket1] := rfl

end Tket.PyCircuit
