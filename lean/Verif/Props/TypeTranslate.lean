import Verif.Lemmas.TypeTranslate

/-
C64: the registers of a type do not depend on what was asked before, and hold its values.
-/
namespace Verif.TypeTranslate

/-- Whatever is added and asked in whatever order, each answer is the one of the first responsible
translator among those added so far: the index and the cache are invisible. -/
theorem C64_history (as : List Act) (hok : Asks as) :
    answers Set'.empty as = expected [] as :=
  answers_eq wf_empty (fun t r h => by cases h) as hok

/-- Actions that add the translators of the `qsystem` configuration. -/
def qsystemActs : List Act := qsystemTranslators.map .add

/-- A future of a tuple of a qubit and a bit. -/
def sampleTy : Ty := .ext futuresExt 0 [.sum [.row [.ext preludeExt 0 [], boolT]]]

example : Asks [.ask tketBool, .add boolTranslator, .ask tketBool] := by
  intro t h
  simp at h
  subst h
  rfl

/-- Adding a translator takes effect although the type has been asked about before. -/
example : answers Set'.empty [.ask tketBool, .add boolTranslator, .ask tketBool, .ask tketBool]
    = [none, some ⟨0, 1, 0⟩, some ⟨0, 1, 0⟩] := by decide +kernel

/-- All states a set can be in. -/
inductive Reached : Set' → Prop
  | empty : Reached Set'.empty
  | add {s} (tr) : Reached s → Reached (s.add tr)
  | ask {s} (t) : Reached s → Reached (s.typeToPytket t).2

/-- Looking up the translators of an extension never indexes out of range. -/
theorem C64_index {s : Set'} (h : Reached s) (e i : Nat) (hi : i ∈ s.index e) :
    i < s.translators.length := by
  suffices hw : ∃ trs, Wf trs s by
    obtain ⟨trs, hw⟩ := hw
    rw [hw.index] at hi
    rw [hw.trs_eq]
    have := (mem_indexOf hi).2
    omega
  clear hi
  induction h with
  | empty => exact ⟨[], wf_empty⟩
  | add tr _ ih =>
    obtain ⟨trs, hw⟩ := ih
    exact ⟨_, wf_add hw tr⟩
  | ask t _ ih =>
    obtain ⟨trs, hw⟩ := ih
    exact ⟨trs, hw.trs_eq, hw.index⟩

example : 0 ∈ (Set'.empty.add boolTranslator).index boolExt := by decide

/-- With the translators of tket, a type has registers exactly if it is a parameter, or a nest of
tuples and futures of qubits and booleans with at least one of them; then there is one register
per qubit and boolean. -/
theorem C64_registers (t : Ty) (hok : okTy t = true) (c : Count) :
    answers Set'.empty (qsystemActs ++ [.ask t]) = [some c] ↔
      (isParam t ∧ c = ⟨0, 0, 1⟩) ∨ ∃ rs, Leaves t rs ∧ rs ≠ [] ∧ c = tally rs := by
  have hans : answers Set'.empty (qsystemActs ++ [.ask t])
      = [proper (regs qsystemTranslators t)] := by
    rw [C64_history]
    · rfl
    · intro u hu
      rw [List.mem_append] at hu
      cases hu with
      | inl h =>
        rw [qsystemActs, List.mem_map] at h
        obtain ⟨_, _, h⟩ := h
        cases h
      | inr h =>
        rw [List.mem_singleton] at h
        cases h
        exact hok
  rw [hans, List.cons.injEq, proper, Option.filter_eq_some_iff]
  constructor
  · intro h
    obtain ⟨⟨h, hne⟩, _⟩ := h
    cases regs_leaves t c h with
    | inl h => exact Or.inl h
    | inr h =>
      obtain ⟨rs, hl, rfl⟩ := h
      refine Or.inr ⟨rs, hl, ?_, rfl⟩
      rintro rfl
      simp [tally_nil] at hne
  · intro h
    refine ⟨?_, rfl⟩
    cases h with
    | inl h =>
      obtain ⟨hp, rfl⟩ := h
      cases t with
      | ext e n args =>
        refine ⟨?_, by decide⟩
        have hp : e = floatExt ∨ e = rotationExt := hp
        rw [regs_ext, if_pos hp]
      | _ => exact hp.elim
    | inr h =>
      obtain ⟨rs, hl, hne, rfl⟩ := h
      exact ⟨leaves_regs hl, by simpa using tally_ne hne⟩

example : answers Set'.empty (qsystemActs ++ [.ask sampleTy]) = [some ⟨1, 1, 0⟩] := by
  decide +kernel
example : Leaves sampleTy [.q, .b] :=
  .future [] (.tuple (.cons (.qubit []) (.cons .native .nil))) (by decide)

/-- A value of such a type is determined by the contents of its registers, and all contents
occur, provided the type without values is not a component. -/
theorem C64_values_partial {t : Ty} {rs : List Reg} (h : Leaves t rs) (hn : noNever t = true)
    (qs : List Nat) (bs : List Bool) :
    (∃ v, HasTy t v ∧ v.qubits = qs ∧ v.bits = bs ∧
      ∀ w, HasTy t w → w.qubits = qs → w.bits = bs → w = v) ↔
    qs.length = (tally rs).qubits ∧ bs.length = (tally rs).bits := by
  constructor
  · rintro ⟨v, hv, rfl, rfl, _⟩
    exact value_counts hv h
  · rintro ⟨hq, hb⟩
    obtain ⟨v, hv, h1, h2⟩ := value_exists h hn qs bs hq hb
    refine ⟨v, hv, h1, h2, ?_⟩
    intro w hw h3 h4
    exact value_unique h hw hv (h3.trans h1.symm) (h4.trans h2.symm)

example : noNever sampleTy = true := by decide

/-- The condition is needed: a pair of a boolean and the type without values is given a bit. -/
theorem C64_never :
    answers Set'.empty (qsystemActs ++ [.ask (.sum [.row [boolT, .sum []]])]) = [some ⟨0, 1, 0⟩]
      ∧ ∀ v, ¬ HasTy (.sum [.row [boolT, .sum []]]) v := by
  refine ⟨by decide +kernel, ?_⟩
  intro v h
  cases h with
  | tuple h =>
    cases h with
    | cons _ h =>
      cases h with
      | cons h _ => cases h

/-- A wire can be given another type exactly if `types_are_isomorphic` says so. -/
theorem C64_transform_iff (a b : Ty) : (transform a b).isSome = true ↔ isomorphic a b = true := by
  rw [transform, isomorphic]
  cases a.same b <;> cases (a.same boolT && b.same tketBool) <;>
    cases (a.same tketBool && b.same boolT) <;> simp

/-- Being isomorphic is an equivalence relation. -/
theorem C64_isomorphic : Equivalence (fun a b => isomorphic a b = true) := by
  have key : ∀ a b, isomorphic a b = true ↔
      a = b ∨ (a = boolT ∧ b = tketBool) ∨ (a = tketBool ∧ b = boolT) := by
    intro a b
    rw [isomorphic]
    by_cases h : a = b
    · rw [if_pos ((same_iff _ _).mpr h)]
      simp [h]
    · rw [if_neg (fun h' => h ((same_iff _ _).mp h')), Bool.or_eq_true, Bool.and_eq_true,
        Bool.and_eq_true, same_iff, same_iff, same_iff, same_iff]
      simp [h]
  constructor
  · intro a; exact (key a a).mpr (Or.inl rfl)
  · intro a b h
    rw [key] at h ⊢
    rcases h with rfl | ⟨rfl, rfl⟩ | ⟨rfl, rfl⟩ <;> simp
  · intro a b c h h'
    rw [key] at h h' ⊢
    rcases h with rfl | ⟨rfl, rfl⟩ | ⟨rfl, rfl⟩
    · exact h'
    · rcases h' with rfl | ⟨_, h'⟩ | ⟨_, h'⟩
      · simp
      · subst h'; simp
      · subst h'; simp
    · rcases h' with rfl | ⟨_, h'⟩ | ⟨_, h'⟩
      · simp
      · subst h'; simp
      · subst h'; simp

/-- Changing the type of a wire gives a value of the new type with the same registers, and
changing it back gives the first value. -/
theorem C64_transform {a b : Ty} {f : Val → Val} (h : transform a b = some f) {v : Val}
    (hv : HasTy a v) :
    HasTy b (f v) ∧ (f v).bits = v.bits ∧ (f v).qubits = v.qubits ∧
      ∃ g, transform b a = some g ∧ g (f v) = v := by
  rw [transform] at h
  split at h
  · rename_i he
    have := (same_iff _ _).mp he
    subst this
    cases h
    exact ⟨hv, rfl, rfl, id, by rw [transform, if_pos he], rfl⟩
  · split at h
    · rename_i _ he
      rw [Bool.and_eq_true, same_iff, same_iff] at he
      obtain ⟨rfl, rfl⟩ := he
      cases h
      cases hv with
      | native b => exact ⟨.tket [] b, rfl, rfl, readBool, rfl, rfl⟩
    · split at h
      · rename_i _ _ he
        rw [Bool.and_eq_true, same_iff, same_iff] at he
        obtain ⟨rfl, rfl⟩ := he
        cases h
        cases hv with
        | tket _ b => exact ⟨.native b, rfl, rfl, makeOpaque, rfl, rfl⟩
      · cases h

example : transform boolT tketBool = some makeOpaque ∧ HasTy boolT (.nb true) :=
  ⟨rfl, .native true⟩

/-- The extensions are different ones. -/
example : [floatExt, rotationExt, preludeExt, boolExt, futuresExt].Nodup := by decide

end Verif.TypeTranslate
