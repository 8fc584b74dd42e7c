import Verif.Lemmas.Drops

/-!
# Property C107: drops free what they hold

`LowerDropsPass` (tket-qsystem/src/lower_drops.rs), modelled in `Model/Drops.lean`; what a drop means
is in `Model/DropsSpec.lean`.
-/

namespace Verif.Drops

variable {W L : Type}

/-- Lowering keeps what a program does: for every program that is lowered, every machine, every
function, all arguments, states and depths of calls, the lowered program ends in the same way, with
the same results, the same state of the machine and every future used the same number of times,
unless the program drops something that is not of the type of the drop. No meaning of drops is
needed for the lowered program. -/
theorem C107_same (M : Machine W L) (d : Ty → Val → Heap → Option Heap) (P Q : List (Fn L))
    (changed : Bool) (h : lowerDrops P = some (Q, changed)) (n f : Nat) (st : St W)
    (vs : List Val) (hs : run M dropSpec P n f st vs ≠ .stuck) :
    run M d Q n f st vs = run M dropSpec P n f st vs := by
  obtain ⟨Q', hq, e⟩ := Option.map_eq_some_iff.mp h
  cases e
  exact run_same hq n f st vs hs

/-- What is inserted for a type uses every future of a value of that type exactly once for each place
where it is held, and no other future. -/
theorem C107_freed (t : Ty) (c : Code) (h : discard t = some c) (v : Val) (hv : t.holds v = true)
    (H : Heap) : ∃ H', c.run v H = some H' ∧ ∀ i, H' i = H i + v.count i :=
  ⟨_, discard_run h hv, fun _ => rfl⟩

/-- No drop is left, in any region of any function. -/
theorem C107_removed (P Q : List (Fn L)) (changed : Bool) (h : lowerDrops P = some (Q, changed)) :
    ∀ f ∈ Q, ∀ t, ¬ f.body.Drops t := by
  obtain ⟨Q', hq, e⟩ := Option.map_eq_some_iff.mp h
  cases e
  intro f hf t ht
  obtain ⟨i, hi, rfl⟩ := List.mem_iff_getElem.mp hf
  rcases lowerFns_get hq i with ⟨_, h2⟩ | ⟨d, b, _, h2, h3⟩
  · rw [List.getElem?_eq_getElem hi] at h2; cases h2
  · rw [List.getElem?_eq_getElem hi] at h3
    have := hasDrop_iff.mpr ⟨t, ht⟩
    rw [Option.some.inj h3, lower_noDrop h2] at this
    cases this

/-- The pass succeeds exactly if every type that is dropped anywhere, also in functions that are
never called, has nothing linear in it but arrays and futures of booleans. -/
theorem C107_succeeds (P : List (Fn L)) :
    (lowerDrops P).isSome = true ↔ ∀ f ∈ P, ∀ t, f.body.Drops t → t.Droppable := by
  unfold lowerDrops
  rw [Option.isSome_map]
  exact lowerFns_isSome

/-- The result tells whether there was a drop. -/
theorem C107_result (P Q : List (Fn L)) (changed : Bool) (h : lowerDrops P = some (Q, changed)) :
    changed = true ↔ ∃ f ∈ P, ∃ t, f.body.Drops t := by
  obtain ⟨Q', _, e⟩ := Option.map_eq_some_iff.mp h
  cases e
  simp only [List.any_eq_true, hasDrop_iff]

/-- Without drops nothing is changed; so a second run changes nothing. -/
theorem C107_unchanged (P : List (Fn L)) (h : ∀ f ∈ P, ∀ t, ¬ f.body.Drops t) :
    lowerDrops P = some (P, false) := by
  have hn : ∀ f ∈ P, f.body.hasDrop = false := fun f hf => by
    rw [← Bool.not_eq_true, hasDrop_iff]
    exact fun ⟨t, ht⟩ => h f hf t ht
  have h1 : lowerFns P = some P := by
    clear h
    induction P with
    | nil => rfl
    | cons d P ih =>
      unfold lowerFns
      rw [lower_unchanged (hn d (.head _)), ih fun f hf => hn f (.tail _ hf)]
  have h2 : (P.any fun f => f.body.hasDrop) = false := by
    rw [← Bool.not_eq_true, List.any_eq_true]
    exact fun ⟨f, hf, e⟩ => by rw [hn f hf] at e; cases e
  unfold lowerDrops
  rw [h1, h2]
  rfl

theorem C107_again (P Q : List (Fn L)) (changed : Bool) (h : lowerDrops P = some (Q, changed)) :
    lowerDrops Q = some (Q, false) :=
  C107_unchanged Q (C107_removed P Q changed h)

/-- With lazy booleans: the passes succeed exactly if every type that is dropped in the source could
be dropped before, provided that only arrays of copyable elements are discarded. Booleans in them
make no difference. -/
theorem C107_lazy (P : List (Fn L))
    (hd : ∀ f ∈ P, ∀ n t, f.body.Discards n t → t.copyable = true) (lazify : Bool) :
    (qsystem lazify P).isSome = true ↔ ∀ f ∈ P, ∀ t, f.body.Drops t → t.Droppable := by
  unfold qsystem
  rw [Option.isSome_map, C107_succeeds]
  cases lazify with
  | false => rfl
  | true =>
    simp only [if_true, List.forall_mem_map]
    constructor
    · exact fun h f hf t ht => lazyTy_droppable.mp (h f hf _ (drops_bools ht))
    · intro h f hf t ht
      rcases bools_drops ht with ⟨u, hu, rfl⟩ | ⟨n, u, hu, rfl⟩
      · exact lazyTy_droppable.mpr (h f hf u hu)
      · exact droppable_arr.mpr (lazyTy_droppable.mpr (copyable_droppable (hd f hf n u hu)))

/-- After both passes no drop is left, and every array that is still discarded as a whole has
elements that hold no futures. -/
theorem C107_after_bools (P Q : List (Fn L)) (h : qsystem true P = some Q) :
    ∀ f ∈ Q, (∀ t, ¬ f.body.Drops t) ∧
      ∀ n t, f.body.Discards n t → ∀ v, t.holds v = true → ∀ i, v.count i = 0 := by
  obtain ⟨⟨Q', c⟩, hq, e⟩ := Option.map_eq_some_iff.mp h
  cases e
  intro f hf
  refine ⟨C107_removed _ _ _ hq f hf, fun n t ht v hv => ?_⟩
  obtain ⟨Q'', hq', e⟩ := Option.map_eq_some_iff.mp hq
  cases e
  obtain ⟨i, hi, rfl⟩ := List.mem_iff_getElem.mp hf
  rcases lowerFns_get hq' i with ⟨_, h2⟩ | ⟨d, b, h1, h2, h3⟩
  · rw [List.getElem?_eq_getElem hi] at h2; cases h2
  · rw [List.getElem?_eq_getElem hi] at h3
    have e : Q'[i].body = b := by rw [Option.some.inj h3]
    rw [e] at ht
    simp only [if_true, List.getElem?_map] at h1
    obtain ⟨d', _, rfl⟩ := Option.map_eq_some_iff.mp h1
    exact count_copyable (bools_discards (lower_discards h2 ht)) hv

/-- Every drop and every discard of an array of booleans in the source is a drop after the first
pass, of the translated type, and there are no other drops. -/
theorem C107_bools_drops (b : Body L) (t : Ty) (h : (bools b).Drops t) :
    (∃ u, b.Drops u ∧ t = lazyTy u) ∨ ∃ n u, b.Discards n u ∧ t = .arr n (lazyTy u) :=
  bools_drops h

/-- The translated type has no opaque booleans at any depth, is the same if there were none, and its
values are values of the type with booleans that are known or futures. -/
theorem C107_translated (t : Ty) :
    ¬ (lazyTy t).Has .tbool ∧ (¬ t.Has .tbool → lazyTy t = t) ∧
    ∀ v', (lazyTy t).holds v' = true → ∃ v, t.holds v = true ∧ Late v v' :=
  ⟨lazyTy_no_tbool, lazyTy_same, fun _ => lazyTy_values⟩

/-- The order of the two passes matters: in the other order the drop that stands for the discard of
an array of booleans is left in the program. -/
theorem C107_order : ∃ (P Q : List (Fn Empty)),
    (lowerDrops P).map Prod.fst = some Q ∧
    (∃ f ∈ Q.map (fun f => (⟨f.ins, bools f.body⟩ : Fn Empty)), ∃ t, f.body.Drops t) ∧
    ∃ R, qsystem true P = some R ∧ ∀ f ∈ R, ∀ t, ¬ f.body.Drops t := by
  refine ⟨[⟨[0], .discard 2 (.leaf .tbool) 0 (.ret [])⟩],
    [⟨[0], .discard 2 (.leaf .tbool) 0 (.ret [])⟩], rfl, ⟨_, .head _, _, .here⟩, _, rfl, ?_⟩
  intro f hf t ht
  simp only [List.mem_singleton] at hf
  subst hf
  have := hasDrop_iff.mpr ⟨t, ht⟩
  revert this
  decide

/-- Only futures of booleans are registered: a program that drops the outcome of
`LazyMeasureLeaked`, alone or inside a larger type, is refused. -/
theorem C107_leaked (P : List (Fn L)) (f : Fn L) (hf : f ∈ P) (t : Ty) (ht : f.body.Drops t)
    (hl : t.Has (.future .int)) : lowerDrops P = none := by
  rw [← Option.not_isSome_iff_eq_none, C107_succeeds]
  intro h
  rcases h f hf t ht _ hl with h | h <;> cases h

/-- So is one that drops a qubit, or a value whose type is a variable that may be linear, which
happens if generic functions are not specialised first (`with_monormophize(false)`). -/
theorem C107_generic (P : List (Fn L)) (f : Fn L) (hf : f ∈ P) (t : Ty) (ht : f.body.Drops t)
    (i : Nat) (hl : t.Has .qubit ∨ t.Has (.var i false)) : lowerDrops P = none := by
  rw [← Option.not_isSome_iff_eq_none, C107_succeeds]
  intro h
  rcases hl with hl | hl
  · rcases h f hf t ht _ hl with h | h <;> cases h
  · rcases h f hf t ht _ hl with h | h <;> cases h

/-! ### An example -/

/-- An operation that makes a future. -/
def makeFut : Machine Nat Unit where
  op _ st _ := .ok (⟨st.w + 1, st.heap⟩, [.fut st.w])

/-- A function that drops an array of lazy booleans, one of them inside a conditional. -/
def sample : List (Fn Unit) :=
  [⟨[0], .op () [] [1] <| .cond 0 2 (.drop (.cell (.leaf (.future .bool)) .unit) 2 (.ret []))
      (.ret []) [] <| .drop (.arr 2 boolDest) 3 <| .call 1 [1] [] <| .ret []⟩,
   ⟨[0], .drop (.leaf (.future .bool)) 0 (.ret [])⟩,
   ⟨[0, 3], .op () [] [1] <| .drop (.arr 2 boolDest) 3 <| .call 1 [1] [] <|
      .discard 2 (.leaf .tbool) 0 (.ret [])⟩]

def sampleArray : Val :=
  .cons (.there (.here (.cons (.fut 5) .nil))) (.cons (.here (.cons (.data 1) .nil)) .nil)

example : (lowerDrops sample).isSome = true := by decide +kernel

example : (qsystem true sample).isSome = true := by decide +kernel

example : ∃ Q, lowerDrops sample = some (Q, true) := ⟨_, rfl⟩

example : ∀ f ∈ sample, ∀ n t, f.body.Discards n t → t.copyable = true := by
  intro f hf n t ht
  simp only [sample, List.mem_cons, List.not_mem_nil, or_false] at hf
  rcases hf with rfl | rfl | rfl
  · cases ht with
    | op h => cases h with
      | left h => cases h with | drop h => cases h
      | right h => cases h
      | cond h => cases h with | drop h => cases h with | call h => cases h
  · cases ht with | drop h => cases h
  · cases ht with
    | op h => cases h with
      | drop h => cases h with
        | call h => cases h with
          | here => rfl
          | discard h => cases h

/-- Future 5 of the array and the new future 7 are used once. -/
example : (match run makeFut dropSpec sample 5 2 ⟨7, fun _ => 0⟩ [.nil, sampleArray] with
    | .ok (st, vs) => some (st.heap 5, st.heap 6, st.heap 7, vs)
    | _ => none) = some (1, 0, 1, []) := by decide +kernel

example : (discard (.arr 2 boolDest)).isSome = true ∧ (Ty.arr 2 boolDest).holds sampleArray = true ∧
    sampleArray.count 5 = 1 := by decide +kernel

/-- A program that is refused. -/
example : lowerDrops [(⟨[0], .drop (.arr 3 (.leaf (.future .int))) 0 (.ret [])⟩ : Fn Empty)] = none :=
  C107_leaked _ _ (.head _) _ .here (.elem .leaf)

end Verif.Drops
